import Verif.System.WinUrlLemmas

set_option autoImplicit false

/-!
# Property C117: paths on Windows

`system env (f + 1) s` is `url_system (s)`, `asString true u` is `as_string (u)`. A text is `Spelled ns s` if it consists of
the names `ns` with `\` or `/` between them.
-/

namespace Lolly.WinUrlProps

open WinUrl
open Url (Url Env Elem P R parent here)

/-- A name of a file that stands for itself: not empty and not `.`, without `/`, `\`, `*`, `:` and `;`, not `~` and not
beginning with `$`. -/
structure FileName (s : Bytes) : Prop where
  nonempty : s ≠ []
  not_here : s ≠ b!"."
  chars : ∀ c ∈ s, c ≠ c! '/' ∧ c ≠ c! '\\' ∧ c ≠ c! '*' ∧ c ≠ c! ':' ∧ c ≠ c! ';'
  not_home : s ≠ b!"~"
  no_var : s.head? ≠ some (c! '$')

/-- The names with `\` between them. -/
def wtext (ns : List Bytes) : Bytes := An.join (b!"\\") ns

/-- The components of a url. -/
def names (ns : List Bytes) : List Url := ns.map .atom

theorem FileName.atom {s : Bytes} (h : FileName s) : atomOf s = s := by
  unfold atomOf
  rw [if_neg]
  rintro ⟨h1, h2⟩
  unfold An.ends at h2
  rw [if_neg (by simp [h1]), h1] at h2
  match s, h1 with
  | [a, b], _ =>
    simp [An.sub] at h2
    exact (h.chars b (by simp)).2.2.2.1 h2

theorem FileName.plain {s : Bytes} (h : FileName s) : Plain s :=
  ⟨h.nonempty, fun c hc => by
    have := h.chars c hc
    simp [isSep, this.1, this.2.1], fun hc => (h.chars _ hc).2.2.1 rfl, h.not_home, h.no_var,
    by rw [h.atom]; exact h.not_here⟩

theorem map_atomOf {ns : List Bytes} (h : ∀ x ∈ ns, FileName x) : (ns.map fun x => Url.atom (atomOf x)) = names ns := by
  unfold names
  apply List.map_congr_left
  intro x hx
  rw [(h x hx).atom]

theorem names_elem {ns : List Bytes} (h : ∀ x ∈ ns, FileName x) : ∀ y ∈ names ns, Elem y := by
  intro y hy
  obtain ⟨x, hx, rfl⟩ := List.mem_map.1 hy
  have := (h x hx).plain.elem
  rwa [(h x hx).atom] at this

/-- No character of a spelling other than the separators is outside the names. -/
theorem spelled_mem {ns : List Bytes} {s : Bytes} (h : Spelled ns s) {c : UInt8} (hc : c ∈ s) :
    isSep c = true ∨ ∃ x ∈ ns, c ∈ x := by
  induction h with
  | one x => exact .inr ⟨x, by simp, hc⟩
  | cons x d hd hs ih =>
    simp only [List.mem_append, List.mem_cons] at hc
    rcases hc with hc | rfl | hc
    · exact .inr ⟨x, by simp, hc⟩
    · exact .inl hd
    · rcases ih hc with h | ⟨y, hy, h⟩
      · exact .inl h
      · exact .inr ⟨y, by simp [hy], h⟩

theorem spelled_no {ns : List Bytes} {s : Bytes} (h : Spelled ns s) (hn : ∀ x ∈ ns, FileName x) :
    c! ':' ∉ s ∧ c! ';' ∉ s := by
  constructor
  · intro hc
    rcases spelled_mem h hc with h | ⟨x, hx, h⟩
    · exact absurd h (by decide)
    · exact ((hn x hx).chars _ h).2.2.2.1 rfl
  · intro hc
    rcases spelled_mem h hc with h | ⟨x, hx, h⟩
    · exact absurd h (by decide)
    · exact ((hn x hx).chars _ h).2.2.2.2 rfl

theorem spelled_head {ns : List Bytes} {s : Bytes} (h : Spelled ns s) (hn : ∀ x ∈ ns, FileName x) :
    ∃ c t, s = c :: t ∧ isSep c = false := by
  cases h with
  | one x =>
    have h1 := hn s (by simp)
    cases s with
    | nil => exact absurd rfl h1.nonempty
    | cons c t => exact ⟨c, t, rfl, h1.plain.no_sep c (by simp)⟩
  | cons x d hd hs =>
    have h1 := hn x (by simp)
    cases x with
    | nil => exact absurd rfl h1.nonempty
    | cons c t => exact ⟨c, _, rfl, h1.plain.no_sep c (by simp)⟩

/-! ## Printing -/

theorem asString_concat (x : Bytes) (b : Url) : asString true (.concat (.atom x) b) =
    x ++ b!"\\" ++ Url.braceRight b (asString true b) := by
  cases b <;> rfl

theorem asString_P (ns : List Bytes) (hne : ns ≠ []) : asString true (P (names ns)) = wtext ns := by
  unfold names wtext
  induction ns with
  | nil => exact absurd rfl hne
  | cons x ns ih =>
    cases ns with
    | nil => rfl
    | cons y ns =>
      have e := ih (by simp)
      have hb : ∀ t, Url.braceRight (P ((y :: ns).map Url.atom)) t = t := by
        intro t
        unfold Url.braceRight
        rw [if_neg]
        cases ns with
        | nil => simp [P, Url.isAtomic]
        | cons z ns => simp [P, Url.isConcat]
      simp only [List.map_cons] at e hb ⊢
      rw [P, asString_concat, hb, e, An.join_cons (ps := y :: ns) (by simp)]

theorem asString_R (x : Bytes) (ns : List Bytes) : asString true (R (b!"default") (.atom x :: names ns)) =
    if x.length = 1 then x ++ b!":\\" ++ wtext ns else b!"\\\\" ++ x ++ b!"\\" ++ wtext ns := by
  rw [Url.R_cons _ _ (by simp)]
  cases ns with
  | nil =>
    show place false true [] x [] = _
    unfold place
    simp [wtext, An.join]
  | cons y ns =>
    have e := asString_P (y :: ns) (by simp)
    rw [names, List.map_cons, P, ← List.map_cons (f := Url.atom), ← names]
    rw [asString]
    simp only [Url.isRootS, decide_true, Bool.true_and, Bool.true_or, if_true, e]
    show place false true [] x (wtext (y :: ns)) = _
    unfold place
    simp

/-! ## Reading -/

/-- The part of `url_system` after the tests for protocols and lists. -/
theorem system_plain (env : Env) (f : Nat) (s : Bytes) (h1 : ∀ q, ¬ An.OccursAt (b!"://") s q)
    (h2 : (b!"local:").isPrefixOf s = false) (h3 : (b!"//").isPrefixOf s = false) (h4 : c! ';' ∉ s) :
    system env (f + 1) s = (isDefault s >>= fun d =>
      if d then urlDefault env (system env f) s
      else
        if (b!"www.").isPrefixOf s then rooted env (system env f) (b!"http") s false
        else if (b!"ftp.").isPrefixOf s then rooted env (system env f) (b!"ftp") s false
        else getName env (system env f) true s) := by
  obtain ⟨b, e, hb⟩ := SearchProps.C20_occurs (b!"://") s
  have : b = false := by
    cases b with
    | false => rfl
    | true => obtain ⟨p, hp⟩ := hb.1 rfl; exact absurd hp (h1 p)
  subst this
  rw [system, e]
  show withoutProtocol env (system env f) s = _
  unfold withoutProtocol
  simp only [Url.starts_eq, Res.ok_bind, h2, h3]
  have := Url.nextSep_none (c! ';') s 0 h4
  rw [if_neg (by simp), if_neg (by simp), if_neg (by omega)]

theorem noOcc_of_colon {s : Bytes} (h : c! ':' ∉ s) (q : Nat) : ¬ An.OccursAt (b!"://") s q := by
  rintro ⟨a, b, e, _⟩
  exact h (by rw [e]; simp)

theorem notPrefix {w s : Bytes} (c : UInt8) (hc : c ∈ w) (hs : c ∉ s) : w.isPrefixOf s = false := by
  cases h : w.isPrefixOf s with
  | false => rfl
  | true =>
    obtain ⟨t, e⟩ := List.isPrefixOf_iff_prefix.1 h
    exact absurd (e ▸ List.mem_append_left t hc) hs

theorem system_drive (env : Env) (f : Nat) (x sep : UInt8) (hx : An.isAlpha x = true) (hsep : isSep sep = true)
    (s : Bytes) (hc : c! ':' ∉ s) (hsc : c! ';' ∉ s) (hs : s = [] ∨ ∃ c t, s = c :: t ∧ isSep c = false) :
    system env (f + 1) (x :: c! ':' :: sep :: s) = urlDefault env (system env f) (x :: c! ':' :: sep :: s) := by
  have hx1 : x < 128 := by
    exact forall_byte (P := fun x => An.isAlpha x = true → x < 128) (by decide +kernel) x hx
  have hx2 : x ≠ c! ':' ∧ x ≠ c! ';' ∧ x ≠ c! '/' ∧ x ≠ c! '\\' := by
    refine ⟨?_, ?_, ?_, ?_⟩ <;> rintro rfl <;> exact absurd hx (by decide)
  have hsep2 : sep ≠ c! ':' ∧ sep ≠ c! ';' := by
    constructor <;> rintro rfl <;> exact absurd hsep (by decide)
  rw [system_plain]
  · have : isDefault (x :: c! ':' :: sep :: s) = .ok true := by
      show (if x = c! '\\' ∧ c! ':' = c! '\\' then _ else _) = _
      unfold isalpha
      rw [if_neg (by simp [hx2.2.2.2]), if_pos hx1, hx]
      rcases isSep_cases hsep with rfl | rfl <;> rfl
    rw [this]; rfl
  · rintro q ⟨a, b, e, _⟩
    match a with
    | [] => injection e with e _; exact hx2.1 e
    | [y] =>
      simp only [List.cons_append, List.nil_append, List.cons.injEq] at e
      obtain ⟨_, _, _, e⟩ := e
      rcases hs with rfl | ⟨c, t, rfl, hd⟩
      · cases e
      · injection e with e _
        rw [e] at hd; cases hd
    | [y, z] =>
      simp only [List.cons_append, List.nil_append, List.cons.injEq] at e
      exact hsep2.1 e.2.2.1
    | y :: z :: w :: a =>
      simp only [List.cons_append, List.cons.injEq] at e
      exact hc (by rw [e.2.2.2]; simp)
  · show (_ && ((c! 'o' == c! ':') && _)) = false
    simp
  · show ((c! '/' == x) && _) = false
    have : (c! '/' == x) = false := by simp [Ne.symm hx2.2.2.1]
    rw [this]; rfl
  · simp only [List.mem_cons, not_or]
    exact ⟨Ne.symm hx2.2.1, by decide, Ne.symm hsep2.2, hsc⟩

theorem plain_drive (x : UInt8) (hx : An.isAlpha x = true) : Plain [x, c! ':'] ∧ atomOf [x, c! ':'] = [x] := by
  have e : atomOf [x, c! ':'] = [x] := by
    unfold atomOf
    rw [if_pos ⟨rfl, by simp [An.ends, An.sub]⟩]; rfl
  have hne : ∀ y, An.isAlpha y = false → x ≠ y := by rintro y hy rfl; rw [hx] at hy; cases hy
  refine ⟨⟨by simp, ?_, ?_, by simp, ?_, ?_⟩, e⟩
  · intro c hc
    simp only [List.mem_cons, List.not_mem_nil, or_false] at hc
    rcases hc with rfl | rfl
    · simp [isSep, hne (c! '/') (by decide), hne (c! '\\') (by decide)]
    · decide
  · simp only [List.mem_cons, List.not_mem_nil, or_false, not_or]
    exact ⟨Ne.symm (hne _ (by decide)), by decide⟩
  · simp only [List.head?_cons, ne_eq, Option.some.injEq]
    exact hne _ (by decide)
  · rw [e]
    simp only [ne_eq, List.cons.injEq, and_true]
    exact hne _ (by decide)

theorem remote_read (env : Env) (f : Nat) (ns : List Bytes) (s : Bytes) (hs : Spelled ns s) (hn : ∀ y ∈ ns, FileName y)
    (hp : ns.head? ≠ some (b!"..")) :
    system env (f + 1) (b!"\\\\" ++ s) = .ok (R (b!"default") (names ns)) := by
  have hne : ns ≠ [] := by cases hs <;> simp
  obtain ⟨n1, n2⟩ := spelled_no hs hn
  have hs0 := List.length_pos_iff.2 (hs.ne_nil fun y hy => (hn y hy).nonempty)
  rw [system_plain env f _ (noOcc_of_colon (by simp [n1])) (notPrefix (c! ':') (by decide) (by simp [n1])) rfl
    (by simp [n2])]
  show urlDefault env (system env f) _ = _
  have hc := components_spelled hs (fun y hy => ⟨(hn y hy).plain.nonempty, (hn y hy).plain.no_sep⟩) (b!"\\\\")
  have hc0 : components true (b!"\\\\" ++ s) 0 = ns := by
    rw [components_skip _ 0 (c! '\\') rfl rfl (by simp), components_skip _ 1 (c! '\\') rfl rfl (by simp; omega)]
    exact hc
  have hg := getName_of env (system env f) _ _ (fun y hy => (hn y hy).plain) hne hc0
  have hel := names_elem hn
  rw [urlDefault, hg, Res.ok_bind, map_atomOf hn, dropEmpty_P _ hel, mul_root_P _ hel]
  cases ns with
  | nil => exact absurd rfl hne
  | cons x ns =>
    simp only [List.head?_cons, ne_eq, Option.some.injEq] at hp
    rw [names, List.map_cons, Url.strip, if_neg (by simp [parent, hp])]

/-- C117: a path on a drive, with `\` or `/` between the names, is read as the names below the letter of the drive, and
printed with `\`. -/
theorem C117_drive_partial (env : Env) (f : Nat) (x sep : UInt8) (hx : An.isAlpha x = true) (hsep : isSep sep = true)
    (ns : List Bytes) (s : Bytes) (hs : Spelled ns s) (hn : ∀ y ∈ ns, FileName y) :
    system env (f + 1) (x :: c! ':' :: sep :: s) = .ok (R (b!"default") (.atom [x] :: names ns)) ∧
    asString true (R (b!"default") (.atom [x] :: names ns)) = x :: c! ':' :: c! '\\' :: wtext ns := by
  obtain ⟨p1, p2⟩ := plain_drive x hx
  obtain ⟨n1, n2⟩ := spelled_no hs hn
  have hall : ∀ y ∈ [x, c! ':'] :: ns, Plain y := by
    intro y hy
    rcases List.mem_cons.1 hy with rfl | hy
    · exact p1
    · exact (hn y hy).plain
  have hsp : Spelled ([x, c! ':'] :: ns) (x :: c! ':' :: sep :: s) := .cons [x, c! ':'] sep hsep hs
  have hc := components_spelled hsp (fun y hy => ⟨(hall y hy).nonempty, (hall y hy).no_sep⟩) []
  have hg := getName_of env (system env f) _ _ hall (by simp) hc
  have hel : ∀ y ∈ (.atom [x] :: names ns : List Url), Elem y := by
    intro y hy
    rcases List.mem_cons.1 hy with rfl | hy
    · have := p1.elem; rwa [p2] at this
    · exact names_elem hn y hy
  refine ⟨?_, by rw [asString_R, if_pos (show [x].length = 1 from rfl)]; rfl⟩
  rw [system_drive env f x sep hx hsep s n1 n2 (.inr (spelled_head hs hn)), urlDefault]
  simp only [List.nil_append] at hg
  rw [hg, Res.ok_bind, List.map_cons, p2, map_atomOf hn, dropEmpty_P _ hel, mul_root_P _ hel, Url.strip, if_neg]
  simp only [parent, Url.atom.injEq]
  intro e; cases e

/-- C117: the top of a drive, written as `x:` followed by a separator. -/
theorem C117_drive_top (env : Env) (f : Nat) (x sep : UInt8) (hx : An.isAlpha x = true) (hsep : isSep sep = true) :
    system env (f + 1) [x, c! ':', sep] = .ok (R (b!"default") [.atom [x]]) ∧
    asString true (R (b!"default") [.atom [x]]) = [x, c! ':', c! '\\'] := by
  obtain ⟨p1, p2⟩ := plain_drive x hx
  refine ⟨?_, rfl⟩
  rw [system_drive env f x sep hx hsep [] (by simp) (by simp) (.inl rfl), urlDefault]
  have hc : components true [x, c! ':', sep] 0 = [[x, c! ':'], []] := by
    have h1 := components_name [] [x, c! ':'] [sep] p1.no_sep (by simp) (.inr ⟨sep, [], rfl, hsep⟩)
    simp only [List.nil_append, List.length_nil, List.cons_append] at h1
    rw [h1]
    congr 1
    show components true [x, c! ':', sep] 2 = _
    rw [components, if_pos (by simp), nextSep_eq [x, c! ':', sep] 2 2 (by omega) (by simp) (fun k _ _ _ => by omega) (.inr ⟨sep, rfl, hsep⟩)]
    rfl
  have hg : getName env (system env f) true [x, c! ':', sep] = .ok (.concat (.atom [x]) (.atom [])) := by
    rw [getName, hc, getAtoms, if_neg (by simp), getAtom_plain env _ p1, p2]
    show assemble [.atom [x], .atom []] = _
    have hel := p1.elem
    rw [p2] at hel
    rw [assemble]
    · show addFront (.atom [x]) (.atom []) = _
      rw [addFront, if_neg (by simp [Url.isAtom_here, Url.isAtom_empty, hel.2.1]),
        if_pos (show Url.isAtomic (.atom [x]) = true from rfl)]
    · simp
  rw [hg]
  show mul (.root (b!"default")) (P [.atom [x]]) = _
  have hel : ∀ y ∈ ([.atom [x]] : List Url), Elem y := by
    intro y hy
    have := p1.elem
    rw [p2] at this
    simp only [List.mem_cons, List.not_mem_nil, or_false] at hy
    rw [hy]; exact this
  rw [mul_root_P _ hel, Url.strip, if_neg]
  simp only [parent, Url.atom.injEq]
  intro e; cases e

/-- C117: a path on another computer is read as the names below the name of the computer, and printed again. The name
of the computer has at least two characters. -/
theorem C117_remote_partial (env : Env) (f : Nat) (host : Bytes) (hh : FileName host) (hl : host.length ≠ 1)
    (hp : host ≠ b!"..") (sep : UInt8) (hsep : isSep sep = true) (ns : List Bytes) (s : Bytes) (hs : Spelled ns s)
    (hn : ∀ y ∈ ns, FileName y) :
    system env (f + 1) (b!"\\\\" ++ (host ++ sep :: s)) = .ok (R (b!"default") (.atom host :: names ns)) ∧
    asString true (R (b!"default") (.atom host :: names ns)) = b!"\\\\" ++ host ++ b!"\\" ++ wtext ns := by
  refine ⟨?_, by rw [asString_R, if_neg hl]⟩
  have hall : ∀ y ∈ host :: ns, FileName y := by
    intro y hy
    rcases List.mem_cons.1 hy with rfl | hy
    · exact hh
    · exact hn y hy
  have hsp : Spelled (host :: ns) (host ++ sep :: s) := .cons host sep hsep hs
  exact remote_read env f (host :: ns) (host ++ sep :: s) hsp hall (by
    simp only [List.head?_cons, ne_eq, Option.some.injEq]; exact hp)

/-- C117: a relative path is read as its names, and printed with `\`. The text must not begin with `www.` or `ftp.` or with
a character that is not ASCII. -/
theorem C117_relative_partial (env : Env) (f : Nat) (ns : List Bytes) (s : Bytes) (hs : Spelled ns s)
    (hn : ∀ y ∈ ns, FileName y) (h1 : ¬ (b!"www.") <+: s) (h2 : ¬ (b!"ftp.") <+: s)
    (ha : ∀ c, s.head? = some c → c < 128) :
    system env (f + 1) s = .ok (P (names ns)) ∧ asString true (P (names ns)) = wtext ns := by
  have hne : ns ≠ [] := by cases hs <;> simp
  refine ⟨?_, asString_P ns hne⟩
  obtain ⟨n1, n2⟩ := spelled_no hs hn
  obtain ⟨c, t, e, hc⟩ := spelled_head hs hn
  have hdef : isDefault s = .ok false := by
    rw [e]
    cases t with
    | nil => rfl
    | cons b t =>
      show (if c = c! '\\' ∧ b = c! '\\' then _ else _) = _
      rw [if_neg (by rintro ⟨rfl, _⟩; cases hc)]
      unfold isalpha
      rw [if_pos (ha c (by rw [e]; rfl))]
      have : (b == c! ':') = false := by
        rw [e] at n1
        simp only [List.mem_cons, not_or] at n1
        simp [Ne.symm n1.2.1]
      rw [Res.ok_bind, this, Bool.and_false, Bool.false_and]
  rw [system_plain env f s (noOcc_of_colon n1) (notPrefix (c! ':') (by decide) n1) (by
    rw [e]
    show ((c! '/' == c) && _) = false
    have : (c! '/' == c) = false := by
      cases h : (c! '/' == c) with
      | false => rfl
      | true => rw [← eq_of_beq h] at hc; cases hc
    rw [this]; rfl) n2, hdef, Res.ok_bind]
  rw [if_neg (by simp), if_neg (by rw [List.isPrefixOf_iff_prefix]; exact h1),
    if_neg (by rw [List.isPrefixOf_iff_prefix]; exact h2)]
  have hc := components_spelled hs (fun y hy => ⟨(hn y hy).plain.nonempty, (hn y hy).plain.no_sep⟩) []
  have hg := getName_of env (system env f) _ _ (fun y hy => (hn y hy).plain) hne hc
  rw [List.nil_append, map_atomOf hn] at hg
  exact hg

/-- The hypotheses are met by ordinary paths. -/
example : FileName (b!"Program Files") ∧ Spelled [b!"Program Files", b!"a"] (b!"Program Files/a") ∧
    wtext [b!"Program Files", b!"a"] = b!"Program Files\\a" :=
  ⟨⟨by decide, by decide, by decide, by decide, by decide⟩, .cons (b!"Program Files") (c! '/') rfl (.one _), by decide⟩

theorem spelled_wtext (ns : List Bytes) (hne : ns ≠ []) : Spelled ns (wtext ns) := by
  induction ns with
  | nil => exact absurd rfl hne
  | cons x ns ih =>
    cases ns with
    | nil => exact .one x
    | cons y ns =>
      have := Spelled.cons x (c! '\\') rfl (ih (by simp))
      unfold wtext at this ⊢
      rw [An.join_cons (ps := y :: ns) (by simp)]
      simpa using this

/-- C117: what a path on a drive is printed as is read as the same path. -/
theorem C117_print_read (env : Env) (f : Nat) (x : UInt8) (hx : An.isAlpha x = true) (ns : List Bytes)
    (hn : ∀ y ∈ ns, FileName y) :
    system env (f + 1) (asString true (R (b!"default") (.atom [x] :: names ns))) =
      .ok (R (b!"default") (.atom [x] :: names ns)) := by
  cases ns with
  | nil => exact (C117_drive_top env f x (c! '\\') hx rfl).1
  | cons y ns =>
    have h := C117_drive_partial env f x (c! '\\') hx rfl (y :: ns) _ (spelled_wtext _ (by simp)) hn
    rw [h.2]
    exact h.1

/-! ## Going up -/

theorem joinL_nil (l : List Url) (h : ∀ y ∈ l, y ≠ parent) : Url.joinL l [] = l := by
  induction l with
  | nil => rfl
  | cons x l ih =>
    have e := ih fun y hy => h y (by simp [hy])
    rw [Url.joinL, List.foldr_cons, ← Url.joinL, e]
    cases l with
    | nil => rfl
    | cons y l => simp [Url.push, h y (by simp)]

/-- C117: the parent of a file below a drive or a computer is its directory, and the top of a drive is its own parent. -/
theorem C117_head (x : Bytes) (hx : FileName x) (hp : x ≠ b!"..") (ns : List Bytes) (hn : ∀ y ∈ ns, FileName y)
    (hd : ∀ y ∈ ns, y ≠ b!"..") :
    head (R (b!"default") (.atom x :: names ns)) = .ok (R (b!"default") (.atom x :: names ns.dropLast)) := by
  have hxe : Elem (.atom x) := names_elem (ns := [x]) (by simpa using hx) _ (by simp [names])
  have hpar : ∀ y ∈ (.atom x :: names ns : List Url), y ≠ parent := by
    intro y hy e
    subst e
    rcases List.mem_cons.1 hy with h | h
    · simp only [parent, Url.atom.injEq] at h; exact hp h.symm
    · obtain ⟨z, hz, e⟩ := List.mem_map.1 h
      simp only [parent, Url.atom.injEq] at e
      exact hd z hz e
  have hel : ∀ y ∈ (.atom x :: names ns : List Url), Elem y := by
    intro y hy
    rcases List.mem_cons.1 hy with rfl | hy
    · exact hxe
    · exact names_elem hn y hy
  rw [Url.R_cons _ _ (by simp), head]
  rcases List.eq_nil_or_concat ns with rfl | ⟨m, z, rfl⟩
  · show mul (.concat (.root (b!"default")) (.atom x)) parent = _
    rw [mul_plain _ _ rfl]
    rfl
  · rw [List.concat_eq_append, List.dropLast_concat]
    rw [List.concat_eq_append] at hpar hel
    have e1 : (.atom x :: names (m ++ [z]) : List Url) = (.atom x :: names m) ++ [.atom z] := by simp [names]
    rw [e1] at hpar hel ⊢
    have hlong : Url.isAtomic (P ((.atom x :: names m) ++ [.atom z])) = false := by
      cases m <;> rfl
    rw [mul_concat rfl (by decide) (by decide) (.inl (by simp only [isSemiRoot, hlong, Bool.and_false]))]
    have h1 := mul_P (l2 := [parent]) hel (by intro y hy; rw [List.mem_singleton.1 hy]; exact Url.elem_parent) (by simp)
    rw [show P [parent] = parent from rfl] at h1
    rw [h1, Res.ok_bind]
    have e2 : Url.joinL ((.atom x :: names m) ++ [.atom z]) [parent] = .atom x :: names m := by
      rw [Url.joinL, List.foldr_append, ← Url.joinL]
      have : List.foldr Url.push [parent] [.atom z] = [] := by
        have := hpar (.atom z) (by simp)
        simp [Url.push, this]
      rw [this, joinL_nil]
      intro y hy; exact hpar y (List.mem_append_left _ hy)
    rw [e2, mul_root_P _ (fun y hy => hel y (List.mem_append_left _ hy)), Url.strip, if_neg (hpar _ (by simp))]

/-- C117 is violated by paths that go up above a drive: `d:\a` followed by `..\..\b` should be `d:\b` but loses the drive
and becomes the path of a computer named `b`, or of the drive `b`. -/
theorem C117_above_violated (x a b : Bytes) (hx : FileName x) (ha : FileName a) (hb : FileName b) (hx2 : x ≠ b!"..")
    (ha2 : a ≠ b!"..") (hb2 : b ≠ b!"..") :
    mul (R (b!"default") (names [x, a])) (P (names [b!"..", b!"..", b])) = .ok (R (b!"default") (names [b])) := by
  have hel : ∀ {y}, FileName y → Elem (.atom y) := fun {y} h =>
    names_elem (ns := [y]) (by simpa using h) _ (by simp [names])
  have h1 : ∀ y ∈ names [x, a], Elem y := names_elem (by
    intro y hy; simp only [List.mem_cons, List.not_mem_nil, or_false] at hy; rcases hy with rfl | rfl <;> assumption)
  have h2 : ∀ y ∈ names [b!"..", b!"..", b], Elem y := by
    intro y hy
    simp only [names, List.map_cons, List.map_nil, List.mem_cons, List.not_mem_nil, or_false] at hy
    rcases hy with rfl | rfl | rfl
    · decide
    · decide
    · exact hel hb
  rw [Url.R_cons _ _ (by simp [names]), mul_concat rfl (by simp [names, P, here]) (by simp [names, P]) (.inl rfl),
    mul_P h1 h2 (by simp [names])]
  have e : Url.joinL (names [x, a]) (names [b!"..", b!"..", b]) = names [b] := by
    simp [Url.joinL, names, Url.push, parent, hx2, ha2]
  rw [e]
  show mul (.root (b!"default")) (P (names [b])) = _
  rw [mul_root_P _ (names_elem (by simpa using hb))]
  show Res.ok (R _ (Url.strip [.atom b])) = _
  rw [Url.strip, if_neg (by simp [parent, hb2])]
  rfl

/-! ## Other paths that are not understood -/

/-- C117 is violated by computers with names of one letter: their paths are taken for those of a drive. -/
theorem C117_host_violated (env : Env) (f : Nat) (x : UInt8) (hx : An.isAlpha x = true) (ns : List Bytes) (s : Bytes)
    (hs : Spelled ns s) (hn : ∀ y ∈ ns, FileName y) :
    system env (f + 1) (b!"\\\\" ++ x :: c! '\\' :: s) = system env (f + 1) (x :: c! ':' :: c! '\\' :: s) := by
  rw [(C117_drive_partial env f x _ hx rfl ns s hs hn).1]
  have hne : ∀ y, An.isAlpha y = false → x ≠ y := by rintro y hy rfl; rw [hx] at hy; cases hy
  have hxn : FileName [x] := by
    refine ⟨by simp, ?_, ?_, ?_, ?_⟩
    · simp only [ne_eq, List.cons.injEq, and_true]; exact hne _ (by decide)
    · intro c hc
      rw [List.mem_singleton.1 hc]
      exact ⟨hne _ (by decide), hne _ (by decide), hne _ (by decide), hne _ (by decide), hne _ (by decide)⟩
    · simp only [ne_eq, List.cons.injEq, and_true]; exact hne _ (by decide)
    · simp only [List.head?_cons, ne_eq, Option.some.injEq]; exact hne _ (by decide)
  exact remote_read env f ([x] :: ns) (x :: c! '\\' :: s) (.cons [x] (c! '\\') rfl hs)
    (by
      intro y hy
      rcases List.mem_cons.1 hy with rfl | hy
      · exact hxn
      · exact hn y hy)
    (by simp)

/-- C117 is violated by paths that begin with one `\`: they are absolute, but read as relative ones. -/
theorem C117_slash_violated (env : Env) (f : Nat) (ns : List Bytes) (s : Bytes) (hs : Spelled ns s)
    (hn : ∀ y ∈ ns, FileName y) : system env (f + 1) (c! '\\' :: s) = .ok (P (names ns)) := by
  have hne : ns ≠ [] := by cases hs <;> simp
  obtain ⟨n1, n2⟩ := spelled_no hs hn
  obtain ⟨c, t, e, hc⟩ := spelled_head hs hn
  have hdef : isDefault (c! '\\' :: s) = .ok false := by
    rw [e]
    show (if _ ∧ c = c! '\\' then _ else _) = _
    rw [if_neg (by rintro ⟨_, rfl⟩; cases hc)]
    rfl
  rw [system_plain env f _ (noOcc_of_colon (by simp [n1])) (notPrefix (c! ':') (by decide) (by simp [n1])) rfl
    (by simp [n2]), hdef, Res.ok_bind]
  rw [if_neg (by simp), if_neg (by simp [List.isPrefixOf]), if_neg (by simp [List.isPrefixOf])]
  have hc := components_spelled hs (fun y hy => ⟨(hn y hy).plain.nonempty, (hn y hy).plain.no_sep⟩) [c! '\\']
  have hc0 : components true (c! '\\' :: s) 0 = ns := by
    rw [components_skip _ 0 (c! '\\') rfl rfl (by rw [e]; simp)]
    exact hc
  have hg := getName_of env (system env f) _ _ (fun y hy => (hn y hy).plain) hne hc0
  rwa [map_atomOf hn] at hg

/-- C117 is violated by relative paths of at least two bytes that begin with a character that is not ASCII: `isalpha` is
called with a negative number. -/
theorem C117_ascii_violated (env : Env) (f : Nat) (ns : List Bytes) (s : Bytes) (hs : Spelled ns s)
    (hn : ∀ y ∈ ns, FileName y) (hl : 2 ≤ s.length) (ha : ∀ c, s.head? = some c → 128 ≤ c) :
    system env (f + 1) s = .ub := by
  obtain ⟨n1, n2⟩ := spelled_no hs hn
  obtain ⟨c, t, e, hc⟩ := spelled_head hs hn
  have hdef : isDefault s = .ub := by
    rw [e] at hl ⊢
    cases t with
    | nil => simp at hl
    | cons b t =>
      have h128 := ha c (by rw [e]; rfl)
      show (if c = c! '\\' ∧ b = c! '\\' then _ else _) = _
      rw [if_neg (by rintro ⟨rfl, _⟩; cases hc)]
      unfold isalpha
      rw [if_neg (by rw [UInt8.lt_iff_toNat_lt]; rw [UInt8.le_iff_toNat_le] at h128; omega)]
      rfl
  rw [system_plain env f s (noOcc_of_colon n1) (notPrefix (c! ':') (by decide) n1) (by
    rw [e]
    show ((c! '/' == c) && _) = false
    have : (c! '/' == c) = false := by
      cases h : (c! '/' == c) with
      | false => rfl
      | true => rw [← eq_of_beq h] at hc; cases hc
    rw [this]; rfl) n2, hdef]
  rfl

/-- `é.txt` in UTF-8. -/
example : FileName ([195, 169] ++ b!".txt") := ⟨by decide, by decide, by decide, by decide, by decide⟩

end Lolly.WinUrlProps
