import Verif.System.WinUrlProps
import Verif.System.UrlListProps
import Verif.System.WinWebProps

set_option autoImplicit false

/-!
# Property C120: lists of paths on Windows

`system env (f + 2) s` is `url_system (s)`, `asString true u` is `as_string (u)`.
-/

namespace Lolly.WinListProps

open WinUrl WinUrlProps
open Url (Url Env Elem P R parent here alt orOf merge Single)
open UrlListProps (altAll alt_none sub_mid altAll_merge)

/-! ## Specification -/

/-- The text of a list of paths: `;` between them. -/
def listText (es : List Bytes) : Bytes := An.join (b!";") es

/-- A path on a drive (`some x` for the drive `x`) or a relative one. -/
structure Path where
  drive : Option UInt8
  names : List Bytes
  deriving DecidableEq

/-- Its text. -/
def Path.text (p : Path) : Bytes :=
  match p.drive with
  | some x => x :: c! ':' :: c! '\\' :: wtext p.names
  | none => wtext p.names

/-- Its url. -/
def Path.url (p : Path) : Url :=
  match p.drive with
  | some x => R (b!"default") (.atom [x] :: WinUrlProps.names p.names)
  | none => P (WinUrlProps.names p.names)

/-- A path of ordinary names; if it is relative, it does not begin with `www.` or `ftp.` or with a character
that is not ASCII. -/
structure Ordinary (p : Path) : Prop where
  letter : ∀ x, p.drive = some x → An.isAlpha x = true
  names : ∀ y ∈ p.names, FileName y
  nonempty : p.drive = none → p.names ≠ []
  www : p.drive = none → ¬ (b!"www.") <+: wtext p.names ∧ ¬ (b!"ftp.") <+: wtext p.names
  ascii : p.drive = none → ∀ c, (wtext p.names).head? = some c → c < 128

/-! ## Lemmas -/

theorem listText_cons (e : Bytes) {es : List Bytes} (h : es ≠ []) : listText (e :: es) = e ++ (b!";") ++ listText es :=
  An.join_cons h

theorem skip_noSemi (s : Bytes) (i : Nat) (hi : i < s.length) (hb : s[i]? = some (c! '[')) :
    Url.skipIpv6 s i ≤ s.length ∧ ∀ k, i ≤ k → k < Url.skipIpv6 s i → s[k]? ≠ some (c! ';') := by
  obtain ⟨h1, h2⟩ := Url.skipHex_spec s (i + 1) hi
  have hex : ∀ k, i ≤ k → k < Url.skipHex s (i + 1) → s[k]? ≠ some (c! ';') := by
    intro k hk hk' e
    by_cases hki : k = i
    · subst hki; rw [hb] at e; injection e with e; exact absurd e (by decide)
    · rcases h2 k _ (by omega) hk' e with h | h
      · exact absurd h (by decide)
      · exact absurd h (by decide)
  unfold Url.skipIpv6
  dsimp only
  split
  · next h =>
    have hl : Url.skipHex s (i + 1) < s.length := by
      rcases Nat.lt_or_ge (Url.skipHex s (i + 1)) s.length with h' | h'
      · exact h'
      · rw [List.getElem?_eq_none h'] at h; simp at h
    refine ⟨hl, fun k hk hk' e => ?_⟩
    by_cases hki : k = Url.skipHex s (i + 1)
    · rw [hki, h] at e; injection e with e; exact absurd e (by decide)
    · exact hex k hk (by omega) e
  · exact ⟨h1, hex⟩

theorem nextSemi_eq (s : Bytes) (i j : Nat) (hij : i ≤ j) (hj : j ≤ s.length)
    (hno : ∀ k, i ≤ k → k < j → s[k]? ≠ some (c! ';')) (hat : j = s.length ∨ s[j]? = some (c! ';')) :
    Url.nextSep (c! ';') s i = j := by
  fun_induction Url.nextSep (c! ';') s i with
  | case1 i h hs =>
    rcases Nat.lt_or_ge i j with h' | h'
    · exact absurd (by rw [List.getElem?_eq_getElem h, hs]) (hno i (by omega) h')
    · omega
  | case2 i h hs hb ih =>
    obtain ⟨h1, h2⟩ := skip_noSemi s i h (by rw [List.getElem?_eq_getElem h, hb])
    have hlt := Url.lt_skipIpv6 s i
    apply ih
    · rcases Nat.lt_or_ge j (Url.skipIpv6 s i) with h' | h'
      · rcases hat with rfl | hat
        · omega
        · exact absurd hat (h2 j hij h')
      · exact h'
    · exact fun k hk hk' => hno k (by omega) hk'
  | case3 i h hs hb ih =>
    apply ih
    · rcases Nat.lt_or_ge i j with h' | h'
      · exact h'
      · have : i = j := by omega
        subst this
        rcases hat with e | e
        · omega
        · rw [List.getElem?_eq_getElem h] at e
          injection e with e
          exact absurd e hs
    · exact fun k hk hk' => hno k (by omega) hk'
  | case4 i h => omega

theorem nextSemi (pre x r : Bytes) (hx : c! ';' ∉ x) (hr : r = [] ∨ r.head? = some (c! ';')) :
    Url.nextSep (c! ';') (pre ++ x ++ r) pre.length = pre.length + x.length := by
  apply nextSemi_eq
  · omega
  · simp
  · intro k hk hk' e
    rw [List.getElem?_append_left (by simp; omega), List.getElem?_append_right hk] at e
    exact hx (List.mem_of_getElem? e)
  · rcases hr with rfl | hr
    · exact .inl (by simp)
    · right
      rw [List.getElem?_append_right (by simp), show pre.length + x.length - (pre ++ x).length = 0 by simp, ← hr]
      exact (List.head?_eq_getElem? ..).symm

theorem getPath_list (gen : Bytes → Res Url) (u : Bytes → Url) (hg : gen [] = .ok (u [])) (es : List Bytes) :
    ∀ pre : Bytes, es ≠ [] → (∀ e ∈ es, c! ';' ∉ e) → (∀ e ∈ es, e ≠ [] → gen e = .ok (u e)) →
    getPath gen (pre ++ listText es) pre.length = .ok (altAll ((es.filter (· ≠ [])).map u)) := by
  induction es with
  | nil => intro _ h; exact absurd rfl h
  | cons e es ih =>
    intro pre _ hc hok
    have hce := hc e (by simp)
    have hge : gen e = .ok (u e) := by
      by_cases he : e = []
      · rw [he, hg]
      · exact hok e (by simp) he
    by_cases hes : es = []
    · subst hes
      rw [listText, An.join, getPath]
      by_cases he : e = []
      · subst he
        rw [if_neg (by simp)]; rfl
      · rw [if_pos (by have := List.length_pos_iff.2 he; simp; omega)]
        have hj := nextSemi pre e [] hce (.inl rfl)
        rw [List.append_nil] at hj
        have hs := sub_mid pre e []
        rw [List.append_nil] at hs
        dsimp only
        rw [hj, hs, hge, Res.ok_bind, if_pos (by simp)]
        simp [altAll, he, alt_none]
    · rw [listText_cons e hes, getPath]
      have hj := nextSemi pre e ((b!";") ++ listText es) hce (.inr rfl)
      have ht : pre ++ e ++ ((b!";") ++ listText es) = pre ++ (e ++ (b!";") ++ listText es) := by simp
      rw [ht] at hj
      have hs := sub_mid pre e ((b!";") ++ listText es)
      rw [ht] at hs
      have hn := ih (pre ++ e ++ (b!";")) hes (fun x hx => hc x (by simp [hx])) (fun x hx => hok x (by simp [hx]))
      have hl : (pre ++ e ++ (b!";")).length = pre.length + e.length + 1 := by
        simp only [List.length_append, List.length_cons, List.length_nil]
      rw [hl, show pre ++ e ++ (b!";") ++ listText es = pre ++ (e ++ (b!";") ++ listText es) by simp] at hn
      rw [if_pos (by simp; omega)]
      dsimp only
      rw [hj, hs, hge, Res.ok_bind, if_neg (by simp), hn]
      by_cases he : e = []
      · rw [if_pos (by simp [he])]
        simp [he]
      · rw [if_neg (by have := List.length_pos_iff.2 he; omega), Res.ok_bind]
        simp [altAll, he]

theorem components_nil (sys : Bool) : components sys [] 0 = [] := by
  rw [components, if_neg (by simp)]

theorem system_nil (env : Env) (f : Nat) : system env (f + 1) [] = .ok (.atom []) := by
  rw [system_plain env f [] (noOcc_of_colon (by simp)) rfl rfl (by simp)]
  show getName env (system env f) true [] = _
  rw [getName, components_nil]
  rfl

/-- A list whose first entry has no `://` is not taken for a url with a protocol. -/
theorem no_protocol (env : Env) (gen : Bytes → Res Url) (e r : Bytes) (h : ∀ q, ¬ An.OccursAt (b!"://") e q)
    (ho : ∃ q, An.OccursAt (b!"://") (e ++ (b!";") ++ r) q) :
    withProtocol env gen (e ++ (b!";") ++ r) = .ok none := by
  obtain ⟨ps, et, _, hc, _⟩ := SearchProps.C22_tokenize (e ++ (b!";") ++ r) (b!"://") (by decide)
    ((e ++ (b!";") ++ r).length + 1) (by omega)
  generalize hs : e ++ (b!";") ++ r = s at *
  unfold withProtocol
  rw [et, Res.ok_bind]
  cases hc with
  | last _ hno => obtain ⟨q, hq⟩ := ho; exact absurd hq (hno q)
  | cut p rest ps hfirst hr =>
    have hmem : c! ';' ∈ p := by
      rw [List.append_assoc, List.append_assoc, List.append_eq_append_iff] at hs
      rcases hs with ⟨a', h1, h2⟩ | ⟨c', h1, h2⟩
      · cases a' with
        | nil =>
          simp only [List.nil_append, List.cons_append, List.cons.injEq] at h2
          exact absurd h2.1 (by decide)
        | cons x a' =>
          simp only [List.nil_append, List.cons_append, List.cons.injEq] at h2
          rw [h1, ← h2.1]; simp
      · exfalso
        rw [List.append_eq_append_iff] at h2
        rcases h2 with ⟨d, h3, h4⟩ | ⟨d, h3, h4⟩
        · exact h p.length ⟨p, d, by rw [h1, h3, List.append_assoc], rfl⟩
        · cases d with
          | nil =>
            rw [List.append_nil] at h3
            exact h p.length ⟨p, [], by rw [h1, h3, List.append_nil], rfl⟩
          | cons x d =>
            simp only [List.cons_append, List.nil_append, List.cons.injEq] at h4
            have : c! ';' ∈ (b!"://") := by rw [h3, ← h4.1]; simp
            exact absurd this (by decide)
    have han : An.allBytes (fun c => An.isAlpha c || An.isDigit c) p = .ok false := by
      rw [An.allBytes_eq]
      have hf : p.all (fun c => An.isAlpha c || An.isDigit c) = false := by
        rw [List.all_eq_false]
        exact ⟨_, hmem, by decide⟩
      cases p with
      | nil => cases hmem
      | cons c p => simp only [hf]; rfl
    cases hr with
    | last _ _ => simp only [han, Res.ok_bind]; rw [if_neg (by simp)]
    | cut p' rest' ps' _ _ => simp only [han, Res.ok_bind]; rw [if_neg (by simp)]

theorem prefix_list {w e r : Bytes} (hs : c! ';' ∉ w) (h : ¬ w <+: e) : w.isPrefixOf (e ++ (b!";") ++ r) = false := by
  cases hh : w.isPrefixOf (e ++ (b!";") ++ r) with
  | false => rfl
  | true =>
    obtain ⟨t, ht⟩ := List.isPrefixOf_iff_prefix.1 hh
    rw [List.append_assoc, List.append_eq_append_iff] at ht
    rcases ht with ⟨d, h1, _⟩ | ⟨d, h1, h2⟩
    · exact absurd ⟨d, h1.symm⟩ h
    · cases d with
      | nil => rw [List.append_nil] at h1; exact absurd (h1 ▸ List.prefix_refl _) h
      | cons x d =>
        simp only [List.cons_append, List.nil_append, List.cons.injEq] at h2
        exact absurd (by rw [h1, ← h2.1]; simp) hs

/-! ## C120 -/

/-- C120: on Windows a list of paths with `;` between them is read as the alternatives that its entries are read as, in order,
whatever the entries stand for. Empty entries are left out. The entries have no `;`, and the first has no `://` and does not
begin with `local:` or `//`. -/
theorem C120_read_partial {env : Env} {f : Nat} {es : List Bytes} {u : Bytes → Url} (h2 : 2 ≤ es.length)
    (hc : ∀ e ∈ es, c! ';' ∉ e)
    (hl : ∀ e, es.head? = some e → ¬ (b!"local:") <+: e ∧ ¬ (b!"//") <+: e ∧ ∀ q, ¬ An.OccursAt (b!"://") e q)
    (hok : ∀ e ∈ es, e ≠ [] → system env (f + 1) e = .ok (u e)) :
    system env (f + 2) (listText es) = .ok (altAll ((es.filter (· ≠ [])).map u)) := by
  match es, h2 with
  | e :: e' :: es, _ =>
  have hce := hc e (by simp)
  have hle := hl e rfl
  have ht : listText (e :: e' :: es) = e ++ (b!";") ++ listText (e' :: es) := listText_cons e (by simp)
  obtain ⟨b, eb, hb⟩ := SearchProps.C20_occurs (b!"://") (listText (e :: e' :: es))
  have hw : system env (f + 2) (listText (e :: e' :: es)) =
      withoutProtocol env (system env (f + 1)) (listText (e :: e' :: es)) := by
    rw [system, eb]
    cases b with
    | false => rfl
    | true =>
      have hn := no_protocol env (system env (f + 1)) e (listText (e' :: es)) hle.2.2 (ht ▸ hb.1 rfl)
      rw [← ht] at hn
      show (withProtocol env (system env (f + 1)) (listText (e :: e' :: es)) >>= _) = _
      rw [hn]
      rfl
  rw [hw]
  unfold withoutProtocol
  have hloc : (b!"local:").isPrefixOf (listText (e :: e' :: es)) = false := by
    rw [ht]; exact prefix_list (by decide) hle.1
  have hbl : (b!"//").isPrefixOf (listText (e :: e' :: es)) = false := by
    rw [ht]; exact prefix_list (by decide) hle.2.1
  have hpath : Url.nextSep (c! ';') (listText (e :: e' :: es)) 0 < (listText (e :: e' :: es)).length := by
    have := nextSemi [] e ((b!";") ++ listText (e' :: es)) hce (.inr rfl)
    rw [List.nil_append, ← List.append_assoc, ← ht] at this
    rw [show (0 : Nat) = ([] : Bytes).length from rfl, this, ht]
    simp
  simp only [Url.starts_eq, Res.ok_bind, hloc, hbl]
  rw [if_neg (by simp), if_neg (by simp), if_pos hpath]
  -- `u` at the empty entry plays no role
  have hg : system env (f + 1) [] = .ok ((fun x => if x = [] then .atom [] else u x) []) := system_nil env f
  have := getPath_list (system env (f + 1)) (fun x => if x = [] then .atom [] else u x) hg (e :: e' :: es) []
    (by simp) hc (fun x hx hne => by rw [hok x hx hne, if_neg hne])
  rw [List.nil_append, List.length_nil] at this
  rw [this]
  congr 2
  apply List.map_congr_left
  intro x hx
  have := (List.mem_filter.1 hx).2
  rw [if_neg (by simpa using this)]

theorem Ordinary.read {p : Path} (h : Ordinary p) (env : Env) (f : Nat) :
    asString true p.url = p.text ∧ system env (f + 1) p.text = .ok p.url := by
  obtain ⟨d, ns⟩ := p
  have hn : ∀ y ∈ ns, FileName y := h.names
  cases d with
  | none =>
    have hne := h.nonempty rfl
    have := C117_relative_partial env f ns _ (spelled_wtext ns hne) hn (h.www rfl).1 (h.www rfl).2 (h.ascii rfl)
    exact ⟨this.2, this.1⟩
  | some x =>
    have hx := h.letter x rfl
    have e : asString true (Path.url ⟨some x, ns⟩) = Path.text ⟨some x, ns⟩ := by
      show asString true (R _ _) = _
      rw [asString_R, if_pos (show [x].length = 1 from rfl)]; rfl
    refine ⟨e, ?_⟩
    have := C117_print_read env f x hx ns hn
    rw [show R (b!"default") (.atom [x] :: WinUrlProps.names ns) = Path.url ⟨some x, ns⟩ from rfl, e] at this
    exact this

theorem Ordinary.nameInPath {p : Path} (h : Ordinary p) : Url.isNameInPath p.url = true ∧ Url.isOr p.url = false := by
  obtain ⟨d, ns⟩ := p
  cases d with
  | none =>
    show Url.isNameInPath (P (WinUrlProps.names ns)) = true ∧ _
    refine ⟨by simp [Url.isNameInPath, WinUrlProps.names, UrlListProps.isName_atoms], ?_⟩
    match hn : ns, h.nonempty rfl with
    | [x], _ => rfl
    | x :: y :: l, _ => rfl
  | some x =>
    have e : Path.url ⟨some x, ns⟩ = .concat (.root (b!"default")) (P (WinUrlProps.names ([x] :: ns))) := by
      show R _ _ = _
      rw [Url.R_cons _ _ (by simp)]; rfl
    have hi : Url.isName (P (WinUrlProps.names ([x] :: ns))) = true := UrlListProps.isName_atoms _
    rw [e, Url.isNameInPath]
    exact ⟨by simp only [hi, Url.isRootS, decide_true, Bool.and_true, Bool.or_true], rfl⟩

theorem Ordinary.single {p : Path} (h : Ordinary p) : Single p.url := by
  refine ⟨h.nameInPath.2, fun e => ?_⟩
  have := h.nameInPath.1
  rw [e] at this
  cases this

theorem Ordinary.chars {p : Path} (h : Ordinary p) : c! ';' ∉ p.text ∧
    (∀ q, ¬ An.OccursAt (b!"://") p.text q) ∧ ¬ (b!"local:") <+: p.text ∧ ¬ (b!"//") <+: p.text ∧ p.text ≠ [] := by
  obtain ⟨d, ns⟩ := p
  have hn : ∀ y ∈ ns, FileName y := h.names
  have hw : c! ':' ∉ wtext ns ∧ c! ';' ∉ wtext ns ∧ c! '/' ∉ wtext ns := by
    by_cases hne : ns = []
    · subst hne; decide
    · have hs := spelled_wtext ns hne
      refine ⟨(spelled_no hs hn).1, (spelled_no hs hn).2, ?_⟩
      · intro hc
        have hm : ∀ (l : List Bytes) (c : UInt8), c ∈ wtext l → c = c! '\\' ∨ ∃ x ∈ l, c ∈ x := by
          intro l c
          induction l with
          | nil => intro hc; simp [wtext, An.join] at hc
          | cons x l ih =>
            intro hc
            by_cases hl : l = []
            · subst hl; exact .inr ⟨x, by simp, by simpa [wtext, An.join] using hc⟩
            · rw [wtext, An.join_cons hl] at hc
              simp only [List.mem_append, List.mem_cons, List.not_mem_nil, or_false] at hc
              rcases hc with (hc | hc) | hc
              · exact .inr ⟨x, by simp, hc⟩
              · exact .inl hc
              · rcases ih hc with h | ⟨y, hy, h⟩
                · exact .inl h
                · exact .inr ⟨y, by simp [hy], h⟩
        rcases hm ns _ hc with h' | ⟨x, hx, h'⟩
        · exact absurd h' (by decide)
        · exact ((hn x hx).chars _ h').1 rfl
  cases d with
  | none =>
    show c! ';' ∉ wtext ns ∧ (∀ q, ¬ An.OccursAt (b!"://") (wtext ns) q) ∧
      ¬ (b!"local:") <+: wtext ns ∧ ¬ (b!"//") <+: wtext ns ∧ wtext ns ≠ []
    refine ⟨hw.2.1, noOcc_of_colon hw.1, ?_, ?_, ?_⟩
    · rintro ⟨t, ht⟩; exact hw.1 (by rw [← ht]; simp)
    · rintro ⟨t, ht⟩; exact hw.2.2 (by rw [← ht]; simp)
    · exact (spelled_wtext ns (h.nonempty rfl)).ne_nil fun y hy => (hn y hy).nonempty
  | some x =>
    have hx := h.letter x rfl
    have hne : ∀ y, An.isAlpha y = false → x ≠ y := by rintro y hy rfl; rw [hx] at hy; cases hy
    show c! ';' ∉ x :: c! ':' :: c! '\\' :: wtext ns ∧
      (∀ q, ¬ An.OccursAt (b!"://") (x :: c! ':' :: c! '\\' :: wtext ns) q) ∧
      ¬ (b!"local:") <+: x :: c! ':' :: c! '\\' :: wtext ns ∧ ¬ (b!"//") <+: x :: c! ':' :: c! '\\' :: wtext ns ∧
      x :: c! ':' :: c! '\\' :: wtext ns ≠ []
    refine ⟨?_, ?_, ?_, ?_, by simp⟩
    · simp only [List.mem_cons, not_or]
      exact ⟨Ne.symm (hne _ (by decide)), by decide, by decide, hw.2.1⟩
    · rintro q ⟨a, b, e, _⟩
      have : c! '/' ∈ x :: c! ':' :: c! '\\' :: wtext ns := by rw [e]; simp
      simp only [List.mem_cons] at this
      rcases this with h' | h' | h' | h'
      · exact hne _ (by decide) h'.symm
      · exact absurd h' (by decide)
      · exact absurd h' (by decide)
      · exact hw.2.2 h'
    · rintro ⟨t, ht⟩
      simp only [List.cons_append, List.cons.injEq] at ht
      exact absurd ht.2.1 (by decide)
    · rintro ⟨t, ht⟩
      simp only [List.cons_append, List.cons.injEq] at ht
      exact absurd ht.2.1 (by decide)

/-- C120: a list of ordinary paths is read as the alternatives of these paths, in order; only repeated neighbours are merged. -/
theorem C120_paths (env : Env) (f : Nat) (ps : List Path) (h2 : 2 ≤ ps.length) (h : ∀ p ∈ ps, Ordinary p) :
    system env (f + 2) (listText (ps.map Path.text)) = .ok (orOf (merge (ps.map Path.url))) := by
  -- what a text is read as
  let u : Bytes → Url := fun e => match system env (f + 1) e with
    | .ok v => v
    | _ => .none
  have hu : ∀ p ∈ ps, u p.text = p.url := by
    intro p hp
    show (match system env (f + 1) p.text with | .ok v => v | _ => .none) = _
    rw [((h p hp).read env f).2]
  have := C120_read_partial (env := env) (f := f) (es := ps.map Path.text) (u := u) (by simpa using h2)
    (by
      intro e he
      obtain ⟨p, hp, rfl⟩ := List.mem_map.1 he
      have := (h p hp).chars
      exact this.1)
    (by
      intro e he
      have := List.mem_of_mem_head? he
      obtain ⟨p, hp, rfl⟩ := List.mem_map.1 this
      have := (h p hp).chars
      exact ⟨this.2.2.1, this.2.2.2.1, this.2.1⟩)
    (by
      intro e he _
      obtain ⟨p, hp, rfl⟩ := List.mem_map.1 he
      rw [hu p hp, ((h p hp).read env f).2])
  rw [this]
  have hf : (ps.map Path.text).filter (· ≠ []) = ps.map Path.text := by
    rw [List.filter_eq_self]
    intro e he
    obtain ⟨p, hp, rfl⟩ := List.mem_map.1 he
    simpa using (h p hp).chars.2.2.2.2
  have hm : (ps.map Path.text).map u = ps.map Path.url := by
    rw [List.map_map]
    exact List.map_congr_left hu
  rw [hf, hm, altAll_merge]
  intro v hv
  obtain ⟨p, hp, rfl⟩ := List.mem_map.1 hv
  exact (h p hp).single

theorem orOf_cons (u : Url) (us : List Url) (h : us ≠ []) : orOf (u :: us) = .or u (orOf us) := by
  cases us with
  | nil => exact absurd rfl h
  | cons v us => rfl

/-- C120: alternatives of ordinary paths are printed as the list of their texts. -/
theorem C120_print (ps : List Path) (hne : ps ≠ []) (h : ∀ p ∈ ps, Ordinary p) :
    asString true (orOf (ps.map Path.url)) = listText (ps.map Path.text) := by
  induction ps with
  | nil => exact absurd rfl hne
  | cons p ps ih =>
    have hp := h p (by simp)
    cases ps with
    | nil => exact (hp.read (fun _ => []) 0).1
    | cons q ps =>
      have ih := ih (by simp) fun x hx => h x (by simp [hx])
      have hq := h q (by simp)
      rw [List.map_cons (l := q :: ps), orOf_cons _ _ (by simp), List.map_cons (f := Path.text) (l := q :: ps),
        listText_cons _ (by simp), asString]
      rw [(hp.read (fun _ => []) 0).1, ih, hp.nameInPath.1]
      have : (!Url.isOr (orOf ((q :: ps).map Path.url)) && !Url.isNameInPath (orOf ((q :: ps).map Path.url))) = false := by
        cases ps with
        | nil =>
          show (!Url.isOr q.url && !Url.isNameInPath q.url) = false
          rw [hq.nameInPath.1]; simp
        | cons r ps => rw [List.map_cons, orOf_cons _ _ (by simp)]; rfl
      rw [this]
      simp

/-- C120: alternatives that are printed and read back are the same, if no two neighbours are equal. -/
theorem C120_round_trip (env : Env) (f : Nat) (ps : List Path) (h2 : 2 ≤ ps.length) (h : ∀ p ∈ ps, Ordinary p)
    (hm : merge (ps.map Path.url) = ps.map Path.url) :
    system env (f + 2) (asString true (orOf (ps.map Path.url))) = .ok (orOf (ps.map Path.url)) := by
  rw [C120_print ps (by intro e; simp [e] at h2) h, C120_paths env f ps h2 h, hm]

/-- The list `src\a;c:\usr\b`. -/
def exampleList : List Path := [⟨none, [b!"src", b!"a"]⟩, ⟨some (c! 'c'), [b!"usr", b!"b"]⟩]

/-- It meets the hypotheses. -/
example : listText (exampleList.map Path.text) = (b!"src\\a;c:\\usr\\b") ∧ (∀ p ∈ exampleList, Ordinary p) ∧
    merge (exampleList.map Path.url) = exampleList.map Path.url := by
  refine ⟨by decide, ?_, by decide⟩
  have hf : ∀ y ∈ [b!"src", b!"a", b!"usr", b!"b"], FileName y := by
    intro y hy
    simp only [List.mem_cons, List.not_mem_nil, or_false] at hy
    rcases hy with rfl | rfl | rfl | rfl <;>
      exact ⟨by decide, by decide, by decide, by decide, by decide⟩
  intro p hp
  simp only [exampleList, List.mem_cons, List.not_mem_nil, or_false] at hp
  rcases hp with rfl | rfl
  · refine ⟨(fun x e => (by cases e)), fun y hy => hf y ?_, fun _ => by decide, fun _ => by decide, fun _ c hc => ?_⟩
    · simp only [List.mem_cons, List.not_mem_nil, or_false] at hy ⊢
      rcases hy with rfl | rfl <;> simp
    · have : c = c! 's' := by
        have e : (wtext [b!"src", b!"a"]).head? = some (c! 's') := by decide
        rw [e] at hc; injection hc with hc; exact hc.symm
      rw [this]; decide
  · refine ⟨fun x e => ?_, fun y hy => hf y ?_, (fun e => (by cases e)), (fun e => (by cases e)), (fun e => (by cases e))⟩
    · injection e with e; rw [← e]; decide
    · simp only [List.mem_cons, List.not_mem_nil, or_false] at hy ⊢
      rcases hy with rfl | rfl <;> simp

/-- C120 is violated by lists that begin with an address of the web: they are read as one address. -/
theorem C120_web_violated (env : Env) (f : Nat) (p x y : Bytes) (hp : WinWebProps.Web p)
    (hc : ∀ c ∈ x ++ y, c ≠ c! '/' ∧ c ≠ c! ':') :
    system env (f + 1) (listText [p ++ b!"://" ++ x, y]) = .ok (R p [Url.elemOf (x ++ b!";" ++ y)]) := by
  have hm : ∀ c, c ∈ x ++ b!";" ++ y → c ≠ c! '/' ∧ c ≠ c! ':' := by
    intro c h
    simp only [List.mem_append, List.mem_cons, List.not_mem_nil, or_false] at h
    rcases h with (h | rfl) | h
    · exact hc c (by simp [h])
    · decide
    · exact hc c (by simp [h])
  have hsem : c! ';' ∈ x ++ b!";" ++ y := by simp
  have := (WinWebProps.C122_web_partial env f p hp [x ++ b!";" ++ y] (by simp) (by
    intro z hz
    rw [List.mem_singleton.1 hz]
    refine ⟨by simp, ?_, fun h => (hm _ h).1 rfl, ?_⟩
    · intro e; rw [e] at hsem; exact absurd hsem (by decide)
    · intro c e
      exact (hm (c! ':') (by rw [e]; simp)).2 rfl) (by simp) (by
    simp only [List.head?_cons, ne_eq, Option.some.injEq]
    intro e; rw [e] at hsem; exact absurd hsem (by decide))).1
  have e : listText [p ++ b!"://" ++ x, y] = p ++ b!"://" ++ Url.text [x ++ b!";" ++ y] := by
    simp [listText, An.join, Url.text]
  rw [e, this]
  rfl

/-- C120 is violated by lists that begin with `local:`: they are read as one file. -/
theorem C120_local_violated (env : Env) (f : Nat) (x y : Bytes) (hx : FileName x) (hy : FileName y) :
    system env (f + 1) (listText [b!"local:" ++ x, y]) = .ok (R (b!"file") [.atom (x ++ b!";" ++ y)]) := by
  have hpl : Plain (x ++ b!";" ++ y) ∧ c! ':' ∉ x ++ b!";" ++ y := by
    have hm : ∀ c ∈ x ++ b!";" ++ y, c = c! ';' ∨ c ∈ x ∨ c ∈ y := by
      intro c h
      simp only [List.mem_append, List.mem_cons, List.not_mem_nil, or_false] at h
      rcases h with (h | h) | h
      · exact .inr (.inl h)
      · exact .inl h
      · exact .inr (.inr h)
    have hch : ∀ c ∈ x ++ b!";" ++ y, c ≠ c! '/' ∧ c ≠ c! '\\' ∧ c ≠ c! '*' ∧ c ≠ c! ':' := by
      intro c h
      rcases hm c h with rfl | h | h
      · decide
      · have := hx.chars c h; exact ⟨this.1, this.2.1, this.2.2.1, this.2.2.2.1⟩
      · have := hy.chars c h; exact ⟨this.1, this.2.1, this.2.2.1, this.2.2.2.1⟩
    have hsem : c! ';' ∈ x ++ b!";" ++ y := by simp
    have hat : atomOf (x ++ b!";" ++ y) = x ++ b!";" ++ y := by
      unfold atomOf
      rw [if_neg]
      rintro ⟨h1, h2⟩
      unfold An.ends at h2
      rw [if_neg (by simp), h1] at h2
      generalize x ++ b!";" ++ y = z at *
      match z, h1 with
      | [a, b], _ =>
        simp [An.sub] at h2
        exact (hch b (by simp)).2.2.2 h2
    refine ⟨⟨by simp, fun c h => ?_, fun h => (hch _ h).2.2.1 rfl, ?_, ?_, ?_⟩, fun h => (hch _ h).2.2.2 rfl⟩
    · simp [isSep, (hch c h).1, (hch c h).2.1]
    · intro e; rw [e] at hsem; exact absurd hsem (by decide)
    · have := hx.no_var
      have h0 := hx.nonempty
      cases x with
      | nil => exact absurd rfl h0
      | cons c x => exact this
    · rw [hat]; intro e; rw [e] at hsem; exact absurd hsem (by decide)
  have hat : atomOf (x ++ b!";" ++ y) = x ++ b!";" ++ y := by
    unfold atomOf
    rw [if_neg]
    rintro ⟨h1, h2⟩
    unfold An.ends at h2
    rw [if_neg (by simp), h1] at h2
    have hc := hpl.2
    generalize x ++ b!";" ++ y = z at *
    match z, h1 with
    | [a, b], _ =>
      simp [An.sub] at h2
      exact hc (by rw [h2]; simp)
  have e : listText [b!"local:" ++ x, y] = b!"local:" ++ (x ++ b!";" ++ y) := by
    simp [listText, An.join]
  rw [e, WinWebProps.system_local env f _ hpl.2 (by
    have h0 := hx.nonempty
    have h1 := hx.chars
    cases x with
    | nil => exact absurd rfl h0
    | cons c x =>
      simp only [List.cons_append, List.head?_cons, ne_eq, Option.some.injEq]
      exact (h1 c (by simp)).1)]
  have hr := WinWebProps.rooted_file env (system env f) [] (by simp) _ _ (.one (x ++ b!";" ++ y))
    (by intro z hz; rw [List.mem_singleton.1 hz]; exact hpl.1) (by
      intro z hz
      injection hz with hz
      rw [← hz, hat]
      intro e'
      have : c! ';' ∈ x ++ b!";" ++ y := by simp
      rw [e'] at this
      exact absurd this (by decide))
  rw [List.map_cons, hat, List.nil_append] at hr
  exact hr

end Lolly.WinListProps
