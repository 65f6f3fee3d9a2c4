import Verif.System.WinListProps

set_option autoImplicit false

/-!
# Property C121: home directories and environment variables in paths on Windows

`env v` is the value of the environment variable `v`, empty if it is not set. `system env (f + 2) s` is `url_system (s)`.
-/

namespace Lolly.WinHomeProps

open WinUrl WinUrlProps
open Url (Url Env Elem P R parent here joinL strip)

/-! ## Specification -/

/-- The names of a path that does not go up. -/
def Down (ns : List Bytes) : Prop := ∀ x ∈ ns, FileName x ∧ x ≠ b!".."

/-- The url of the path with the given names on the drive `x`. -/
def onDrive (x : UInt8) (ns : List Bytes) : Url := R (b!"default") (.atom [x] :: names ns)

/-! ## Lemmas -/

theorem Down.elem {ns : List Bytes} (h : Down ns) : ∀ y ∈ names ns, Elem y ∧ y ≠ parent := by
  intro y hy
  refine ⟨names_elem (fun x hx => (h x hx).1) y hy, ?_⟩
  obtain ⟨x, hx, rfl⟩ := List.mem_map.1 hy
  simp only [parent, ne_eq, Url.atom.injEq]
  exact (h x hx).2

theorem drive_elem (x : UInt8) (hx : An.isAlpha x = true) : Elem (.atom [x]) ∧ Url.atom [x] ≠ parent := by
  obtain ⟨p1, p2⟩ := plain_drive x hx
  have := p1.elem
  rw [p2] at this
  exact ⟨this, by simp [parent]⟩

theorem drive_elems {x : UInt8} (hx : An.isAlpha x = true) {hs : List Bytes} (h : Down hs) :
    ∀ y ∈ (.atom [x] :: names hs : List Url), Elem y ∧ y ≠ parent := by
  intro y hy
  rcases List.mem_cons.1 hy with rfl | hy
  · exact drive_elem x hx
  · exact h.elem y hy

theorem normal_of {l : List Url} (h : ∀ y ∈ l, y ≠ parent) : Url.Normal l := by
  induction l with
  | nil => trivial
  | cons x l ih =>
    cases l with
    | nil => trivial
    | cons y l => exact ⟨fun e => absurd e (h y (by simp)), ih fun z hz => h z (by simp [hz])⟩

theorem parentFirst_P {l : List Url} (h : ∀ y ∈ l, Elem y ∧ y ≠ parent) : P l ≠ parent ∧ Url.parentFirst (P l) = false := by
  match l, h with
  | [], _ => exact ⟨by decide, rfl⟩
  | [x], h =>
    have hx := h x (by simp)
    refine ⟨hx.2, ?_⟩
    have := hx.1.not_concat
    rw [P]
    cases x <;> simp_all [Url.parentFirst, Url.isConcat]
  | x :: y :: l, h =>
    have hx := h x (by simp)
    refine ⟨by simp [P, parent], ?_⟩
    simp [P, Url.parentFirst, Url.isAtom_parent, hx.2]

/-- Names below a path on a drive. -/
theorem mul_drive {x : UInt8} (hx : An.isAlpha x = true) {hs ns : List Bytes} (h1 : Down hs) (h2 : Down ns) (hne : ns ≠ []) :
    mul (onDrive x hs) (P (names ns)) = .ok (onDrive x (hs ++ ns)) := by
  have e1 := drive_elems hx h1
  have e2 := h2.elem
  have hn : names ns ≠ [] := by simpa [names] using hne
  rw [onDrive, Url.R_cons _ _ (by simp), mul_concat (Url.topRoot_P fun y hy => (e2 y hy).1)
    (fun e => hn (Url.P_eq_here (fun y hy => (e2 y hy).1) e)) (Url.P_ne_none fun y hy => (e2 y hy).1)
    (.inr (parentFirst_P e2)), mul_P (fun y hy => (e1 y hy).1) (fun y hy => (e2 y hy).1) hn, Res.ok_bind]
  have hhead : (names ns).head? ≠ some parent := fun e => (e2 _ (List.mem_of_mem_head? e)).2 rfl
  rw [Url.joinL_disjoint (normal_of fun y hy => (e1 y hy).2) hhead hn, mul_root_P, Url.strip_eq_self]
  · simp [onDrive, names]
  · intro e
    simp only [List.cons_append, List.head?_cons, Option.some.injEq] at e
    exact (drive_elem x hx).2 e
  · intro y hy
    rcases List.mem_append.1 hy with hy | hy
    · exact (e1 y hy).1
    · exact (e2 y hy).1

theorem unblank_P (l : List Url) (hne : l ≠ []) (h : ∀ y ∈ l, Elem y ∧ y ≠ parent) : unblank (P l) = .ok (P l) := by
  induction l with
  | nil => exact absurd rfl hne
  | cons x l ih =>
    have hx := h x (by simp)
    cases l with
    | nil =>
      rw [P]
      have := hx.1.1
      cases x <;> simp_all [Url.isPseudoAtomic, unblank]
    | cons y l =>
      have hy := h y (by simp)
      rw [P, unblank, if_neg, ih (by simp) fun z hz => h z (by simp [hz]), Res.ok_bind]
      · have := mul_P (l1 := [x]) (l2 := y :: l) (by simpa using hx.1) (fun z hz => (h z (by simp [hz])).1) (by simp)
        rw [show P [x] = x from rfl] at this
        rw [this]
        show Res.ok (P (Url.push x (y :: l))) = _
        rw [Url.push, if_neg (fun e => hy.2 e.1)]; rfl
      · intro e
        have e := of_decide_eq_true e
        cases l with
        | nil => rw [P] at e; exact hy.1.2.2 e
        | cons => rw [P] at e; cases e

theorem unblank_drive {x : UInt8} (hx : An.isAlpha x = true) {hs : List Bytes} (h : Down hs) :
    unblank (onDrive x hs) = .ok (onDrive x hs) := by
  have he := drive_elems hx h
  rw [onDrive, Url.R_cons _ _ (by simp), unblank, if_neg, unblank_P _ (by simp) he, Res.ok_bind,
    mul_root_P _ (fun y hy => (he y hy).1), Url.strip_eq_self, Url.R_cons _ _ (by simp)]
  · intro e
    exact (he _ (List.mem_of_mem_head? e)).2 rfl
  · intro e
    have e := of_decide_eq_true e
    match hm : names hs with
    | [] => rw [hm] at e; cases e
    | y :: l => rw [hm] at e; cases e

/-- A special component before ordinary names. -/
theorem system_special (env : Env) (f : Nat) (c : UInt8) (e : Bytes) (hc : c = c! '~' ∨ c = c! '$')
    (h : ∀ d ∈ e, isSep d = false ∧ d ≠ c! ':' ∧ d ≠ c! ';') (ns : List Bytes) (hns : ∀ x ∈ ns, FileName x) (s : Bytes)
    (hs : Spelled ((c :: e) :: ns) s) :
    system env (f + 1) s = (getAtom env (system env f) true (c :: e) >>= fun u =>
      if ns = [] then .ok u else addFront u (P (names ns))) := by
  have hcs : isSep c = false ∧ c ≠ c! ':' ∧ c ≠ c! ';' := by rcases hc with rfl | rfl <;> decide
  have hall : ∀ d ∈ c :: e, isSep d = false ∧ d ≠ c! ':' ∧ d ≠ c! ';' := by
    intro d hd
    rcases List.mem_cons.1 hd with rfl | hd
    · exact hcs
    · exact h d hd
  have hno : ∀ d, isSep d = false → (d ≠ c! ':' ∧ d ≠ c! ';' → False) → d ∉ s := by
    intro d hd hbad hm
    rcases spelled_mem hs hm with h' | ⟨x, hx, h'⟩
    · rw [hd] at h'; cases h'
    · rcases List.mem_cons.1 hx with rfl | hx
      · exact hbad (hall d h').2
      · have := (hns x hx).chars d h'
        exact hbad ⟨this.2.2.2.1, this.2.2.2.2⟩
  have n1 : c! ':' ∉ s := hno _ (by decide) fun h => h.1 rfl
  have n2 : c! ';' ∉ s := hno _ (by decide) fun h => h.2 rfl
  obtain ⟨t, ht⟩ : ∃ t, s = c :: t := by
    cases hs with
    | one => exact ⟨e, rfl⟩
    | cons _ d hd hs => exact ⟨_, rfl⟩
  have hdef : isDefault s = .ok false := by
    rw [ht]
    cases t with
    | nil => rfl
    | cons b t => rcases hc with rfl | rfl <;> rfl
  have hbl : (b!"//").isPrefixOf s = false := by
    rw [ht]; rcases hc with rfl | rfl <;> rfl
  have hw1 : (b!"www.").isPrefixOf s = false := by
    rw [ht]; rcases hc with rfl | rfl <;> rfl
  have hw2 : (b!"ftp.").isPrefixOf s = false := by
    rw [ht]; rcases hc with rfl | rfl <;> rfl
  rw [system_plain env f s (noOcc_of_colon n1) (notPrefix (c! ':') (by decide) n1) hbl n2, hdef, Res.ok_bind,
    if_neg (by simp), hw1, hw2, if_neg (by simp), if_neg (by simp)]
  have hcomp := components_spelled hs (by
    intro x hx
    rcases List.mem_cons.1 hx with rfl | hx
    · exact ⟨by simp, fun d hd => (hall d hd).1⟩
    · exact ⟨(hns x hx).plain.nonempty, (hns x hx).plain.no_sep⟩) []
  simp only [List.nil_append, List.length_nil] at hcomp
  rw [getName, hcomp, getAtoms, if_neg (by simp)]
  cases getAtom env (system env f) true (c :: e) with
  | ok u =>
    rw [Res.ok_bind, getAtoms_plain env _ ns fun x hx => (hns x hx).plain, map_atomOf hns]
    show assemble (u :: names ns) = _
    cases ns with
    | nil => rfl
    | cons y ns =>
      have hn := assemble_atoms (names (y :: ns)) (by
        intro z hz
        refine ⟨names_elem hns z hz, ?_⟩
        obtain ⟨w, _, rfl⟩ := List.mem_map.1 hz
        rfl) (by simp [names])
      rw [Res.ok_bind, if_neg (by simp)]
      simp only [names, List.map_cons] at hn ⊢
      rw [assemble, hn, Res.ok_bind]
      simp
  | ub => rfl
  | thrown => rfl
  | hang => rfl

theorem addFront_drive {x : UInt8} (hx : An.isAlpha x = true) {hs ns : List Bytes} (h1 : Down hs) (h2 : Down ns) :
    (if ns = [] then .ok (onDrive x hs) else addFront (onDrive x hs) (P (names ns))) = .ok (onDrive x (hs ++ ns)) := by
  by_cases hn : ns = []
  · rw [if_pos hn, hn, List.append_nil]
  · rw [if_neg hn, ← mul_drive hx h1 h2 hn]
    rw [addFront, onDrive, Url.R_cons _ _ (by simp)]
    rfl

theorem system_onDrive (env : Env) (f : Nat) {x : UInt8} (hx : An.isAlpha x = true) {hs : List Bytes} (h : Down hs) :
    system env (f + 1) (x :: c! ':' :: c! '\\' :: wtext hs) = .ok (onDrive x hs) := by
  have := C117_print_read env f x hx hs fun y hy => (h y hy).1
  rw [asString_R, if_pos (show [x].length = 1 from rfl)] at this
  exact this

/-! ## Values that end with a separator -/

theorem components_trail {ns : List Bytes} {s : Bytes} (h : Spelled ns s)
    (hn : ∀ x ∈ ns, x ≠ [] ∧ ∀ c ∈ x, isSep c = false) (d : UInt8) (hd : isSep d = true) (pre : Bytes) :
    components true (pre ++ (s ++ [d])) pre.length = ns ++ [[]] := by
  induction h generalizing pre with
  | one x =>
    obtain ⟨h1, h2⟩ := hn x (by simp)
    have := components_name pre x [d] h2 h1 (.inr ⟨d, [], rfl, hd⟩)
    rw [List.append_assoc] at this
    rw [this, components, if_pos (by simp), nextSep_eq _ _ (pre.length + x.length) (by omega) (by simp)
      (fun k _ _ _ => by omega) (.inr ⟨d, by
        rw [← List.append_assoc, List.getElem?_append_right (by simp)]; simp, hd⟩)]
    dsimp only
    rw [if_neg (by omega), if_pos (by simp; omega)]
    rfl
  | cons x c hc hs ih =>
    rename_i ns s
    obtain ⟨h1, h2⟩ := hn x (by simp)
    have e : pre ++ (x ++ c :: s ++ [d]) = pre ++ x ++ c :: (s ++ [d]) := by simp
    rw [e, components_name pre x (c :: (s ++ [d])) h2 h1 (.inr ⟨c, _, rfl, hc⟩)]
    have := ih (fun y hy => hn y (by simp [hy])) (pre ++ x ++ [c])
    rw [components_skip _ _ c (by simp) hc (by simp; omega)]
    have e2 : pre ++ x ++ c :: (s ++ [d]) = pre ++ x ++ [c] ++ (s ++ [d]) := by simp
    have e3 : pre.length + x.length + 1 = (pre ++ x ++ [c]).length := by simp; omega
    rw [e2, e3, this]
    rfl

theorem getAtoms_trail (env : Env) (gen : Bytes → Res Url) (ns : List Bytes) (h : ∀ x ∈ ns, Plain x) :
    getAtoms env gen true (ns ++ [[]]) = .ok ((ns.map fun x => .atom (atomOf x)) ++ [.atom []]) := by
  induction ns with
  | nil => rfl
  | cons x ns ih =>
    have hx := h x (by simp)
    rw [List.cons_append, getAtoms, if_neg hx.nonempty, getAtom_plain env gen hx, Res.ok_bind,
      ih fun y hy => h y (by simp [hy])]
    rfl

theorem assemble_trail (l : List Url) (h : ∀ x ∈ l, Elem x ∧ Url.isAtomic x = true) :
    assemble (l ++ [.atom []]) = .ok (P (l ++ [.atom []])) := by
  induction l with
  | nil => rfl
  | cons x l ih =>
    have e := ih fun z hz => h z (by simp [hz])
    obtain ⟨y, m, hm⟩ : ∃ y m, l ++ [Url.atom []] = y :: m := by cases l <;> exact ⟨_, _, rfl⟩
    rw [hm] at e
    rw [List.cons_append, hm, assemble, e, Res.ok_bind]
    · obtain ⟨hx, hat⟩ := h x (by simp)
      rw [addFront, if_neg (by simp [Url.isAtom_here, Url.isAtom_empty, hx.2.1, hx.2.2]), if_pos hat, P]
    · simp

theorem unblank_trail (l : List Url) (hne : l ≠ []) (h : ∀ y ∈ l, Elem y ∧ y ≠ parent) :
    unblank (P (l ++ [.atom []])) = .ok (P l) := by
  induction l with
  | nil => exact absurd rfl hne
  | cons x l ih =>
    have hx := h x (by simp)
    cases l with
    | nil => rfl
    | cons y l =>
      have hy := h y (by simp)
      have ih := ih (by simp) fun z hz => h z (by simp [hz])
      show unblank (.concat x (P ((y :: l) ++ [.atom []]))) = _
      rw [unblank, if_neg, ih, Res.ok_bind]
      · have := mul_P (l1 := [x]) (l2 := y :: l) (by simpa using hx.1) (fun z hz => (h z (by simp [hz])).1) (by simp)
        rw [show P [x] = x from rfl] at this
        rw [this]
        show Res.ok (P (Url.push x (y :: l))) = _
        rw [Url.push, if_neg (fun e => hy.2 e.1)]
      · intro e
        have e := of_decide_eq_true e
        cases l <;> cases e

theorem mul_trail (l m : List Url) (hl : ∀ y ∈ l, Elem y ∧ y ≠ parent) (hm : ∀ y ∈ m, Elem y ∧ y ≠ parent) (hne : l ≠ [])
    (hmne : m ≠ []) : mul (P (l ++ [.atom []])) (P m) = .ok (P (l ++ m)) := by
  have hm1 : ∀ y ∈ m, Elem y := fun y hy => (hm y hy).1
  have t1 := Url.topRoot_P hm1
  have t2 : P m ≠ here := fun e => hmne (Url.P_eq_here hm1 e)
  have t3 := Url.P_ne_none hm1
  have hlast : mul (.atom []) (P m) = .ok (P m) := by
    rw [mul_plain _ _ t1, if_pos (by simp [Url.isAtom])]
  have hone : ∀ (x : Url) (k : List Url), Elem x → (∀ y ∈ k, Elem y ∧ y ≠ parent) → mul x (P k) = .ok (P (x :: k)) := by
    intro x k hx hk
    rw [mul_elem hx fun y hy => (hk y hy).1]
    cases k with
    | nil => rfl
    | cons y k => rw [Url.push, if_neg fun e => (hk y (by simp)).2 e.1]
  induction l with
  | nil => exact absurd rfl hne
  | cons x l ih =>
    have hx := (hl x (by simp)).1
    have hsemi : ∀ b, isSemiRoot (.concat x b) = false := by
      intro b
      have := hx.not_root
      simp [isSemiRoot, this]
    cases l with
    | nil =>
      show mul (.concat x (.atom [])) (P m) = _
      rw [mul_concat t1 t2 t3 (.inl (hsemi _)), hlast, Res.ok_bind, hone x m hx hm]
      rfl
    | cons y l =>
      have ih := ih (fun z hz => hl z (by simp [hz])) (by simp)
      show mul (.concat x (P ((y :: l) ++ [.atom []]))) (P m) = _
      rw [mul_concat t1 t2 t3 (.inl (hsemi _)), ih, Res.ok_bind, hone x _ hx]
      · rfl
      · intro z hz
        rcases List.mem_append.1 hz with hz | hz
        · exact hl z (by simp [hz])
        · exact hm z hz

/-- What a path on a drive with a separator at the end is read as. -/
def trailing (x : UInt8) (hs : List Bytes) : Url := .concat (.root (b!"default")) (P ((.atom [x] :: names hs) ++ [.atom []]))

theorem system_trailing (env : Env) (f : Nat) {x d : UInt8} (hx : An.isAlpha x = true) (hd : isSep d = true)
    {hs : List Bytes} (h : Down hs) (hne : hs ≠ []) :
    system env (f + 1) (x :: c! ':' :: c! '\\' :: (wtext hs ++ [d])) = .ok (trailing x hs) := by
  have hn : ∀ y ∈ hs, FileName y := fun y hy => (h y hy).1
  have hsp := spelled_wtext hs hne
  obtain ⟨p1, p2⟩ := plain_drive x hx
  obtain ⟨n1, n2⟩ := spelled_no hsp hn
  obtain ⟨c, t, e, hc⟩ := spelled_head hsp hn
  have hd2 : c! ':' ≠ d ∧ c! ';' ≠ d := by constructor <;> rintro rfl <;> exact absurd hd (by decide)
  have hall : ∀ y ∈ [x, c! ':'] :: hs, Plain y := by
    intro y hy
    rcases List.mem_cons.1 hy with rfl | hy
    · exact p1
    · exact (hn y hy).plain
  rw [system_drive env f x (c! '\\') hx rfl (wtext hs ++ [d]) (by simp [n1, hd2.1]) (by simp [n2, hd2.2])
    (.inr ⟨c, t ++ [d], by rw [e]; rfl, hc⟩)]
  have hsp2 : Spelled ([x, c! ':'] :: hs) (x :: c! ':' :: c! '\\' :: wtext hs) := .cons [x, c! ':'] (c! '\\') rfl hsp
  have hcomp := components_trail hsp2 (fun y hy => ⟨(hall y hy).nonempty, (hall y hy).no_sep⟩) d hd []
  have he := drive_elems hx h
  have hg : getName env (system env f) true (x :: c! ':' :: c! '\\' :: (wtext hs ++ [d])) =
      .ok (P ((.atom [x] :: names hs) ++ [.atom []])) := by
    rw [getName]
    simp only [List.nil_append, List.length_nil, List.cons_append] at hcomp
    rw [hcomp, ← List.cons_append, getAtoms_trail env _ _ hall, Res.ok_bind, List.map_cons, p2, map_atomOf hn]
    apply assemble_trail
    intro y hy
    refine ⟨(he y hy).1, ?_⟩
    rcases List.mem_cons.1 hy with rfl | hy
    · rfl
    · obtain ⟨w, _, rfl⟩ := List.mem_map.1 hy
      rfl
  rw [urlDefault, hg, Res.ok_bind]
  obtain ⟨y, l, hl⟩ : ∃ y l, names hs = y :: l := by
    cases hs with
    | nil => exact absurd rfl hne
    | cons y l => exact ⟨_, _, rfl⟩
  have hP : P ((.atom [x] :: names hs) ++ [.atom []]) = .concat (.atom [x]) (P (y :: (l ++ [.atom []]))) := by
    rw [hl]; rfl
  have hdrop : dropEmpty (P ((.atom [x] :: names hs) ++ [.atom []])) = P ((.atom [x] :: names hs) ++ [.atom []]) := by
    rw [hP, dropEmpty, if_neg]
    intro e
    have e := of_decide_eq_true e
    cases l <;> cases e
  rw [hdrop, trailing, hP]
  rw [mul_plain _ _ rfl]
  simp [Url.isAtom, Url.isNone, Url.parentFirst]

theorem unblank_trailing {x : UInt8} (hx : An.isAlpha x = true) {hs : List Bytes} (h : Down hs) :
    unblank (trailing x hs) = .ok (onDrive x hs) := by
  have he := drive_elems hx h
  rw [trailing, unblank, if_neg, unblank_trail _ (by simp) he, Res.ok_bind, mul_root_P _ (fun y hy => (he y hy).1),
    Url.strip_eq_self]
  · rfl
  · intro e
    exact (he _ (List.mem_of_mem_head? e)).2 rfl
  · intro e
    have e := of_decide_eq_true e
    match hm : names hs with
    | [] => rw [hm] at e; cases e
    | y :: l => rw [hm] at e; cases e

theorem addFront_trailing {x : UInt8} (hx : An.isAlpha x = true) {hs ns : List Bytes} (h1 : Down hs) (h2 : Down ns)
    (hne : ns ≠ []) : addFront (trailing x hs) (P (names ns)) = .ok (onDrive x (hs ++ ns)) := by
  have e1 := drive_elems hx h1
  have e2 := h2.elem
  have hn : names ns ≠ [] := by simpa [names] using hne
  rw [addFront, if_neg (by simp [trailing, Url.isAtom]), if_neg (by simp [trailing, Url.isAtomic]), trailing,
    mul_concat (Url.topRoot_P fun y hy => (e2 y hy).1)
    (fun e => hn (Url.P_eq_here (fun y hy => (e2 y hy).1) e)) (Url.P_ne_none fun y hy => (e2 y hy).1)
    (.inr (parentFirst_P e2)), mul_trail _ _ e1 e2 (by simp) hn, Res.ok_bind, mul_root_P, Url.strip_eq_self]
  · simp [onDrive, names]
  · intro e
    simp only [List.cons_append, List.head?_cons, Option.some.injEq] at e
    exact (drive_elem x hx).2 e
  · intro y hy
    rcases List.mem_append.1 hy with hy | hy
    · exact (e1 y hy).1
    · exact (e2 y hy).1

/-! ## C121 -/

/-- C121: `~` at the beginning stands for the home directory. -/
theorem C121_home (env : Env) (f : Nat) (x : UInt8) (hx : An.isAlpha x = true) (hs ns : List Bytes) (h1 : Down hs)
    (h2 : Down ns) (he : env (b!"HOME") = x :: c! ':' :: c! '\\' :: wtext hs) (s : Bytes) (hsp : Spelled ((b!"~") :: ns) s) :
    system env (f + 2) s = .ok (onDrive x (hs ++ ns)) := by
  rw [system_special env (f + 1) (c! '~') [] (.inl rfl) (by simp) ns (fun x hx => (h2 x hx).1) s hsp, getAtom,
    if_pos ⟨rfl, rfl⟩, he, system_onDrive env f hx h1, Res.ok_bind]
  exact addFront_drive hx h1 h2

/-- Without the variable HOME, which Windows does not set, `~\x` is the relative path `x`. -/
theorem C121_home_unset (env : Env) (f : Nat) (ns : List Bytes) (hne : ns ≠ [])
    (h : Down ns) (he : env (b!"HOME") = []) (s : Bytes) (hsp : Spelled ((b!"~") :: ns) s) :
    system env (f + 2) s = .ok (P (names ns)) := by
  rw [system_special env (f + 1) (c! '~') [] (.inl rfl) (by simp) ns (fun x hx => (h x hx).1) s hsp, getAtom,
    if_pos ⟨rfl, rfl⟩, he, WinListProps.system_nil, Res.ok_bind, if_neg hne]
  rfl

theorem getAtom_var (env : Env) (gen : Bytes → Res Url) (v : Bytes) :
    getAtom env gen true ((c! '$') :: v) =
      if env v = [] then .ok .none else (gen (env v) >>= unblank) := by
  rw [getAtom, if_neg (by simp)]
  have hd : An.starts ((c! '$') :: v) (b!"$") = .ok true := by
    rw [Url.starts_eq]; rfl
  have hsub : An.sub ((c! '$') :: v) 1 ((c! '$') :: v).length = v := by
    have := An.sub_nat ((c! '$') :: v) 1 ((c! '$') :: v).length
    rw [List.take_length] at this
    exact this
  simp only [hd, Res.ok_bind]
  rw [if_pos ⟨trivial, trivial⟩, hsub]

/-- C121: `$V` at the beginning stands for the directory that is the value of the variable V. If it is not set, the url is
`{}`, which stands for no file. -/
theorem C121_variable (env : Env) (f : Nat) (v : Bytes) (hv : ∀ d ∈ v, isSep d = false ∧ d ≠ c! ':' ∧ d ≠ c! ';')
    (x : UInt8) (hx : An.isAlpha x = true) (hs ns : List Bytes) (h1 : Down hs) (h2 : Down ns) (s : Bytes)
    (hsp : Spelled ((c! '$' :: v) :: ns) s) :
    (env v = x :: c! ':' :: c! '\\' :: wtext hs → system env (f + 2) s = .ok (onDrive x (hs ++ ns))) ∧
    (env v = [] → system env (f + 2) s = .ok .none) := by
  rw [system_special env (f + 1) (c! '$') v (.inr rfl) hv ns (fun x hx => (h2 x hx).1) s hsp, getAtom_var]
  constructor
  · intro he
    rw [he, if_neg (by simp), system_onDrive env f hx h1, Res.ok_bind, unblank_drive hx h1, Res.ok_bind]
    exact addFront_drive hx h1 h2
  · intro he
    rw [if_pos he, Res.ok_bind]
    by_cases hn : ns = []
    · rw [if_pos hn]
    · rw [if_neg hn, addFront, if_neg (by simp [Url.isAtom]), if_neg (by simp [Url.isAtomic])]
      have e2 := h2.elem
      rw [mul_plain _ _ (Url.topRoot_P fun y hy => (e2 y hy).1), if_neg (by simp [Url.isAtom])]
      by_cases hh : Url.isAtom (P (names ns)) (b!".") = true
      · rw [if_pos hh]
      · rw [if_neg hh, if_pos (by simp [Url.isNone])]

/-- C121: a `\` or `/` at the end of the value of a variable makes no difference. -/
theorem C121_trailing (env : Env) (f : Nat) (v : Bytes) (hv : ∀ d ∈ v, isSep d = false ∧ d ≠ c! ':' ∧ d ≠ c! ';')
    (x d : UInt8) (hx : An.isAlpha x = true) (hd : isSep d = true) (hs ns : List Bytes) (h1 : Down hs) (hne : hs ≠ [])
    (h2 : Down ns) (s : Bytes) :
    (env v = x :: c! ':' :: c! '\\' :: (wtext hs ++ [d]) → Spelled ((c! '$' :: v) :: ns) s →
      system env (f + 2) s = .ok (onDrive x (hs ++ ns))) ∧
    (env (b!"HOME") = x :: c! ':' :: c! '\\' :: (wtext hs ++ [d]) → ns ≠ [] → Spelled ((b!"~") :: ns) s →
      system env (f + 2) s = .ok (onDrive x (hs ++ ns))) := by
  constructor
  · intro he hsp
    rw [system_special env (f + 1) (c! '$') v (.inr rfl) hv ns (fun x hx => (h2 x hx).1) s hsp, getAtom_var, he,
      if_neg (by simp), system_trailing env f hx hd h1 hne, Res.ok_bind, unblank_trailing hx h1, Res.ok_bind]
    exact addFront_drive hx h1 h2
  · intro he hn hsp
    rw [system_special env (f + 1) (c! '~') [] (.inl rfl) (by simp) ns (fun x hx => (h2 x hx).1) s hsp, getAtom,
      if_pos ⟨rfl, rfl⟩, he, system_trailing env f hx hd h1 hne, Res.ok_bind, if_neg hn]
    exact addFront_trailing hx h1 h2 hn

/-- C121: nothing else stands for a variable: `%V%`, as variables are written on Windows, is a name like any other. -/
theorem C121_percent (env : Env) (f : Nat) (v : Bytes) (hv : FileName v) (ns : List Bytes) (h2 : Down ns) (s : Bytes)
    (hsp : Spelled ((b!"%" ++ v ++ b!"%") :: ns) s) :
    system env (f + 1) s = .ok (P (names ((b!"%" ++ v ++ b!"%") :: ns))) := by
  have hf : FileName (b!"%" ++ v ++ b!"%") := by
    refine ⟨by simp, by simp, ?_, by simp, by simp⟩
    intro c hc
    simp only [List.mem_append, List.mem_cons, List.not_mem_nil, or_false] at hc
    rcases hc with (rfl | hc) | rfl
    · decide
    · exact hv.chars c hc
    · decide
  obtain ⟨t, ht⟩ : ∃ t, s = c! '%' :: t := by
    cases hsp with
    | one => exact ⟨v ++ b!"%", rfl⟩
    | cons _ d hd hs => exact ⟨_, rfl⟩
  refine (C117_relative_partial env f _ s hsp ?_ ?_ ?_ ?_).1
  · intro y hy
    rcases List.mem_cons.1 hy with rfl | hy
    · exact hf
    · exact (h2 y hy).1
  · rw [ht]; rintro ⟨r, hr⟩; injection hr with hr _; exact absurd hr (by decide)
  · rw [ht]; rintro ⟨r, hr⟩; injection hr with hr _; exact absurd hr (by decide)
  · intro c hc
    rw [ht] at hc
    injection hc with hc
    rw [← hc]; decide

/-- `$APPDATA\a/b` for the directory `C:\Users\u`. -/
example : Spelled ((c! '$' :: b!"APPDATA") :: [b!"a", b!"b"]) (b!"$APPDATA\\a/b") ∧
    (∀ d ∈ b!"APPDATA", isSep d = false ∧ d ≠ c! ':' ∧ d ≠ c! ';') ∧
    c! 'C' :: c! ':' :: c! '\\' :: wtext [b!"Users", b!"u"] = b!"C:\\Users\\u" ∧ Down [b!"Users", b!"u"] ∧
    asString true (onDrive (c! 'C') ([b!"Users", b!"u"] ++ [b!"a", b!"b"])) = b!"C:\\Users\\u\\a\\b" := by
  refine ⟨.cons (b!"$APPDATA") (c! '\\') rfl (.cons (b!"a") (c! '/') rfl (.one _)), by decide, by decide, ?_, by decide⟩
  intro y hy
  simp only [List.mem_cons, List.not_mem_nil, or_false] at hy
  rcases hy with rfl | rfl <;> exact ⟨⟨by decide, by decide, by decide, by decide, by decide⟩, by decide⟩

end Lolly.WinHomeProps
