import Verif.System.UrlProps

set_option autoImplicit false

/-!
# C50: the relative way from one url to another
-/

namespace Lolly.UrlDeltaProps

open Lolly.Url

/-! ## Helpers -/

theorem head_P {l : List Url} (hl : ∀ y ∈ l, Elem y) (hp : parent ∉ l) (hne : l ≠ []) :
    head (P l) = .ok (P l.dropLast) := by
  have e := List.dropLast_concat_getLast hne
  have := (UrlProps.C47_path l.dropLast (l.getLast hne) (fun y hy => hl y (List.dropLast_subset _ hy))
    (hl _ (List.getLast_mem hne)) (normal_of_no_parent fun h => hp (List.dropLast_subset _ h))
    (fun h => hp (h ▸ List.getLast_mem hne))).1
  rwa [e] at this

theorem head_R {r : Bytes} {l : List Url} (hl : ∀ y ∈ l, Elem y) (hp : parent ∉ l) (hne : l ≠ [])
    (hw : webProtocol r = true → 2 ≤ l.length) : head (R r l) = .ok (R r l.dropLast) := by
  have e := List.dropLast_concat_getLast hne
  have := (UrlProps.C47_rooted r l.dropLast (l.getLast hne) (fun y hy => hl y (List.dropLast_subset _ hy))
    (hl _ (List.getLast_mem hne)) (fun h => hp (List.dropLast_subset _ h))
    (fun h => hp (h ▸ List.getLast_mem hne)) (fun h h0 => by
      have h1 := hw h
      have h2 : l.length - 1 = 0 := by rw [← List.length_dropLast, h0]; rfl
      omega)).1
  rwa [e] at this

theorem mul_parent_none : mul parent .none = .ok .none := by
  rw [mul_plain _ _ rfl]; decide

theorem mul_parent_P {m : List Url} (hm : ∀ y ∈ m, Elem y) (hne : m ≠ []) :
    mul parent (P m) = .ok (P (parent :: m)) := by
  rw [mul_elem (by decide) hm]
  cases m with
  | nil => exact absurd rfl hne
  | cons y m => rw [push, if_neg (by simp)]

theorem mul_parent_rooted (u : Url) (h : topRoot u = true) : mul parent u = .ok u := by
  rw [mul.eq_def, if_pos h, if_neg (by decide)]
  rfl

theorem notSemi_P (x y : Url) (l : List Url) (hx : Elem x) : isSemiRoot (.concat x (P (y :: l))) = false := by
  have := hx.not_root
  have h2 : isRootWeb x = false := by
    cases h : isRootWeb x with
    | false => rfl
    | true => rw [isRootWeb_isRoot h] at this; exact absurd this (by simp)
  simp [isSemiRoot, isSpecialRoot, h2]

theorem notConcat {u : Url} (h : isConcat u = false) (c d : Url) : u ≠ .concat c d := by
  intro e; rw [e] at h; simp [isConcat] at h

theorem deltaSub_concat (f : Nat) (a b u : Url) (h : ∀ c d, u = .concat c d → a ≠ c)
    (hs : isSemiRoot (.concat a b) = false) : deltaSub (f + 1) (.concat a b) u =
      (head (.concat a b) >>= fun h => deltaSub f h u >>= fun d => mul parent d) := by
  rw [deltaSub.eq_def]
  cases u with
  | concat c d =>
    dsimp only
    rw [if_neg (h c d rfl), if_pos (by simp [hs])]
  | _ =>
    dsimp only
    rw [if_pos (by simp [hs])]

/-- When the first components differ, or the target has only one, the way leads up to the first component of the
base. -/
theorem deltaSub_up (f : Nat) (l m : List Url) (hl : ∀ y ∈ l, Elem y) (hm : ∀ y ∈ m, Elem y) (hpl : parent ∉ l)
    (hne : l ≠ []) (hmne : m ≠ []) (hf : l.length ≤ f)
    (hd : l.length = 1 ∨ m.length = 1 ∨ l.head? ≠ m.head?) :
    ∃ v, deltaSub f (P l) (P m) = .ok v ∧ ((v = .none ∧ ∃ w ∈ l, isAtomic w = false) ∨
      v = P (List.replicate (l.length - 1) parent ++ m)) := by
  induction h : l.length generalizing l f with
  | zero => exact absurd (by simpa using h) hne
  | succ n ih =>
    obtain ⟨f, rfl⟩ : ∃ g, f = g + 1 := ⟨f - 1, by omega⟩
    match l, hne with
    | [x], _ =>
      have hx := hl x (by simp)
      cases x with
      | atom s => exact ⟨P m, rfl, .inr (by simp at h; subst h; rfl)⟩
      | wild0 => exact ⟨.none, rfl, .inl ⟨rfl, .wild0, by simp, rfl⟩⟩
      | wild1 s => exact ⟨.none, rfl, .inl ⟨rfl, .wild1 s, by simp, rfl⟩⟩
      | none => exact absurd hx (by decide)
      | root => exact absurd hx.1 (by simp [isPseudoAtomic])
      | root3 => exact absurd hx.1 (by simp [isPseudoAtomic])
      | concat => exact absurd hx.1 (by simp [isPseudoAtomic])
      | or => exact absurd hx.1 (by simp [isPseudoAtomic])
    | x :: y :: l, _ =>
      have hx := hl x (by simp)
      have hsemi := notSemi_P x y l hx
      have hup : deltaSub (f + 1) (P (x :: y :: l)) (P m) =
          (head (P (x :: y :: l)) >>= fun h => deltaSub f h (P m) >>= fun d => mul parent d) := by
        rw [P]
        refine deltaSub_concat f x _ _ (fun c d hcd e => ?_) hsemi
        match m, hmne with
        | [z], _ => rw [P] at hcd; exact notConcat (hm z (by simp)).not_concat _ _ hcd
        | z :: w :: m, _ =>
          rw [P] at hcd
          injection hcd with h1 h2
          rcases hd with hd | hd | hd
          · simp at hd
          · simp at hd
          · exact hd (by simp [e, ← h1])
      have hdl : (x :: y :: l).dropLast ≠ [] := by simp
      have hdlen : (x :: y :: l).dropLast.length = n := by rw [List.length_dropLast, h]; rfl
      obtain ⟨v, e, hv⟩ := ih f (x :: y :: l).dropLast (fun z hz => hl z (List.dropLast_subset _ hz))
        (fun h => hpl (List.dropLast_subset _ h)) hdl (by simp at hf ⊢; omega)
        (by
          rcases hd with hd | hd | hd
          · simp at hd
          · exact .inr (.inl hd)
          · exact .inr (.inr (by simpa using hd))) hdlen
      rw [hup, head_P hl hpl (by simp), Res.ok_bind, e, Res.ok_bind]
      rcases hv with ⟨rfl, w, hw, hw'⟩ | rfl
      · exact ⟨_, mul_parent_none, .inl ⟨rfl, w, List.dropLast_subset _ hw, hw'⟩⟩
      · have hn : n = (n - 1) + 1 := by simp at h; omega
        refine ⟨_, mul_parent_P ?_ (by simp [hmne]), .inr ?_⟩
        · intro z hz
          rcases List.mem_append.1 hz with hz | hz
          · rw [List.eq_of_mem_replicate hz]; exact elem_parent
          · exact hm z hz
        · rw [show n + 1 - 1 = (n - 1) + 1 by omega]
          conv => rhs; rw [List.replicate_succ]
          rfl

/-- Common first components are skipped. -/
theorem deltaSub_common (f : Nat) (c l m : List Url) (hl : ∀ y ∈ c ++ l, Elem y) (hne : l ≠ []) (hmne : m ≠ []) :
    deltaSub (f + c.length) (P (c ++ l)) (P (c ++ m)) = deltaSub f (P l) (P m) := by
  induction c with
  | nil => rfl
  | cons x c ih =>
    have hx := hl x (by simp)
    have hw : isSpecialRoot x = false := by
      have := hx.not_root
      cases h : isRootWeb x with
      | false => exact h
      | true => rw [isRootWeb_isRoot h] at this; exact absurd this (by simp)
    rw [List.cons_append, List.cons_append, P_cons _ _ (by simp [hne]), P_cons _ _ (by simp [hmne]), List.length_cons,
      ← Nat.add_assoc, deltaSub.eq_def]
    dsimp only
    rw [if_pos rfl]
    rw [← ih (fun y hy => hl y (by simp at hy ⊢; exact .inr hy))]
    split
    · rw [if_neg (by simp [hw])]
    · rfl

/-- Two lists split at the end of their common beginning, but such that both rests are not empty. -/
theorem common_split (l m : List Url) (hl : l ≠ []) (hm : m ≠ []) : ∃ c l' m', l = c ++ l' ∧ m = c ++ m' ∧ l' ≠ [] ∧
    m' ≠ [] ∧ (l'.length = 1 ∨ m'.length = 1 ∨ l'.head? ≠ m'.head?) := by
  induction l generalizing m with
  | nil => exact absurd rfl hl
  | cons x l ih =>
    cases m with
    | nil => exact absurd rfl hm
    | cons y m =>
      by_cases h : l ≠ [] ∧ m ≠ [] ∧ x = y
      · obtain ⟨c, l', m', e1, e2, h1, h2, h3⟩ := ih m h.1 h.2.1
        exact ⟨x :: c, l', m', by simp [e1], by simp [e2, h.2.2], h1, h2, h3⟩
      · refine ⟨[], x :: l, y :: m, rfl, rfl, by simp, by simp, ?_⟩
        by_cases h1 : l = []
        · simp [h1]
        · by_cases h2 : m = []
          · simp [h2]
          · exact .inr (.inr (by simp; exact fun e => h ⟨h1, h2, e⟩))

theorem deltaSub_P (f : Nat) (l m : List Url) (hl : ∀ y ∈ l, Elem y) (hm : ∀ y ∈ m, Elem y) (hpl : parent ∉ l)
    (hne : l ≠ []) (hmne : m ≠ []) (hf : l.length ≤ f) : ∃ v, deltaSub f (P l) (P m) = .ok v ∧
      ((v = .none ∧ ∃ w ∈ l, isAtomic w = false) ∨ ∃ c l' m', l = c ++ l' ∧ m = c ++ m' ∧ l' ≠ [] ∧ m' ≠ [] ∧
        v = P (List.replicate (l'.length - 1) parent ++ m')) := by
  obtain ⟨c, l', m', rfl, rfl, h1, h2, h3⟩ := common_split l m hne hmne
  have := deltaSub_up (f - c.length) l' m' (fun y hy => hl y (by simp [hy])) (fun y hy => hm y (by simp [hy]))
    (fun h => hpl (by simp [h])) h1 h2 (by simp at hf; omega) h3
  have e := deltaSub_common (f - c.length) c l' m' hl h1 h2
  rw [Nat.sub_add_cancel (by simp at hf; omega)] at e
  rw [e]
  obtain ⟨v, ev, hv⟩ := this
  refine ⟨v, ev, ?_⟩
  rcases hv with ⟨hv, w, hw, hw'⟩ | hv
  · exact .inl ⟨hv, w, by simp [hw], hw'⟩
  · exact .inr ⟨c, l', m', rfl, rfl, h1, h2, hv⟩

theorem joinL_back (c l' m' : List Url) (hl : parent ∉ c ++ l') (hm : parent ∉ m') (hne : l' ≠ []) (hmne : m' ≠ []) :
    joinL (c ++ l').dropLast (List.replicate (l'.length - 1) parent ++ m') = c ++ m' := by
  have hp : parent ∉ (c ++ l').dropLast := fun h => hl (List.dropLast_subset _ h)
  have hlen : 0 < l'.length := List.length_pos_iff.2 hne
  rw [joinL_ups hp _ (by simp; omega)]
  have : (c ++ l').dropLast.take ((c ++ l').dropLast.length - (l'.length - 1)) = c := by
    rw [show (c ++ l').dropLast.length - (l'.length - 1) = c.length by simp; omega, List.dropLast_append_of_ne_nil hne]
    simp
  rw [this]
  exact joinL_disjoint (normal_of_no_parent fun h => hl (by simp [h])) (fun h => hm (List.mem_of_mem_head? h)) hmne

theorem delta_single (f : Nat) (base u : Url) (h : isOr u = false) :
    delta f base u = (deltaSub f base u >>= fun r => .ok (if isNone r then u else r)) := by
  cases u <;> simp_all [isOr, delta]

theorem isOr_P {l : List Url} (h : ∀ y ∈ l, Elem y) : isOr (P l) = false := by
  match l with
  | [] => rfl
  | [x] =>
    have := (h x (by simp)).1
    rw [P]; cases x <;> simp_all [isOr, isPseudoAtomic]
  | x :: y :: l => rw [P]; rfl

theorem isOr_R (r : Bytes) (l : List Url) : isOr (R r l) = false := by
  unfold R
  split <;> rfl

theorem elem_ups {m : List Url} (k : Nat) (hm : ∀ y ∈ m, Elem y) : ∀ y ∈ List.replicate k parent ++ m, Elem y := by
  intro z hz
  rcases List.mem_append.1 hz with hz | hz
  · rw [List.eq_of_mem_replicate hz]; exact elem_parent
  · exact hm z hz

/-- Both below a root `r`: the paths below are compared. -/
theorem deltaSub_R (f : Nat) (r : Bytes) (l m : List Url) (hne : l ≠ []) (hmne : m ≠ [])
    (hw : webProtocol r = true → 2 ≤ l.length → 2 ≤ m.length → l.head? = m.head?)
    (hl : ∀ y ∈ l, Elem y) (hm : ∀ y ∈ m, Elem y) :
    deltaSub (f + 1) (R r l) (R r m) = deltaSub f (P l) (P m) := by
  rw [R_cons r l hne, R_cons r m hmne, deltaSub.eq_def]
  dsimp only
  rw [if_pos rfl]
  match l, hne, m, hmne with
  | x :: y :: l, _, z :: w :: m, _ =>
    rw [P, P]
    dsimp only
    rw [if_neg]
    intro h
    simp only [isSpecialRoot, isRootWeb_root, Bool.and_eq_true, decide_eq_true_eq] at h
    have := hw h.1 (by simp) (by simp)
    simp at this
    exact h.2 this
  | [x], _, m, _ =>
    have hx := (hl x (by simp)).not_concat
    rw [show P [x] = x from rfl]
    cases x <;> simp_all [isConcat]
  | x :: y :: l, _, [z], _ =>
    have hx := (hm z (by simp)).not_concat
    rw [show P [z] = z from rfl]
    cases z <;> simp_all [isConcat, P]

/-- Against a url with another root, or against a bare root, there is no relative way. -/
theorem deltaSub_other (f : Nat) (r : Bytes) (l : List Url) (u : Url) (hl : ∀ y ∈ l, Elem y) (hp : parent ∉ l)
    (hu : ∀ c d, u = .concat c d → .root r ≠ c) (hf : l.length < f) : deltaSub f (R r l) u = .ok .none := by
  induction h : l.length generalizing l f with
  | zero =>
    obtain ⟨f, rfl⟩ : ∃ g, f = g + 1 := ⟨f - 1, by omega⟩
    have : l = [] := by simpa using h
    subst this
    rw [R_nil, deltaSub.eq_def]
  | succ n ih =>
    obtain ⟨f, rfl⟩ : ∃ g, f = g + 1 := ⟨f - 1, by omega⟩
    have hne : l ≠ [] := by intro e; simp [e] at h
    have hsub : ∀ y ∈ l.dropLast, Elem y := fun y hy => hl y (List.dropLast_subset _ hy)
    have hdlen : l.dropLast.length = n := by rw [List.length_dropLast, h]; rfl
    have hi := ih f l.dropLast hsub (fun h => hp (List.dropLast_subset _ h)) (by omega) hdlen
    cases hs : isSemiRoot (R r l) with
    | true =>
      rw [R_cons r l hne] at hs ⊢
      rw [deltaSub.eq_def]
      cases u with
      | concat c d => dsimp only; rw [if_neg (hu c d rfl), if_neg (by simp [hs])]
      | _ => dsimp only; rw [if_neg (by simp [hs])]
    | false =>
      have hh : head (R r l) = .ok (R r l.dropLast) := by
        by_cases hw : webProtocol r = true ∧ l.length = 1
        · match l, h with
          | [x], _ =>
            have hx := hl x (by simp)
            have hxp : x ≠ parent := fun e => hp (by simp [e])
            rw [R_cons r [x] hne] at hs ⊢
            show mul _ (P [parent]) = _
            rw [mul_concat (u2 := P [parent]) rfl (by decide) (by decide) (.inl hs)]
            show (mul (P [x]) (P [parent]) >>= _) = _
            rw [mul_P hl (by decide) (by simp)]
            show mul (.root r) (P (push x [parent])) = _
            rw [push, if_pos ⟨rfl, hxp⟩, mul_root_P r (by simp)]
            rfl
        · exact head_R hl hp hne (fun hr => by
            have h0 : l.length ≠ 1 := fun e => hw ⟨hr, e⟩
            omega)
      rw [R_cons r l hne] at hs hh ⊢
      rw [deltaSub_concat f _ _ u hu hs, hh, Res.ok_bind, hi]
      exact mul_parent_none

theorem relative_R {r : Bytes} (hr : webProtocol r = false) (c l' m' : List Url) (hl : ∀ y ∈ c ++ l', Elem y)
    (hm : ∀ y ∈ m', Elem y) (hpl : parent ∉ c ++ l') (hpm : parent ∉ m') (hne : l' ≠ []) (hmne : m' ≠ []) :
    relative (R r (c ++ l')) (P (List.replicate (l'.length - 1) parent ++ m')) = .ok (R r (c ++ m')) := by
  rw [relative, head_R hl hpl (by simp [hne]) (by simp [hr]), Res.ok_bind,
    mul_R_P hr (fun y hy => hl y (List.dropLast_subset _ hy)) (elem_ups _ hm) (by simp [hmne]),
    joinL_back c l' m' hpl hpm hne hmne, strip_eq_self]
  intro h
  have := List.mem_of_mem_head? h
  simp only [List.mem_append] at this
  rcases this with h | h
  · exact hpl (by simp [h])
  · exact hpm h

theorem notNone_P {l : List Url} (h : ∀ y ∈ l, Elem y) : isNone (P l) = false := by
  rw [isNone_eq]; simpa using P_ne_none h

theorem head_file (r : Bytes) (l : List Url) (hl : ∀ y ∈ l, Elem y) (hp : parent ∉ l) (hr : webProtocol r = false) :
    ∃ l', head (R r l) = .ok (R r l') ∧ (2 ≤ l.length → l' ≠ []) := by
  by_cases hne : l = []
  · subst hne
    exact ⟨[], mul_root_P r (l := [parent]) (by decide), by simp⟩
  · refine ⟨l.dropLast, head_R hl hp hne (by simp [hr]), fun h e => ?_⟩
    have h2 : l.length - 1 = 0 := by rw [← List.length_dropLast, e]; rfl
    omega

theorem absorb_R (r : Bytes) (hr : webProtocol r = false) (l : List Url) (u : Url) (hu : topRoot u = true)
    (hf : r = b!"file" → l ≠ []) : mul (R r l) u = .ok u := by
  refine UrlProps.C46_absorb _ _ hu ?_ ?_
  · unfold R
    split
    · next h => simp only [isRootS, decide_eq_false_iff_not]; exact fun e => hf e h
    · rfl
  · intro a b h
    unfold R at h
    split at h
    · exact absurd h (by simp)
    · injection h with h1 h2
      rw [← h1, isRootWeb_root, hr]

/-! ## C50: delta and relative -/

/-- Two local files: from a file the relative way to another one leads to that one. (For the bare root `file` this
fails, see below.) -/
theorem C50_local (f : Nat) (r : Bytes) (l m : List Url) (hr : webProtocol r = false) (hf : r ≠ b!"file")
    (hl : ∀ y ∈ l, Elem y) (hm : ∀ y ∈ m, Elem y) (hpl : parent ∉ l) (hpm : parent ∉ m) (hfuel : l.length < f) :
    ∃ d, delta f (R r l) (R r m) = .ok d ∧ relative (R r l) d = .ok (R r m) := by
  have hself : relative (R r l) (R r m) = .ok (R r m) := by
    obtain ⟨l', e, _⟩ := head_file r l hl hpl hr
    rw [relative, e, Res.ok_bind]
    exact absorb_R r hr l' _ (by unfold R; split <;> rfl) (fun e => absurd e hf)
  rw [delta_single f _ _ (isOr_R r m)]
  by_cases h : l = [] ∨ m = []
  · refine ⟨R r m, ?_, hself⟩
    have : deltaSub f (R r l) (R r m) = .ok .none := by
      rcases h with h | h
      · subst h
        obtain ⟨f, rfl⟩ : ∃ g, f = g + 1 := ⟨f - 1, by omega⟩
        rw [R_nil, deltaSub.eq_def]
      · subst h
        exact deltaSub_other f r l _ hl hpl (by rw [R_nil]; simp) hfuel
    rw [this]; rfl
  · have h1 : l ≠ [] := fun e => h (.inl e)
    have h2 : m ≠ [] := fun e => h (.inr e)
    obtain ⟨f, rfl⟩ : ∃ g, f = g + 1 := ⟨f - 1, by omega⟩
    rw [deltaSub_R f r l m h1 h2 (by simp [hr]) hl hm]
    obtain ⟨v, ev, hv⟩ := deltaSub_P f l m hl hm hpl h1 h2 (by omega)
    rw [ev, Res.ok_bind]
    rcases hv with ⟨rfl, _⟩ | ⟨c, l', m', rfl, rfl, h3, h4, rfl⟩
    · exact ⟨R r m, rfl, hself⟩
    · have hm' : ∀ y ∈ m', Elem y := fun y hy => hm y (by simp [hy])
      refine ⟨P (List.replicate (l'.length - 1) parent ++ m'), ?_, ?_⟩
      · rw [notNone_P (elem_ups _ hm')]; rfl
      · exact relative_R hr c l' m' hl hm' hpl (fun h => hpm (by simp [h])) h3 h4

example : ∃ d, delta 4 (R (b!"default") [.atom (b!"a"), .atom (b!"b"), .wild1 (b!"*.c")]) (R (b!"default") [.atom (b!"a"), .atom (b!"d")]) =
    .ok d ∧ relative (R (b!"default") [.atom (b!"a"), .atom (b!"b"), .wild1 (b!"*.c")]) d =
    .ok (R (b!"default") [.atom (b!"a"), .atom (b!"d")]) :=
  C50_local 4 (b!"default") _ _ (by decide) (by decide) (by decide) (by decide) (by decide) (by decide) (by simp)

/-- Exactly which way: up to the directory where the two paths part, and down from there, if the base is made of
names. -/
theorem C50_way (f : Nat) (r : Bytes) (c l m : List Url) (hr : webProtocol r = true → c ≠ [])
    (hl : ∀ y ∈ c ++ l, Elem y ∧ isAtomic y = true) (hm : ∀ y ∈ c ++ m, Elem y) (hpl : parent ∉ c ++ l)
    (hne : l ≠ []) (hmne : m ≠ []) (hd : l.length = 1 ∨ m.length = 1 ∨ l.head? ≠ m.head?)
    (hfuel : (c ++ l).length < f) :
    delta f (R r (c ++ l)) (R r (c ++ m)) = .ok (P (List.replicate (l.length - 1) parent ++ m)) := by
  obtain ⟨f, rfl⟩ : ∃ g, f = g + 1 := ⟨f - 1, by omega⟩
  have hl1 : ∀ y ∈ c ++ l, Elem y := fun y hy => (hl y hy).1
  have hm' : ∀ y ∈ m, Elem y := fun y hy => hm y (by simp [hy])
  have hlen : c.length + l.length < f + 1 := by simpa using hfuel
  rw [delta_single _ _ _ (isOr_R r _), deltaSub_R f r _ _ (by simp [hne]) (by simp [hmne]) ?_ hl1 hm]
  · have e := deltaSub_common (f - c.length) c l m hl1 hne hmne
    rw [Nat.sub_add_cancel (by omega)] at e
    obtain ⟨v, ev, hv⟩ := deltaSub_up (f - c.length) l m (fun y hy => hl1 y (by simp [hy])) hm'
      (fun h => hpl (by simp [h])) hne hmne (by omega) hd
    rw [e, ev, Res.ok_bind]
    rcases hv with ⟨_, w, hw, hw'⟩ | rfl
    · have := (hl w (by simp [hw])).2
      rw [hw'] at this; exact absurd this (by simp)
    · rw [notNone_P (elem_ups _ hm')]; rfl
  · intro hw _ _
    cases c with
    | nil => exact absurd rfl (hr hw)
    | cons x c => simp

example : delta 9 (R (b!"http") [.atom (b!"h"), .atom (b!"a"), .atom (b!"b")]) (R (b!"http") [.atom (b!"h"), .atom (b!"d")]) =
    .ok (P [parent, .atom (b!"d")]) :=
  C50_way 9 (b!"http") [.atom (b!"h")] [.atom (b!"a"), .atom (b!"b")] [.atom (b!"d")] (by simp) (by decide) (by decide) (by decide)
    (by simp) (by simp) (by simp) (by simp)

/-- Two pages of web sites, each with a path after the host. -/
theorem C50_web_partial (f : Nat) (r : Bytes) (s t : Bytes) (l m : List Url) (hr : webProtocol r = true)
    (hl : ∀ y ∈ .atom s :: l, Elem y) (hm : ∀ y ∈ .atom t :: m, Elem y) (hpl : parent ∉ .atom s :: l)
    (hpm : parent ∉ .atom t :: m) (hne : l ≠ []) (hmne : m ≠ []) (hfuel : l.length + 2 ≤ f) :
    ∃ d, delta f (R r (.atom s :: l)) (R r (.atom t :: m)) = .ok d ∧
      relative (R r (.atom s :: l)) d = .ok (R r (.atom t :: m)) := by
  obtain ⟨f, rfl⟩ : ∃ g, f = g + 1 := ⟨f - 1, by omega⟩
  have hlen : 0 < l.length := List.length_pos_iff.2 hne
  have hh : head (R r (.atom s :: l)) = .ok (R r (.atom s :: l.dropLast)) := by
    have := head_R (r := r) hl hpl (by simp) (by simp; omega)
    rwa [List.dropLast_cons_of_ne_nil hne] at this
  have hself : relative (R r (.atom s :: l)) (R r (.atom t :: m)) = .ok (R r (.atom t :: m)) := by
    rw [relative, hh, Res.ok_bind, R_cons r (.atom t :: m) (by simp), R_cons r _ (by simp), mul.eq_def,
      if_pos (show topRoot _ = true from rfl), if_neg (by simp [isRootS])]
    have h0 : r ≠ b!"default" := by intro e; rw [e] at hr; simp [webProtocol] at hr
    simp only [isRootWeb_root, hr, topRootS, isRootS, Bool.true_and]
    rw [if_neg (by simpa using h0)]
    split
    · rw [rootName, mul_root_P r hm, strip_eq_self fun e => hpm (List.mem_of_mem_head? e), R_cons _ _ (by simp)]
    · rfl
  rw [delta_single _ _ _ (isOr_R r _)]
  by_cases hst : s = t
  · subst hst
    rw [deltaSub_R f r _ _ (by simp) (by simp) (by simp) hl hm]
    have hlt : ∀ y ∈ l, Elem y := fun y hy => hl y (by simp [hy])
    have hmt : ∀ y ∈ m, Elem y := fun y hy => hm y (by simp [hy])
    have hplt : parent ∉ l := fun h => hpl (by simp [h])
    have hpmt : parent ∉ m := fun h => hpm (by simp [h])
    obtain ⟨f, rfl⟩ : ∃ g, f = g + 1 := ⟨f - 1, by omega⟩
    have := deltaSub_common f [.atom s] l m (by simpa using hl) hne hmne
    simp only [List.singleton_append, List.length_singleton] at this
    rw [this]
    obtain ⟨v, ev, hv⟩ := deltaSub_P f l m hlt hmt hplt hne hmne (by omega)
    rw [ev, Res.ok_bind]
    rcases hv with ⟨rfl, _⟩ | ⟨c, l', m', rfl, rfl, h3, h4, rfl⟩
    · exact ⟨_, rfl, hself⟩
    · have hm' : ∀ y ∈ m', Elem y := fun y hy => hmt y (by simp [hy])
      have hpm' : parent ∉ m' := fun h => hpmt (by simp [h])
      refine ⟨P (List.replicate (l'.length - 1) parent ++ m'), ?_, ?_⟩
      · rw [notNone_P (elem_ups _ hm')]; rfl
      · rw [relative, hh, Res.ok_bind]
        have hl'len : 0 < l'.length := List.length_pos_iff.2 h3
        have hs' : Url.atom s ≠ parent := fun e => hpl (by simp [← e])
        by_cases hd : (c ++ l').dropLast = []
        · have hlen' : (c ++ l').length - 1 = 0 := by rw [← List.length_dropLast, hd]; rfl
          have hc : c = [] := by
            simp at hlen'
            exact List.length_eq_zero_iff.1 (by omega)
          have hl1 : l'.length - 1 = 0 := by simp at hlen'; omega
          rw [hd, hl1, hc]
          show mul (R r [.atom s]) (P m') = _
          rw [mul_semi hr (hl _ (by simp)) hs' hm', strip_eq_self fun e => hpm' (List.mem_of_mem_head? e)]
          rfl
        · obtain ⟨x, z, e⟩ : ∃ x z, (c ++ l').dropLast = x :: z := by
            cases h : (c ++ l').dropLast with
            | nil => exact absurd h hd
            | cons x z => exact ⟨x, z, rfl⟩
          have hj := joinL_back (.atom s :: c) l' m' hpl hpm' h3 h4
          rw [List.cons_append, List.dropLast_cons_of_ne_nil (by simp [h3]), e] at hj
          rw [e, mul_web_P (fun w hw => hl w (by
              rcases List.mem_cons.1 hw with rfl | hw
              · simp
              · rw [← e] at hw; exact List.mem_cons_of_mem _ (List.dropLast_subset _ hw)))
            (elem_ups _ hm') (by simp [h4]), hj, strip_eq_self]
          · rfl
          · simpa using hs'
  · refine ⟨_, ?_, hself⟩
    match l, hne, m, hmne with
    | x :: l, _, y :: m, _ =>
      have : deltaSub (f + 1) (R r (.atom s :: x :: l)) (R r (.atom t :: y :: m)) = .ok .none := by
        rw [R_cons r _ (by simp), R_cons r _ (by simp), deltaSub.eq_def]
        dsimp only
        rw [if_pos rfl, P, P]
        dsimp only
        rw [if_pos]
        simp [isSpecialRoot, isRootWeb_root, hr, hst]
      rw [this]; rfl

/-- A base with another root: the result of `delta` is the url itself, and `relative` keeps it. Excluded are a base
`file:///name`, whose head is the root `file`, and absolute paths and urls without protocol relative to a web url,
which stay on the web. Missing: these bases, see `C50_file_violated`. -/
theorem C50_other_partial (f : Nat) (q r : Bytes) (l m : List Url) (hqr : r ≠ q) (hl : ∀ y ∈ l, Elem y) (hpl : parent ∉ l)
    (hfile : r = b!"file" → 2 ≤ l.length) (hweb : webProtocol r = true → q ≠ b!"default" ∧ q ≠ b!"blank")
    (hfuel : l.length < f) :
    delta f (R r l) (R q m) = .ok (R q m) ∧ relative (R r l) (R q m) = .ok (R q m) := by
  have htop : topRoot (R q m) = true := by unfold R; split <;> rfl
  constructor
  · rw [delta_single _ _ _ (isOr_R q m), deltaSub_other f r l _ hl hpl ?_ hfuel]
    · rfl
    · intro c d e
      unfold R at e
      split at e
      · exact absurd e (by simp)
      · injection e with e1 e2
        rw [← e1]; simpa using hqr
  · by_cases hr : webProtocol r = true
    · have hdq := hweb hr
      rw [relative]
      have hh : ∃ h, head (R r l) = .ok h ∧ (h = .root r ∨ ∃ b, h = .concat (.root r) b) := by
        have hR : ∀ l, R r l = .root r ∨ ∃ b, R r l = .concat (.root r) b := by
          intro l
          unfold R; split
          · exact .inl rfl
          · exact .inr ⟨_, rfl⟩
        by_cases hne : l = []
        · subst hne
          exact ⟨_, mul_root_P r (l := [parent]) (by decide), .inl rfl⟩
        · by_cases hlen : 2 ≤ l.length
          · exact ⟨_, head_R hl hpl hne (fun _ => hlen), hR _⟩
          · match l, hne with
            | [x], _ =>
              have hxp : x ≠ parent := fun e => hpl (by simp [e])
              have hx := hl x (by simp)
              by_cases hxa : isAtomic x = true
              · cases x with
                | atom s => exact ⟨_, mul_semi hr hx hxp (l := [parent]) (by decide), hR _⟩
                | _ => simp [isAtomic] at hxa
              · rw [R_cons r [x] (by simp)]
                refine ⟨.root r, ?_, .inl rfl⟩
                show mul _ (P [parent]) = _
                rw [mul_concat (u2 := P [parent]) rfl (by decide) (by decide)
                  (.inl (by simp only [isSemiRoot, P]; simp [hxa]))]
                show (mul (P [x]) (P [parent]) >>= _) = _
                rw [mul_P hl (by decide) (by simp)]
                show mul (.root r) (P (push x [parent])) = _
                rw [push, if_pos ⟨rfl, hxp⟩, mul_root_P r (by simp)]
                rfl
            | _ :: _ :: _, _ => exact absurd hlen (by simp)
      obtain ⟨h, eh, hh⟩ := hh
      rw [eh, Res.ok_bind, mul.eq_def, if_pos htop]
      have hq1 : topRootS (R q m) (b!"default") = false ∧ topRootS (R q m) (b!"blank") = false := by
        unfold R
        split <;> simp [topRootS, isRootS, hdq.1, hdq.2]
      have hrf : r ≠ b!"file" := by intro e; rw [e] at hr; simp [webProtocol] at hr
      rcases hh with rfl | ⟨b, rfl⟩
      · rw [if_neg (by simp [isRootS, hrf])]
      · rw [if_neg (by simp [isRootS])]
        simp [hq1]
    · have hr' : webProtocol r = false := by simpa using hr
      obtain ⟨l', e, hl'⟩ := head_file r l hl hpl hr'
      rw [relative, e, Res.ok_bind]
      exact absorb_R r hr' l' _ htop (fun e => hl' (hfile e))

example : delta 9 (R (b!"default") [.atom (b!"a")]) (R (b!"http") [.atom (b!"h")]) = .ok (R (b!"http") [.atom (b!"h")]) :=
  (C50_other_partial 9 (b!"http") (b!"default") [.atom (b!"a")] [.atom (b!"h")] (by decide) (by decide) (by decide) (by decide) (by decide)
    (by simp)).1

/-- Two relative paths of names. -/
theorem C50_relative (f : Nat) (l m : List Url) (hl : ∀ y ∈ l, Elem y ∧ isAtomic y = true) (hm : ∀ y ∈ m, Elem y)
    (hpl : parent ∉ l) (hpm : parent ∉ m) (hne : l ≠ []) (hmne : m ≠ []) (hfuel : l.length ≤ f) :
    ∃ d, delta f (P l) (P m) = .ok d ∧ relative (P l) d = .ok (P m) := by
  have hl1 : ∀ y ∈ l, Elem y := fun y hy => (hl y hy).1
  rw [delta_single _ _ _ (isOr_P hm)]
  obtain ⟨v, ev, hv⟩ := deltaSub_P f l m hl1 hm hpl hne hmne hfuel
  rw [ev, Res.ok_bind]
  rcases hv with ⟨_, w, hw, hw'⟩ | ⟨c, l', m', rfl, rfl, h3, h4, rfl⟩
  · have := (hl w hw).2
    rw [hw'] at this; exact absurd this (by simp)
  · have hm' : ∀ y ∈ m', Elem y := fun y hy => hm y (by simp [hy])
    refine ⟨P (List.replicate (l'.length - 1) parent ++ m'), ?_, ?_⟩
    · rw [notNone_P (elem_ups _ hm')]; rfl
    · rw [relative, head_P hl1 hpl (by simp [h3]), Res.ok_bind,
        mul_P (fun y hy => hl1 y (List.dropLast_subset _ hy)) (elem_ups _ hm') (by simp [h4]),
        joinL_back c l' m' hpl (fun h => hpm (by simp [h])) h3 h4]

example : ∃ d, delta 2 (P [.atom (b!"a"), .atom (b!"b")]) (P [.atom (b!"c")]) = .ok d ∧
    relative (P [.atom (b!"a"), .atom (b!"b")]) d = .ok (P [.atom (b!"c")]) :=
  C50_relative 2 _ _ (by decide) (by decide) (by decide) (by decide) (by simp) (by simp) (by simp)

/-- From the front page of a site the way to a page of any site is wrong: from `http://h` to `http://t/a` it is `t/a`, which
leads to `http://h/t/a`. -/
theorem C50_web_violated (f : Nat) (r s t : Bytes) (y : Url) (m : List Url) (hr : webProtocol r = true)
    (hs : Elem (.atom s)) (hs' : Url.atom s ≠ parent) (ht : Url.atom t ≠ parent) (hm : ∀ z ∈ .atom t :: y :: m, Elem z) :
    delta (f + 2) (R r [.atom s]) (R r (.atom t :: y :: m)) = .ok (P (.atom t :: y :: m)) ∧
    relative (R r [.atom s]) (P (.atom t :: y :: m)) = .ok (R r (.atom s :: .atom t :: y :: m)) := by
  constructor
  · rw [delta_single _ _ _ (isOr_R r _), deltaSub_R (f + 1) r _ _ (by simp) (by simp) (by simp) (by simpa using hs) hm]
    show (Res.ok (P (.atom t :: y :: m)) >>= _) = _
    rw [Res.ok_bind, notNone_P hm]
    rfl
  · rw [relative, (UrlProps.C47_top r s hs hs' hr).2.1, Res.ok_bind, mul_semi hr hs hs' hm, strip, if_neg ht]

example : relative (R (b!"http") [.atom (b!"h")]) (P [.atom (b!"t"), .atom (b!"a")]) =
    .ok (R (b!"http") [.atom (b!"h"), .atom (b!"t"), .atom (b!"a")]) :=
  (C50_web_violated 0 _ _ _ _ _ (by decide) (by decide) (by decide) (by decide) (by decide)).2

/-- From a file directly below the root of the protocol `file`, every web page ends up on the local disk, and the root
itself is not defined. -/
theorem C50_file_violated (x : Url) (hx : Elem x) (hp : x ≠ parent) (q : Bytes) (m : List Url) (hm : ∀ z ∈ m, Elem z)
    (hmne : m ≠ []) :
    relative (R (b!"file") [x]) (R q m) = .ok (R (b!"file") (strip m)) ∧
    relative (R (b!"file") [x]) (.root (b!"file")) = .ub := by
  have hh : head (R (b!"file") [x]) = .ok (.root (b!"file")) :=
    head_R (r := b!"file") (by simpa using hx) (by simpa using fun e => hp e.symm) (by simp) (by simp [webProtocol])
  constructor
  · rw [relative, hh, Res.ok_bind, R_cons _ _ hmne, mul.eq_def, if_pos (show topRoot _ = true from rfl),
      if_pos (by decide)]
    exact mul_root_P _ hm
  · rw [relative, hh, Res.ok_bind, mul.eq_def, if_pos (show topRoot _ = true from rfl), if_pos (by decide)]

/-- From a base in a directory above the parent directory (`../../x`), `delta` never ends: it calls itself with ever
longer paths `../../..`. -/
theorem C50_hang_violated (f k : Nat) (s : Bytes) : deltaSub f (P (List.replicate (k + 2) parent)) (.atom s) = .hang := by
  induction f generalizing k with
  | zero => rfl
  | succ f ih =>
    have hr : ∀ y ∈ List.replicate (k + 2) parent, Elem y := fun y hy => List.eq_of_mem_replicate hy ▸ elem_parent
    have hj : ∀ n, joinL (List.replicate n parent) [parent] = List.replicate (n + 1) parent := by
      intro n
      induction n with
      | zero => rfl
      | succ n ih =>
        rw [List.replicate_succ]
        show push parent (joinL _ _) = _
        rw [ih]
        simp [List.replicate_succ, push]
    have hh : head (P (List.replicate (k + 2) parent)) = .ok (P (List.replicate (k + 1 + 2) parent)) := by
      show mul _ (P [parent]) = _
      rw [mul_P hr (by decide) (by simp), hj]
    rw [show P (List.replicate (k + 2) parent) = .concat parent (P (List.replicate (k + 1) parent)) from rfl] at hh ⊢
    rw [deltaSub_concat f _ _ _ (by simp) rfl, hh, Res.ok_bind, ih (k + 1)]
    rfl

/-- For instance from `../../x` to `a`. -/
theorem C50_hang_delta_violated (f : Nat) :
    delta f (P [parent, parent, .atom (b!"x")]) (.atom (b!"a")) = .hang := by
  rw [delta_single _ _ _ rfl]
  cases f with
  | zero => rfl
  | succ f =>
    have hh : head (P [parent, parent, .atom (b!"x")]) = .ok (P (List.replicate (0 + 2) parent)) :=
      (UrlProps.C47_path [parent, parent] (.atom (b!"x")) (by decide) (by decide) ⟨fun h => h, trivial⟩ (by decide)).1
    rw [show P [parent, parent, .atom (b!"x")] = .concat parent (P [parent, .atom (b!"x")]) from rfl] at hh ⊢
    rw [deltaSub_concat f _ _ _ (by simp) rfl, hh, Res.ok_bind, C50_hang_violated f 0]
    rfl

end Lolly.UrlDeltaProps
