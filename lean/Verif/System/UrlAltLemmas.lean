import Verif.System.UrlAltSpec
import Verif.System.UrlLemmas
import Verif.Strings.StrProps

set_option autoImplicit false

/-!
# Lemmas about alternatives
-/

namespace Lolly.Url

/-- A path: a component or, if `b`, a root, and then components. -/
def PathOk (b : Bool) : List Url → Prop
  | [] => False
  | x :: l => (Comp x ∨ (b = true ∧ ∃ r, x = .root r)) ∧ ∀ y ∈ l, Comp y

theorem pathOk_ne {b : Bool} {x : List Url} (h : PathOk b x) : x ≠ [] := by
  cases x with
  | nil => exact absurd h (by simp [PathOk])
  | cons => simp

theorem pathOk_false {x : List Url} (h : PathOk false x) : ∀ y ∈ x, Comp y := by
  cases x with
  | nil => simp
  | cons a l =>
    intro y hy
    rcases List.mem_cons.1 hy with rfl | hy
    · rcases h.1 with h | h
      · exact h
      · simp at h
    · exact h.2 y hy

theorem pathOk_append {b : Bool} {x y : List Url} (hx : PathOk b x) (hy : PathOk false y) : PathOk b (x ++ y) := by
  cases x with
  | nil => exact absurd hx (by simp [PathOk])
  | cons a l =>
    refine ⟨hx.1, fun z hz => ?_⟩
    rcases List.mem_append.1 hz with hz | hz
    · exact hx.2 z hz
    · exact pathOk_false hy z hz

theorem pathOk_den {b : Bool} {u : Url} (h : Free b u) : ∀ x ∈ den u, PathOk b x := by
  induction u generalizing b with
  | concat a c iha ihc =>
    intro x hx
    simp only [den, List.mem_flatMap, List.mem_map] at hx
    obtain ⟨y, hy, z, hz, rfl⟩ := hx
    exact pathOk_append (iha h.1 y hy) (ihc h.2.2 z hz)
  | or a c iha ihc =>
    intro x hx
    simp only [den, List.mem_append] at hx
    rcases hx with hx | hx
    · exact iha h.1 x hx
    · exact ihc h.2 x hx
  | root r =>
    intro x hx
    simp only [den, List.mem_singleton] at hx
    subst hx
    exact ⟨.inr ⟨h, r, rfl⟩, by simp⟩
  | none => exact absurd h.1 (by decide)
  | root3 p c => exact absurd h.1.1 (by simp [isPseudoAtomic])
  | _ =>
    intro x hx
    simp only [den, List.mem_singleton] at hx
    subst hx
    exact ⟨.inl h, by simp⟩

theorem den_ne_nil (u : Url) : den u ≠ [] := by
  induction u with
  | concat a c iha ihc =>
    simp only [den, ne_eq, List.flatMap_eq_nil_iff, List.map_eq_nil_iff]
    intro h
    obtain ⟨x, hx⟩ := List.exists_mem_of_ne_nil _ iha
    exact ihc (h x hx)
  | or a c iha ihc => simp [den, iha]
  | _ => simp [den]

theorem elem_of_comp {l : List Url} (h : ∀ y ∈ l, Comp y) : ∀ y ∈ l, Elem y := fun y hy => (h y hy).1

theorem no_parent_of_comp {l : List Url} (h : ∀ y ∈ l, Comp y) : parent ∉ l := fun hp => (h _ hp).2.1 rfl

theorem mul_path {b : Bool} {x y : List Url} (hx : PathOk b x) (hy : PathOk false y) :
    mul (P x) (P y) = .ok (P (x ++ y)) := by
  have hyc := pathOk_false hy
  have hye := elem_of_comp hyc
  have hyp := no_parent_of_comp hyc
  have hyne := pathOk_ne hy
  have hyh : y.head? ≠ some parent := fun e => hyp (List.mem_of_mem_head? e)
  cases x with
  | nil => exact absurd hx (by simp [PathOk])
  | cons a l =>
    rcases hx.1 with ha | ⟨_, r, rfl⟩
    · have hc : ∀ z ∈ a :: l, Comp z := by
        intro z hz
        rcases List.mem_cons.1 hz with rfl | hz
        · exact ha
        · exact hx.2 z hz
      rw [mul_P (elem_of_comp hc) hye hyne, joinL_disjoint (normal_of_no_parent (no_parent_of_comp hc)) hyh hyne]
    · have hr : ∀ m : List Url, P (.root r :: m) = R r m := by
        intro m
        cases m with
        | nil => rw [R_nil, P]
        | cons z m => rw [R_cons _ _ (by simp), P]
      rw [hr, List.cons_append, hr]
      by_cases hl : l = []
      · subst hl
        rw [R_nil, mul_root_P r hye, strip_eq_self hyh]; rfl
      · have hpf : parentFirst (P y) = false := by
          match y, hyne with
          | [z], _ =>
            have := (hye z (by simp)).not_concat
            rw [P]; cases z <;> simp_all [parentFirst, isConcat]
          | z :: w :: y, _ =>
            rw [P]
            simp only [parentFirst, isAtom_parent, decide_eq_false_iff_not]
            exact fun e => hyp (by simp [e])
        have hnp : P y ≠ parent := by
          match y, hyne with
          | [z], _ => rw [P]; exact fun e => hyp (by simp [e])
          | z :: w :: y, _ => rw [P]; simp [parent]
        have hle := elem_of_comp hx.2
        rw [R_cons r l hl, mul_concat (topRoot_P hye) (fun e => hyne (P_eq_here hye e)) (P_ne_none hye) (.inr ⟨hnp, hpf⟩),
          mul_P hle hye hyne, joinL_disjoint (normal_of_no_parent (no_parent_of_comp hx.2)) hyh hyne, Res.ok_bind,
          mul_root_P r, strip_eq_self]
        · intro e
          have := List.mem_of_mem_head? e
          rcases List.mem_append.1 this with h | h
          · exact no_parent_of_comp hx.2 h
          · exact hyp h
        · intro z hz
          rcases List.mem_append.1 hz with h | h
          · exact hle z h
          · exact hye z h

/-! ## Lists of alternatives -/

/-- A url that is no alternative itself. -/
def Single (u : Url) : Prop := isOr u = false ∧ u ≠ .none

theorem single_path {b : Bool} {x : List Url} (h : PathOk b x) : Single (P x) := by
  match x, h with
  | [a], h =>
    rw [P]
    rcases h.1 with ha | ⟨_, r, rfl⟩
    · have := ha.1.1
      constructor
      · cases a <;> simp_all [isOr, isPseudoAtomic]
      · exact ha.1.ne_none
    · exact ⟨rfl, by simp⟩
  | a :: c :: l, h => rw [P]; exact ⟨rfl, by simp⟩

theorem orOf_cons (x : Url) (l : List Url) (h : l ≠ []) : orOf (x :: l) = .or x (orOf l) := by
  cases l with
  | nil => exact absurd rfl h
  | cons y l => rw [orOf]

theorem orOf_ne_none {l : List Url} (h : ∀ x ∈ l, Single x) (hne : l ≠ []) : orOf l ≠ .none := by
  match l, hne with
  | [x], _ => rw [orOf]; exact (h x (by simp)).2
  | x :: y :: l, _ => rw [orOf]; simp

theorem ins_ne {α : Type} [DecidableEq α] (a : α) (l : List α) : ins a l ≠ [] := by
  unfold ins
  split
  · next h => intro e; simp [e] at h
  · simp

theorem head_ins {α : Type} [DecidableEq α] (a : α) (l : List α) : (ins a l).head? = some a := by
  unfold ins
  split
  · next h => exact h
  · rfl

theorem mem_ins {α : Type} [DecidableEq α] (a x : α) (l : List α) : x ∈ ins a l ↔ x = a ∨ x ∈ l := by
  unfold ins
  split
  · next h =>
    have := List.mem_of_mem_head? h
    constructor
    · exact .inr
    · rintro (rfl | h)
      · exact this
      · exact h
  · simp

theorem mem_foldr_ins {α : Type} [DecidableEq α] (x : α) (l m : List α) : x ∈ l.foldr ins m ↔ x ∈ l ∨ x ∈ m := by
  induction l with
  | nil => simp
  | cons a l ih => rw [List.foldr_cons, mem_ins, ih, List.mem_cons, or_assoc]

theorem mem_merge {α : Type} [DecidableEq α] (x : α) (l : List α) : x ∈ merge l ↔ x ∈ l := by
  simp [merge, mem_foldr_ins]

theorem foldr_ins_merge {α : Type} [DecidableEq α] (l m : List α) : (merge l).foldr ins m = l.foldr ins m := by
  induction l with
  | nil => rfl
  | cons a l ih =>
    show (ins a (merge l)).foldr ins m = ins a (l.foldr ins m)
    by_cases h : (merge l).head? = some a
    · rw [ins, if_pos h, ih]
      have hl : (l.foldr ins m).head? = some a := by
        cases l with
        | nil => simp [merge] at h
        | cons c l =>
          rw [merge, List.foldr_cons, head_ins] at h
          rw [List.foldr_cons, head_ins, h]
      rw [ins, if_pos hl]
    · rw [ins, if_neg h, List.foldr_cons, ih]

theorem merge_append {α : Type} [DecidableEq α] (l m : List α) : (merge l).foldr ins (merge m) = merge (l ++ m) := by
  rw [foldr_ins_merge, merge, merge, List.foldr_append]

theorem merge_ne_nil {α : Type} [DecidableEq α] {l : List α} (h : l ≠ []) : merge l ≠ [] := by
  cases l with
  | nil => exact absurd rfl h
  | cons a l => exact ins_ne _ _

theorem alt_ins {a : Url} {l : List Url} (ha : Single a) (hl : ∀ x ∈ l, Single x) (hne : l ≠ []) :
    alt a (orOf l) = orOf (ins a l) := by
  rw [alt_single a (orOf l) ha.2 (orOf_ne_none hl hne) ha.1]
  match l, hne with
  | [x], _ =>
    have hx := hl x (by simp)
    rw [orOf, ins]
    by_cases h : a = x
    · rw [if_pos h, if_pos (by simp [h])]; rfl
    · rw [if_neg h, if_neg (by simpa using fun e => h e.symm)]
      have := hx.1
      cases x <;> simp_all [isOr, orOf]
  | x :: y :: l, _ =>
    rw [orOf, if_neg (by intro e; rw [e] at ha; exact absurd ha.1 (by simp [isOr]))]
    dsimp only
    rw [ins]
    by_cases h : a = x
    · rw [if_pos h, if_pos (by simp [h])]; rw [orOf]
    · rw [if_neg h, if_neg (by simpa using fun e => h e.symm)]
      rfl

theorem alt_orOf {l m : List Url} (hl : ∀ x ∈ l, Single x) (hm : ∀ x ∈ m, Single x) (hlne : l ≠ []) (hmne : m ≠ []) :
    alt (orOf l) (orOf m) = orOf (l.foldr ins m) := by
  induction l with
  | nil => exact absurd rfl hlne
  | cons x l ih =>
    by_cases h : l = []
    · subst h
      exact alt_ins (hl x (by simp)) hm hmne
    · rw [orOf_cons x l h, alt_or _ _ _ (orOf_ne_none hm hmne), ih (fun y hy => hl y (by simp [hy])) h, List.foldr_cons]
      refine alt_ins (hl x (by simp)) (fun y hy => ?_) ?_
      · rcases (mem_foldr_ins y l m).1 hy with hy | hy
        · exact hl y (by simp [hy])
        · exact hm y hy
      · obtain ⟨z, hz⟩ := List.exists_mem_of_ne_nil _ h
        exact List.ne_nil_of_mem ((mem_foldr_ins z l m).2 (.inl hz))

/-! ## Expanding -/

theorem expand2_single (f : Nat) {b : Bool} {x y : List Url} (hx : PathOk b x) (hy : PathOk false y) :
    expand2 (f + 1) (P x) (P y) = .ok (P (x ++ y)) := by
  have h1 := (single_path hx).1
  have h2 := (single_path hy).1
  have hyc := pathOk_false hy
  have h3 : P y ≠ ancestor := by
    match y, hy with
    | [a], _ => rw [P]; exact (hyc a (by simp)).2.2
    | a :: c :: y, _ => rw [P]; simp [ancestor]
  have h4 : ∀ c d, P y = .concat c d → c ≠ ancestor := by
    intro c d e
    match y, hy with
    | [a], _ =>
      have := (hyc a (by simp)).1.not_concat
      rw [P] at e; rw [e] at this; simp [isConcat] at this
    | a :: z :: y, _ =>
      rw [P] at e
      injection e with e1 e2
      rw [← e1]; exact (hyc a (by simp)).2.2
  rw [← mul_path hx hy]
  generalize P x = u at *
  generalize P y = v at *
  rw [expand2.eq_def]
  cases u with
  | or => simp [isOr] at h1
  | _ =>
    cases v with
    | or => simp [isOr] at h2
    | concat c d => dsimp only; rw [if_neg h3, if_neg (h4 c d rfl)]
    | _ => dsimp only; rw [if_neg h3]

/-- All products of paths. -/
def prods (A B : List (List Url)) : List (List Url) := A.flatMap fun x => B.map (x ++ ·)

theorem orOf_isOr {l : List Url} (h : 2 ≤ l.length) : ∃ a m, l = a :: m ∧ m ≠ [] ∧ orOf l = .or a (orOf m) := by
  match l, h with
  | a :: c :: l, _ => exact ⟨a, c :: l, rfl, by simp, rfl⟩

theorem singles {b : Bool} {A : List (List Url)} (h : ∀ x ∈ A, PathOk b x) : ∀ u ∈ A.map P, Single u := by
  intro u hu
  obtain ⟨x, hx, rfl⟩ := List.mem_map.1 hu
  exact single_path (h x hx)

theorem singles_merge {l : List Url} (h : ∀ x ∈ l, Single x) : ∀ x ∈ merge l, Single x :=
  fun x hx => h x ((mem_merge x l).1 hx)

theorem alt_merge {l m : List Url} (hl : ∀ x ∈ l, Single x) (hm : ∀ x ∈ m, Single x) (hlne : l ≠ []) (hmne : m ≠ []) :
    alt (orOf (merge l)) (orOf (merge m)) = orOf (merge (l ++ m)) := by
  rw [alt_orOf (singles_merge hl) (singles_merge hm) (merge_ne_nil hlne) (merge_ne_nil hmne), merge_append]

theorem merge_singleton {α : Type} [DecidableEq α] (a : α) : merge [a] = [a] := by
  simp [merge, ins]

theorem expand2_right (f : Nat) {b : Bool} (x : List Url) (B : List (List Url)) (hx : PathOk b x)
    (hB : ∀ y ∈ B, PathOk false y) (hne : B ≠ []) (hf : B.length ≤ f) :
    expand2 f (P x) (orOf (B.map P)) = .ok (orOf (merge ((B.map (x ++ ·)).map P))) := by
  induction B generalizing f with
  | nil => exact absurd rfl hne
  | cons y B ih =>
    obtain ⟨f, rfl⟩ : ∃ g, f = g + 1 := ⟨f - 1, by simp at hf; omega⟩
    by_cases hB0 : B = []
    · subst hB0
      simp only [List.map_cons, List.map_nil, merge_singleton, orOf]
      exact expand2_single f hx (hB y (by simp))
    · rw [List.map_cons, orOf_cons _ _ (by simpa using hB0), expand2.eq_def]
      have h1 := (single_path hx).1
      have hrec := ih f (fun z hz => hB z (by simp [hz])) hB0 (by simpa using hf)
      have hsing : expand2 f (P x) (P y) = .ok (P (x ++ y)) := by
        obtain ⟨g, rfl⟩ : ∃ g, f = g + 1 := ⟨f - 1, by
          have : 0 < B.length := List.length_pos_iff.2 hB0
          simp at hf; omega⟩
        exact expand2_single g hx (hB y (by simp))
      have hmain : (do
          let v ← expand2 f (P x) (P y)
          let w ← expand2 f (P x) (orOf (B.map P))
          Res.ok (alt v w)) = .ok (orOf (merge (((y :: B).map (x ++ ·)).map P))) := by
        rw [hsing, hrec, Res.ok_bind, Res.ok_bind]
        have hx2 : ∀ z ∈ B.map (x ++ ·), PathOk b z := by
          intro z hz
          obtain ⟨w, hw, rfl⟩ := List.mem_map.1 hz
          exact pathOk_append hx (hB w (by simp [hw]))
        have := alt_merge (l := [P (x ++ y)]) (m := (B.map (x ++ ·)).map P)
          (by simpa using single_path (pathOk_append hx (hB y (by simp)))) (singles hx2) (by simp) (by simpa using hB0)
        rw [merge_singleton] at this
        exact congrArg _ this
      rw [← hmain]
      generalize P x = u at *
      cases u with
      | or => simp [isOr] at h1
      | _ => rfl

theorem expand2_orOf (f : Nat) {b : Bool} (A B : List (List Url)) (hA : ∀ x ∈ A, PathOk b x)
    (hB : ∀ y ∈ B, PathOk false y) (hAne : A ≠ []) (hne : B ≠ []) (hf : A.length + B.length ≤ f) :
    expand2 f (orOf (A.map P)) (orOf (B.map P)) = .ok (orOf (merge ((prods A B).map P))) := by
  induction A generalizing f with
  | nil => exact absurd rfl hAne
  | cons x A ih =>
    by_cases hA0 : A = []
    · subst hA0
      simp only [List.map_cons, List.map_nil, orOf, prods, List.flatMap_cons, List.flatMap_nil, List.append_nil]
      exact expand2_right f x B (hA x (by simp)) hB hne (by simp at hf; omega)
    · obtain ⟨f, rfl⟩ : ∃ g, f = g + 1 := ⟨f - 1, by simp at hf; omega⟩
      rw [List.map_cons, orOf_cons _ _ (by simpa using hA0), expand2.eq_def]
      dsimp only
      rw [expand2_right f x B (hA x (by simp)) hB hne (by simp at hf; omega),
        ih f (fun z hz => hA z (by simp [hz])) hA0 (by simp at hf; omega), Res.ok_bind, Res.ok_bind]
      have h1 : ∀ z ∈ B.map (x ++ ·), PathOk b z := by
        intro z hz
        obtain ⟨w, hw, rfl⟩ := List.mem_map.1 hz
        exact pathOk_append (hA x (by simp)) (hB w hw)
      have h2 : ∀ z ∈ prods A B, PathOk b z := by
        intro z hz
        simp only [prods, List.mem_flatMap, List.mem_map] at hz
        obtain ⟨v, hv, w, hw, rfl⟩ := hz
        exact pathOk_append (hA v (by simp [hv])) (hB w hw)
      have h3 : prods A B ≠ [] := by
        obtain ⟨v, hv⟩ := List.exists_mem_of_ne_nil _ hA0
        obtain ⟨w, hw⟩ := List.exists_mem_of_ne_nil _ hne
        refine List.ne_nil_of_mem (a := v ++ w) ?_
        simp only [prods, List.mem_flatMap, List.mem_map]
        exact ⟨v, hv, w, hw, rfl⟩
      rw [alt_merge (singles h1) (singles h2) (by simpa using hne) (by simpa using h3), ← List.map_append]
      rfl

/-! ## The order of first occurrence -/

theorem find_ins {α : Type} [DecidableEq α] (a : α) (l : List α) (p : α → Bool) :
    (ins a l).find? p = (a :: l).find? p := by
  unfold ins
  split
  · next h =>
    cases l with
    | nil => simp at h
    | cons b l =>
      simp only [List.head?_cons, Option.some.injEq] at h
      subst h
      simp only [List.find?_cons]
      cases p b <;> rfl
  · rfl

theorem sameOrder_merge {α : Type} [DecidableEq α] (l : List α) : SameOrder (merge l) l := by
  intro p
  induction l with
  | nil => rfl
  | cons a l ih =>
    show (ins a (merge l)).find? p = _
    rw [find_ins, List.find?_cons, List.find?_cons, ih]

theorem SameOrder.trans {α : Type} {l m n : List α} (h1 : SameOrder l m) (h2 : SameOrder m n) : SameOrder l n :=
  fun p => (h1 p).trans (h2 p)

theorem SameOrder.append {α : Type} {l m l' m' : List α} (h1 : SameOrder l l') (h2 : SameOrder m m') :
    SameOrder (l ++ m) (l' ++ m') := by
  intro p
  rw [List.find?_append, List.find?_append, h1 p, h2 p]

theorem SameOrder.mem {α : Type} [DecidableEq α] {l m : List α} (h : SameOrder l m) (x : α) : x ∈ l ↔ x ∈ m := by
  have := h (fun y => decide (y = x))
  have key : ∀ l : List α, x ∈ l ↔ (l.find? (fun y => decide (y = x))).isSome = true := by
    intro l
    simp [List.find?_isSome]
  rw [key, key, this]

theorem findSome_of_find {α β : Type} (g : α → Option β) (l : List α) :
    l.findSome? g = (l.find? fun x => (g x).isSome).bind g := by
  induction l with
  | nil => rfl
  | cons a l ih =>
    rw [List.findSome?_cons, List.find?_cons]
    cases h : g a with
    | none => simp [ih]
    | some b => simp [h]

theorem find_prods (A B : List (List Url)) (p : List Url → Bool) :
    (prods A B).find? p = A.findSome? fun x => (B.map (x ++ ·)).find? p := by
  induction A with
  | nil => rfl
  | cons x A ih =>
    rw [prods, List.flatMap_cons, List.find?_append, List.findSome?_cons]
    rw [prods] at ih
    rw [ih]
    cases (B.map (x ++ ·)).find? p <;> rfl

theorem SameOrder.prods {A B A' B' : List (List Url)} (h1 : SameOrder A A') (h2 : SameOrder B B') :
    SameOrder (prods A B) (prods A' B') := by
  intro p
  have : (fun x => (B.map (x ++ ·)).find? p) = fun x => (B'.map (x ++ ·)).find? p := by
    funext x
    rw [List.find?_map, List.find?_map, h2]
  rw [find_prods, find_prods, this, findSome_of_find, findSome_of_find, h1]

theorem P_inj_path {b : Bool} {x y : List Url} (hx : PathOk b x) (hy : PathOk b y) (e : P x = P y) : x = y := by
  match x, y, hx, hy with
  | [a], [c], _, _ => rw [P, P] at e; rw [e]
  | [a], c :: d :: y, hx, _ =>
    rw [P, P] at e
    rcases hx.1 with h | ⟨_, r, rfl⟩
    · have := h.1.not_concat
      rw [e] at this; simp [isConcat] at this
    · simp at e
  | a :: z :: x, [c], _, hy =>
    rw [P, P] at e
    rcases hy.1 with h | ⟨_, r, rfl⟩
    · have := h.1.not_concat
      rw [← e] at this; simp [isConcat] at this
    · simp at e
  | a :: z :: x, c :: d :: y, hx, hy =>
    rw [P, P] at e
    injection e with e1 e2
    rw [e1, P_inj (elem_of_comp hx.2) (elem_of_comp hy.2) e2]

theorem merge_map_P {b : Bool} (A : List (List Url)) (h : ∀ x ∈ A, PathOk b x) : merge (A.map P) = (merge A).map P := by
  induction A with
  | nil => rfl
  | cons x A ih =>
    show ins (P x) (merge (A.map P)) = (ins x (merge A)).map P
    rw [ih fun y hy => h y (by simp [hy])]
    unfold ins
    have hx := h x (by simp)
    by_cases hh : (merge A).head? = some x
    · rw [if_pos hh, if_pos (by simp [hh])]
    · rw [if_neg hh, if_neg, List.map_cons]
      intro e
      rw [List.head?_map] at e
      cases h0 : (merge A).head? with
      | none => rw [h0] at e; simp at e
      | some y =>
        rw [h0] at e
        simp only [Option.map_some, Option.some.injEq] at e
        have hy := h y (by simp [(mem_merge y A).1 (List.mem_of_mem_head? h0)])
        exact hh (by rw [h0, P_inj_path hy hx e])

theorem getLast_merge {α : Type} [DecidableEq α] (l : List α) : (merge l).getLast? = l.getLast? := by
  induction l with
  | nil => rfl
  | cons a l ih =>
    show (ins a (merge l)).getLast? = _
    unfold ins
    split
    · next h =>
      rw [ih]
      cases l with
      | nil => simp [merge] at h
      | cons c l => rw [List.getLast?_cons_cons]
    · rw [List.getLast?_cons, List.getLast?_cons, ih]

theorem getLast_prods {A B : List (List Url)} (hB : B ≠ []) :
    (prods A B).getLast? = A.getLast?.bind fun x => B.getLast?.map (x ++ ·) := by
  induction A with
  | nil => rfl
  | cons x A ih =>
    rw [prods] at ih ⊢
    rw [List.flatMap_cons, List.getLast?_append, ih]
    cases A with
    | nil => simp [List.getLast?_map]
    | cons y A =>
      rw [List.getLast?_cons_cons]
      cases h : (y :: A).getLast? with
      | none => simp at h
      | some z =>
        cases h2 : B.getLast? with
        | none => simp at h2; exact absurd h2 hB
        | some w => rfl

theorem expand_free {b : Bool} (u : Url) (h : Free b u) : ∃ f0, ∀ f, f0 ≤ f → ∃ L, expand f u = .ok (orOf (L.map P)) ∧
    SameOrder L (den u) ∧ merge L = L ∧ L.length ≤ (den u).length ∧ L.getLast? = (den u).getLast? := by
  have hlen : ∀ l : List (List Url), (merge l).length ≤ l.length := by
    intro l
    induction l with
    | nil => simp [merge]
    | cons a l ih =>
      show (ins a (merge l)).length ≤ _
      unfold ins
      split <;> simp at ih ⊢ <;> omega
  have hidem : ∀ l : List (List Url), merge (merge l) = merge l := fun l => foldr_ins_merge l []
  have hleaf : ∀ u : Url, ∃ f0, ∀ f, f0 ≤ f → ∃ L, (Res.ok u : Res Url) = .ok (orOf (L.map P)) ∧
      SameOrder L [[u]] ∧ merge L = L ∧ L.length ≤ [[u]].length ∧ L.getLast? = [[u]].getLast? :=
    fun u => ⟨0, fun f _ => ⟨[[u]], rfl, fun _ => rfl, merge_singleton _, by simp, rfl⟩⟩
  induction u generalizing b with
  | or a c iha ihc =>
    obtain ⟨f1, h1⟩ := iha h.1
    obtain ⟨f2, h2⟩ := ihc h.2
    refine ⟨max f1 f2, fun f hf => ?_⟩
    obtain ⟨A, eA, sA, mA, lA, gA⟩ := h1 f (by omega)
    obtain ⟨C, eC, sC, mC, lC, gC⟩ := h2 f (by omega)
    have hA : ∀ x ∈ A, PathOk b x := fun x hx => pathOk_den h.1 x ((sA.mem x).1 hx)
    have hC : ∀ x ∈ C, PathOk b x := fun x hx => pathOk_den h.2 x ((sC.mem x).1 hx)
    have hA0 : A ≠ [] := by
      obtain ⟨x, hx⟩ := List.exists_mem_of_ne_nil _ (den_ne_nil a)
      exact List.ne_nil_of_mem ((sA.mem x).2 hx)
    have hC0 : C ≠ [] := by
      obtain ⟨x, hx⟩ := List.exists_mem_of_ne_nil _ (den_ne_nil c)
      exact List.ne_nil_of_mem ((sC.mem x).2 hx)
    refine ⟨merge (A ++ C), ?_, (sameOrder_merge _).trans (sA.append sC), hidem _, ?_, ?_⟩
    · rw [expand, eA, eC, Res.ok_bind, Res.ok_bind]
      have := alt_merge (singles hA) (singles hC) (by simpa using hA0) (by simpa using hC0)
      rw [merge_map_P A hA, merge_map_P C hC, mA, mC, ← List.map_append, merge_map_P (b := b)] at this
      · rw [this]
      · intro x hx
        rcases List.mem_append.1 hx with hx | hx
        · exact hA x hx
        · exact hC x hx
    · have := hlen (A ++ C)
      simp only [den, List.length_append] at this ⊢
      omega
    · rw [getLast_merge, den, List.getLast?_append, List.getLast?_append, gA, gC]
  | concat a c iha ihc =>
    obtain ⟨f1, h1⟩ := iha h.1
    obtain ⟨f2, h2⟩ := ihc h.2.2
    refine ⟨max (max f1 f2) ((den a).length + (den c).length), fun f hf => ?_⟩
    obtain ⟨A, eA, sA, mA, lA, gA⟩ := h1 f (by omega)
    obtain ⟨C, eC, sC, mC, lC, gC⟩ := h2 f (by omega)
    have hA : ∀ x ∈ A, PathOk b x := fun x hx => pathOk_den h.1 x ((sA.mem x).1 hx)
    have hC : ∀ x ∈ C, PathOk false x := fun x hx => pathOk_den h.2.2 x ((sC.mem x).1 hx)
    have hA0 : A ≠ [] := by
      obtain ⟨x, hx⟩ := List.exists_mem_of_ne_nil _ (den_ne_nil a)
      exact List.ne_nil_of_mem ((sA.mem x).2 hx)
    have hC0 : C ≠ [] := by
      obtain ⟨x, hx⟩ := List.exists_mem_of_ne_nil _ (den_ne_nil c)
      exact List.ne_nil_of_mem ((sC.mem x).2 hx)
    refine ⟨merge (prods A C), ?_, (sameOrder_merge _).trans (sA.prods sC), hidem _, ?_, ?_⟩
    · rw [expand, eA, eC, Res.ok_bind, Res.ok_bind, expand2_orOf f A C hA hC hA0 hC0 (by omega), merge_map_P (b := b)]
      intro x hx
      simp only [prods, List.mem_flatMap, List.mem_map] at hx
      obtain ⟨y, hy, z, hz, rfl⟩ := hx
      exact pathOk_append (hA y hy) (hC z hz)
    · refine Nat.le_trans (hlen _) ?_
      have hp : ∀ A B : List (List Url), (prods A B).length = A.length * B.length := by
        intro A B
        induction A with
        | nil => simp [prods]
        | cons x A ih =>
          rw [prods] at ih
          rw [prods, List.flatMap_cons, List.length_append, ih, List.length_map, List.length_cons, Nat.add_mul,
            Nat.one_mul, Nat.add_comm]
      have e : den (.concat a c) = prods (den a) (den c) := rfl
      rw [e, hp, hp]
      exact Nat.mul_le_mul lA lC
    · rw [getLast_merge, show den (.concat a c) = prods (den a) (den c) from rfl, getLast_prods hC0,
        getLast_prods (den_ne_nil c), gA, gC]
  | _ => exact hleaf _

/-! ## Sorting -/

/-- Insert into a sorted list of alternatives. -/
def sIns (x : Url) : List Url → List Url
  | [] => [x]
  | y :: l => if le x y then ins x (y :: l) else ins y (sIns x l)

theorem mem_sIns (x z : Url) (l : List Url) : z ∈ sIns x l ↔ z = x ∨ z ∈ l := by
  induction l with
  | nil => simp [sIns]
  | cons y l ih =>
    rw [sIns]
    split
    · rw [mem_ins]
    · rw [mem_ins, ih, List.mem_cons]
      constructor
      · rintro (h | h | h)
        · exact .inr (.inl h)
        · exact .inl h
        · exact .inr (.inr h)
      · rintro (h | h | h)
        · exact .inr (.inl h)
        · exact .inl h
        · exact .inr (.inr h)

theorem sortSub_orOf (x : Url) (l : List Url) (hx : Single x) (hl : ∀ y ∈ l, Single y) (hne : l ≠ []) :
    sortSub x (orOf l) = orOf (sIns x l) := by
  induction l with
  | nil => exact absurd rfl hne
  | cons y l ih =>
    have hy := hl y (by simp)
    by_cases h : l = []
    · subst h
      have e : sortSub x y = if le x y then alt x y else alt y x := by
        have := hy.1
        cases y <;> simp_all [isOr, sortSub]
      rw [orOf, e, sIns]
      split
      · exact alt_ins (l := [y]) hx hl (by simp)
      · exact alt_ins (l := [x]) hy (by simpa using hx) (by simp)
    · rw [orOf_cons y l h, sortSub, sIns]
      split
      · rw [← orOf_cons y l h]
        exact alt_ins hx hl (by simp)
      · rw [ih (fun z hz => hl z (by simp [hz])) h]
        refine alt_ins hy (fun z hz => ?_) ?_
        · rcases (mem_sIns x z l).1 hz with rfl | hz
          · exact hx
          · exact hl z (by simp [hz])
        · exact List.ne_nil_of_mem ((mem_sIns x x l).2 (.inl rfl))

theorem sort_orOf (l : List Url) (hl : ∀ y ∈ l, Single y) (hne : l ≠ []) : sort (orOf l) = orOf (l.foldr sIns []) := by
  induction l with
  | nil => exact absurd rfl hne
  | cons y l ih =>
    have hy := hl y (by simp)
    have hl' : ∀ z ∈ l, Single z := fun z hz => hl z (by simp [hz])
    by_cases h : l = []
    · subst h
      have := hy.1
      rw [orOf]
      cases y <;> simp_all [isOr, sort, sIns, orOf]
    · rw [orOf_cons y l h, sort, ih hl' h, List.foldr_cons]
      have hmem : ∀ l : List Url, ∀ z, z ∈ l.foldr sIns [] ↔ z ∈ l := by
        intro l
        induction l with
        | nil => simp
        | cons a l ih => intro z; rw [List.foldr_cons, mem_sIns, ih, List.mem_cons]
      refine sortSub_orOf y _ hy (fun z hz => hl' z ((hmem l z).1 hz)) ?_
      obtain ⟨z, hz⟩ := List.exists_mem_of_ne_nil _ h
      exact List.ne_nil_of_mem ((hmem l z).2 hz)

theorem mem_sorted (l : List Url) (z : Url) : z ∈ l.foldr sIns [] ↔ z ∈ l := by
  induction l with
  | nil => simp
  | cons a l ih => rw [List.foldr_cons, mem_sIns, ih, List.mem_cons]

/-- Strictly before. -/
def Lt (x y : Url) : Prop := le x y = true ∧ x ≠ y

theorem sorted_sIns {Q : Url → Prop} (htot : ∀ x y, Q x → Q y → le x y = true ∨ le y x = true)
    (htr : ∀ x y z, Q x → Q y → Q z → le x y = true → le y z = true → le x z = true)
    (hanti : ∀ x y, Q x → Q y → le x y = true → le y x = true → x = y) (x : Url) (l : List Url) (hx : Q x)
    (hl : ∀ y ∈ l, Q y) (hs : l.Pairwise Lt) : (sIns x l).Pairwise Lt := by
  induction l with
  | nil => simp [sIns]
  | cons y l ih =>
    have hy := hl y (by simp)
    obtain ⟨hy1, hy2⟩ := List.pairwise_cons.1 hs
    rw [sIns]
    split
    · next hle =>
      unfold ins
      split
      · exact hs
      · next hne =>
        have hxy : x ≠ y := by simpa using fun e => hne (by simp [e])
        refine List.pairwise_cons.2 ⟨fun z hz => ?_, hs⟩
        rcases List.mem_cons.1 hz with rfl | hz
        · exact ⟨hle, hxy⟩
        · have hz' := hl z (by simp [hz])
          refine ⟨htr x y z hx hy hz' hle (hy1 z hz).1, fun e => ?_⟩
          subst e
          exact hxy (hanti _ _ hx hy hle (hy1 x hz).1)
    · next hle =>
      have hyx : le y x = true := by
        rcases htot x y hx hy with h | h
        · exact absurd h hle
        · exact h
      have hne : y ≠ x := by intro e; rw [e] at hyx hle; exact hle hyx
      have hall : ∀ z ∈ sIns x l, Lt y z := by
        intro z hz
        rcases (mem_sIns x z l).1 hz with rfl | hz
        · exact ⟨hyx, hne⟩
        · exact hy1 z hz
      unfold ins
      rw [if_neg]
      · exact List.pairwise_cons.2 ⟨hall, ih (fun z hz => hl z (by simp [hz])) hy2⟩
      · intro e
        exact (hall y (List.mem_of_mem_head? e)).2 rfl

theorem sorted_foldr {Q : Url → Prop} (htot : ∀ x y, Q x → Q y → le x y = true ∨ le y x = true)
    (htr : ∀ x y z, Q x → Q y → Q z → le x y = true → le y z = true → le x z = true)
    (hanti : ∀ x y, Q x → Q y → le x y = true → le y x = true → x = y) (l : List Url)
    (hl : ∀ y ∈ l, Q y) : (l.foldr sIns []).Pairwise Lt := by
  induction l with
  | nil => simp
  | cons x l ih =>
    rw [List.foldr_cons]
    exact sorted_sIns htot htr hanti x _ (hl x (by simp))
      (fun z hz => hl z (by simp [(mem_sorted l z).1 hz])) (ih fun z hz => hl z (by simp [hz]))

/-! ## The order of names and paths -/

theorem strLe_total (s t : Bytes) : strLe s t = true ∨ strLe t s = true := by
  induction s generalizing t with
  | nil => exact .inl (by rw [strLe])
  | cons x s ih =>
    cases t with
    | nil => exact .inr (by rw [strLe])
    | cons y t =>
      simp only [strLe]
      by_cases h1 : schar x < schar y
      · simp [h1]
      · by_cases h2 : schar y < schar x
        · simp [h2]
        · simp [h1, h2, ih t]

theorem strLe_antisymm (s t : Bytes) (h1 : strLe s t = true) (h2 : strLe t s = true) : s = t := by
  induction s generalizing t with
  | nil =>
    cases t with
    | nil => rfl
    | cons => simp [strLe] at h2
  | cons x s ih =>
    cases t with
    | nil => simp [strLe] at h1
    | cons y t =>
      simp only [strLe] at h1 h2
      by_cases h3 : schar x < schar y
      · have : ¬ schar y < schar x := by omega
        simp [h3, this] at h2
      · by_cases h4 : schar y < schar x
        · simp [h3, h4] at h1
        · simp [h3, h4] at h1 h2
          rw [ih t h1 h2, StrProps.schar_inj (by omega : schar x = schar y)]

theorem strLe_trans (s t u : Bytes) (h1 : strLe s t = true) (h2 : strLe t u = true) : strLe s u = true := by
  induction s generalizing t u with
  | nil => rw [strLe]
  | cons x s ih =>
    cases t with
    | nil => simp [strLe] at h1
    | cons y t =>
      cases u with
      | nil => simp [strLe] at h2
      | cons z u =>
        simp only [strLe] at h1 h2 ⊢
        by_cases h3 : schar x < schar z
        · simp [h3]
        · have h4 : ¬ schar x < schar y ∨ ¬ schar y < schar z := by omega
          by_cases h5 : schar x < schar y
          · have h6 : schar z < schar y := by omega
            have h7 : ¬ schar y < schar z := by omega
            simp [h6, h7] at h2
          · by_cases h6 : schar y < schar x
            · simp [h5, h6] at h1
            · simp [h5, h6] at h1
              by_cases h7 : schar y < schar z
              · omega
              · by_cases h8 : schar z < schar y
                · simp [h7, h8] at h2
                · simp [h7, h8] at h2
                  have h9 : ¬ schar z < schar x := by omega
                  simp [h3, h9, ih t u h1 h2]

/-- A path of names as a tree. -/
def NamePath : Url → Prop
  | .atom _ => True
  | .concat (.atom _) b => NamePath b
  | _ => False

theorem le_total (x y : Url) (hx : NamePath x) (hy : NamePath y) : le x y = true ∨ le y x = true := by
  induction x generalizing y with
  | atom s =>
    cases y with
    | atom t => exact strLe_total s t
    | concat c d => exact .inl rfl
    | _ => exact absurd hy (by simp [NamePath])
  | concat a b iha ihb =>
    cases a with
    | atom s =>
      cases y with
      | atom t => exact .inr rfl
      | concat c d =>
        cases c with
        | atom t =>
          simp only [le]
          by_cases h : Url.atom s = .atom t
          · rw [if_pos h, if_pos h.symm]; exact ihb d hx hy
          · rw [if_neg h, if_neg (Ne.symm h)]; exact strLe_total s t
        | _ => exact absurd hy (by simp [NamePath])
      | _ => exact absurd hy (by simp [NamePath])
    | _ => exact absurd hx (by simp [NamePath])
  | _ => exact absurd hx (by simp [NamePath])

theorem le_antisymm (x y : Url) (hx : NamePath x) (hy : NamePath y) (h1 : le x y = true) (h2 : le y x = true) : x = y := by
  induction x generalizing y with
  | atom s =>
    cases y with
    | atom t => rw [strLe_antisymm s t h1 h2]
    | concat c d => exact absurd h2 (by simp [le])
    | _ => exact absurd hy (by simp [NamePath])
  | concat a b iha ihb =>
    cases a with
    | atom s =>
      cases y with
      | atom t => exact absurd h1 (by simp [le])
      | concat c d =>
        cases c with
        | atom t =>
          simp only [le] at h1 h2
          by_cases h : Url.atom s = .atom t
          · rw [if_pos h] at h1
            rw [if_pos h.symm] at h2
            rw [ihb d hx hy h1 h2, h]
          · rw [if_neg h] at h1
            rw [if_neg (Ne.symm h)] at h2
            exact absurd (congrArg Url.atom (strLe_antisymm s t h1 h2)) h
        | _ => exact absurd hy (by simp [NamePath])
      | _ => exact absurd hy (by simp [NamePath])
    | _ => exact absurd hx (by simp [NamePath])
  | _ => exact absurd hx (by simp [NamePath])

theorem le_trans (x y z : Url) (hx : NamePath x) (hy : NamePath y) (hz : NamePath z) (h1 : le x y = true)
    (h2 : le y z = true) : le x z = true := by
  induction x generalizing y z with
  | atom s =>
    cases z with
    | atom u =>
      cases y with
      | atom t => exact strLe_trans s t u h1 h2
      | concat c d => exact absurd h2 (by simp [le])
      | _ => exact absurd hy (by simp [NamePath])
    | concat c d => rfl
    | _ => exact absurd hz (by simp [NamePath])
  | concat a b iha ihb =>
    cases a with
    | atom s =>
      cases y with
      | atom t => exact absurd h1 (by simp [le])
      | concat c d =>
        cases c with
        | atom t =>
          cases z with
          | atom u => exact absurd h2 (by simp [le])
          | concat e f =>
            cases e with
            | atom u =>
              simp only [le] at h1 h2 ⊢
              by_cases hst : Url.atom s = .atom t
              · by_cases htu : Url.atom t = .atom u
                · rw [if_pos hst] at h1
                  rw [if_pos htu] at h2
                  rw [if_pos (hst.trans htu)]
                  exact ihb d f hx hy hz h1 h2
                · rw [if_neg htu] at h2
                  rw [if_neg (by rw [hst]; exact htu)]
                  injection hst with hst
                  rw [hst]; exact h2
              · rw [if_neg hst] at h1
                by_cases htu : Url.atom t = .atom u
                · rw [if_neg (by rw [← htu]; exact hst)]
                  injection htu with htu
                  rw [← htu]; exact h1
                · rw [if_neg htu] at h2
                  by_cases hsu : Url.atom s = .atom u
                  · injection hsu with hsu
                    subst hsu
                    exact absurd (congrArg Url.atom (strLe_antisymm s t h1 h2)) hst
                  · rw [if_neg hsu]; exact strLe_trans s t u h1 h2
            | _ => exact absurd hz (by simp [NamePath])
          | _ => exact absurd hz (by simp [NamePath])
        | _ => exact absurd hy (by simp [NamePath])
      | _ => exact absurd hy (by simp [NamePath])
    | _ => exact absurd hx (by simp [NamePath])
  | _ => exact absurd hx (by simp [NamePath])

theorem namePath_P {l : List Url} (h : ∀ y ∈ l, isAtomic y = true) (hne : l ≠ []) : NamePath (P l) := by
  induction l with
  | nil => exact absurd rfl hne
  | cons x l ih =>
    have hx := h x (by simp)
    obtain ⟨s, rfl⟩ : ∃ s, x = .atom s := by cases x <;> simp_all [isAtomic]
    cases l with
    | nil => exact trivial
    | cons y l => exact ih (fun z hz => h z (by simp [hz])) (by simp)

/-! ## Factoring -/

theorem mul_free {b : Bool} {a x : Url} (ha : Free b a) (hc : isConcat a = false) (hx : Free false x) :
    mul a x = .ok (.concat a x) := by
  have h1 : topRoot x = false := by
    cases x with
    | concat c d =>
      have := hx.1
      have hnc := hx.2.1
      cases c with
      | root r => simp [Free] at this
      | root3 p q => exact absurd this.1.1 (by simp [isPseudoAtomic])
      | concat => simp [isConcat] at hnc
      | _ => rfl
    | root r => simp [Free] at hx
    | root3 p q => exact absurd hx.1.1 (by simp [isPseudoAtomic])
    | _ => rfl
  have h2 : x ≠ here ∧ x ≠ .none ∧ x ≠ parent ∧ parentFirst x = false := by
    cases x with
    | concat c d =>
      refine ⟨by simp [here], by simp, by simp [parent], ?_⟩
      simp only [parentFirst, isAtom_parent, decide_eq_false_iff_not]
      rintro rfl
      exact absurd hx.1.2.1 (by simp)
    | none => exact absurd hx.1 (by decide)
    | or => simp [here, parent, parentFirst]
    | root => simp [here, parent, parentFirst]
    | root3 => simp [here, parent, parentFirst]
    | _ => exact ⟨hx.1.2.1, by simp, hx.2.1, rfl⟩
  have h3 : a ≠ here ∧ a ≠ .atom [] ∧ a ≠ .none := by
    cases a with
    | none => exact absurd ha.1 (by decide)
    | atom s => exact ⟨ha.1.2.1, ha.1.2.2, by simp⟩
    | _ => simp [here]
  rw [mul_plain _ _ h1, if_neg (by simp [isAtom_here, isAtom_empty, h3.1, h3.2.1]),
    if_neg (by simp [isAtom_here, h2.1]), if_neg (by simp [isNone_eq, h2.2.1, h3.2.2]),
    if_neg (by simp [isAtom_parent, h2.2.2.1]), if_neg (by simp [isAtom_parent, h2.2.2.1]),
    if_neg (by simp [isAtom_parent, h2.2.2.1]), if_neg (by simp [h2.2.2.2]), if_neg (by simp [h2.2.2.2]),
    if_neg (by simp [h2.2.2.2])]
  cases a <;> simp_all [isConcat]

theorem free_ne_none {b : Bool} {u : Url} (h : Free b u) : u ≠ .none := by
  rintro rfl
  exact absurd h.1 (by decide)

theorem free_alt {b : Bool} {u v : Url} (hu : Free b u) (hv : Free b v) : Free b (alt u v) :=
  alt_ind (Q := Free b) (fun _ _ => Iff.rfl) u v hu hv

theorem den_alt {b : Bool} {u v : Url} (hu : Free b u) (hv : Free b v) :
    (∀ p, p ∈ den (alt u v) ↔ p ∈ den u ∨ p ∈ den v) ∧ (alt u v).size ≤ u.size + v.size + 1 := by
  have single : ∀ u v : Url, u ≠ .none → v ≠ .none → isOr u = false →
      (∀ p, p ∈ den (alt u v) ↔ p ∈ den u ∨ p ∈ den v) ∧ (alt u v).size ≤ u.size + v.size + 1 := by
    intro u v h1 h2 h3
    rw [alt_single u v h1 h2 h3]
    by_cases h : u = v
    · rw [if_pos h, h]; simp; omega
    · rw [if_neg h]
      cases v with
      | or c d =>
        dsimp only
        split
        · next hc =>
          subst hc
          constructor
          · intro p
            simp only [den, List.mem_append]
            constructor
            · exact .inr
            · rintro (h | h)
              · exact .inl h
              · exact h
          · omega
        · constructor
          · intro p; simp [den]
          · simp only [Url.size]; omega
      | _ =>
        constructor
        · intro p; simp [den]
        · simp only [Url.size]; omega
  induction u generalizing v with
  | or a c iha ihc =>
    rw [alt_or _ _ _ (free_ne_none hv)]
    obtain ⟨h1, s1⟩ := ihc hu.2 hv
    obtain ⟨h2, s2⟩ := iha hu.1 (free_alt hu.2 hv)
    constructor
    · intro p
      rw [h2, h1]
      simp only [den, List.mem_append]
      exact or_assoc.symm
    · simp only [Url.size]; omega
  | _ => exact single _ v (free_ne_none hu) (free_ne_none hv) rfl

/-- What a reordering of a url keeps. -/
def Keeps (b : Bool) (u v : Url) : Prop := Free b v ∧ (∀ p, p ∈ den v ↔ p ∈ den u) ∧ v.size ≤ u.size

theorem keeps_refl {b : Bool} {u : Url} (h : Free b u) : Keeps b u u := ⟨h, fun _ => Iff.rfl, Nat.le_refl _⟩

theorem keeps_alt {b : Bool} {a c x y : Url} (hx : Keeps b a x) (hy : Keeps b c y) : Keeps b (.or a c) (alt x y) := by
  obtain ⟨h1, s1⟩ := den_alt hx.1 hy.1
  refine ⟨free_alt hx.1 hy.1, fun p => ?_, ?_⟩
  · rw [h1, hx.2.1, hy.2.1]; simp [den]
  · have := hx.2.2
    have := hy.2.2
    simp only [Url.size]; omega

theorem keeps_swap {b : Bool} {a c x : Url} (h : Keeps b (.or a c) x) : Keeps b (.or c a) x := by
  refine ⟨h.1, fun p => ?_, ?_⟩
  · rw [h.2.1]; simp only [den, List.mem_append]; exact or_comm
  · have := h.2.2
    simp only [Url.size] at this ⊢; omega

theorem keeps_trans {b : Bool} {u v w : Url} (h1 : Keeps b u v) (h2 : Keeps b v w) : Keeps b u w :=
  ⟨h2.1, fun p => (h2.2.1 p).trans (h1.2.1 p), Nat.le_trans h2.2.2 h1.2.2⟩

theorem keeps_sortSub {b : Bool} {x u : Url} (hx : Free b x) (hu : Free b u) : Keeps b (.or x u) (sortSub x u) := by
  have base : ∀ u, Free b u → Keeps b (.or x u) (if le x u then alt x u else alt u x) := by
    intro u hu
    split
    · exact keeps_alt (keeps_refl hx) (keeps_refl hu)
    · exact keeps_swap (keeps_alt (keeps_refl hu) (keeps_refl hx))
  induction u with
  | or a c iha ihc =>
    rw [sortSub]
    split
    · exact keeps_alt (keeps_refl hx) (keeps_refl hu)
    · have := keeps_alt (keeps_refl hu.1) (ihc hu.2)
      refine ⟨this.1, fun p => ?_, ?_⟩
      · rw [this.2.1]
        simp only [den, List.mem_append]
        constructor
        · rintro (h | h | h)
          · exact .inr (.inl h)
          · exact .inl h
          · exact .inr (.inr h)
        · rintro (h | h | h)
          · exact .inr (.inl h)
          · exact .inl h
          · exact .inr (.inr h)
      · have h := this.2.2
        simp only [Url.size] at h ⊢; omega
  | _ => exact base _ hu

theorem keeps_sort {b : Bool} {u : Url} (hu : Free b u) : Keeps b u (sort u) := by
  induction u with
  | or a c iha ihc =>
    rw [sort]
    have h1 := ihc hu.2
    have h2 := keeps_sortSub hu.1 h1.1
    refine ⟨h2.1, fun p => ?_, ?_⟩
    · rw [h2.2.1]; simp only [den, List.mem_append, h1.2.1]
    · have := h2.2.2
      have := h1.2.2
      simp only [Url.size] at *; omega
  | _ => exact keeps_refl hu

theorem keeps_group {b : Bool} {a x y : Url} (ha : Free b (.concat a x)) (hy : Free b (.concat a y)) :
    ∃ w, mul a (alt x y) = .ok w ∧ Keeps b (.or (.concat a x) (.concat a y)) w := by
  obtain ⟨h1, s1⟩ := den_alt ha.2.2 hy.2.2
  have hf := free_alt ha.2.2 hy.2.2
  refine ⟨_, mul_free ha.1 ha.2.1 hf, ⟨ha.1, ha.2.1, hf⟩, fun p => ?_, ?_⟩
  · simp only [den, List.mem_append, List.mem_flatMap, List.mem_map, h1]
    constructor
    · rintro ⟨q, hq, r, hr | hr, rfl⟩
      · exact .inl ⟨q, hq, r, hr, rfl⟩
      · exact .inr ⟨q, hq, r, hr, rfl⟩
    · rintro (⟨q, hq, r, hr, rfl⟩ | ⟨q, hq, r, hr, rfl⟩)
      · exact ⟨q, hq, r, .inl hr, rfl⟩
      · exact ⟨q, hq, r, .inr hr, rfl⟩
  · simp only [Url.size]; omega

theorem keeps_factorSorted {b : Bool} {u : Url} (hu : Free b u) : ∃ v, factorSorted u = .ok v ∧ Keeps b u v := by
  induction u with
  | or a c iha ihc =>
    obtain ⟨v, ev, hv⟩ := ihc hu.2
    rw [factorSorted, ev, Res.ok_bind]
    have hplain : Keeps b (.or a c) (alt a v) := keeps_alt (keeps_refl hu.1) hv
    have hav : Keeps b (.or a c) (.or a v) := by
      refine ⟨⟨hu.1, hv.1⟩, fun p => ?_, ?_⟩
      · simp only [den, List.mem_append, hv.2.1]
      · have := hv.2.2
        simp only [Url.size]; omega
    split
    · next a1 a2 v1 v2 =>
      split
      · next h =>
        subst h
        obtain ⟨w, ew, hw⟩ := keeps_group hu.1 hv.1
        exact ⟨w, ew, keeps_trans hav hw⟩
      · exact ⟨_, rfl, hplain⟩
    · next a1 a2 v1 v2 v3 =>
      split
      · next h =>
        subst h
        obtain ⟨w, ew, hw⟩ := keeps_group hu.1 hv.1.1
        rw [ew, Res.ok_bind]
        refine ⟨_, rfl, ?_⟩
        have := keeps_alt hw (keeps_refl hv.1.2)
        refine keeps_trans hav ⟨this.1, fun p => ?_, ?_⟩
        · rw [this.2.1]; simp only [den, List.mem_append, or_assoc]
        · have h := this.2.2
          simp only [Url.size] at h ⊢; omega
      · exact ⟨_, rfl, hplain⟩
    · exact ⟨_, rfl, hplain⟩
  | _ => exact ⟨_, rfl, keeps_refl hu⟩

theorem keeps_factorSub {b : Bool} {fac : Url → Res Url} {n : Nat}
    (hfac : ∀ u, u.size ≤ n → Free false u → ∃ v, fac u = .ok v ∧ Keeps false u v) (u : Url) (hn : u.size ≤ n + 1)
    (hu : Free b u) : ∃ v, factorSub fac u = .ok v ∧ Keeps b u v := by
  induction u with
  | or a c iha ihc =>
    simp only [Url.size] at hn
    obtain ⟨x, ex, hx⟩ := iha (by omega) hu.1
    obtain ⟨y, ey, hy⟩ := ihc (by omega) hu.2
    rw [factorSub, ex, ey, Res.ok_bind, Res.ok_bind]
    exact ⟨_, rfl, keeps_alt hx hy⟩
  | concat a c iha ihc =>
    simp only [Url.size] at hn
    obtain ⟨x, ex, hx⟩ := hfac c (by omega) hu.2.2
    rw [factorSub, ex, Res.ok_bind, mul_free hu.1 hu.2.1 hx.1]
    refine ⟨_, rfl, ⟨hu.1, hu.2.1, hx.1⟩, fun p => ?_, ?_⟩
    · simp only [den, List.mem_flatMap, List.mem_map, hx.2.1]
    · have := hx.2.2
      simp only [Url.size]; omega
  | _ => exact ⟨_, rfl, keeps_refl hu⟩

theorem keeps_factor (n : Nat) {b : Bool} (u : Url) (hn : u.size ≤ n) (hu : Free b u) (f : Nat) (hf : n ≤ f) :
    ∃ v, factor f u = .ok v ∧ Keeps b u v := by
  induction n generalizing u f b with
  | zero =>
    have : 1 ≤ u.size := by cases u <;> simp [Url.size]
    omega
  | succ n ih =>
    obtain ⟨f, rfl⟩ : ∃ g, f = g + 1 := ⟨f - 1, by omega⟩
    have h1 := keeps_sort hu
    obtain ⟨v, ev, hv⟩ := keeps_factorSorted h1.1
    have h12 := keeps_trans h1 hv
    obtain ⟨w, ew, hw⟩ := keeps_factorSub (n := n) (fun u hu1 hu2 => ih u hu1 hu2 f (by omega)) v
      (Nat.le_trans h12.2.2 hn) h12.1
    rw [factor, ev, Res.ok_bind]
    exact ⟨w, ew, keeps_trans h12 hw⟩

/-! ## Grouping -/

/-- The first component of a concatenation. -/
def key : Url → Option Url
  | .concat a _ => some a
  | _ => none

theorem le_convex {x y z : Url} {s : Url} (hx : NamePath x) (hy : NamePath y) (hz : NamePath z) (h1 : le x y = true)
    (h2 : le y z = true) (kx : key x = some s) (kz : key z = some s) : key y = some s := by
  cases x with
  | concat a b =>
    cases a with
    | atom p =>
      cases z with
      | concat c d =>
        simp only [key, Option.some.injEq] at kx kz
        subst kz
        subst kx
        cases y with
        | concat e f =>
          cases e with
          | atom q =>
            simp only [le] at h1 h2
            simp only [key, Option.some.injEq]
            by_cases h : Url.atom p = .atom q
            · exact h.symm
            · rw [if_neg h] at h1
              rw [if_neg (Ne.symm h)] at h2
              rw [strLe_antisymm p q h1 h2]
          | _ => exact absurd hy (by simp [NamePath])
        | atom q => exact absurd h1 (by simp [le])
        | _ => exact absurd hy (by simp [NamePath])
      | _ => simp [key] at kz
    | _ => exact absurd hx (by simp [NamePath])
  | _ => simp [key] at kx

/-- A path of names that stand for themselves. -/
def CompPath : Url → Prop
  | .atom s => Comp (.atom s)
  | .concat (.atom s) b => Comp (.atom s) ∧ CompPath b
  | _ => False

theorem CompPath.namePath {u : Url} (h : CompPath u) : NamePath u := by
  induction u with
  | atom s => trivial
  | concat a b iha ihb =>
    cases a with
    | atom s => exact ihb h.2
    | _ => exact absurd h (by simp [CompPath])
  | _ => exact absurd h (by simp [CompPath])

theorem CompPath.free {u : Url} (h : CompPath u) : Free false u := by
  induction u with
  | atom s => exact h
  | concat a b iha ihb =>
    cases a with
    | atom s => exact ⟨h.1, rfl, ihb h.2⟩
    | _ => exact absurd h (by simp [CompPath])
  | _ => exact absurd h (by simp [CompPath])

theorem CompPath.single {u : Url} (h : CompPath u) : Single u := by
  cases u with
  | atom s => exact ⟨rfl, by simp⟩
  | concat => exact ⟨rfl, by simp⟩
  | _ => exact absurd h (by simp [CompPath])

/-- An alternative after grouping: a name, or a name followed by alternatives. -/
def Group (u : Url) : Prop :=
  (∃ s, u = .atom s ∧ Comp (.atom s)) ∨
  ∃ s M, u = .concat (.atom s) (orOf M) ∧ Comp (.atom s) ∧ M ≠ [] ∧ ∀ x ∈ M, CompPath x

theorem Group.single {u : Url} (h : Group u) : Single u := by
  rcases h with ⟨s, rfl, _⟩ | ⟨s, M, rfl, _⟩
  · exact ⟨rfl, by simp⟩
  · exact ⟨rfl, by simp⟩

theorem group_of_path {u : Url} (h : CompPath u) : Group u := by
  cases u with
  | atom s => exact .inl ⟨s, rfl, h⟩
  | concat a b =>
    cases a with
    | atom s => exact .inr ⟨s, [b], rfl, h.1, by simp, by simpa using h.2⟩
    | _ => exact absurd h (by simp [CompPath])
  | _ => exact absurd h (by simp [CompPath])

/-- No two alternatives begin with the same directory, and no name occurs twice. -/
def Apart (x y : Url) : Prop := x ≠ y ∧ (key x = none ∨ key x ≠ key y)

theorem free_orOf {b : Bool} {M : List Url} (h : ∀ x ∈ M, Free b x) (hne : M ≠ []) : Free b (orOf M) := by
  induction M with
  | nil => exact absurd rfl hne
  | cons x M ih =>
    by_cases hM : M = []
    · subst hM; exact h x (by simp)
    · rw [orOf_cons x M hM]
      exact ⟨h x (by simp), ih (fun y hy => h y (by simp [hy])) hM⟩

theorem factorSorted_groups (L : List Url) (hL : ∀ x ∈ L, CompPath x) (hs : L.Pairwise Lt) (hne : L ≠ []) :
    ∃ G, factorSorted (orOf L) = .ok (orOf G) ∧ G ≠ [] ∧ (∀ x ∈ G, Group x) ∧ G.Pairwise Apart ∧
      (∀ x ∈ G, key x = none → x ∈ L) ∧ (∀ x ∈ G, ∀ s, key x = some s → ∃ y ∈ L, key y = some s) ∧
      G.head?.map key = L.head?.map key := by
  induction L with
  | nil => exact absurd rfl hne
  | cons a L ih =>
    obtain ⟨ha1, ha2⟩ := List.pairwise_cons.1 hs
    have ha := hL a (by simp)
    by_cases hL0 : L = []
    · subst hL0
      refine ⟨[a], ?_, by simp, by simpa using group_of_path ha, by simp, by simp, ?_, rfl⟩
      · rw [orOf]
        cases a with
        | or => exact absurd ha (by simp [CompPath])
        | _ => rfl
      · intro x hx s hk
        exact ⟨x, hx, hk⟩
    · obtain ⟨G, eG, hG0, hGg, hGp, hG1, hG2, hG3⟩ := ih (fun x hx => hL x (by simp [hx])) ha2 hL0
      rw [orOf_cons a L hL0, factorSorted, eG, Res.ok_bind]
      obtain ⟨g, G', rfl⟩ : ∃ g G', G = g :: G' := by
        cases G with
        | nil => exact absurd rfl hG0
        | cons g G' => exact ⟨g, G', rfl⟩
      obtain ⟨l, L', rfl⟩ : ∃ l L', L = l :: L' := by
        cases L with
        | nil => exact absurd rfl hL0
        | cons l L' => exact ⟨l, L', rfl⟩
      simp only [List.head?_cons, Option.map_some, Option.some.injEq] at hG3
      obtain ⟨hg1, hg2⟩ := List.pairwise_cons.1 hGp
      by_cases hk : key a ≠ none ∧ key a = key g
      · -- the first group gets one more
        cases a with
        | concat a1 a2 =>
          cases a1 with
          | atom s =>
            have hgk : key g = some (.atom s) := hk.2.symm
            rcases hGg g (by simp) with ⟨t, rfl, _⟩ | ⟨t, M, rfl, ht, hM0, hM⟩
            · simp [key] at hgk
            · simp only [key, Option.some.injEq] at hgk
              injection hgk with hts
              subst hts
              have hMs : ∀ x ∈ M, Single x := fun x hx => (hM x hx).single
              have halt : alt a2 (orOf M) = orOf (ins a2 M) := alt_ins ha.2.single hMs hM0
              have hcp : ∀ x ∈ ins a2 M, CompPath x := by
                intro x hx
                rcases (mem_ins a2 x M).1 hx with rfl | hx
                · exact ha.2
                · exact hM x hx
              have hmul : mul (.atom t) (orOf (ins a2 M)) = .ok (.concat (.atom t) (orOf (ins a2 M))) :=
                mul_free (b := false) (a := .atom t) ha.1 rfl (free_orOf (fun x hx => (hcp x hx).free) (ins_ne _ _))
              refine ⟨.concat (.atom t) (orOf (ins a2 M)) :: G', ?_, by simp, ?_, ?_, ?_, ?_, ?_⟩
              · by_cases hG' : G' = []
                · subst hG'
                  rw [orOf, orOf]
                  dsimp only
                  rw [if_pos rfl, halt, hmul]
                · rw [orOf_cons _ _ hG', orOf_cons _ _ hG']
                  dsimp only
                  rw [if_pos rfl, halt, hmul, Res.ok_bind, ← orOf_cons _ _ hG']
                  have hne' : ∀ M', G'.head? ≠ some (.concat (.atom t) M') := by
                    intro M' e
                    have := (hg1 _ (List.mem_of_mem_head? e)).2
                    simp [key] at this
                  rw [alt_ins ⟨rfl, by simp⟩ (fun x hx => (hGg x (by simp [hx])).single) hG', ins, if_neg (hne' _)]
              · intro x hx
                rcases List.mem_cons.1 hx with rfl | hx
                · exact .inr ⟨t, _, rfl, ht, ins_ne _ _, hcp⟩
                · exact hGg x (by simp [hx])
              · refine List.pairwise_cons.2 ⟨fun x hx => ?_, hg2⟩
                have := (hg1 x hx).2
                simp only [key, reduceCtorEq, false_or] at this
                refine ⟨fun e => ?_, .inr (by simpa [key] using this)⟩
                rw [← e] at this
                exact this rfl
              · intro x hx hkx
                rcases List.mem_cons.1 hx with rfl | hx
                · simp [key] at hkx
                · exact List.mem_cons_of_mem _ (hG1 x (by simp [hx]) hkx)
              · intro x hx u hkx
                rcases List.mem_cons.1 hx with rfl | hx
                · exact ⟨.concat (.atom t) a2, by simp, by simpa [key] using hkx⟩
                · obtain ⟨y, hy, e⟩ := hG2 x (by simp [hx]) u hkx
                  exact ⟨y, List.mem_cons_of_mem _ hy, e⟩
              · rfl
          | _ => exact absurd ha (by simp [CompPath])
        | _ => exact absurd rfl hk.1
      · -- a new group
        have hapart : ∀ x ∈ g :: G', Apart a x := by
          intro x hx
          constructor
          · intro e
            subst e
            cases hka : key a with
            | none => exact (ha1 a (hG1 a hx hka)).2 rfl
            | some u =>
              obtain ⟨y, hy, ey⟩ := hG2 a hx u hka
              have hlk : key l = some u := by
                rcases List.mem_cons.1 hy with rfl | hy'
                · exact ey
                · exact le_convex ha.namePath (hL l (by simp)).namePath (hL y (by simp [hy'])).namePath (ha1 l (by simp)).1
                    ((List.pairwise_cons.1 ha2).1 y hy').1 hka ey
              exact hk ⟨by simp [hka], by rw [hka, hG3, hlk]⟩
          · by_cases hka : key a = none
            · exact .inl hka
            · right
              intro e
              obtain ⟨u, hu⟩ := Option.ne_none_iff_exists'.1 hka
              obtain ⟨y, hy, ey⟩ := hG2 x hx u (by rw [← e, hu])
              have hlk : key l = some u := by
                rcases List.mem_cons.1 hy with rfl | hy'
                · exact ey
                · exact le_convex ha.namePath (hL l (by simp)).namePath (hL y (by simp [hy'])).namePath (ha1 l (by simp)).1
                    ((List.pairwise_cons.1 ha2).1 y hy').1 hu ey
              exact hk ⟨hka, by rw [hu, hG3, hlk]⟩
        have hcons : alt a (orOf (g :: G')) = orOf (a :: g :: G') := by
          rw [alt_ins ha.single (fun x hx => (hGg x hx).single) (by simp), ins, if_neg]
          intro e
          simp only [List.head?_cons, Option.some.injEq] at e
          exact (hapart g (by simp)).1 e.symm
        refine ⟨a :: g :: G', ?_, by simp, ?_, List.pairwise_cons.2 ⟨hapart, hGp⟩, ?_, ?_, rfl⟩
        · rw [← hcons]
          cases a with
          | concat a1 a2 =>
            have hne' : ∀ v1 v2, g = .concat v1 v2 → a1 ≠ v1 := by
              intro v1 v2 e e2
              exact hk ⟨by simp [key], by rw [e, e2]; rfl⟩
            by_cases hG' : G' = []
            · subst hG'
              rw [orOf]
              cases g with
              | concat v1 v2 => dsimp only; rw [if_neg (hne' v1 v2 rfl)]
              | or => exact absurd (hGg _ List.mem_cons_self).single.1 (by simp [isOr])
              | _ => rfl
            · rw [orOf_cons _ _ hG']
              cases g with
              | concat v1 v2 => dsimp only; rw [if_neg (hne' v1 v2 rfl)]
              | _ => rfl
          | _ => rfl
        · intro x hx
          rcases List.mem_cons.1 hx with rfl | hx
          · exact group_of_path ha
          · exact hGg x hx
        · intro x hx hkx
          rcases List.mem_cons.1 hx with rfl | hx
          · simp
          · exact List.mem_cons_of_mem _ (hG1 x hx hkx)
        · intro x hx u hkx
          rcases List.mem_cons.1 hx with rfl | hx
          · exact ⟨x, by simp, hkx⟩
          · obtain ⟨y, hy, e⟩ := hG2 x hx u hkx
            exact ⟨y, List.mem_cons_of_mem _ hy, e⟩

/-- A url in which no two alternatives at any level begin with the same directory. -/
inductive Factored : Url → Prop
  | mk (G : List Url) (hne : G ≠ []) (hs : ∀ g ∈ G, Single g) (hap : G.Pairwise Apart)
      (hv : ∀ g ∈ G, ∀ a v, g = .concat a v → Factored v) : Factored (orOf G)

theorem size_orOf_mem {x : Url} {L : List Url} (h : x ∈ L) : x.size ≤ (orOf L).size := by
  induction L with
  | nil => simp at h
  | cons a L ih =>
    by_cases hL : L = []
    · subst hL
      simp only [List.mem_cons, List.not_mem_nil, or_false] at h
      subst h; exact Nat.le_refl _
    · rw [orOf_cons a L hL]
      simp only [Url.size]
      rcases List.mem_cons.1 h with rfl | h
      · omega
      · have := ih h
        omega

theorem factorSub_groups {fac : Url → Res Url} {n : Nat}
    (hfac : ∀ M : List Url, M ≠ [] → (∀ x ∈ M, CompPath x) → (orOf M).size ≤ n → ∃ v, fac (orOf M) = .ok v ∧ Free false v ∧ Factored v)
    (G : List Url) (hne : G ≠ []) (hG : ∀ x ∈ G, Group x) (hp : G.Pairwise Apart) (hn : ∀ x ∈ G, x.size ≤ n + 1) :
    ∃ H, factorSub fac (orOf G) = .ok (orOf H) ∧ H ≠ [] ∧ (∀ x ∈ H, Single x) ∧ H.Pairwise Apart ∧
      (∀ x ∈ H, ∀ a v, x = .concat a v → Factored v) ∧
      (∀ x ∈ H, key x = none → x ∈ G) ∧ (∀ x ∈ H, ∀ s, key x = some s → ∃ y ∈ G, key y = some s) := by
  have one : ∀ x, Group x → x.size ≤ n + 1 → ∃ y, factorSub fac x = .ok y ∧ Single y ∧ key y = key x ∧
      (key y = none → y = x) ∧ ∀ a v, y = .concat a v → Factored v := by
    intro x hx hxn
    rcases hx with ⟨s, rfl, hs⟩ | ⟨s, M, rfl, hs, hM0, hM⟩
    · exact ⟨_, rfl, ⟨rfl, by simp⟩, rfl, fun _ => rfl, by simp⟩
    · simp only [Url.size] at hxn
      obtain ⟨v, ev, hfv, hv⟩ := hfac M hM0 hM (by omega)
      refine ⟨.concat (.atom s) v, ?_, ⟨rfl, by simp⟩, rfl, by simp [key], ?_⟩
      · rw [factorSub, ev, Res.ok_bind]
        exact mul_free (b := false) (a := .atom s) hs rfl hfv
      · intro a w e
        injection e with e1 e2
        exact e2 ▸ hv
  induction G with
  | nil => exact absurd rfl hne
  | cons g G ih =>
    obtain ⟨y, ey, hy1, hy2, hy3, hy4⟩ := one g (hG g (by simp)) (hn g (by simp))
    by_cases hG0 : G = []
    · subst hG0
      refine ⟨[y], ey, by simp, by simpa using hy1, by simp, ?_, ?_, ?_⟩
      · intro x hx
        simp only [List.mem_cons, List.not_mem_nil, or_false] at hx
        subst hx; exact hy4
      · intro x hx hk
        simp only [List.mem_cons, List.not_mem_nil, or_false] at hx
        subst hx; simp [hy3 hk]
      · intro x hx s hk
        simp only [List.mem_cons, List.not_mem_nil, or_false] at hx
        subst hx; exact ⟨g, by simp, hy2 ▸ hk⟩
    · obtain ⟨hp1, hp2⟩ := List.pairwise_cons.1 hp
      obtain ⟨H, eH, hH0, hH1, hH2, hH3, hH4, hH5⟩ := ih hG0 (fun x hx => hG x (by simp [hx])) hp2 (fun x hx => hn x (by simp [hx]))
      have hap : ∀ x ∈ H, Apart y x := by
        intro x hx
        have hkey : key y = none ∨ key y ≠ key x := by
          cases hk : key y with
          | none => exact .inl rfl
          | some s =>
            right
            intro e
            obtain ⟨z, hz, ez⟩ := hH5 x hx s e.symm
            have := (hp1 z hz).2
            rw [← hy2, hk, ez] at this
            simp at this
        refine ⟨fun e => ?_, hkey⟩
        subst e
        rcases hkey with hk | hk
        · have h1 := hy3 hk
          exact (hp1 y (hH4 y hx hk)).1 h1.symm
        · exact hk rfl
      refine ⟨y :: H, ?_, by simp, ?_, List.pairwise_cons.2 ⟨hap, hH2⟩, ?_, ?_, ?_⟩
      · rw [orOf_cons g G hG0, factorSub, ey, eH, Res.ok_bind, Res.ok_bind, alt_ins hy1 hH1 hH0, ins, if_neg]
        intro e
        exact (hap y (List.mem_of_mem_head? e)).1 rfl
      · intro x hx
        rcases List.mem_cons.1 hx with rfl | hx
        · exact hy1
        · exact hH1 x hx
      · intro x hx
        rcases List.mem_cons.1 hx with rfl | hx
        · exact hy4
        · exact hH3 x hx
      · intro x hx hk
        rcases List.mem_cons.1 hx with rfl | hx
        · simp [hy3 hk]
        · exact List.mem_cons_of_mem _ (hH4 x hx hk)
      · intro x hx s hk
        rcases List.mem_cons.1 hx with rfl | hx
        · exact ⟨g, by simp, hy2 ▸ hk⟩
        · obtain ⟨z, hz, ez⟩ := hH5 x hx s hk
          exact ⟨z, List.mem_cons_of_mem _ hz, ez⟩

theorem factor_groups (n : Nat) (L : List Url) (hne : L ≠ []) (hL : ∀ x ∈ L, CompPath x) (hn : (orOf L).size ≤ n) (f : Nat)
    (hf : n ≤ f) : ∃ v, factor f (orOf L) = .ok v ∧ Free false v ∧ Factored v := by
  induction n generalizing L f with
  | zero =>
    have : 1 ≤ (orOf L).size := by cases orOf L <;> simp [Url.size]
    omega
  | succ n ih =>
    obtain ⟨f, rfl⟩ : ∃ g, f = g + 1 := ⟨f - 1, by omega⟩
    have hfree : Free false (orOf L) := free_orOf (fun x hx => (hL x hx).free) hne
    obtain ⟨w, ew, hw⟩ := keeps_factor (n + 1) (orOf L) hn hfree (f + 1) hf
    have h1 := keeps_sort hfree
    have hsing : ∀ x ∈ L, Single x := fun x hx => (hL x hx).single
    have hS : sort (orOf L) = orOf (L.foldr sIns []) := sort_orOf L hsing hne
    have hSL : ∀ x ∈ L.foldr sIns [], CompPath x := fun x hx => hL x ((mem_sorted L x).1 hx)
    have hS0 : L.foldr sIns [] ≠ [] := by
      intro e
      cases L with
      | nil => exact hne rfl
      | cons a L =>
        have := (mem_sorted (a :: L) a).2 (by simp)
        rw [e] at this
        simp at this
    have hsorted : (L.foldr sIns []).Pairwise Lt :=
      sorted_foldr (Q := CompPath) (fun x y hx hy => le_total x y hx.namePath hy.namePath)
        (fun x y z hx hy hz => le_trans x y z hx.namePath hy.namePath hz.namePath)
        (fun x y hx hy => le_antisymm x y hx.namePath hy.namePath) L hL
    obtain ⟨G, eG, hG0, hG1, hG2, -, -, -⟩ := factorSorted_groups _ hSL hsorted hS0
    obtain ⟨v, ev, hv⟩ := keeps_factorSorted h1.1
    rw [hS, eG] at ev
    injection ev with ev
    subst ev
    have hsz := (keeps_trans h1 hv).2.2
    obtain ⟨H, eH, hH0, hH1, hH2, hH3, -, -⟩ := factorSub_groups (fac := factor f) (n := n)
      (fun M hM0 hM hMn => ih M hM0 hM hMn f (by omega)) G hG0 hG1 hG2
      (fun x hx => by have := size_orOf_mem hx; omega)
    have hfin : factor (f + 1) (orOf L) = .ok (orOf H) := by
      rw [factor, hS, eG, Res.ok_bind, eH]
    rw [hfin] at ew
    injection ew with ew
    subst ew
    exact ⟨_, hfin, hw.1, .mk H hH0 hH1 hH2 hH3⟩

end Lolly.Url
