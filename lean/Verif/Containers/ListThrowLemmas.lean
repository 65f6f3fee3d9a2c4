import Verif.Containers.ListThrow

/-!
# Lemmas for C181
-/

set_option autoImplicit false

namespace Lolly.ListThrow

variable {T : Type}

/-- The list `p` in memory has the items `xs`. -/
inductive Lists (H : List (Option (Node T))) : Option Nat → List T → Prop
  | nil : Lists H none []
  | cons {a : Nat} {nd : Node T} {xs : List T} (h : H[a]? = some (some nd)) (t : Lists H nd.next xs) :
      Lists H (some a) (nd.item :: xs)

/-- Pointer to the newest of `n` nodes made from `base` on. -/
def top (base : Nat) : Nat → Option Nat
  | 0 => none
  | n + 1 => some (base + n)

/-- The nodes of a new list, the last one first. -/
def made (base : Nat) : List T → List (Option (Node T))
  | [] => []
  | x :: xs => made base xs ++ [some ⟨x, top base xs.length, 1⟩]

@[simp] theorem made_length (base : Nat) (xs : List T) : (made base xs).length = xs.length := by
  induction xs with
  | nil => rfl
  | cons x xs ih => simp [made, ih]

theorem Lists.mono {H : List (Option (Node T))} {p : Option Nat} {xs : List T} (h : Lists H p xs)
    (G : List (Option (Node T))) : Lists (H ++ G) p xs := by
  induction h with
  | nil => exact .nil
  | cons h _ ih =>
    refine .cons ?_ ih
    rw [List.getElem?_append_left (List.getElem?_eq_some_iff.1 h).1, h]

theorem made_lists (H : List (Option (Node T))) (xs : List T) :
    Lists (H ++ made H.length xs) (top H.length xs.length) xs := by
  induction xs with
  | nil => exact .nil
  | cons x xs ih =>
    refine Lists.cons (nd := ⟨x, top H.length xs.length, 1⟩) ?_ ?_
    · rw [made, ← List.append_assoc, List.getElem?_append_right (by simp)]
      simp
    · rw [made, ← List.append_assoc]; exact ih.mono _

/-- Destroying the only handle of a new list frees its nodes. -/
theorem drop_made (H G : List (Option (Node T))) (xs : List T) (f : Nat) (hf : xs.length < f) (s : St T)
    (hs : s.heap = H ++ made H.length xs ++ G) :
    drop f (top H.length xs.length) s =
      .ret none { s with heap := H ++ List.replicate xs.length none ++ G, elems := s.elems - xs.length } := by
  induction xs generalizing f s G with
  | nil =>
    cases f with
    | zero => omega
    | succ f =>
      obtain ⟨h, c, e, l⟩ := s
      simp only at hs
      subst hs
      simp [top, drop, made]
  | cons x xs ih =>
    cases f with
    | zero => omega
    | succ f =>
      have hg : s.heap[H.length + xs.length]? = some (some ⟨x, top H.length xs.length, 1⟩) := by
        rw [hs, made, ← List.append_assoc, List.append_assoc, List.getElem?_append_right (by simp)]
        simp
      have hset : s.heap.set (H.length + xs.length) none = H ++ made H.length xs ++ (none :: G) := by
        rw [hs, made, ← List.append_assoc, List.append_assoc, List.set_append_right _ _ (by simp)]
        simp
      show drop (f + 1) (some (H.length + xs.length)) s = _
      rw [drop, hg]
      dsimp only
      rw [if_pos rfl, ih (none :: G) f (by simpa using hf) _ (by exact hset)]
      simp only [List.length_cons, Out.ret.injEq, true_and, St.mk.injEq, and_true]
      refine ⟨?_, by omega⟩
      rw [List.replicate_succ', List.append_assoc, List.append_assoc, List.append_assoc]
      rfl

theorem release_made (H : List (Option (Node T))) (xs : List T) (s : St T) (hs : s.heap = H ++ made H.length xs) :
    release (top H.length xs.length) s =
      .ret none { s with heap := H ++ List.replicate xs.length none, elems := s.elems - xs.length } := by
  have := drop_made H [] xs (s.heap.length + 1) (by rw [hs]; simp; omega) s (by simpa using hs)
  unfold release
  simpa using this

variable (fails : Nat → Bool)

/-- No copy fails among the next `n` ones. -/
def NoneOf (s : St T) (n : Nat) : Prop := ∀ i, i < n → fails (s.copies + i) = false

/-- The copy that fails first is the one after `j` others. -/
def First (s : St T) (j : Nat) : Prop := fails (s.copies + j) = true ∧ NoneOf fails s j

/-- How many nodes exist when copy `j` of `n` items throws. -/
def nodesAt (early : Bool) (n j : Nat) : Nat := if early then (j - n) / 2 else j / 3

/-- Whether copy `j` is made inside of a constructor of a node. -/
def isInside (early : Bool) (n j : Nat) : Bool := if early then decide (n ≤ j) else decide (j % 3 ≠ 0)

/-- What making a list of the items `xs` comes to. -/
def Result (early : Bool) (xs : List T) (s : St T) (o : Out T (Option Nat)) : Prop :=
  (NoneOf fails s (3 * xs.length) → o = .ret (top s.heap.length xs.length)
      ⟨s.heap ++ made s.heap.length xs, s.copies + 3 * xs.length, s.elems + xs.length, s.lost⟩) ∧
  ∀ j, j < 3 * xs.length → First fails s j → o = .thrown
      ⟨s.heap ++ List.replicate (nodesAt early xs.length j) none, s.copies + j + 1, s.elems,
        s.lost + if isInside early xs.length j then 1 else 0⟩

variable {fails}

theorem elem_ok {s : St T} {a k : St T → Out T (Option Nat)} (h : fails s.copies = false) :
    elem fails s a k = k { s with copies := s.copies + 1, elems := s.elems + 1 } := by
  unfold elem; rw [if_neg (by simp [h])]

theorem elem_fail {s s' : St T} {a k : St T → Out T (Option Nat)} {r : Option Nat} (h : fails s.copies = true)
    (ha : a { s with copies := s.copies + 1 } = .ret r s') : elem fails s a k = .thrown s' := by
  unfold elem; rw [if_pos h, ha]

/-- The two copies inside of the constructor. -/
theorem inside_spec (item : T) (H : List (Option (Node T))) (xs : List T) (s : St T) (hs : s.heap = H ++ made H.length xs) :
    (fails s.copies = false → fails (s.copies + 1) = false →
      inside fails item (top H.length xs.length) s = .ret (top H.length (xs.length + 1))
        ⟨H ++ made H.length (item :: xs), s.copies + 2, s.elems, s.lost⟩) ∧
    (fails s.copies = true → inside fails item (top H.length xs.length) s = .thrown
        ⟨H ++ List.replicate xs.length none, s.copies + 1, s.elems - 1 - xs.length, s.lost + 1⟩) ∧
    (fails s.copies = false → fails (s.copies + 1) = true →
      inside fails item (top H.length xs.length) s = .thrown
        ⟨H ++ List.replicate xs.length none, s.copies + 2, s.elems - 1 - xs.length, s.lost + 1⟩) := by
  refine ⟨fun h1 h2 => ?_, fun h1 => ?_, fun h1 h2 => ?_⟩
  · unfold inside
    rw [elem_ok h1, elem_ok (by exact h2)]
    simp only [hs, Out.ret.injEq, St.mk.injEq, and_true]
    refine ⟨by simp [top], ?_, trivial, by omega⟩
    rw [made, List.append_assoc]
  · unfold inside
    refine elem_fail (r := none) h1 ?_
    exact release_made H xs ⟨s.heap, s.copies + 1, s.elems - 1, s.lost + 1⟩ hs
  · unfold inside
    rw [elem_ok h1]
    refine elem_fail (r := none) (by exact h2) ?_
    refine (release_made H xs ⟨s.heap, s.copies + 1 + 1, s.elems + 1 - 2, s.lost + 1⟩ hs).trans ?_
    simp only [Out.ret.injEq, St.mk.injEq, true_and, and_true]
    omega

theorem node_spec (early : Bool) (item : T) (xs : List T) (rest : St T → Out T (Option Nat)) (H : List (Option (Node T)))
    (hr : ∀ s, s.heap = H → Result fails early xs s (rest s)) (s : St T) (hs : s.heap = H) :
    Result fails early (item :: xs) s (node fails early item rest s) := by
  subst hs
  cases early with
  | true =>
    have hr := hr { s with copies := s.copies + 1, elems := s.elems + 1 } rfl
    have shift : ∀ n, NoneOf fails s (n + 1) → fails s.copies = false ∧
        NoneOf fails { s with copies := s.copies + 1, elems := s.elems + 1 } n := fun n hn =>
      ⟨hn 0 (by omega), fun i hi => by have := hn (i + 1) (by omega); rw [← this]; congr 1; dsimp only; omega⟩
    unfold node
    rw [if_pos rfl]
    constructor
    · intro hn
      obtain ⟨h0, h1⟩ := shift (3 * xs.length + 2) (by rw [List.length_cons] at hn; exact hn)
      rw [elem_ok h0, hr.1 fun i hi => h1 i (by omega)]
      dsimp only
      have ins := (inside_spec item s.heap xs ⟨s.heap ++ made s.heap.length xs, s.copies + 1 + 3 * xs.length,
        s.elems + 1 + xs.length, s.lost⟩ rfl).1 (h1 _ (by omega)) (by
          have := h1 (3 * xs.length + 1) (by omega)
          rw [← this]; congr 1)
      rw [ins]
      simp only [List.length_cons, Out.ret.injEq, St.mk.injEq, true_and, and_true]
      omega
    · intro j hj hf
      rw [List.length_cons] at hj
      cases j with
      | zero =>
        rw [elem_fail (s' := { s with copies := s.copies + 1 }) (by exact hf.1) rfl]
        simp [nodesAt, isInside]
      | succ j =>
        obtain ⟨h0, h1⟩ := shift j hf.2
        have hfj : fails (s.copies + 1 + j) = true := by rw [← hf.1]; congr 1; omega
        rw [elem_ok h0]
        by_cases hjr : j < 3 * xs.length
        · rw [hr.2 j hjr ⟨hfj, h1⟩]
          simp only [List.length_cons, nodesAt, isInside, if_true, Out.thrown.injEq, St.mk.injEq]
          refine ⟨by rw [show j + 1 - (xs.length + 1) = j - xs.length by omega], by omega, by omega, ?_⟩
          simp
        · rw [hr.1 fun i hi => h1 i (by omega)]
          dsimp only
          have ins := (inside_spec (fails := fails) item s.heap xs ⟨s.heap ++ made s.heap.length xs,
            s.copies + 1 + 3 * xs.length, s.elems + 1 + xs.length, s.lost⟩ rfl).2
          have hin : isInside true (item :: xs).length (j + 1) = true := by
            simp only [isInside, if_true, List.length_cons]; exact decide_eq_true (by omega)
          have hno : nodesAt true (item :: xs).length (j + 1) = xs.length := by
            simp only [nodesAt, if_true, List.length_cons]; omega
          rw [hin, hno]
          by_cases hj0 : j = 3 * xs.length
          · rw [ins.1 (by rw [← hj0]; exact hfj)]
            simp only [Out.thrown.injEq, St.mk.injEq, true_and, if_true, and_true]
            omega
          · have hj1 : j = 3 * xs.length + 1 := by omega
            rw [ins.2 (h1 _ (by omega)) (by rw [← hfj, hj1]; congr 1)]
            simp only [Out.thrown.injEq, St.mk.injEq, true_and, if_true, and_true]
            omega
  | false =>
    have hr := hr s rfl
    unfold node
    rw [if_neg (by decide)]
    constructor
    · intro hn
      rw [List.length_cons] at hn
      rw [hr.1 fun i hi => hn i (by omega)]
      dsimp only
      rw [elem_ok (by exact hn (3 * xs.length) (by omega))]
      have ins := (inside_spec item s.heap xs ⟨s.heap ++ made s.heap.length xs, s.copies + 3 * xs.length + 1,
        s.elems + xs.length + 1, s.lost⟩ rfl).1 (hn (3 * xs.length + 1) (by omega)) (hn (3 * xs.length + 2) (by omega))
      rw [ins]
      simp only [List.length_cons, Out.ret.injEq, St.mk.injEq, true_and, and_true]
      omega
    · intro j hj hf
      rw [List.length_cons] at hj
      by_cases hjr : j < 3 * xs.length
      · rw [hr.2 j hjr hf]
        simp [nodesAt, isInside]
      · rw [hr.1 fun i hi => hf.2 i (by omega)]
        dsimp only
        have hno : nodesAt false (item :: xs).length j = xs.length := by
          simp only [nodesAt, List.length_cons]
          rw [if_neg (by decide)]; omega
        rw [hno]
        have ins := (inside_spec (fails := fails) item s.heap xs ⟨s.heap ++ made s.heap.length xs,
          s.copies + 3 * xs.length + 1, s.elems + xs.length + 1, s.lost⟩ rfl).2
        by_cases hj0 : j = 3 * xs.length
        · rw [elem_fail (by rw [← hj0]; exact hf.1) (release_made s.heap xs _ rfl)]
          have : isInside false (item :: xs).length j = false := by
            simp only [isInside]; rw [if_neg (by decide)]; exact decide_eq_false (by omega)
          rw [this]
          simp only [Out.thrown.injEq, St.mk.injEq, true_and, if_neg (show ¬ false = true by decide)]
          omega
        · rw [elem_ok (by exact hf.2 (3 * xs.length) (by omega))]
          have : isInside false (item :: xs).length j = true := by
            simp only [isInside]; rw [if_neg (by decide)]; exact decide_eq_true (by omega)
          rw [this, if_pos rfl]
          by_cases hj1 : j = 3 * xs.length + 1
          · rw [ins.1 (by rw [← hf.1, hj1]; congr 1)]
            simp only [Out.thrown.injEq, St.mk.injEq, true_and, and_true]
            omega
          · have hj2 : j = 3 * xs.length + 2 := by omega
            rw [ins.2 (by exact hf.2 (3 * xs.length + 1) (by omega)) (by rw [← hf.1, hj2]; congr 1)]
            simp only [Out.thrown.injEq, St.mk.injEq, true_and, and_true]
            omega

end Lolly.ListThrow
