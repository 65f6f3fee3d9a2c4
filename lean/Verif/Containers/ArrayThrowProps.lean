import Verif.Containers.ArrayThrow
import Verif.Containers.ArrayLoopProps

/-!
# C175: arrays of elements whose functions throw

`C175_throws`: an exception of an element's function is passed on at once, and only then a call throws. `C175_returns`: whatever
was thrown before, a call that returns did what it should. `C175_kept_partial`: when an assignment to an element throws, or the
array was empty, the array can be used on. `C175_longer_violated`: it is longer than before. `C175_dangling_violated`: when a
constructor throws while an array that is not empty gets more memory, the array refers to freed memory or to elements that were
not constructed.
-/

set_option autoImplicit false

namespace Lolly.ArrayThrowProps

open Lolly.ArrayThrow

variable {T α β : Type} {fails : Nat → Bool} {dv : T} {moves : Bool}

/-! ## Lemmas -/

theorem construct_true (k : Nat) : ∀ t m, construct fails k t = (m, true) → m = k ∧ ∀ i, i < k → fails (t + i) = false := by
  induction k with
  | zero => intro t m h; cases h; exact ⟨rfl, fun i h => by omega⟩
  | succ k ih =>
    intro t m h
    by_cases hf : fails t = true
    · rw [construct, if_pos hf] at h
      cases h
    · rw [construct, if_neg hf] at h
      cases hr : construct fails k (t + 1) with
      | mk m' b =>
        rw [hr] at h
        cases h
        obtain ⟨rfl, h2⟩ := ih _ _ hr
        refine ⟨rfl, fun i hi => ?_⟩
        cases i with
        | zero => simpa using hf
        | succ i => rw [← h2 i (by omega)]; congr 1; omega

theorem construct_false (k : Nat) : ∀ t m, construct fails k t = (m, false) →
    m < k ∧ fails (t + m) = true ∧ ∀ i, i < m → fails (t + i) = false := by
  induction k with
  | zero => intro t m h; cases h
  | succ k ih =>
    intro t m h
    by_cases hf : fails t = true
    · rw [construct, if_pos hf] at h
      cases h
      exact ⟨by omega, hf, fun i h => by omega⟩
    · rw [construct, if_neg hf] at h
      cases hr : construct fails k (t + 1) with
      | mk m' b =>
        rw [hr] at h
        cases h
        obtain ⟨h1, h2, h3⟩ := ih _ _ hr
        refine ⟨by omega, by rw [← h2]; congr 1; omega, fun i hi => ?_⟩
        cases i with
        | zero => simpa using hf
        | succ i => rw [← h3 i (by omega)]; congr 1; omega

/-- What is said of the number `t` at the beginning and the outcome: the calls from `t` on went well, up to the last one if
the outcome is an exception. -/
def Fair {S : Type} (fails : Nat → Bool) (t : Nat) : Out S α → Prop
  | .ret _ t' _ => t ≤ t' ∧ ∀ k, t ≤ k → k < t' → fails k = false
  | .thrown _ t' => t < t' ∧ fails (t' - 1) = true ∧ ∀ k, t ≤ k → k < t' - 1 → fails k = false
  | .ub => True

theorem shift {t m : Nat} (h : ∀ i, i < m → fails (t + i) = false) : ∀ k, t ≤ k → k < t + m → fails k = false := by
  intro k a b
  rw [← h (k - t) (by omega)]
  congr 1
  omega

theorem Fair.trans {S : Type} {s : S} {x : β} {t t' : Nat} {o : Out S α} (h1 : Fair fails t (.ret s t' x)) (h2 : Fair fails t' o) :
    Fair fails t o := by
  obtain ⟨h1, h3⟩ := h1
  cases o with
  | ub => trivial
  | ret s u y =>
    obtain ⟨h4, h5⟩ := h2
    exact ⟨by omega, fun k a b => if c : k < t' then h3 k a c else h5 k (by omega) b⟩
  | thrown s u =>
    obtain ⟨h4, h5, h6⟩ := h2
    exact ⟨by omega, h5, fun k a b => if c : k < t' then h3 k a c else h6 k (by omega) b⟩

theorem fair_same {S : Type} (s : S) (t : Nat) (x : α) : Fair fails t (.ret s t x) := ⟨Nat.le_refl _, fun _ a b => by omega⟩

theorem fair_make (n t : Nat) : Fair fails t (make fails dv n t) := by
  unfold make
  split
  · exact fair_same _ _ _
  · cases hc : construct fails (Arr.roundLength n) t with
    | mk m b =>
      cases b with
      | true => exact ⟨by omega, shift (by rw [(construct_true _ _ _ hc).1]; exact (construct_true _ _ _ hc).2)⟩
      | false =>
        obtain ⟨-, h2, h3⟩ := construct_false _ _ _ hc
        exact ⟨by omega, h2, shift h3⟩

theorem fair_realloc (a : ArrayThrow.Arr T) (b : Blk T) (mm t : Nat) : Fair fails t (realloc fails dv moves a b mm t) := by
  unfold realloc
  split
  · cases hc : construct fails (mm - b.num) t with
    | mk m e =>
      cases e with
      | true => exact ⟨by omega, shift (by rw [(construct_true _ _ _ hc).1]; exact (construct_true _ _ _ hc).2)⟩
      | false =>
        obtain ⟨-, h2, h3⟩ := construct_false _ _ _ hc
        exact ⟨by omega, h2, shift h3⟩
  · trivial

theorem fair_resize (a : ArrayThrow.Arr T) (m t : Nat) : Fair fails t (resize fails dv moves a m t) := by
  unfold resize
  dsimp only
  split
  · split
    · split
      · split
        · trivial
        · rename_i b _
          have h := fair_realloc (fails := fails) (dv := dv) (moves := moves) a b (Arr.roundLength m) t
          split
          · rename_i e
            rw [e] at h
            exact h
          · exact h
      · cases hc : construct fails (Arr.roundLength m) t with
        | mk k e =>
          cases e with
          | true => exact ⟨by omega, shift (by rw [(construct_true _ _ _ hc).1]; exact (construct_true _ _ _ hc).2)⟩
          | false =>
            obtain ⟨-, h2, h3⟩ := construct_false _ _ _ hc
            exact ⟨by omega, h2, shift h3⟩
    · split
      · trivial
      · split
        · exact fair_same _ _ _
        · trivial
  · exact fair_same _ _ _

theorem fair_put (a : ArrayThrow.Arr T) (i : Nat) (x : T) (t : Nat) : Fair fails t (put fails a i x t) := by
  unfold put
  split
  · trivial
  · split
    · split
      · rename_i hf
        exact ⟨by omega, hf, fun k a b => by omega⟩
      · rename_i hf
        refine ⟨by omega, fun k a b => ?_⟩
        rw [show k = t by omega]
        simpa using hf
    · trivial

theorem fair_puts (l : List T) : ∀ (a : ArrayThrow.Arr T) (i : Nat) (t : Nat), Fair fails t (puts fails a i l t) := by
  induction l with
  | nil => exact fun a i t => fair_same _ _ _
  | cons x xs ih =>
    intro a i t
    have h := fair_put (fails := fails) a i x t
    rw [puts]
    split
    · rename_i e
      rw [e] at h
      exact h.trans (ih _ _ _)
    · exact h

/-- **C175** (throws): the functions of arrays throw if and only if one of the elements' functions they call throws, and then at
once: no further one is called. -/
theorem C175_throws (a : ArrayThrow.Arr T) (n i t : Nat) (x : T) (l : List T) :
    Fair fails t (make fails dv n t) ∧ Fair fails t (resize fails dv moves a n t) ∧ Fair fails t (put fails a i x t) ∧
    Fair fails t (push fails dv moves a x t) ∧ Fair fails t (append fails dv moves a l t) := by
  refine ⟨fair_make _ _, fair_resize _ _ _, fair_put _ _ _ _, ?_, ?_⟩
  · unfold push
    have h := fair_resize (fails := fails) (dv := dv) (moves := moves) a (a.n + 1) t
    split
    · rename_i e
      rw [e] at h
      exact h.trans (fair_put _ _ _ _)
    · exact h
  · unfold append
    have h := fair_resize (fails := fails) (dv := dv) (moves := moves) a (a.n + l.length) t
    split
    · rename_i e
      rw [e] at h
      exact h.trans (fair_puts _ _ _ _)
    · exact h

/-! ## Lemmas: sound arrays -/

/-- A sound array with the cells `xs`. -/
def Good (a : ArrayThrow.Arr T) (xs : List T) : Prop :=
  xs.length = Arr.roundLength a.n ∧ a.a = if a.n = 0 then none else some ⟨true, xs.length, xs.map some⟩

theorem Good.some {a : ArrayThrow.Arr T} {xs : List T} (g : Good a xs) (h : a.n ≠ 0) : a.a = .some ⟨true, xs.length, xs.map .some⟩ := by
  rw [g.2, if_neg h]

theorem cell_good (xs : List T) (k i : Nat) (h : i < xs.length) : cell ⟨true, k, xs.map some⟩ i = .ok xs[i] := by
  unfold cell
  simp [h]

theorem get_good {a : ArrayThrow.Arr T} {xs : List T} (g : Good a xs) (h : a.n ≠ 0) (i : Nat) (hi : i < xs.length) :
    get a i = .ok xs[i] := by
  unfold ArrayThrow.get
  rw [g.some h]
  exact cell_good xs _ i hi

theorem full_map (xs : List T) (b : Bool) (m k : Nat) (h : k ≤ xs.length) : full ⟨b, m, xs.map some⟩ k = true := by
  induction k with
  | zero => rfl
  | succ k ih =>
    rw [full, ih (by omega)]
    simp [show k < xs.length by omega]

theorem delete_good (xs : List T) : delete ⟨true, xs.length, xs.map some⟩ = .ok () := by
  unfold delete
  rw [full_map xs _ _ _ (Nat.le_refl _)]
  rfl

theorem put_good {a : ArrayThrow.Arr T} {xs : List T} (g : Good a xs) (h : a.n ≠ 0) (i : Nat) (hi : i < xs.length) (x : T) (t : Nat) :
    put fails a i x t = .thrown a (t + 1) ∨
    ∃ a', put fails a i x t = .ret a' (t + 1) () ∧ Good a' (xs.set i x) ∧ a'.n = a.n := by
  unfold put
  rw [g.some h]
  dsimp only
  rw [cell_good xs _ i hi]
  dsimp only
  split
  · exact .inl rfl
  · refine .inr ⟨_, rfl, ⟨by simpa using g.1, ?_⟩, rfl⟩
    dsimp only
    rw [if_neg h, List.length_set, List.map_set]

theorem puts_good (l : List T) : ∀ {a : ArrayThrow.Arr T} {xs : List T} (_ : Good a xs) (_ : l = [] ∨ a.n ≠ 0) (i : Nat)
    (_ : i + l.length ≤ xs.length) (t : Nat),
    (∃ a' t', puts fails a i l t = .ret a' t' () ∧ Good a' (xs.take i ++ l ++ xs.drop (i + l.length)) ∧ a'.n = a.n) ∨
    ∃ a' t' k xs', puts fails a i l t = .thrown a' t' ∧ k < l.length ∧ Good a' (xs.take i ++ l.take k ++ xs') ∧ a'.n = a.n := by
  induction l with
  | nil =>
    intro a xs g _ i hi t
    refine .inl ⟨a, t, rfl, ?_, rfl⟩
    simpa using g
  | cons x l ih =>
    intro a xs g hn i hi t
    have hn : a.n ≠ 0 := hn.resolve_left (by simp)
    simp only [List.length_cons] at hi
    rw [puts]
    rcases put_good (fails := fails) g hn i (by omega) x t with e | ⟨a1, e, g1, n1⟩
    · rw [e]
      refine .inr ⟨a, t + 1, 0, xs.drop i, rfl, by simp, ?_, rfl⟩
      simpa using g
    · rw [e]
      dsimp only
      have hset : (xs.set i x).take (i + 1) = xs.take i ++ [x] := by
        rw [List.set_eq_take_append_cons_drop, if_pos (by omega), List.take_append, List.take_take, List.length_take]
        simp [show min i xs.length = i by omega]
      have hdrop : (xs.set i x).drop (i + 1 + l.length) = xs.drop (i + (x :: l).length) := by
        rw [List.drop_set_of_lt (by omega)]
        congr 1
        simp only [List.length_cons]
        omega
      rcases ih g1 (.inr (by rw [n1]; exact hn)) (i + 1) (by rw [List.length_set]; omega) (t + 1) with
        ⟨a2, t2, e2, g2, n2⟩ | ⟨a2, t2, k, xs', e2, hk, g2, n2⟩
      · refine .inl ⟨a2, t2, e2, ?_, n2.trans n1⟩
        rw [hset, hdrop] at g2
        simpa using g2
      · refine .inr ⟨a2, t2, k + 1, xs', e2, by simpa using hk, ?_, n2.trans n1⟩
        rw [hset] at g2
        simpa using g2

theorem resize_good {a : ArrayThrow.Arr T} {xs : List T} (g : Good a xs) (m t : Nat) :
    (∃ a' t' xs', resize fails dv moves a m t = .ret a' t' () ∧ Good a' xs' ∧ a'.n = m ∧
      xs'.take (min a.n m) = xs.take (min a.n m)) ∨
    (∃ t', resize fails dv moves a m t = .thrown a t' ∧ a.n = 0) ∨
    (∃ a' t', resize fails dv moves a m t = .thrown a' t' ∧ a.n ≠ 0 ∧ a'.n = a.n ∧ destroy a' = .ub ∧
      (moves = true → ∀ i, get a' i = .ub)) := by
  have hm := Arr.le_roundLength m
  unfold resize
  dsimp only
  by_cases h1 : Arr.roundLength m = Arr.roundLength a.n
  · rw [if_neg (by simpa using h1)]
    refine .inl ⟨_, t, xs, rfl, ⟨by rw [g.1, h1], ?_⟩, rfl, rfl⟩
    show a.a = _
    rw [g.2]
    have : m = 0 ↔ a.n = 0 := by rw [← Arr.roundLength_eq_zero (n := m), ← Arr.roundLength_eq_zero (n := a.n), h1]
    by_cases h0 : a.n = 0
    · rw [if_pos h0, if_pos (this.2 h0)]
    · rw [if_neg h0, if_neg (fun c => h0 (this.1 c))]
  rw [if_pos (by simpa using h1)]
  by_cases h2 : Arr.roundLength m = 0
  · rw [if_neg (by simpa using h2)]
    have m0 := Arr.roundLength_eq_zero.1 h2
    have h0 : a.n ≠ 0 := fun c => h1 (by rw [h2, c]; rfl)
    rw [g.some h0]
    dsimp only
    rw [delete_good]
    dsimp only
    refine .inl ⟨_, t, [], rfl, ⟨by rw [h2]; rfl, by rw [if_pos m0]⟩, rfl, by rw [m0]; simp⟩
  rw [if_pos (by simpa using h2)]
  have m0 : m ≠ 0 := fun c => h2 (by rw [c]; rfl)
  by_cases h3 : Arr.roundLength a.n = 0
  · rw [if_neg (by simpa using h3)]
    have n0 := Arr.roundLength_eq_zero.1 h3
    cases hc : construct fails (Arr.roundLength m) t with
    | mk k e =>
      cases e with
      | true =>
        refine .inl ⟨_, t + k, List.replicate (Arr.roundLength m) dv, rfl, ⟨by simp, ?_⟩, rfl, by rw [n0]; simp⟩
        dsimp only
        rw [if_neg m0, List.length_replicate, List.map_replicate]
      | false => exact .inr (.inl ⟨t + k + 1, rfl, n0⟩)
  rw [if_pos (by simpa using h3)]
  have n0 : a.n ≠ 0 := fun c => h3 (by rw [c]; rfl)
  rw [g.some n0]
  dsimp only
  unfold realloc
  rw [if_pos rfl]
  dsimp only
  have hn := Arr.le_roundLength a.n
  have hx := g.1
  cases hc : construct fails (Arr.roundLength m - xs.length) t with
  | mk k e =>
    cases e with
    | true =>
      obtain ⟨rfl, -⟩ := construct_true _ _ _ hc
      refine .inl ⟨_, _, xs.take (Arr.roundLength m) ++ List.replicate (Arr.roundLength m - xs.length) dv, rfl, ⟨?_, ?_⟩, rfl, ?_⟩
      · simp; omega
      · dsimp only
        rw [if_neg m0]
        simp
        omega
      · rw [List.take_append_of_le_length (by simp; omega), List.take_take]
        congr 1
        omega
    | false =>
      obtain ⟨hk, -, -⟩ := construct_false _ _ _ hc
      refine .inr (.inr ⟨_, _, rfl, n0, rfl, ?_, ?_⟩)
      · unfold destroy
        dsimp only
        rw [if_pos n0]
        unfold delete
        cases moves with
        | true => rfl
        | false =>
          refine if_neg ?_
          intro hf
          obtain ⟨j, hj⟩ : ∃ j, Arr.roundLength m = j + 1 := ⟨Arr.roundLength m - 1, by omega⟩
          rw [if_neg (by simp)] at hf
          rw [Bool.true_and] at hf
          rw [hj] at hf hk
          rw [full] at hf
          rw [Bool.and_eq_true] at hf
          have h7 := hf.1
          have : (List.take (j + 1) (xs.map some) ++ List.replicate k (some dv) ++ List.replicate (j + 1 - xs.length - k) none)[j]? = some none := by
            rw [List.getElem?_append_right (by simp; omega), List.getElem?_replicate]
            rw [if_pos (by simp; omega)]
          rw [this] at h7
          cases h7
      · intro hmv i
        subst hmv
        rfl

/-- `a << b`: the outcomes. -/
theorem append_good {a : ArrayThrow.Arr T} {xs : List T} (g : Good a xs) (l : List T) (t : Nat) :
    (∃ a' t' ys, ArrayThrow.append fails dv moves a l t = .ret a' t' () ∧ Good a' ys ∧ a'.n = a.n + l.length ∧
      ys.take a'.n = xs.take a.n ++ l) ∨
    (∃ t', ArrayThrow.append fails dv moves a l t = .thrown a t' ∧ a.n = 0) ∨
    (∃ a' t' ys k, ArrayThrow.append fails dv moves a l t = .thrown a' t' ∧ Good a' ys ∧ a'.n = a.n + l.length ∧ k < l.length ∧
      ys.take (a.n + k) = xs.take a.n ++ l.take k) ∨
    (∃ a' t', ArrayThrow.append fails dv moves a l t = .thrown a' t' ∧ a.n ≠ 0 ∧ a'.n = a.n ∧ destroy a' = .ub ∧
      (moves = true → ∀ i, ArrayThrow.get a' i = .ub)) := by
  unfold ArrayThrow.append
  rcases resize_good (fails := fails) (dv := dv) (moves := moves) g (a.n + l.length) t with
    ⟨a1, t1, zs, e, g1, n1, q⟩ | ⟨t1, e, h0⟩ | ⟨a1, t1, e, h⟩
  · rw [e]
    dsimp only
    rw [show min a.n (a.n + l.length) = a.n by omega] at q
    have hz : a.n + l.length ≤ zs.length := by rw [g1.1, n1]; exact Arr.le_roundLength _
    have hz2 : (zs.take a.n).length = a.n := by rw [List.length_take]; omega
    rcases puts_good (fails := fails) l g1 (by cases l with | nil => exact .inl rfl | cons x l => exact .inr (by rw [n1]; simp)) a.n hz t1 with
      ⟨a2, t2, e2, g2, n2⟩ | ⟨a2, t2, k, xs', e2, hk, g2, n2⟩
    · refine .inl ⟨a2, t2, _, e2, g2, n2.trans n1, ?_⟩
      rw [n2, n1, List.take_append_of_le_length (by rw [List.length_append, hz2]; omega),
        List.take_of_length_le (by rw [List.length_append, hz2]; omega), q]
    · refine .inr (.inr (.inl ⟨a2, t2, _, k, e2, g2, n2.trans n1, hk, ?_⟩))
      have hl : (zs.take a.n ++ l.take k).length = a.n + k := by rw [List.length_append, hz2, List.length_take]; omega
      rw [List.take_append_of_le_length (by rw [hl]; omega), List.take_of_length_le (by rw [hl]; omega), q]
  · rw [e]
    exact .inr (.inl ⟨t1, rfl, h0⟩)
  · rw [e]
    exact .inr (.inr (.inr ⟨a1, t1, rfl, h⟩))

/-- `a << x` is like `a << b` for an array of one element. -/
theorem push_append {a : ArrayThrow.Arr T} {xs : List T} (g : Good a xs) (x : T) (t : Nat) :
    push fails dv moves a x t = ArrayThrow.append fails dv moves a [x] t := by
  unfold push ArrayThrow.append
  rcases resize_good (fails := fails) (dv := dv) (moves := moves) g (a.n + 1) t with
    ⟨a1, t1, zs, e, g1, n1, q⟩ | ⟨t1, e, h0⟩ | ⟨a1, t1, e, h⟩
  · rw [List.length_singleton, e]
    dsimp only
    rw [n1, puts, show a.n + 1 - 1 = a.n by omega]
    cases put fails a1 a.n x t1 <;> rfl
  · rw [List.length_singleton, e]
  · rw [List.length_singleton, e]

theorem make_good (n t : Nat) :
    (∃ a t', make fails dv n t = .ret () t' a ∧ Good a (List.replicate (Arr.roundLength n) dv) ∧ a.n = n) ∨
    (∃ t', make fails dv n t = .thrown () t') := by
  unfold make
  by_cases h : n = 0
  · rw [if_pos h]
    subst h
    exact .inl ⟨_, t, rfl, ⟨by simp, rfl⟩, rfl⟩
  · rw [if_neg h]
    cases construct fails (Arr.roundLength n) t with
    | mk m b =>
      cases b with
      | true =>
        refine .inl ⟨_, t + m, rfl, ⟨by simp, ?_⟩, rfl⟩
        dsimp only
        rw [if_neg h, List.length_replicate, List.map_replicate]
      | false => exact .inr ⟨_, rfl⟩

theorem construct_all (k t : Nat) (h : ∀ i, i < k → fails (t + i) = false) : construct fails k t = (k, true) := by
  cases hc : construct fails k t with
  | mk m b =>
    cases b with
    | true => rw [(construct_true _ _ _ hc).1]
    | false =>
      obtain ⟨h1, h2, -⟩ := construct_false _ _ _ hc
      rw [h m h1] at h2
      cases h2

/-- How many functions of elements are called to change the length. -/
theorem resize_calls {a : ArrayThrow.Arr T} {xs : List T} (g : Good a xs) (m t : Nat) : ∃ c, ∀ fails : Nat → Bool,
    (∀ i, i < c → fails (t + i) = false) → ∃ a', resize fails dv moves a m t = .ret a' (t + c) () := by
  by_cases h1 : Arr.roundLength m = Arr.roundLength a.n
  · refine ⟨0, fun fails _ => ?_⟩
    unfold resize
    dsimp only
    rw [if_neg (by simpa using h1)]
    exact ⟨_, rfl⟩
  by_cases h2 : Arr.roundLength m = 0
  · have h0 : a.n ≠ 0 := fun c => h1 (by rw [h2, c]; rfl)
    refine ⟨0, fun fails _ => ?_⟩
    unfold resize
    dsimp only
    rw [if_pos (by simpa using h1), if_neg (by simpa using h2), g.some h0]
    dsimp only
    rw [delete_good]
    exact ⟨_, rfl⟩
  by_cases h3 : Arr.roundLength a.n = 0
  · refine ⟨Arr.roundLength m, fun fails hf => ?_⟩
    unfold resize
    dsimp only
    rw [if_pos (by simpa using h1), if_pos (by simpa using h2), if_neg (by simpa using h3), construct_all _ _ hf]
    exact ⟨_, rfl⟩
  · have n0 : a.n ≠ 0 := fun c => h3 (by rw [c]; rfl)
    refine ⟨Arr.roundLength m - xs.length, fun fails hf => ?_⟩
    unfold resize
    dsimp only
    rw [if_pos (by simpa using h1), if_pos (by simpa using h2), if_pos (by simpa using h3), g.some n0]
    dsimp only
    unfold realloc
    rw [if_pos rfl]
    dsimp only
    rw [construct_all _ _ hf]
    exact ⟨_, rfl⟩

/-- The first constructor throws. -/
theorem resize_first {a : ArrayThrow.Arr T} {xs : List T} (g : Good a xs) (n0 : a.n ≠ 0) (m t : Nat)
    (hm : Arr.roundLength a.n < Arr.roundLength m) (hf : fails t = true) :
    ∃ a' t', resize fails dv moves a m t = .thrown a' t' := by
  have h3 : Arr.roundLength a.n ≠ 0 := fun c => n0 (Arr.roundLength_eq_zero.1 c)
  unfold resize
  dsimp only
  rw [if_pos (by omega), if_pos (by omega), if_pos h3, g.some n0]
  dsimp only
  unfold realloc
  rw [if_pos rfl]
  dsimp only
  have hx := g.1
  obtain ⟨k, hk⟩ : ∃ k, Arr.roundLength m - xs.length = k + 1 := ⟨Arr.roundLength m - xs.length - 1, by omega⟩
  rw [hk, construct, if_pos hf]
  exact ⟨_, _, rfl⟩

/-! ## The specification -/

/-- The array can be read as the sequence `l`, and it can be destroyed. -/
def Shows (a : ArrayThrow.Arr T) (l : List T) : Prop :=
  a.n = l.length ∧ (∀ i (h : i < l.length), ArrayThrow.get a i = .ok l[i]) ∧ destroy a = .ok ()

/-- The histories of an array: calls that returned, and calls that threw and left an array whose length had been set, or an
empty one. -/
inductive Past (fails : Nat → Bool) (dv : T) (moves : Bool) : ArrayThrow.Arr T → Nat → Prop
  | make {a t'} (n t : Nat) : make fails dv n t = .ret () t' a → Past fails dv moves a t'
  | resize {a a' t t' u} (m : Nat) : Past fails dv moves a t → resize fails dv moves a m t = .ret a' t' u → Past fails dv moves a' t'
  | put {a a' t t' u} (i : Nat) (x : T) : i < a.n → Past fails dv moves a t → put fails a i x t = .ret a' t' u → Past fails dv moves a' t'
  | push {a a' t t' u} (x : T) : Past fails dv moves a t → push fails dv moves a x t = .ret a' t' u → Past fails dv moves a' t'
  | append {a a' t t' u} (l : List T) : Past fails dv moves a t → ArrayThrow.append fails dv moves a l t = .ret a' t' u →
      Past fails dv moves a' t'
  | putThrown {a a' t t'} (i : Nat) (x : T) : i < a.n → Past fails dv moves a t → ArrayThrow.put fails a i x t = .thrown a' t' →
      Past fails dv moves a' t'
  | resizeThrown {a a' t t'} (m : Nat) : a.n = 0 → Past fails dv moves a t → ArrayThrow.resize fails dv moves a m t = .thrown a' t' →
      Past fails dv moves a' t'
  | pushThrown {a a' t t'} (x : T) : a.n = 0 ∨ a'.n ≠ a.n → Past fails dv moves a t →
      ArrayThrow.push fails dv moves a x t = .thrown a' t' → Past fails dv moves a' t'
  | appendThrown {a a' t t'} (l : List T) : a.n = 0 ∨ a'.n ≠ a.n → Past fails dv moves a t →
      ArrayThrow.append fails dv moves a l t = .thrown a' t' → Past fails dv moves a' t'

theorem shows_good {a : ArrayThrow.Arr T} {xs : List T} (g : Good a xs) : Shows a (xs.take a.n) := by
  have hn := Arr.le_roundLength a.n
  have hx := g.1
  refine ⟨by rw [List.length_take]; omega, ?_, ?_⟩
  · intro i h
    rw [List.length_take] at h
    rw [List.getElem_take]
    exact get_good g (by omega) i (by omega)
  · unfold destroy
    split
    · rename_i n0
      rw [g.some n0]
      exact delete_good xs
    · rfl

theorem append_past {a a' : ArrayThrow.Arr T} {xs : List T} {l : List T} {t t' : Nat} (g : Good a xs) (h : a.n = 0 ∨ a'.n ≠ a.n)
    (e : ArrayThrow.append fails dv moves a l t = .thrown a' t') : ∃ ys, Good a' ys := by
  rcases append_good (fails := fails) (dv := dv) (moves := moves) g l t with
    ⟨a1, t1, ys, e1, -⟩ | ⟨t1, e1, -⟩ | ⟨a1, t1, ys, k, e1, g1, -⟩ | ⟨a1, t1, e1, h1, h2, -⟩
  · rw [e] at e1; cases e1
  · rw [e] at e1; cases e1; exact ⟨xs, g⟩
  · rw [e] at e1; cases e1; exact ⟨ys, g1⟩
  · rw [e] at e1; cases e1
    exact absurd h (by simp [h1, h2])

theorem past_good {a : ArrayThrow.Arr T} {t : Nat} (p : Past fails dv moves a t) : ∃ xs, Good a xs := by
  induction p with
  | make n t e =>
    rcases make_good (fails := fails) (dv := dv) n t with ⟨a1, t1, e1, g1, -⟩ | ⟨t1, e1⟩
    · rw [e] at e1; cases e1; exact ⟨_, g1⟩
    · rw [e] at e1; cases e1
  | @resize a a' t t' u m _ e ih =>
    obtain ⟨xs, g⟩ := ih
    rcases resize_good (fails := fails) (dv := dv) (moves := moves) g m t with ⟨a1, t1, zs, e1, g1, -⟩ | ⟨t1, e1, -⟩ | ⟨a1, t1, e1, -⟩
    · rw [e] at e1; cases e1; exact ⟨_, g1⟩
    · rw [e] at e1; cases e1
    · rw [e] at e1; cases e1
  | @put a a' t t' u i x hi _ e ih =>
    obtain ⟨xs, g⟩ := ih
    rcases put_good (fails := fails) g (by omega) i (by rw [g.1]; exact Nat.lt_of_lt_of_le hi (Arr.le_roundLength _)) x t with
      e1 | ⟨a1, e1, g1, -⟩
    · rw [e] at e1; cases e1
    · rw [e] at e1; cases e1; exact ⟨_, g1⟩
  | @push a a' t t' u x _ e ih =>
    obtain ⟨xs, g⟩ := ih
    rw [push_append g] at e
    rcases append_good (fails := fails) (dv := dv) (moves := moves) g [x] t with
      ⟨a1, t1, ys, e1, g1, -⟩ | ⟨t1, e1, -⟩ | ⟨a1, t1, ys, k, e1, -⟩ | ⟨a1, t1, e1, -⟩
    · rw [e] at e1; cases e1; exact ⟨_, g1⟩
    all_goals rw [e] at e1; cases e1
  | @append a a' t t' u l _ e ih =>
    obtain ⟨xs, g⟩ := ih
    rcases append_good (fails := fails) (dv := dv) (moves := moves) g l t with
      ⟨a1, t1, ys, e1, g1, -⟩ | ⟨t1, e1, -⟩ | ⟨a1, t1, ys, k, e1, -⟩ | ⟨a1, t1, e1, -⟩
    · rw [e] at e1; cases e1; exact ⟨_, g1⟩
    all_goals rw [e] at e1; cases e1
  | @putThrown a a' t t' i x hi _ e ih =>
    obtain ⟨xs, g⟩ := ih
    rcases put_good (fails := fails) g (by omega) i (by rw [g.1]; exact Nat.lt_of_lt_of_le hi (Arr.le_roundLength _)) x t with
      e1 | ⟨a1, e1, g1, -⟩
    · rw [e] at e1; cases e1; exact ⟨xs, g⟩
    · rw [e] at e1; cases e1
  | @resizeThrown a a' t t' m h0 _ e ih =>
    obtain ⟨xs, g⟩ := ih
    rcases resize_good (fails := fails) (dv := dv) (moves := moves) g m t with ⟨a1, t1, zs, e1, g1, -⟩ | ⟨t1, e1, -⟩ | ⟨a1, t1, e1, h1, -⟩
    · rw [e] at e1; cases e1
    · rw [e] at e1; cases e1; exact ⟨xs, g⟩
    · exact absurd h0 h1
  | @pushThrown a a' t t' x h _ e ih =>
    obtain ⟨xs, g⟩ := ih
    rw [push_append g] at e
    exact append_past g h e
  | @appendThrown a a' t t' l h _ e ih =>
    obtain ⟨xs, g⟩ := ih
    exact append_past g h e

/-- **C175** (returns): whatever was thrown before, the elements of the array can be read and the array can be destroyed; no
call is undefined, and a call that returns did what it should. -/
theorem C175_returns {a : ArrayThrow.Arr T} {t : Nat} (p : Past fails dv moves a t) : ∃ l, Shows a l ∧
    (∀ x, push fails dv moves a x t ≠ .ub ∧ ∀ a' t' u, push fails dv moves a x t = .ret a' t' u → Shows a' (l ++ [x])) ∧
    (∀ m, ArrayThrow.append fails dv moves a m t ≠ .ub ∧
      ∀ a' t' u, ArrayThrow.append fails dv moves a m t = .ret a' t' u → Shows a' (l ++ m)) ∧
    (∀ i x, i < l.length → put fails a i x t ≠ .ub ∧ ∀ a' t' u, put fails a i x t = .ret a' t' u → Shows a' (l.set i x)) ∧
    (∀ m, resize fails dv moves a m t ≠ .ub ∧ ∀ a' t' u, resize fails dv moves a m t = .ret a' t' u →
      ∃ l', Shows a' l' ∧ l'.length = m ∧ l'.take l.length = l.take m) := by
  obtain ⟨xs, g⟩ := past_good p
  have hn := Arr.le_roundLength a.n
  have hx := g.1
  have happ : ∀ m, ArrayThrow.append fails dv moves a m t ≠ .ub ∧
      ∀ a' t' u, ArrayThrow.append fails dv moves a m t = .ret a' t' u → Shows a' (xs.take a.n ++ m) := by
    intro m
    rcases append_good (fails := fails) (dv := dv) (moves := moves) g m t with
      ⟨a1, t1, ys, e1, g1, -, q⟩ | ⟨t1, e1, -⟩ | ⟨a1, t1, ys, k, e1, -⟩ | ⟨a1, t1, e1, -⟩
    · rw [e1]
      refine ⟨(fun c => by cases c), fun a' t' u e => ?_⟩
      cases e
      rw [← q]
      exact shows_good g1
    all_goals rw [e1]; exact ⟨(fun c => by cases c), fun a' t' u e => (by cases e)⟩
  refine ⟨xs.take a.n, shows_good g, ?_, happ, ?_, ?_⟩
  · intro x
    rw [push_append g]
    exact happ [x]
  · intro i x hi
    rw [List.length_take] at hi
    rcases put_good (fails := fails) g (by omega) i (by omega) x t with e1 | ⟨a1, e1, g1, n1⟩
    · rw [e1]; exact ⟨(fun c => by cases c), fun a' t' u e => (by cases e)⟩
    · rw [e1]
      refine ⟨(fun c => by cases c), fun a' t' u e => ?_⟩
      cases e
      have := shows_good g1
      rw [n1] at this
      rwa [List.take_set] at this
  · intro m
    rcases resize_good (fails := fails) (dv := dv) (moves := moves) g m t with
      ⟨a1, t1, zs, e1, g1, n1, q⟩ | ⟨t1, e1, -⟩ | ⟨a1, t1, e1, -⟩
    · rw [e1]
      refine ⟨(fun c => by cases c), fun a' t' u e => ?_⟩
      cases e
      have hm := Arr.le_roundLength m
      have hz := g1.1
      rw [n1] at hz
      refine ⟨zs.take a1.n, shows_good g1, by rw [List.length_take]; omega, ?_⟩
      rw [List.length_take, n1, List.take_take, List.take_take, show min (min a.n xs.length) m = min a.n m by omega,
        show min m a.n = min a.n m by omega, q]
    all_goals rw [e1]; exact ⟨(fun c => by cases c), fun a' t' u e => (by cases e)⟩

/-- **C175** (make): a new array has the elements `T ()`; if one of them could not be made there is no array. -/
theorem C175_make (n t : Nat) : (∃ a t', make fails dv n t = .ret () t' a ∧ Shows a (List.replicate n dv)) ∨
    (∃ t', make fails dv n t = .thrown () t') := by
  rcases make_good (fails := fails) (dv := dv) n t with ⟨a, t', e, g, hn⟩ | h
  · refine .inl ⟨a, t', e, ?_⟩
    have := shows_good g
    rw [hn, List.take_replicate, Nat.min_eq_left (Arr.le_roundLength n)] at this
    exact this
  · exact .inr h

/-- **C175** (kept, partial): an assignment to an element that throws leaves the array as it was. A call that throws on an array
that is still empty has not changed it. A call that throws after the length was set leaves an array with the elements
there were, those that were assigned, and some others. Missing: calls that throw while an array that is not empty gets
memory, see `C175_dangling_violated`. -/
theorem C175_kept_partial {a a' : ArrayThrow.Arr T} {t t' : Nat} (p : Past fails dv moves a t) : ∃ l, Shows a l ∧
    (∀ i x, i < l.length → put fails a i x t = .thrown a' t' → a' = a) ∧
    (∀ m, l = [] → resize fails dv moves a m t = .thrown a' t' → a' = a) ∧
    (∀ m, l = [] → a'.n = 0 → ArrayThrow.append fails dv moves a m t = .thrown a' t' → a' = a) ∧
    (∀ m, a'.n ≠ a.n → ArrayThrow.append fails dv moves a m t = .thrown a' t' →
      ∃ k rest, k < m.length ∧ Shows a' (l ++ m.take k ++ rest) ∧ k + rest.length = m.length) ∧
    (∀ x, l = [] → a'.n = 0 → push fails dv moves a x t = .thrown a' t' → a' = a) ∧
    (∀ x, a'.n ≠ a.n → push fails dv moves a x t = .thrown a' t' → ∃ y, Shows a' (l ++ [y])) := by
  obtain ⟨xs, g⟩ := past_good p
  have hn := Arr.le_roundLength a.n
  have hx := g.1
  have hnil : xs.take a.n = [] → a.n = 0 := by
    intro h
    have := congrArg List.length h
    rw [List.length_take, List.length_nil] at this
    omega
  have h1 : ∀ m, xs.take a.n = [] → a'.n = 0 → ArrayThrow.append fails dv moves a m t = .thrown a' t' → a' = a := by
    intro m hl h0 e
    rcases append_good (fails := fails) (dv := dv) (moves := moves) g m t with
      ⟨a1, t1, ys, e1, g1, -, q⟩ | ⟨t1, e1, -⟩ | ⟨a1, t1, ys, k, e1, g1, n1, hk, -⟩ | ⟨a1, t1, e1, h2, -⟩
    · rw [e] at e1; cases e1
    · rw [e] at e1; cases e1; rfl
    · rw [e] at e1; cases e1; omega
    · exact absurd (hnil hl) h2
  have h2 : ∀ m, a'.n ≠ a.n → ArrayThrow.append fails dv moves a m t = .thrown a' t' →
      ∃ k rest, k < m.length ∧ Shows a' (xs.take a.n ++ m.take k ++ rest) ∧ k + rest.length = m.length := by
    intro m h0 e
    rcases append_good (fails := fails) (dv := dv) (moves := moves) g m t with
      ⟨a1, t1, ys, e1, g1, -, q⟩ | ⟨t1, e1, -⟩ | ⟨a1, t1, ys, k, e1, g1, n1, hk, q⟩ | ⟨a1, t1, e1, -, h3, -⟩
    · rw [e] at e1; cases e1
    · rw [e] at e1; cases e1; exact absurd rfl h0
    · rw [e] at e1; cases e1
      have hy := g1.1
      have hy2 := Arr.le_roundLength a'.n
      refine ⟨k, (ys.take a'.n).drop (a.n + k), hk, ?_, ?_⟩
      · rw [← q]
        have : ys.take (a.n + k) ++ (ys.take a'.n).drop (a.n + k) = ys.take a'.n := by
          have h5 : ys.take (a.n + k) = (ys.take a'.n).take (a.n + k) := by
            rw [List.take_take]
            congr 1
            omega
          rw [h5, List.take_append_drop]
        rw [this]
        exact shows_good g1
      · rw [List.length_drop, List.length_take]
        omega
    · rw [e] at e1; cases e1; exact absurd h3 h0
  refine ⟨xs.take a.n, shows_good g, ?_, ?_, h1, h2, ?_, ?_⟩
  · intro i x hi e
    rw [List.length_take] at hi
    rcases put_good (fails := fails) g (by omega) i (by omega) x t with e1 | ⟨a1, e1, -⟩
    · rw [e] at e1; cases e1; rfl
    · rw [e] at e1; cases e1
  · intro m hl e
    rcases resize_good (fails := fails) (dv := dv) (moves := moves) g m t with
      ⟨a1, t1, zs, e1, -⟩ | ⟨t1, e1, -⟩ | ⟨a1, t1, e1, h3, -⟩
    · rw [e] at e1; cases e1
    · rw [e] at e1; cases e1; rfl
    · exact absurd (hnil hl) h3
  · intro x hl h0 e
    rw [push_append g] at e
    exact h1 _ hl h0 e
  · intro x h0 e
    rw [push_append g] at e
    obtain ⟨k, rest, hk, hs, hr⟩ := h2 _ h0 e
    rw [List.length_singleton] at hk hr
    obtain rfl : k = 0 := by omega
    obtain ⟨y, rfl⟩ := List.length_eq_one_iff.1 (show rest.length = 1 by omega)
    exact ⟨y, by simpa using hs⟩

/-- **C175** (longer, violated): for every array and every element there is a call whose exception makes `a << x` leave an array
that is one element longer. -/
theorem C175_longer_violated {a : ArrayThrow.Arr T} {t : Nat} {l : List T} (p : Past fails dv moves a t) (hl : Shows a l) (x : T) :
    ∃ j a' t' y, t ≤ j ∧ push (fun i => i == j) dv moves a x t = .thrown a' t' ∧ Shows a' (l ++ [y]) := by
  obtain ⟨xs, g⟩ := past_good p
  have hl' : l = xs.take a.n := by
    obtain ⟨h1, h2, -⟩ := shows_good g
    obtain ⟨h3, h4, -⟩ := hl
    refine List.ext_getElem (by omega) fun i h5 h6 => ?_
    have h7 := h2 i h6
    rw [h4 i h5] at h7
    exact Res.ok.inj h7
  obtain ⟨c, hc⟩ := resize_calls (dv := dv) (moves := moves) g (a.n + 1) t
  obtain ⟨a1, e1⟩ := hc (fun i => i == t + c) (fun i hi => by simp; omega)
  rcases resize_good (fails := fun i => i == t + c) (dv := dv) (moves := moves) g (a.n + 1) t with
    ⟨a2, t2, zs, e2, g2, n2, q⟩ | ⟨t2, e2, -⟩ | ⟨a2, t2, e2, -⟩
  · rw [e1] at e2
    cases e2
    have hz := g2.1
    have hz2 := Arr.le_roundLength a1.n
    rw [show min a.n (a.n + 1) = a.n by omega] at q
    refine ⟨t + c, a1, t + c + 1, zs[a.n]'(by omega), by omega, ?_, ?_⟩
    · unfold push
      rw [e1]
      dsimp only
      unfold put
      rw [g2.some (by omega)]
      dsimp only
      rw [cell_good zs _ _ (show a1.n - 1 < zs.length by omega)]
      dsimp only
      rw [if_pos (by simp)]
    · have := shows_good g2
      rw [n2, List.take_add_one, q, List.getElem?_eq_getElem (by omega)] at this
      rw [hl']
      exact this
  · rw [e1] at e2; cases e2
  · rw [e1] at e2; cases e2

/-- **C175** (dangling, violated): for every array that is not empty and must get memory for a further element (or more), an
exception from the first constructor leaves an array that cannot be destroyed, and none of its elements can be read if the
block was moved. `N` is as before. -/
theorem C175_dangling_violated {a : ArrayThrow.Arr T} {t c d : Nat} (p : Past fails dv moves a t) (m : Nat) (x : T) (hn : a.n ≠ 0)
    (hc : ArrayProps.IsCapacity a.n c) (hf : fails t = true) :
    (ArrayProps.IsCapacity m d → c < d → ∃ a' t', resize fails dv moves a m t = .thrown a' t' ∧ a'.n = a.n ∧ destroy a' = .ub ∧
      (moves = true → ∀ i, ArrayThrow.get a' i = .ub)) ∧
    (ArrayProps.IsCapacity (a.n + 1) d → c < d → ∃ a' t', push fails dv moves a x t = .thrown a' t' ∧ a'.n = a.n ∧
      destroy a' = .ub ∧ (moves = true → ∀ i, ArrayThrow.get a' i = .ub)) := by
  obtain ⟨xs, g⟩ := past_good p
  have hres : ∀ m, ArrayProps.IsCapacity m d → c < d → ∃ a' t', resize fails dv moves a m t = .thrown a' t' ∧ a'.n = a.n ∧ destroy a' = .ub ∧
      (moves = true → ∀ i, ArrayThrow.get a' i = .ub) := by
    intro m hd hcd
    have h1 : c = Arr.roundLength a.n := ArrayLoopProps.capacity_unique hc
    have h2 : d = Arr.roundLength m := ArrayLoopProps.capacity_unique hd
    obtain ⟨a1, t1, e1⟩ := resize_first (fails := fails) (dv := dv) (moves := moves) g hn m t (by omega) hf
    rcases resize_good (fails := fails) (dv := dv) (moves := moves) g m t with
      ⟨a2, t2, zs, e2, -⟩ | ⟨t2, e2, h0⟩ | ⟨a2, t2, e2, -, h⟩
    · rw [e1] at e2; cases e2
    · exact absurd h0 hn
    · exact ⟨a2, t2, e2, h⟩
  refine ⟨hres m, fun hd hcd => ?_⟩
  obtain ⟨a1, t1, e1, h1⟩ := hres _ hd hcd
  refine ⟨a1, t1, ?_, h1⟩
  unfold push
  rw [e1]

/-! ## Examples -/

/-- An array of three elements. -/
def three : ArrayThrow.Arr Nat := ⟨3, some ⟨true, 3, [some 0, some 0, some 0]⟩⟩

example : Past (fun i => i == 3) 0 true three 3 := .make 3 0 rfl
example : Shows three [0, 0, 0] := ⟨rfl, by decide, rfl⟩
example : push (fun i => i == 3) 0 true three 7 3 = .thrown ⟨3, some ⟨false, 3, [some 0, some 0, some 0]⟩⟩ 4 := rfl
example : push (fun i => i == 3) 0 false three 7 3 = .thrown ⟨3, some ⟨true, 4, [some 0, some 0, some 0, none]⟩⟩ 4 := rfl
example : push (fun i => i == 4) 0 true three 7 3 = .thrown ⟨4, some ⟨true, 4, [some 0, some 0, some 0, some 0]⟩⟩ 5 := rfl
example : push (fun _ => false) 0 true three 7 3 = .ret ⟨4, some ⟨true, 4, [some 0, some 0, some 0, some 7]⟩⟩ 5 () := rfl
example : ArrayThrow.append (fun i => i == 6) 0 true three [7, 8] 3 =
    .thrown ⟨5, some ⟨true, 5, [some 0, some 0, some 0, some 7, some 0]⟩⟩ 7 := rfl
example : make (fun i => i == 1) 0 2 0 = .thrown () 2 := rfl
example : ArrayProps.IsCapacity 3 3 ∧ ArrayProps.IsCapacity 4 4 := ⟨.inl ⟨by decide, rfl⟩, .inl ⟨by decide, rfl⟩⟩

end Lolly.ArrayThrowProps
