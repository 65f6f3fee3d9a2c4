import Verif.Algorithms.SortAliasLemmas
import Verif.Algorithms.MergeSortProps

set_option autoImplicit false

/-!
# C183: sorting an array together with a second handle of the same elements
-/

namespace Lolly.SortAliasProps

open SortAlias (sort)

variable {T : Type}

/-- **C183 (partial).** Whatever the comparison, `merge_sort_leq (a, b)` with `b` a handle of the elements of `a`
touches nothing outside the array and its buffers, returns, and only rearranges the elements; an array that is in
order already stays as it is.

Missing: that an array that is not in order is sorted, which does not hold (`C183_order_violated`). -/
theorem C183_elements_partial (leq : T → T → Bool) (dv : T) (a : List T) :
    (∃ r, sort leq dv a = .ok r ∧ r.Perm a) ∧
    ((a.Pairwise fun x y => leq x y = true) → sort leq dv a = .ok a) := by
  refine ⟨⟨_, SortAlias.sort_eq leq dv a, SortAlias.halves_perm leq a⟩, fun h => ?_⟩
  rw [SortAlias.sort_eq, SortAlias.halves_sorted leq a h]

/-- **C183 (violated).** Every array whose last two elements are not in order is still not in order after the
call, although a companion with elements of its own would have been handled (`C13_companion`): two elements are
exchanged once for `a` and once more for `b`. -/
theorem C183_order_violated (leq : T → T → Bool) (dv : T) (p : List T) (x y : T) (h : leq x y = false) :
    ∃ r, sort leq dv (p ++ [x, y]) = .ok r ∧ ¬ r.Pairwise fun x y => leq x y = true := by
  refine ⟨_, SortAlias.sort_eq leq dv _, fun hs => ?_⟩
  have := hs.sublist (SortAlias.halves_last leq _ p x y rfl)
  simp [h] at this

/-- **C183 (violated), two elements.** They are never exchanged. -/
theorem C183_two_violated (leq : T → T → Bool) (dv x y : T) : sort leq dv [x, y] = .ok [x, y] := by
  rw [SortAlias.sort_eq, SortAlias.halves, if_pos (by simp)]

/-- The numbers 5, 3, 4, 1: the call gives 4, 1, 5, 3. -/
example : sort (fun x y : Nat => x ≤ y) 0 [5, 3, 4, 1] = .ok [4, 1, 5, 3] := by
  rw [SortAlias.sort_eq]; simp [SortAlias.halves]

example : (fun x y : Nat => decide (x ≤ y)) 4 1 = false := by decide

end Lolly.SortAliasProps
