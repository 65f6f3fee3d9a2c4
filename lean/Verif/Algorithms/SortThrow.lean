import Verif.Algorithms.SortSteps

set_option autoImplicit false

/-!
# merge_sort of elements whose assignment throws

The same functions as in `MergeSort.lean` (Kernel/Algorithms/merge_sort.hpp), with assignments of elements that may throw an
exception: assignments are numbered, and `fails k` says that assignment number `k` throws. Outcomes carry the array at that moment.

Simplifications: an assignment that throws leaves the element it was to change as it was. Comparisons do not throw here (they do in
`SortSteps.lean`). The buffer is made from elements of the default constructor, which does not throw here.
-/

namespace Lolly.SortThrow

open Lolly.SortSteps (Out)

variable {T : Type}

/-- The array, the buffer and the number of assignments so far. -/
structure St (T : Type) where
  a : List T
  buf : List T
  t : Nat
  deriving DecidableEq

/-- `merge_buf[k]= a[i]`: array and buffer afterwards. -/
def bufA (st : St T) (k i : Nat) : Res (List T × List T) := do
  let x ← rd st.a i
  let b ← wr st.buf k x
  .ok (st.a, b)

/-- `a[k]= a[i]`. -/
def aA (st : St T) (k i : Nat) : Res (List T × List T) := do
  let x ← rd st.a i
  let a ← wr st.a k x
  .ok (a, st.buf)

/-- `a[k]= merge_buf[i]`. -/
def aBuf (st : St T) (k i : Nat) : Res (List T × List T) := do
  let x ← rd st.buf i
  let a ← wr st.a k x
  .ok (a, st.buf)

/-- One assignment, with what it does if it does not throw. -/
def asg (fails : Nat → Bool) (st : St T) : Res (List T × List T) → Out (St T) Unit
  | .ok m => if fails st.t then .thrown { st with t := st.t + 1 } else .ret ⟨m.1, m.2, st.t + 1⟩ ()
  | .thrown => .thrown st
  | .ub => .ub
  | .hang => .hang

/-- `LEQ::leq (a[i], a[j])`. -/
def cmp (leq : T → T → Bool) (i j : Nat) (st : St T) : Out (St T) Bool :=
  match st.a[i]?, st.a[j]? with
  | some x, some y => .ret st (leq x y)
  | _, _ => .ub

/-- The merging loop (merge_sort.hpp:41-43). -/
def mergeLoop (leq : T → T → Bool) (middle e : Nat) (fails : Nat → Bool) :
    Nat → Nat → Nat → Nat → St T → Out (St T) (Nat × Nat × Nat)
  | 0, _, _, _, _ => .hang
  | f + 1, i, j, k, st =>
    if i < middle ∧ j < e then
      (cmp leq i j st).bind fun st b =>
        if b then (asg fails st (bufA st k i)).bind fun st _ => mergeLoop leq middle e fails f (i + 1) j (k + 1) st
        else (asg fails st (bufA st k j)).bind fun st _ => mergeLoop leq middle e fails f i (j + 1) (k + 1) st
    else .ret st (i, j, k)

/-- `while (i != middle) a[k++]= a[i++]` (merge_sort.hpp:45-46), here for `n` elements. -/
def leftover (fails : Nat → Bool) : Nat → Nat → Nat → St T → Out (St T) Unit
  | 0, _, _, st => .ret st ()
  | n + 1, i, k, st => (asg fails st (aA st k i)).bind fun st _ => leftover fails n (i + 1) (k + 1) st

/-- `for (i= start; i < j; i++) a[i]= merge_buf[i]` (merge_sort.hpp:47-48), here for `n` elements. -/
def copyBack (fails : Nat → Bool) : Nat → Nat → St T → Out (St T) Unit
  | 0, _, st => .ret st ()
  | n + 1, i, st => (asg fails st (aBuf st i i)).bind fun st _ => copyBack fails n (i + 1) st

/-- `merge_sort_sub` (merge_sort.hpp:25-49). -/
def sub (leq : T → T → Bool) (fails : Nat → Bool) (s e : Nat) (st : St T) : Out (St T) Unit :=
  if e - s ≤ 1 then .ret st ()
  else if e - s = 2 then
    (cmp leq s (s + 1) st).bind fun st b =>
      if !b then
        (asg fails st (bufA st s s)).bind fun st _ =>
        (asg fails st (aA st s (s + 1))).bind fun st _ =>
        asg fails st (aBuf st (s + 1) s)
      else .ret st ()
  else
    (sub leq fails s ((s + e) / 2) st).bind fun st _ =>
    (sub leq fails ((s + e) / 2) e st).bind fun st _ =>
    (mergeLoop leq ((s + e) / 2) e fails (e - s + 1) s ((s + e) / 2) s st).bind fun st r =>
    (leftover fails ((s + e) / 2 - r.1) r.1 r.2.2 st).bind fun st _ =>
    copyBack fails (r.2.2 - s) s st
termination_by e - s
decreasing_by all_goals omega

/-- `merge_sort_leq` and `merge_sort` (merge_sort.hpp:51-62). `dv` is `T ()`. -/
def sort (leq : T → T → Bool) (dv : T) (fails : Nat → Bool) (a : List T) : Out (St T) Unit :=
  sub leq fails 0 a.length ⟨a, List.replicate a.length dv, 0⟩

end Lolly.SortThrow
