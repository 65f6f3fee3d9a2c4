import Verif.Algorithms.MergeSort

set_option autoImplicit false

/-!
# merge_sort with a companion that is a handle of the same array

`array<T> b= a` does not copy elements (array.hpp:96 and 166, classdef.hpp:215-218), so that `a` and `b` of
merge_sort.hpp:68-115 may be the same elements. The functions are those of `MergeSort.lean` for two arrays, in the
same order of reads and writes, where both arrays are the one list `a`. The buffers `ma` and `mb` are made by the
function itself (merge_sort.hpp:112-113) and always distinct.
-/

namespace Lolly.SortAlias

variable {T : Type}

/-- The merging loop (merge_sort.hpp:88-96). -/
def mergeLoop (leq : T → T → Bool) (a : List T) (middle e : Nat) :
    Nat → List T → List T → Nat → Nat → Nat → Res (List T × List T × Nat × Nat × Nat)
  | 0, _, _, _, _, _ => .hang
  | f + 1, ma, mb, i, j, k =>
    if i < middle ∧ j < e then do
      let x ← rd a i
      let y ← rd a j
      if leq x y then do
        let u ← rd a i
        let mb ← wr mb k u
        let ma ← wr ma k x
        mergeLoop leq a middle e f ma mb (i + 1) j (k + 1)
      else do
        let u ← rd a j
        let mb ← wr mb k u
        let ma ← wr ma k y
        mergeLoop leq a middle e f ma mb i (j + 1) (k + 1)
    else .ok (ma, mb, i, j, k)

/-- `while (i != middle) { b[k]= b[i]; a[k++]= a[i++]; }` (merge_sort.hpp:98-101). -/
def leftover (a : List T) (i middle k : Nat) : Res (List T) :=
  forUp i middle a fun t a => do
    let u ← rd a t
    let a ← wr a (k + (t - i)) u
    let x ← rd a t
    wr a (k + (t - i)) x

/-- `for (i= start; i < j; i++) { b[i]= mb[i]; a[i]= ma[i]; }` (merge_sort.hpp:102-105). -/
def copyBack (a ma mb : List T) (s j : Nat) : Res (List T) :=
  forUp s j a fun i a => do
    let u ← rd mb i
    let a ← wr a i u
    let x ← rd ma i
    wr a i x

/-- `merge_sort_sub` on two arrays (merge_sort.hpp:68-106). -/
def sub (leq : T → T → Bool) (a : List T) (s e : Nat) (ma mb : List T) : Res (List T × List T × List T) :=
  if e - s ≤ 1 then .ok (a, ma, mb)
  else if e - s = 2 then do
    let x ← rd a s
    let y ← rd a (s + 1)
    if !leq x y then do
      let ma ← wr ma s x
      let a ← wr a s y
      let z ← rd ma s
      let a ← wr a (s + 1) z
      let u ← rd a s
      let mb ← wr mb s u
      let v ← rd a (s + 1)
      let a ← wr a s v
      let w ← rd mb s
      let a ← wr a (s + 1) w
      .ok (a, ma, mb)
    else .ok (a, ma, mb)
  else do
    let middle := (s + e) / 2
    let (a, ma, mb) ← sub leq a s middle ma mb
    let (a, ma, mb) ← sub leq a middle e ma mb
    let (ma, mb, i, _, k) ← mergeLoop leq a middle e (e - s + 1) ma mb s middle s
    let a ← leftover a i middle k
    let a ← copyBack a ma mb s k
    .ok (a, ma, mb)
termination_by e - s
decreasing_by all_goals omega

/-- `merge_sort_leq (a, b)` (merge_sort.hpp:108-115) where `b` is a handle of the elements of `a`, so that the
lengths agree. `dv` is `T ()`. The elements that both handles show afterwards. -/
def sort (leq : T → T → Bool) (dv : T) (a : List T) : Res (List T) := do
  let (a, _, _) ← sub leq a 0 a.length (List.replicate a.length dv) (List.replicate a.length dv)
  .ok a

end Lolly.SortAlias
