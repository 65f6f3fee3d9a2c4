import Verif.Algorithms.MergeSort

set_option autoImplicit false

/-!
# merge_sort with `int` variables and a stack of limited depth

The same functions as in `MergeSort.lean` (Kernel/Algorithms/merge_sort.hpp:25-62), where positions are natural numbers. Here
they are of type `int`: an overflow is undefined behaviour, and so is a negative index. The number of nested calls of
`merge_sort_sub` is limited; `hang` stands for an exhausted stack.
-/

namespace Lolly.SortInt

variable {T : Type}

/-- The value of an `int` expression. -/
def int32 (x : Int) : Res Int := if -2147483648 ≤ x ∧ x ≤ 2147483647 then .ok x else .ub

/-- `a[i]= x`. -/
def wrI (a : List T) (i : Int) (x : T) : Res (List T) := if 0 ≤ i then wr a i.toNat x else .ub

/-- The merging loop (merge_sort.hpp:41-43). -/
def mergeLoop (leq : T → T → Bool) (a : List T) (middle e : Int) :
    Nat → List T → Int → Int → Int → Res (List T × Int × Int × Int)
  | 0, _, _, _, _ => .hang
  | f + 1, buf, i, j, k =>
    if i < middle ∧ j < e then do
      let x ← rdI a i
      let y ← rdI a j
      if leq x y then do
        let buf ← wrI buf k x
        let i ← int32 (i + 1)
        let k ← int32 (k + 1)
        mergeLoop leq a middle e f buf i j k
      else do
        let buf ← wrI buf k y
        let j ← int32 (j + 1)
        let k ← int32 (k + 1)
        mergeLoop leq a middle e f buf i j k
    else .ok (buf, i, j, k)

/-- `while (i != middle) a[k++]= a[i++]` (merge_sort.hpp:45-46). -/
def leftover (middle : Int) : Nat → List T → Int → Int → Res (List T)
  | 0, _, _, _ => .hang
  | f + 1, a, i, k =>
    if i ≠ middle then do
      let x ← rdI a i
      let a ← wrI a k x
      let i ← int32 (i + 1)
      let k ← int32 (k + 1)
      leftover middle f a i k
    else .ok a

/-- `for (i= start; i < j; i++) a[i]= merge_buf[i]` (merge_sort.hpp:47-48). -/
def copyBack (buf : List T) (j : Int) : Nat → List T → Int → Res (List T)
  | 0, _, _ => .hang
  | f + 1, a, i =>
    if i < j then do
      let x ← rdI buf i
      let a ← wrI a i x
      let i ← int32 (i + 1)
      copyBack buf j f a i
    else .ok a

/-- `merge_sort_sub` (merge_sort.hpp:25-49) where at most `f` calls may be nested. `x >> 1` is the half, rounded down. The
loops have enough turns for the elements that are left. -/
def sub (leq : T → T → Bool) : Nat → List T → Int → Int → List T → Res (List T × List T)
  | 0, _, _, _, _ => .hang
  | f + 1, a, s, e, buf => do
    let d ← int32 (e - s)
    if d ≤ 1 then .ok (a, buf)
    else if d = 2 then do
      let t ← int32 (s + 1)
      let x ← rdI a s
      let y ← rdI a t
      if !leq x y then do
        let buf ← wrI buf s x
        let a ← wrI a s y
        let z ← rdI buf s
        let a ← wrI a t z
        .ok (a, buf)
      else .ok (a, buf)
    else do
      let sum ← int32 (s + e)
      let r ← sub leq f a s (sum / 2) buf
      let r ← sub leq f r.1 (sum / 2) e r.2
      let l ← mergeLoop leq r.1 (sum / 2) e (d.toNat + 1) r.2 s (sum / 2) s
      let a ← leftover (sum / 2) (d.toNat + 1) r.1 l.2.1 l.2.2.2
      let a ← copyBack l.1 l.2.2.2 (d.toNat + 1) a s
      .ok (a, l.1)

/-- `merge_sort_leq` and `merge_sort` (merge_sort.hpp:51-62). `dv` is `T ()`. -/
def sort (leq : T → T → Bool) (f : Nat) (dv : T) (a : List T) : Res (List T) := do
  let n ← int32 a.length
  let r ← sub leq f a 0 n (List.replicate a.length dv)
  .ok r.1

end Lolly.SortInt
