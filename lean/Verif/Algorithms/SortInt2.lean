import Verif.Algorithms.SortInt

set_option autoImplicit false

/-!
# merge_sort with a companion array, with `int` variables and a stack of limited depth

The functions of merge_sort.hpp:68-115 as in `MergeSort.lean`, with positions of type `int` as in `SortInt.lean`.
-/

namespace Lolly.SortInt

variable {T U : Type}

/-- The merging loop (merge_sort.hpp:88-96). -/
def mergeLoop2 (leq : T → T → Bool) (a : List T) (b : List U) (middle e : Int) :
    Nat → List T → List U → Int → Int → Int → Res (List T × List U × Int × Int × Int)
  | 0, _, _, _, _, _ => .hang
  | f + 1, ma, mb, i, j, k =>
    if i < middle ∧ j < e then do
      let x ← rdI a i
      let y ← rdI a j
      if leq x y then do
        let u ← rdI b i
        let mb ← wrI mb k u
        let ma ← wrI ma k x
        let i ← int32 (i + 1)
        let k ← int32 (k + 1)
        mergeLoop2 leq a b middle e f ma mb i j k
      else do
        let u ← rdI b j
        let mb ← wrI mb k u
        let ma ← wrI ma k y
        let j ← int32 (j + 1)
        let k ← int32 (k + 1)
        mergeLoop2 leq a b middle e f ma mb i j k
    else .ok (ma, mb, i, j, k)

/-- `while (i != middle)` (merge_sort.hpp:98-101). -/
def leftover2 (middle : Int) : Nat → List T × List U → Int → Int → Res (List T × List U)
  | 0, _, _, _ => .hang
  | f + 1, ab, i, k =>
    if i ≠ middle then do
      let u ← rdI ab.2 i
      let b ← wrI ab.2 k u
      let x ← rdI ab.1 i
      let a ← wrI ab.1 k x
      let i ← int32 (i + 1)
      let k ← int32 (k + 1)
      leftover2 middle f (a, b) i k
    else .ok ab

/-- `for (i= start; i < j; i++)` (merge_sort.hpp:102-105). -/
def copyBack2 (ma : List T) (mb : List U) (j : Int) : Nat → List T × List U → Int → Res (List T × List U)
  | 0, _, _ => .hang
  | f + 1, ab, i =>
    if i < j then do
      let u ← rdI mb i
      let b ← wrI ab.2 i u
      let x ← rdI ma i
      let a ← wrI ab.1 i x
      let i ← int32 (i + 1)
      copyBack2 ma mb j f (a, b) i
    else .ok ab

/-- `merge_sort_sub` on two arrays (merge_sort.hpp:68-106) where at most `f` calls may be nested. -/
def sub2 (leq : T → T → Bool) : Nat → List T → List U → Int → Int → List T → List U →
    Res ((List T × List U) × (List T × List U))
  | 0, _, _, _, _, _, _ => .hang
  | f + 1, a, b, s, e, ma, mb => do
    let d ← int32 (e - s)
    if d ≤ 1 then .ok ((a, b), (ma, mb))
    else if d = 2 then do
      let t ← int32 (s + 1)
      let x ← rdI a s
      let y ← rdI a t
      if !leq x y then do
        let ma ← wrI ma s x
        let a ← wrI a s y
        let z ← rdI ma s
        let a ← wrI a t z
        let u ← rdI b s
        let mb ← wrI mb s u
        let v ← rdI b t
        let b ← wrI b s v
        let w ← rdI mb s
        let b ← wrI b t w
        .ok ((a, b), (ma, mb))
      else .ok ((a, b), (ma, mb))
    else do
      let sum ← int32 (s + e)
      let r ← sub2 leq f a b s (sum / 2) ma mb
      let r ← sub2 leq f r.1.1 r.1.2 (sum / 2) e r.2.1 r.2.2
      let l ← mergeLoop2 leq r.1.1 r.1.2 (sum / 2) e (d.toNat + 1) r.2.1 r.2.2 s (sum / 2) s
      let ab ← leftover2 (sum / 2) (d.toNat + 1) r.1 l.2.2.1 l.2.2.2.2
      let ab ← copyBack2 l.1 l.2.1 l.2.2.2.2 (d.toNat + 1) ab s
      .ok (ab, (l.1, l.2.1))

/-- `merge_sort_leq` on two arrays (merge_sort.hpp:108-115). -/
def sort2 (leq : T → T → Bool) (f : Nat) (dt : T) (du : U) (a : List T) (b : List U) : Res (List T × List U) :=
  if a.length = b.length then do
    let n ← int32 a.length
    let r ← sub2 leq f a b 0 n (List.replicate a.length dt) (List.replicate b.length du)
    .ok r.1
  else .thrown

end Lolly.SortInt
