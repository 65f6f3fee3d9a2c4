import Verif.Loop

/-!
# Model of merge_sort (Kernel/Algorithms/merge_sort.hpp)

An array is the list of its `N (a)` elements; every access is checked against that length (by the
properties of arrays, those are exactly the legal accesses). `leq` is `LEQ::leq`.
-/

set_option autoImplicit false

namespace Lolly.MergeSort

variable {T U : Type}

/-- The merging loop (merge_sort.hpp:41-43): fills `buf` from `k` on. The fuel passed below is the
number of elements left plus one. -/
def mergeLoop (leq : T → T → Bool) (a : List T) (middle e : Nat) :
    Nat → List T → Nat → Nat → Nat → Res (List T × Nat × Nat × Nat)
  | 0, _, _, _, _ => .hang
  | f + 1, buf, i, j, k =>
    if i < middle ∧ j < e then do
      let x ← rd a i
      let y ← rd a j
      if leq x y then do
        let buf ← wr buf k x
        mergeLoop leq a middle e f buf (i + 1) j (k + 1)
      else do
        let buf ← wr buf k y
        mergeLoop leq a middle e f buf i (j + 1) (k + 1)
    else .ok (buf, i, j, k)

/-- `while (i != middle) a[k++]= a[i++]` (merge_sort.hpp:45-46); here `i <= middle`. -/
def leftover (a : List T) (i middle k : Nat) : Res (List T) :=
  forUp i middle a fun t a => do
    let x ← rd a t
    wr a (k + (t - i)) x

/-- `for (i= start; i < j; i++) a[i]= merge_buf[i]` (merge_sort.hpp:47-48). -/
def copyBack (a buf : List T) (s j : Nat) : Res (List T) :=
  forUp s j a fun i a => do
    let x ← rd buf i
    wr a i x

/-- `merge_sort_sub` (merge_sort.hpp:25-49): the array and the buffer after the call. -/
def sub (leq : T → T → Bool) (a : List T) (s e : Nat) (buf : List T) : Res (List T × List T) :=
  if e - s ≤ 1 then .ok (a, buf)
  else if e - s = 2 then do
    let x ← rd a s
    let y ← rd a (s + 1)
    if !leq x y then do
      let buf ← wr buf s x
      let a ← wr a s y
      let z ← rd buf s
      let a ← wr a (s + 1) z
      .ok (a, buf)
    else .ok (a, buf)
  else do
    let middle := (s + e) / 2
    let (a, buf) ← sub leq a s middle buf
    let (a, buf) ← sub leq a middle e buf
    let (buf, i, _, k) ← mergeLoop leq a middle e (e - s + 1) buf s middle s
    let a ← leftover a i middle k
    let a ← copyBack a buf s k
    .ok (a, buf)
termination_by e - s
decreasing_by all_goals omega

/-- `merge_sort_leq` and `merge_sort` (merge_sort.hpp:51-62). `dv` is `T ()`. -/
def sort (leq : T → T → Bool) (dv : T) (a : List T) : Res (List T) := do
  let (a, _) ← sub leq a 0 a.length (List.replicate a.length dv)
  .ok a

/-! ## The form with a companion array (merge_sort.hpp:68-115) -/

def mergeLoop2 (leq : T → T → Bool) (a : List T) (b : List U) (middle e : Nat) :
    Nat → List T → List U → Nat → Nat → Nat → Res (List T × List U × Nat × Nat × Nat)
  | 0, _, _, _, _, _ => .hang
  | f + 1, ma, mb, i, j, k =>
    if i < middle ∧ j < e then do
      let x ← rd a i
      let y ← rd a j
      if leq x y then do
        let u ← rd b i
        let mb ← wr mb k u
        let ma ← wr ma k x
        mergeLoop2 leq a b middle e f ma mb (i + 1) j (k + 1)
      else do
        let u ← rd b j
        let mb ← wr mb k u
        let ma ← wr ma k y
        mergeLoop2 leq a b middle e f ma mb i (j + 1) (k + 1)
    else .ok (ma, mb, i, j, k)

def leftover2 (a : List T) (b : List U) (i middle k : Nat) : Res (List T × List U) :=
  forUp i middle (a, b) fun t ab => do
    let u ← rd ab.2 t
    let b ← wr ab.2 (k + (t - i)) u
    let x ← rd ab.1 t
    let a ← wr ab.1 (k + (t - i)) x
    .ok (a, b)

def copyBack2 (a ma : List T) (b mb : List U) (s j : Nat) : Res (List T × List U) :=
  forUp s j (a, b) fun i ab => do
    let u ← rd mb i
    let b ← wr ab.2 i u
    let x ← rd ma i
    let a ← wr ab.1 i x
    .ok (a, b)

/-- `merge_sort_sub` on two arrays (merge_sort.hpp:68-106). -/
def sub2 (leq : T → T → Bool) (a : List T) (b : List U) (s e : Nat) (ma : List T) (mb : List U) :
    Res ((List T × List U) × (List T × List U)) :=
  if e - s ≤ 1 then .ok ((a, b), (ma, mb))
  else if e - s = 2 then do
    let x ← rd a s
    let y ← rd a (s + 1)
    if !leq x y then do
      let ma ← wr ma s x
      let a ← wr a s y
      let z ← rd ma s
      let a ← wr a (s + 1) z
      let u ← rd b s
      let mb ← wr mb s u
      let v ← rd b (s + 1)
      let b ← wr b s v
      let w ← rd mb s
      let b ← wr b (s + 1) w
      .ok ((a, b), (ma, mb))
    else .ok ((a, b), (ma, mb))
  else do
    let middle := (s + e) / 2
    let ((a, b), (ma, mb)) ← sub2 leq a b s middle ma mb
    let ((a, b), (ma, mb)) ← sub2 leq a b middle e ma mb
    let (ma, mb, i, _, k) ← mergeLoop2 leq a b middle e (e - s + 1) ma mb s middle s
    let (a, b) ← leftover2 a b i middle k
    let (a, b) ← copyBack2 a ma b mb s k
    .ok ((a, b), (ma, mb))
termination_by e - s
decreasing_by all_goals omega

/-- `merge_sort_leq` on two arrays (merge_sort.hpp:108-115). -/
def sort2 (leq : T → T → Bool) (dt : T) (du : U) (a : List T) (b : List U) :
    Res (List T × List U) :=
  if a.length = b.length then do
    let (ab, _) ← sub2 leq a b 0 a.length (List.replicate a.length dt) (List.replicate b.length du)
    .ok ab
  else .thrown

/-- `merge_sort_leq_permutation` (merge_sort.hpp:117-131): the permutation, and the sorted array. -/
def sortPermutation (leq : T → T → Bool) (dt : T) (a : List T) : Res (List Nat × List T) := do
  let b ← forUp 0 a.length (List.replicate a.length 0) fun i b => wr b i i
  let (a, b) ← sort2 leq dt 0 a b
  .ok (b, a)

/-- `permute` (merge_sort.hpp:133-141). -/
def permute (dt : T) (a : List T) (b : List Nat) : Res (List T) :=
  if a.length = b.length then
    forUp 0 a.length (List.replicate a.length dt) fun i r => do
      let p ← rd b i
      let x ← rd a p
      wr r i x
  else .thrown

end Lolly.MergeSort
