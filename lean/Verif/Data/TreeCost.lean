import Verif.Data.LollyTree

set_option autoImplicit false

/-!
# What it takes to copy, compare and destroy trees

The functions of lolly/data/lolly_tree.hpp call themselves for the children. In `LTree.copy` and `LTree.ne` the first number
is the number of calls that may be nested, and `hang` is the outcome if there are more: this is the size of the stack,
measured in levels of the tree. Here are the comparison with the number of its calls, and the destruction of trees.
-/

namespace Lolly.TreeCost

open LTree

/-- The loop of `a != b` on arrays (array.ipp:108-116), with the number of calls. -/
def neAll (ne : Nat → Nat → Res (Bool × Nat)) : List Nat → List Nat → Res (Bool × Nat)
  | x :: a, y :: b => do
    let (d, c) ← ne x y
    if d then .ok (true, c)
    else do
      let (d', c') ← neAll ne a b
      .ok (d', c + c')
  | [], [] => .ok (false, 0)
  | _, _ => .ok (true, 0)

/-- `t != u` (lolly_tree.hpp:253-259) with the number of its calls. -/
def neC (h : Heap) : Nat → Nat → Nat → Res (Bool × Nat)
  | 0, _, _ => .hang
  | f + 1, t, u =>
    if t = u then .ok (false, 1)
    else do
      let o ← op h t
      let o' ← op h u
      if o ≠ o' then .ok (true, 1)
      else if o = 0 then do
        let l ← label h t
        let l' ← label h u
        .ok (decide (l ≠ l'), 1)
      else do
        let k ← kids h t
        let k' ← kids h u
        if k.length ≠ k'.length then .ok (true, 1)
        else do
          let (d, c) ← neAll (neC h f) k k'
          .ok (d, c + 1)

/-- `n` times `t= lolly_tree (1, t, t)` (lolly_tree.hpp:52-56), beginning with the empty string. -/
def double : Nat → Heap → Res (Heap × Nat)
  | 0, h => .ok (dflt h)
  | n + 1, h => do
    let p ← double n h
    ofTrees p.1 1 [p.2, p.2]

/-- `n` times `t= lolly_tree (1, t)` (lolly_tree.hpp:47-50), beginning with the empty string. -/
def deepen : Nat → Heap → Res (Heap × Nat)
  | 0, h => .ok (dflt h)
  | n + 1, h => do
    let p ← deepen n h
    ofTrees p.1 1 [p.2]

/-! ## Destroying

Nodes with their counts; nodes that were deleted are `none`. The array of the children belongs to one node only here, and
operators are not negative (lolly_tree.hpp:152-159). -/

structure Cell where
  kids : List Nat
  cnt : Nat
  deriving DecidableEq

abbrev Cells := List (Option Cell)

def at? (h : Cells) (a : Nat) : Res Cell := do
  match ← rd h a with
  | none => .ub
  | some n => .ok n

/-- The elements of an array are destroyed from the last to the first (`tm_delete_array`, fast_alloc.hpp:435-443). -/
def fromLast (f : Cells → Nat → Res Cells) : Cells → List Nat → Res Cells
  | h, [] => .ok h
  | h, k :: ks => do
    let h ← fromLast f h ks
    f h k

/-- The destructor of `lolly_tree<T>` (`DEC_COUNT`, classdef.hpp:84-89, 219): the last handle deletes the node, whose destructor
(lolly_tree.hpp:152-159) destroys the array and so the handles of the children (array.hpp:73-75), before the memory is given
back. -/
def release : Nat → Cells → Nat → Res Cells
  | 0, _, _ => .hang
  | d + 1, h, a => do
    let n ← at? h a
    if n.cnt - 1 = 0 then do
      let h ← fromLast (release d) (h.set a (some ⟨n.kids, 0⟩)) n.kids
      .ok (h.set a none)
    else .ok (h.set a (some ⟨n.kids, n.cnt - 1⟩))

/-- The nodes made by `deepen`: each is the only child of the next one. -/
def chain : Nat → Cells
  | 0 => [some ⟨[], 1⟩]
  | n + 1 => chain n ++ [some ⟨[n], 1⟩]

/-- The nodes made by `double`, where `c` is the count of the last one: each is twice the child of the next one. -/
def twins : Nat → Nat → Cells
  | 0, c => [some ⟨[], c⟩]
  | n + 1, c => twins n 2 ++ [some ⟨[n, n], c⟩]

end Lolly.TreeCost
