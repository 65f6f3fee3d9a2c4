import Verif.Containers.LinkedList

set_option autoImplicit false

/-!
# How deeply the calls of list functions are nested

Many functions of list.ipp call themselves for the rest of the list. In the model of lists the first number given to
`copyF`, `pushF`, ... is the number of calls that may be nested, and `hang` is the outcome if there are more: this is the
size of the stack, measured in calls of that function. The functions `N`, `last_item`, `tail`, `reverse` and the printing
of lists are loops and need no stack (`lenLoop`, `lastLoop`, `tailN`, `reverseLoop`). Compilers may turn calls at the end
of a function into loops; this is left out. Here are the functions that call one another, and the destruction of lists.
-/

namespace Lolly.ListDepth

open LL

variable {T : Type}

/-- `operator* (list<T>, list<T>)` (list.ipp:176-181), which calls `copy` from its innermost call. -/
def concatD (q : Ptr) : Nat → Cells T → Ptr → Res (Ptr × Cells T)
  | 0, _, _ => .hang
  | d + 1, h, p =>
    match p with
    | none => copyF d h q
    | some a => do
      let c ← rd h a
      let (r, h) ← concatD q d h c.next
      .ok (mk h c.item r)

/-- A node with its count (`concrete_struct`, classdef.hpp:25); the item does not matter. -/
structure Node where
  next : Ptr
  cnt : Nat
  deriving DecidableEq

/-- Nodes that were deleted are `none`. -/
abbrev Heap := List (Option Node)

def at? (h : Heap) (a : Nat) : Res Node := do
  match ← rd h a with
  | none => .ub
  | some n => .ok n

/-- The destructor of `list<T>` (`DEC_COUNT_NULL`, classdef.hpp:112-118, 400): the last handle deletes the node, whose
destructor (list.hpp:125) destroys the handle `next` before the memory is given back. -/
def release : Nat → Heap → Ptr → Res Heap
  | 0, _, _ => .hang
  | _ + 1, h, none => .ok h
  | d + 1, h, some a => do
    let n ← at? h a
    if n.cnt - 1 = 0 then do
      let h ← release d (h.set a (some ⟨n.next, 0⟩)) n.next
      .ok (h.set a none)
    else .ok (h.set a (some ⟨n.next, n.cnt - 1⟩))

/-- `item >> l` (list.ipp:63-67) for a handle `l`: the new node takes over the handle. -/
def consD (s : Heap × Ptr) : Heap × Ptr := (s.1 ++ [some ⟨s.2, 1⟩], some s.1.length)

/-- A list made by putting `n` items in front, one after the other. -/
def build : Nat → Heap × Ptr
  | 0 => ([], none)
  | n + 1 => consD (build n)

end Lolly.ListDepth
