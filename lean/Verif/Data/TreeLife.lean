import Verif.Kernel.RefcountSpec

set_option autoImplicit false

/-!
# Making trees

The objects behind a tree (lolly/data/lolly_tree.hpp): a node points to a string or to an array, the array points to the
nodes of the children. What the constructors do with handles is written as a program of Verif/Kernel/Refcount.lean; the
handle of the result is the last variable.
-/

namespace Lolly.TreeLife

open Lolly.Refcount

/-- The shape of a tree. -/
inductive T
  | leaf
  | node (op : Int) (children : List T)

/-- `lolly_tree (string l)` (lolly_tree.hpp:30-32, 150): the string, a node that points to it, and the end of the temporary string.
`n` is the number of variables before. -/
def mkLeaf (n : Nat) : List Op := [.new [], .new [some ⟨n, []⟩], .drop n]

/-- `lolly_tree (int l, array<lolly_tree<T>> a)` and the constructors with children (lolly_tree.hpp:36-122, 151): the array, whose
elements are copies of the variables `n`, ..., `n + k - 1`, a node that points to it, and the end of the array variable and
of the `k` variables. The constructors with children make an array of nodes that are the empty string first, and assign
to its elements; this is left out. -/
def mkNode (n k : Nat) (op : Int) : List Op :=
  .new ((List.range k).map fun i => some ⟨n + i, []⟩) :: .new [some ⟨n + k, []⟩] (.tree op) :: .drop (n + k) ::
    List.replicate k (.drop n)

mutual
/-- A tree is made from its leaves; before, there are `n` variables. -/
def build (n : Nat) : T → List Op
  | .leaf => mkLeaf n
  | .node op l => buildAll n l ++ mkNode n l.length op

def buildAll (n : Nat) : List T → List Op
  | [] => []
  | t :: l => build n t ++ buildAll (n + 1) l
end

mutual
/-- Every operator of a node with children satisfies `P`. -/
def AllOps (P : Int → Prop) : T → Prop
  | .leaf => True
  | .node op l => P op ∧ AllOpsL P l

def AllOpsL (P : Int → Prop) : List T → Prop
  | [] => True
  | t :: l => AllOps P t ∧ AllOpsL P l
end

end Lolly.TreeLife
