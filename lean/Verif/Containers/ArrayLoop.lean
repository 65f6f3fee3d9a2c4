import Verif.Containers.Array

set_option autoImplicit false

/-!
# References to elements of arrays, and loops over arrays

`T& r= a[i]` (Kernel/Containers/array.hpp:161) and the pointers `begin ()`, `end ()` (array.hpp:163-164), which a loop
`for (T x : a)` uses. A pointer is a block and an index; the blocks of an array are told apart by `gen`, which counts the
calls that allocate, move or free its block. A block that `realloc` leaves in its place counts as another one, since
pointers into it are invalid as well. All handles of an array share its representation: it does not matter which of them
is used.
-/

namespace Lolly.ArrayLoop

variable {T : Type}

/-- `T*` or `T&`. -/
structure Ptr where
  gen : Nat
  idx : Nat
  deriving DecidableEq

/-- `a[i]` as a reference (array.hpp:161): one must not go beyond the end of the block. -/
def ref (a : Arr T) (i : Nat) : Res Ptr :=
  match a.blk with
  | some b => if i < b.length then .ok ⟨a.gen, i⟩ else .ub
  | none => .ub

/-- Reading through a pointer. -/
def load (a : Arr T) (p : Ptr) : Res T := if p.gen = a.gen then a.get p.idx else .ub

/-- Writing through a pointer. -/
def store (a : Arr T) (p : Ptr) (x : T) : Res (Arr T) := if p.gen = a.gen then a.put p.idx x else .ub

/-- `begin ()` (array.hpp:163). -/
def first (a : Arr T) : Ptr := ⟨a.gen, 0⟩

/-- `end ()` (array.hpp:164). -/
def last (a : Arr T) : Ptr := ⟨a.gen, a.n⟩

/-- What is done to an array: `a[i]= x`, `a << x`, `a->resize (m)`. -/
inductive Op (T : Type)
  | write (i : Nat) (x : T)
  | push (x : T)
  | resize (m : Nat)

def step (dv : T) (a : Arr T) : Op T → Res (Arr T)
  | .write i x => a.put i x
  | .push x => a.push dv x
  | .resize m => a.resize dv m

def run (dv : T) (a : Arr T) : List (Op T) → Res (Arr T)
  | [] => .ok a
  | o :: os => do
    let a ← step dv a o
    run dv a os

/-- `for (; p != e; ++p) { x= *p; body }`; the body of each round is what it does to the array, and `x` is noted. -/
def rounds (dv : T) (e : Ptr) : Arr T → Ptr → List (List (Op T)) → Res (List T × Arr T)
  | a, p, bodies =>
    if p = e then .ok ([], a)
    else
      match bodies with
      | [] => .hang
      | os :: bodies => do
        let x ← load a p
        let a ← run dv a os
        let (xs, a) ← rounds dv e a { p with idx := p.idx + 1 } bodies
        .ok (x :: xs, a)

/-- `for (T x : a) body`: `begin ()` and `end ()` are evaluated once. -/
def loop (dv : T) (a : Arr T) (bodies : List (List (Op T))) : Res (List T × Arr T) :=
  rounds dv (last a) a (first a) bodies

end Lolly.ArrayLoop
