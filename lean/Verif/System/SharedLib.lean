import Verif.Containers.HashTree

/-!
# Model of shared libraries (lolly/system/shared_lib.cpp, lolly/system/shared_lib.hpp)

The class is a named resource (`Resources`, Kernel/Abstractions/resource.hpp). The answers of `tb_dynamic_init` are
parameters. Simplifications: a `url` is its text; the memory that `tm_new` got for an object whose constructor throws is
not modelled (tm_new does not give it back); the code is the one with `USE_EXCEPTIONS` (Kernel/Abstractions/basic.hpp:50).
-/

set_option autoImplicit false

namespace Lolly.SharedLib

variable {K : Type} [DecidableEq K] (hash : K → BitVec 32)

/-- The resources of the class `shared_lib` (shared_lib.hpp:20), the field `dynamic_ref` of each object
(shared_lib.hpp:24), and the handles that are open in the system, each as often as it was opened. -/
structure Libs (K : Type) where
  res : Resources K
  ref : Nat → Option Nat
  opened : List Nat

/-- Before any library is loaded. -/
def empty : Libs K := ⟨Resources.empty, fun _ => none, []⟩

/-- `load_shared_library (name, path)` (shared_lib.cpp:27-30) with the constructor (shared_lib.cpp:15-21). `p` is the
address of a new object, `h` the answer of `tb_dynamic_init` for the path. The base class is initialised before the
field although it stands after it in the list; when the constructor throws, the destructor of the base class runs. The
result is the object, or `none` for the exception. -/
def load (l : Libs K) (name : K) (p : Nat) (h : Option Nat) : Res (Option Nat × Libs K) := do
  let c ← l.res.instances.contains hash name
  if c then do
    let q ← l.res.lookup hash name
    .ok (some q, l)
  else do
    let r ← l.res.create hash name p
    match h with
    | none => do
      let r ← r.destroy hash p
      .ok (none, { l with res := r })
    | some h => .ok (some p, ⟨r, fun q => if q = p then some h else l.ref q, h :: l.opened⟩)

/-- `tb_dynamic_exit`: a handle that is not open must not be closed. -/
def close (opened : List Nat) (h : Nat) : Res (List Nat) :=
  if h ∈ opened then .ok (opened.erase h) else .ub

/-- `tm_delete (lib.rep)` with the destructor (shared_lib.cpp:22-25) and the one of the base class
(resource.hpp:28). -/
def unload (l : Libs K) (p : Nat) : Res (Libs K) := do
  match l.ref p, l.res.names p with
  | some h, some s => do
    let o ← close l.opened h
    let i ← l.res.instances.reset hash s
    let r ← ({ l.res with instances := i } : Resources K).destroy hash p
    .ok ⟨r, fun q => if q = p then none else l.ref q, o⟩
  | _, _ => .ub

/-- What a program does with libraries. -/
inductive Op (K : Type)
  | load (name : K) (p : Nat) (h : Option Nat)
  | unload (p : Nat)

/-- A run; the results of the loads. -/
def run : Libs K → List (Op K) → Res (List (Option Nat) × Libs K)
  | l, [] => .ok ([], l)
  | l, .load name p h :: os => do
    let (q, l) ← load hash l name p h
    let (qs, l) ← run l os
    .ok (q :: qs, l)
  | l, .unload p :: os => do
    let l ← unload hash l p
    run l os

end Lolly.SharedLib
