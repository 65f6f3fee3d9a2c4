import Verif.System.Alloc

set_option autoImplicit false

/-!
# Objects made by tm_new

`tm_new`, `tm_delete`, `tm_new_array` and `tm_delete_array` (System/Memory/fast_alloc.hpp:57-361, 405-416, 433-443; not
`DEBUG_ON`) with what constructors and destructors do and with exceptions (`USE_EXCEPTIONS`,
Kernel/Abstractions/basic.hpp:50). The calls of the allocator (Verif/System/Alloc.lean) are recorded in order; a block is
named by its position among those that were not given back.

Simplifications: a program has variables for pointers, that everything can use; the bodies of constructors and
destructors are written at the place of the call, one for each element; what objects contain is left out. The number of
elements is what was written before the elements (C98, C138). `tm_new` with arguments differs from `tm_new ()` only in
what it hands to the constructor.
-/

namespace Lolly.Objects

open Lolly.Alloc (Ora)

/-- A block is being made, made, being destroyed, given back, or left over by a constructor that failed. -/
inductive Status
  | making | alive | dying | gone | lost
deriving DecidableEq

structure Block where
  isArr : Bool
  /-- number of elements, 1 for a single object -/
  n : Nat
  /-- `sizeof (C)` -/
  sz : Nat
  st : Status
deriving DecidableEq

/-- What happens to an object. -/
inductive What
  | begins | made | failed | ends | destroyed
deriving DecidableEq

/-- Element `i` of the block `b`. -/
structure Ev where
  b : Nat
  i : Nat
  what : What
deriving DecidableEq

structure S where
  blocks : List Block
  vars : Nat → Option Nat
  ev : List Ev
  ops : List Alloc.Op

def init : S := ⟨[], fun _ => none, [], []⟩

/-- How a part of a program ends. -/
inductive Out
  | normal | exc
deriving DecidableEq

inductive Cmd
  | done
  | throw
  /-- `x= tm_new<C> (...)` -/
  | new (x sz : Nat) (o : Ora) (ctor rest : Cmd)
  /-- `tm_delete (x)` -/
  | del (x : Nat) (o : Ora) (dtor rest : Cmd)
  /-- `x= tm_new_array<C> (n)` -/
  | newArray (x n sz : Nat) (o : Ora) (ctor : Nat → Cmd) (rest : Cmd)
  /-- `tm_delete_array (x)` -/
  | delArray (x : Nat) (o : Ora) (dtor : Nat → Cmd) (rest : Cmd)
  /-- `x= y` for pointers -/
  | copy (x y : Nat) (rest : Cmd)
  /-- `x= NULL` -/
  | forget (x : Nat) (rest : Cmd)
  /-- `try { body } catch (...) { handler }` -/
  | attempt (body handler rest : Cmd)

def S.log (s : S) (b i : Nat) (w : What) : S := { s with ev := s.ev ++ [⟨b, i, w⟩] }

def S.setSt (s : S) (b : Nat) (st : Status) : S :=
  { s with blocks := s.blocks.modify b fun k => { k with st } }

def S.setVar (s : S) (x : Nat) (v : Option Nat) : S := { s with vars := fun y => if y = x then v else s.vars y }

/-- The blocks that were not given back. -/
def kept (l : List Block) : List Block := l.filter fun k => k.st ≠ .gone

/-- The position of the block `b` among those. -/
def place (s : S) (b : Nat) : Nat := (kept (s.blocks.take b)).length

/-- The loop of `tm_new_array` (fast_alloc.hpp:412-413) from element `i` on, `k` are left. An exception leaves the function;
nothing catches it here. -/
def construct (body : Nat → S → Res (Out × S)) (b : Nat) : Nat → Nat → S → Res (Out × S)
  | 0, _, s => .ok (.normal, s)
  | k + 1, i, s => do
    let (o, s) ← body i (s.log b i .begins)
    match o with
    | .exc => .ok (.exc, s.log b i .failed)
    | .normal => construct body b k (i + 1) (s.log b i .made)

/-- The loop of `tm_delete_array` (fast_alloc.hpp:438-440) from element `k - 1` down. An exception from a destructor ends
the program. -/
def destroy (body : Nat → S → Res (Out × S)) (b : Nat) : Nat → S → Res S
  | 0, s => .ok s
  | k + 1, s => do
    let (o, s) ← body k (s.log b k .ends)
    match o with
    | .exc => .thrown
    | .normal => destroy body b k (s.log b k .destroyed)

/-- `tm_new` (fast_alloc.hpp:57-353) and `tm_new_array` (fast_alloc.hpp:405-416): get memory, construct. The memory is not
given back if a constructor throws: the form of `new` that takes a place has a `delete` that does nothing. -/
def create (isArr : Bool) (x n sz : Nat) (o : Ora) (ctor : Nat → S → Res (Out × S)) (s : S) : Res (Out × S) := do
  let b := s.blocks.length
  let (out, s) ← construct ctor b n 0
    { s with
      blocks := s.blocks ++ [⟨isArr, n, sz, .making⟩]
      ops := s.ops ++ [if isArr then .alloc (n * sz + 8) o else .new sz o] }
  match out with
  | .exc => .ok (.exc, s.setSt b .lost)
  | .normal => .ok (.normal, (s.setSt b .alive).setVar x (some b))

/-- `tm_delete` (fast_alloc.hpp:355-361) and `tm_delete_array` (fast_alloc.hpp:433-443): destroy, give the memory back. The
pointer must be to a whole object, or array, that is alive. -/
def giveBack (isArr : Bool) (x : Nat) (o : Ora) (dtor : Nat → S → Res (Out × S)) (s : S) : Res S :=
  match s.vars x with
  | none => .ub
  | some b =>
    match s.blocks[b]? with
    | none => .ub
    | some k =>
      if k.isArr = isArr ∧ k.st = .alive then do
        let s ← destroy dtor b k.n (s.setSt b .dying)
        .ok { s.setSt b .gone with ops := s.ops ++ [if isArr then .free (place s b) o else .del (place s b) o] }
      else .ub

/-- Go on if no exception was thrown. -/
def andThen (next : S → Res (Out × S)) : Out × S → Res (Out × S)
  | (.exc, s) => .ok (.exc, s)
  | (.normal, s) => next s

/-- Go on with the handler if an exception was thrown. -/
def orElse (handler : S → Res (Out × S)) : Out × S → Res (Out × S)
  | (.exc, s) => handler s
  | (.normal, s) => .ok (.normal, s)

/-- Run a program. -/
def exec : Cmd → S → Res (Out × S)
  | .done, s => .ok (.normal, s)
  | .throw, s => .ok (.exc, s)
  | .new x sz o ctor rest, s => (create false x 1 sz o (fun _ => exec ctor) s).bind (andThen (exec rest))
  | .del x o dtor rest, s => (giveBack false x o (fun _ => exec dtor) s).bind (exec rest)
  | .newArray x n sz o ctor rest, s => (create true x n sz o (fun i => exec (ctor i)) s).bind (andThen (exec rest))
  | .delArray x o dtor rest, s => (giveBack true x o (fun i => exec (dtor i)) s).bind (exec rest)
  | .copy x y rest, s => exec rest (s.setVar x (s.vars y))
  | .forget x rest, s => exec rest (s.setVar x none)
  | .attempt body handler rest, s => ((exec body s).bind (orElse (exec handler))).bind (andThen (exec rest))

end Lolly.Objects
