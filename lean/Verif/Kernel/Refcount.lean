import Verif.Basic

set_option autoImplicit false

/-!
# Reference counting

Kernel/Abstractions/classdef.hpp. An object has a reference count and fields that are handles; a handle is `NULL` or
points to an object. The macros `CONCRETE_CODE`, `CONCRETE_TEMPLATE_CODE`, `CONCRETE_TEMPLATE_2_CODE` (lines 159-168,
215-228, 278-296), the `ABSTRACT` ones and the `NULL` ones (lines 364-375, 395-410, 435-454 and the following ones) have the same
code up to the test for `NULL`; they are modelled together, programs without `NULL` are those of the first ones.

Objects are numbered in the order of their creation; an address that is used again after an object was destroyed is a
new number. An access to a destroyed object is undefined behaviour. The statement `R = NULL` in `DEC_COUNT_NULL` is
left out: what it writes is overwritten or not read any more. The count is an `int` in the code and unbounded here.
-/

namespace Lolly.Refcount

/-- An object: in use, while its destructor runs, and afterwards. -/
inductive Life
  | alive | dying | dead
  deriving DecidableEq

/-- Whose destructor runs: one that destroys all fields, or that of a node of a `lolly_tree` with children
(lolly/data/lolly_tree.hpp:140-159) and this operator. -/
inductive Kind
  | plain | tree (op : Int)
  deriving DecidableEq

structure Obj where
  count : Int
  fields : List (Option Nat)
  life : Life
  kind : Kind := .plain

abbrev Heap := List Obj

/-- The objects and the handles in variables (and temporary values) of the program. -/
structure State where
  vars : List (Option Nat)
  heap : Heap

/-- `INC_COUNT_NULL (R)` (classdef.hpp:98-101). -/
def inc (h : Heap) : Option Nat → Res Heap
  | none => .ok h
  | some o =>
    match h[o]? with
    | some x => if x.life = .dead then .ub else .ok (h.set o { x with count := x.count + 1 })
    | none => .ub

/-- What remains to be done: destroy a handle, or free the memory of an object after its destructor has run. -/
inductive Task
  | release (r : Option Nat)
  | free (o : Nat)
  deriving DecidableEq

/-- The fields that the destructor destroys. `~lolly_tree_rep` (lolly/data/lolly_tree.hpp:152-159) destroys the array with
the children if the operator is positive, and nothing if it is negative; if it is 0, it takes the array for the string of
a leaf. A leaf is a plain object. -/
def destroyed (x : Obj) : Res (List (Option Nat)) :=
  match x.kind with
  | .plain => .ok x.fields
  | .tree op => if op = 0 then .ub else if op > 0 then .ok x.fields else .ok []

/-- One step of `DEC_COUNT_NULL (R)` (classdef.hpp:112-118) and `tm_delete` (System/Memory/fast_alloc.hpp:356-361): the
destructor of an object destroys its fields in reverse order, then the memory is freed. -/
def relStep (h : Heap) (t : Task) (todo : List Task) : Res (Heap × List Task) :=
  match t with
  | .release none => .ok (h, todo)
  | .release (some o) =>
    match h[o]? with
    | some x =>
      if x.life = .dead then .ub
      else if x.count - 1 = 0 then do
        let l ← destroyed x
        .ok (h.set o { x with count := 0, life := .dying }, l.reverse.map .release ++ .free o :: todo)
      else .ok (h.set o { x with count := x.count - 1 }, todo)
    | none => .ub
  | .free o =>
    match h[o]? with
    | some x => if x.life = .dead then .ub else .ok (h.set o { x with life := .dead }, todo)
    | none => .ub

/-- The recursion of destructors; it is written with a list of tasks. -/
def relLoop : Nat → Heap → List Task → Res Heap
  | _, h, [] => .ok h
  | 0, _, _ :: _ => .hang
  | f + 1, h, t :: todo => do
    let (h, todo) ← relStep h t todo
    relLoop f h todo

/-- Enough steps: every object is destroyed at most once. -/
def fuel (h : Heap) : Nat := 1 + (h.map fun x => x.fields.length + 2).sum

/-- Destroy a handle. -/
def release (h : Heap) (r : Option Nat) : Res Heap := relLoop (fuel h) h [.release r]

/-- Where a handle is. -/
inductive Loc
  | var (i : Nat)
  | field (o f : Nat)

def readLoc (s : State) : Loc → Res (Option Nat)
  | .var i =>
    match s.vars[i]? with
    | some r => .ok r
    | none => .ub
  | .field o f =>
    match s.heap[o]? with
    | some x =>
      if x.life = .dead then .ub
      else
        match x.fields[f]? with
        | some r => .ok r
        | none => .ub
    | none => .ub

def writeLoc (s : State) (r : Option Nat) : Loc → Res State
  | .var i => if i < s.vars.length then .ok { s with vars := s.vars.set i r } else .ub
  | .field o f =>
    match s.heap[o]? with
    | some x =>
      if x.life = .dead then .ub
      else if f < x.fields.length then .ok { s with heap := s.heap.set o { x with fields := x.fields.set f r } } else .ub
    | none => .ub

/-- An expression for a handle: a variable and the fields to follow (`v->f1->f2`). -/
structure Place where
  root : Nat
  path : List Nat

/-- Follow the fields; `operator->` on `NULL` is undefined behaviour. -/
def follow (s : State) : Loc → List Nat → Res Loc
  | l, [] => .ok l
  | l, f :: p => do
    let r ← readLoc s l
    match r with
    | none => .ub
    | some o => follow s (.field o f) p

def locate (s : State) (p : Place) : Res Loc := follow s (.var p.root) p.path

/-- The handle an expression denotes. -/
def evalPlace (s : State) (p : Place) : Res (Option Nat) := do
  let l ← locate s p
  readLoc s l

/-- What a program can do with handles. -/
inductive Op
  /-- `PTR x;` -/
  | null
  /-- `PTR x (tm_new<PTR_rep> (...))`; the fields are copies of handles, or `NULL` -/
  | new (fields : List (Option Place)) (kind : Kind := .plain)
  /-- `PTR x (src);` -/
  | copy (src : Place)
  /-- `dst = src;` -/
  | assign (dst src : Place)
  /-- the end of the life of a variable -/
  | drop (i : Nat)

/-- The copies of the handles for the fields of a new object. -/
def copyFields (vars : List (Option Nat)) : Heap → List (Option Place) → Res (Heap × List (Option Nat))
  | h, [] => .ok (h, [])
  | h, none :: l => do
    let (h, rs) ← copyFields vars h l
    .ok (h, none :: rs)
  | h, some p :: l => do
    let r ← evalPlace ⟨vars, h⟩ p
    let h ← inc h r
    let (h, rs) ← copyFields vars h l
    .ok (h, r :: rs)

/-- One operation. `concrete_struct` starts with the count 1 and its handle takes it over; `abstract_struct` starts
with 0 and the constructor from a pointer adds 1 (classdef.hpp:31, 56, 317). The assignment (lines 163-168, 369-374)
takes its argument by value: it is a copy, which is destroyed at the end. -/
def step (s : State) : Op → Res State
  | .null => .ok { s with vars := s.vars ++ [none] }
  | .new fields k => do
    let (h, rs) ← copyFields s.vars s.heap fields
    .ok ⟨s.vars ++ [some h.length], h ++ [⟨1, rs, .alive, k⟩]⟩
  | .copy src => do
    let r ← evalPlace s src
    let h ← inc s.heap r
    .ok ⟨s.vars ++ [r], h⟩
  | .assign dst src => do
    let x ← evalPlace s src
    let h ← inc s.heap x
    let l ← locate ⟨s.vars, h⟩ dst
    let h ← inc h x
    let old ← readLoc ⟨s.vars, h⟩ l
    let h ← release h old
    let s ← writeLoc ⟨s.vars, h⟩ x l
    let h ← release s.heap x
    .ok { s with heap := h }
  | .drop i =>
    match s.vars[i]? with
    | some r => do
      let h ← release s.heap r
      .ok ⟨s.vars.eraseIdx i, h⟩
    | none => .ub

def run (s : State) : List Op → Res State
  | [] => .ok s
  | op :: l => do
    let s ← step s op
    run s l

end Lolly.Refcount
