import Verif.Basic

/-!
# Model of `c_string` (Kernel/Types/string.hpp:103-131)

A `c_string` is a handle of a representation with a count of references, which owns one buffer; `char*` pointers made
from it are used without further checks. A representation and its buffer are never used again for something else here:
an access to a destroyed representation or a freed buffer is undefined. A buffer is freed by the destructor of its
representation and by nothing else, so that it has the number of the representation.
-/

set_option autoImplicit false

namespace Lolly.CStr

/-- `c_string_rep` (string.hpp:104-119) with the count of `concrete_struct`; `value` is `none` for NULL. -/
structure Rep where
  count : Nat
  value : Option Bytes
  deriving DecidableEq

/-- The representations (`none` if destroyed), the handles (`none` if destroyed) and the `char*` pointers (`none` for
NULL) that a program has made. -/
structure State where
  reps : List (Option Rep)
  vars : List (Option Nat)
  ptrs : List (Option Nat)
  deriving DecidableEq

/-- What a program does. Handles and pointers are numbered in the order in which they are made. -/
inductive Op where
  | null
  | room (len : Nat)
  | make (s : Bytes)
  | copy (v : Nat)
  | assign (v w : Nat)
  | drop (v : Nat)
  | ptr (v : Nat)
  | put (p i : Nat) (x : UInt8)
  deriving DecidableEq

def init : State := ⟨[], [], []⟩

/-- The representation of a handle. -/
def handle (st : State) (v : Nat) : Res Nat :=
  match st.vars[v]? with
  | some (some r) => .ok r
  | _ => .ub

/-- Access to a representation. -/
def getRep (st : State) (r : Nat) : Res Rep :=
  match st.reps[r]? with
  | some (some c) => .ok c
  | _ => .ub

/-- `INC_COUNT` (classdef.hpp:74-75). -/
def inc (st : State) (r : Nat) : Res State := do
  let c ← getRep st r
  .ok { st with reps := st.reps.set r (some { c with count := c.count + 1 }) }

/-- `DEC_COUNT` (classdef.hpp:84-89): the representation is deleted with the last reference, and its destructor (string.hpp:115-117) frees the
buffer. -/
def dec (st : State) (r : Nat) : Res State := do
  let c ← getRep st r
  if c.count - 1 = 0 then .ok { st with reps := st.reps.set r none }
  else .ok { st with reps := st.reps.set r (some { c with count := c.count - 1 }) }

/-- The constructors: a new representation with count 1. -/
def new (st : State) (value : Option Bytes) : State :=
  { st with reps := st.reps ++ [some ⟨1, value⟩], vars := st.vars ++ [some st.reps.length] }

/-- `as_charp` (string.cpp:255-263); see also `Str.asCharp`. -/
def asCharp (s : Bytes) : Bytes := s ++ [0]

/-- `c_string (const c_string&)` (classdef.hpp:160). -/
def copy (st : State) (v : Nat) : Res State := do
  let r ← handle st v
  let st ← inc st r
  .ok { st with vars := st.vars ++ [some r] }

/-- `operator= (c_string x)` (classdef.hpp:163-168): `x` is made as a copy before, and destroyed afterwards. -/
def assign (st : State) (v w : Nat) : Res State := do
  let x ← handle st w
  let st ← inc st x
  let st ← inc st x
  let r ← handle st v
  let st ← dec st r
  let st := { st with vars := st.vars.set v (some x) }
  dec st x

/-- `~c_string ()` (classdef.hpp:161). -/
def drop (st : State) (v : Nat) : Res State := do
  let r ← handle st v
  let st ← dec st r
  .ok { st with vars := st.vars.set v none }

/-- `operator char* ()` (string.hpp:129). -/
def ptr (st : State) (v : Nat) : Res State := do
  let r ← handle st v
  let c ← getRep st r
  .ok { st with ptrs := st.ptrs ++ [c.value.map fun _ => r] }

/-- Access to the buffer of a pointer. -/
def buffer (st : State) (p : Nat) : Res (Nat × Rep × Bytes) := do
  match ← rd st.ptrs p with
  | none => .ub
  | some r => do
    let c ← getRep st r
    match c.value with
    | none => .ub
    | some b => .ok (r, c, b)

/-- `p[i]= x` for a pointer `p`. -/
def put (st : State) (p i : Nat) (x : UInt8) : Res State := do
  let (r, c, b) ← buffer st p
  let b ← wr b i x
  .ok { st with reps := st.reps.set r (some { c with value := some b }) }

/-- `p[i]`. -/
def load (st : State) (p i : Nat) : Res UInt8 := do
  let (_, _, b) ← buffer st p
  rd b i

/-- What the functions of C read at `p`: the characters before the first NUL. -/
def text (st : State) (p : Nat) : Nat → Nat → Res Bytes
  | 0, _ => .hang
  | fuel + 1, i => do
    let x ← load st p i
    if x = 0 then .ok []
    else do
      let l ← text st p fuel (i + 1)
      .ok (x :: l)

/-- One step; `new char[len]` by `tm_new_array` gives zeros (fast_alloc.hpp:413-414). -/
def step (st : State) : Op → Res State
  | .null => .ok (new st none)
  | .room len => .ok (new st (some (List.replicate len 0)))
  | .make s => .ok (new st (some (asCharp s)))
  | .copy v => copy st v
  | .assign v w => assign st v w
  | .drop v => drop st v
  | .ptr v => ptr st v
  | .put p i x => put st p i x

def run (st : State) : List Op → Res State
  | [] => .ok st
  | o :: os => do
    let st ← step st o
    run st os

end Lolly.CStr
