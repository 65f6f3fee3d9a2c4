import Verif.Basic

set_option autoImplicit false

/-!
# Objects that are called through handles

Model of `promise<T>` (Kernel/Containers/promise.hpp) and `unary_function<T,S>` (Kernel/Containers/unary_function.hpp) with
the handles that `ABSTRACT_NULL_TEMPLATE_CODE` and `ABSTRACT_NULL_TEMPLATE_2_CODE` define
(Kernel/Abstractions/classdef.hpp:395-410, 435-454, 493-497, 521-526). The methods `eval` and the destructors of the
classes derived from `promise_rep` and `unary_function_rep` are given by the user; here they are lists of instructions
that work on the same variables as the program which calls them. `Kernel/Refcount.lean` has objects that own handles but
no code.

Simplifications: values and arguments are left out, what a method does is seen in the texts it writes; objects have no
handles as fields; the count is unbounded; an address that is used again is a new number. `operator=` takes its argument
by value: the count of the object goes up twice and down once; here it goes up once.
-/

namespace Lolly.Callable

/-- What programs, methods and destructors do. The variables `x`, `y` hold handles; `k` is a class. -/
inductive Instr
  /-- `x= promise<T> (p)` for a pointer `p`: a new object of class `k`, or NULL -/
  | wrap (x : Nat) (p : Option Nat)
  /-- `x.rep= tm_new<k> ()` as in tests/Kernel/Containers/promise_test.cpp:30-33 -/
  | plant (x : Nat) (k : Nat)
  /-- `x= y` -/
  | copy (x y : Nat)
  /-- `x= promise<T> ()` -/
  | clear (x : Nat)
  /-- `x ()` -/
  | call (x : Nat)
  /-- `f (x)` for a function `f (promise<T> c)` that does `c ()` -/
  | hold (x : Nat)
  /-- write a field of the object whose method it is -/
  | emit (n : Nat)
  deriving DecidableEq

/-- The classes: their `eval` and their destructor. -/
structure Classes where
  eval : Nat → List Instr
  dtor : Nat → List Instr

/-- In use, while the destructor runs, and afterwards. -/
inductive Life
  | alive | dying | dead
  deriving DecidableEq

structure Obj where
  kind : Nat
  count : Int
  life : Life
  deriving DecidableEq

/-- The variables, the objects, and what was written by whom (the program itself is `none`). -/
structure State where
  vars : List (Option Nat)
  heap : List Obj
  out : List (Option Nat × Nat)
  deriving DecidableEq

/-- How a list of instructions of an object is carried out. -/
abbrev Exec := Option Nat → List Instr → State → Res State

/-- `INC_COUNT_NULL (R)` (classdef.hpp:98-101). -/
def inc (st : State) : Option Nat → Res State
  | none => .ok st
  | some o => do
    let b ← rd st.heap o
    if b.life = .dead then .ub else .ok { st with heap := st.heap.set o { b with count := b.count + 1 } }

/-- `DEC_COUNT_NULL (R)` (classdef.hpp:112-118), where `tm_delete` runs the destructor and frees the memory; to delete an
object whose destructor runs is undefined. `R= NULL` is left out: `operator=` writes another value and the handle does
not live any longer otherwise. -/
def dec (cl : Classes) (ex : Exec) (st : State) : Option Nat → Res State
  | none => .ok st
  | some o => do
    let b ← rd st.heap o
    if b.life = .dead then .ub
    else if b.count - 1 = 0 then
      if b.life = .dying then .ub
      else do
        let st ← ex (some o) (cl.dtor b.kind) { st with heap := st.heap.set o { b with count := 0, life := .dying } }
        let b ← rd st.heap o
        .ok { st with heap := st.heap.set o { b with life := .dead } }
    else .ok { st with heap := st.heap.set o { b with count := b.count - 1 } }

/-- `operator=` (classdef.hpp:404-409) for the variable `x`, after the count of `r` went up. -/
def assign (cl : Classes) (ex : Exec) (st : State) (x : Nat) (r : Option Nat) : Res State := do
  let old ← rd st.vars x
  let st ← dec cl ex st old
  let vars ← wr st.vars x r
  .ok { st with vars }

/-- `rep->eval ()` (promise.hpp:44-47, unary_function.hpp:37-40): a virtual call. -/
def enter (cl : Classes) (ex : Exec) (st : State) : Option Nat → Res State
  | none => .ub
  | some o => do
    let b ← rd st.heap o
    if b.life = .alive then ex (some o) (cl.eval b.kind) st else .ub

/-- One instruction. `INC_COUNT` in the constructor from a pointer (classdef.hpp:493-497) is undefined for NULL; a new
object has the count 0 (classdef.hpp:49-56). -/
def step (cl : Classes) (ex : Exec) (this : Option Nat) (st : State) : Instr → Res State
  | .wrap _ none => .ub
  | .wrap x (some k) =>
    assign cl ex { st with heap := st.heap ++ [⟨k, 1, .alive⟩] } x (some st.heap.length)
  | .plant x k => do
    let vars ← wr st.vars x (some st.heap.length)
    .ok { st with vars, heap := st.heap ++ [⟨k, 0, .alive⟩] }
  | .copy x y => do
    let r ← rd st.vars y
    let st ← inc st r
    assign cl ex st x r
  | .clear x => assign cl ex st x none
  | .call x => do
    let r ← rd st.vars x
    enter cl ex st r
  | .hold x => do
    let r ← rd st.vars x
    let st ← inc st r
    let st ← enter cl ex st r
    dec cl ex st r
  | .emit n =>
    match this with
    | none => .ok { st with out := st.out ++ [(none, n)] }
    | some o => do
      let b ← rd st.heap o
      if b.life = .dead then .ub else .ok { st with out := st.out ++ [(some o, n)] }

/-- A list of instructions that belongs to the object `this`. -/
def exec (cl : Classes) : Nat → Exec
  | _, _, [], st => .ok st
  | 0, _, _ :: _, _ => .hang
  | fuel + 1, this, i :: is, st => do
    let st ← step cl (exec cl fuel) this st i
    exec cl fuel this is st

/-- `n` variables that hold no objects. -/
def start (n : Nat) : State := ⟨List.replicate n none, [], []⟩

/-- A program with `n` variables. -/
def run (cl : Classes) (fuel : Nat) (n : Nat) (is : List Instr) : Res State := exec cl fuel none is (start n)

end Lolly.Callable
