import Verif.Containers.HashMap

set_option autoImplicit false

/-!
# Strings and arrays as values of hash maps

Strings and arrays are handles: an assignment makes two handles of one representation, and `s << x` and `s[i]= x` change
the representation, for all its handles (CONCRETE, classdef.hpp:137-176). Here are programs with variables of such a type
and a hash map whose values have this type. A representation is the list of its characters or elements; handles are numbers
of representations. What nobody refers to any more stays in the list (its memory is the subject of C55).
-/

namespace Lolly.Shared

variable {K α : Type} [DecidableEq K]

/-- The representations, the variables and the map. Variables that were not declared yet are `none`. -/
structure State (K α : Type) where
  store : List (List α)
  vars : Nat → Option Nat
  map : HashMap K Nat

/-- The statements. -/
inductive Stmt (K α : Type) where
  | fresh (v : Nat) (s : List α)
  | share (v w : Nat)
  | copy (v w : Nat)
  | append (v : Nat) (x : α)
  | extend (v w : Nat)
  | write (v i : Nat) (x : α)
  | get (v : Nat) (k : K)
  | getCopy (v : Nat) (k : K)
  | put (k : K) (v : Nat)
  | putCopy (k : K) (v : Nat)
  | appendAt (k : K) (x : α)
  | look (k : K)
  | reset (k : K)

/-- The handle in a variable. Variables that do not exist are no programs. -/
def State.handle (st : State K α) (v : Nat) : Res Nat := .ofOption (st.vars v)

/-- The constructors of strings and arrays make a new representation (string.hpp:42-47, array.hpp:101). -/
def State.make (st : State K α) (s : List α) : State K α × Nat :=
  ({ st with store := st.store ++ [s] }, st.store.length)

/-- A variable gets a handle (`operator=`, classdef.hpp:163-168). -/
def State.setVar (st : State K α) (v a : Nat) : State K α :=
  { st with vars := fun w => if w = v then some a else st.vars w }

/-- `s << x` and `s << t` (string.cpp:139-153, array.ipp:132-148): the representation grows. The number of characters that
are appended is read first, so that `s << s` appends what was there
(for strings; arrays run over the end then, see C09). -/
def State.grow (st : State K α) (a : Nat) (x : List α) : Res (State K α) := do
  let s ← rd st.store a
  let t ← wr st.store a (s ++ x)
  .ok { st with store := t }

/-- `s[i]= x` (string.hpp:48, array.hpp:161). -/
def State.poke (st : State K α) (a i : Nat) (x : α) : Res (State K α) := do
  let s ← rd st.store a
  let s ← wr s i x
  let t ← wr st.store a s
  .ok { st with store := t }

variable (hash : K → BitVec 32)

/-- One statement. `h[k]` is `bracket_ro`, `h (k)` is `bracket_rw` (hashmap.ipp:81-105); both give what the map has, that is
the handle and not a copy, and for keys that are not there the handle of the default value. -/
def step (st : State K α) : Stmt K α → Res (State K α)
  | .fresh v s => -- v= "..."
    let p := st.make s
    .ok (p.1.setVar v p.2)
  | .share v w => do -- v= w
    let a ← st.handle w
    .ok (st.setVar v a)
  | .copy v w => do -- v= copy (w) (string.cpp:130-137, array.hpp:176-180)
    let a ← st.handle w
    let s ← rd st.store a
    let p := st.make s
    .ok (p.1.setVar v p.2)
  | .append v x => do -- v << x
    let a ← st.handle v
    st.grow a [x]
  | .extend v w => do -- v << w (string.cpp:146-153, array.ipp:140-148)
    let a ← st.handle v
    let b ← st.handle w
    let t ← rd st.store b
    st.grow a t
  | .write v i x => do -- v[i]= x
    let a ← st.handle v
    st.poke a i x
  | .get v k => do -- v= h[k]
    let a ← st.map.get hash k
    .ok (st.setVar v a)
  | .getCopy v k => do -- v= copy (h[k])
    let a ← st.map.get hash k
    let s ← rd st.store a
    let p := st.make s
    .ok (p.1.setVar v p.2)
  | .put k v => do -- h (k)= v
    let a ← st.handle v
    let m ← st.map.set hash k a
    .ok { st with map := m }
  | .putCopy k v => do -- h (k)= copy (v)
    let a ← st.handle v
    let s ← rd st.store a
    let p := st.make s
    let m ← p.1.map.set hash k p.2
    .ok { p.1 with map := m }
  | .appendAt k x => do -- h (k) << x
    let m ← st.map.touch hash k
    let a ← m.get hash k
    State.grow { st with map := m } a [x]
  | .look k => do -- h (k), read only
    let m ← st.map.touch hash k
    .ok { st with map := m }
  | .reset k => do -- h->reset (k)
    let m ← st.map.reset hash k
    .ok { st with map := m }

def run : State K α → List (Stmt K α) → Res (State K α)
  | st, [] => .ok st
  | st, s :: l => do
    let st ← step hash st s
    run st l

/-- `hashmap<T,U> h (d)`: the default value is a handle like all others. There are no variables yet. -/
def start (d : List α) : State K α := ⟨[d], fun _ => none, HashMap.new 0⟩

/-- What a variable shows. -/
def State.var (st : State K α) (v : Nat) : Res (List α) := do
  let a ← st.handle v
  rd st.store a

/-- What `h[k]` shows. -/
def State.at (st : State K α) (k : K) : Res (List α) := do
  let a ← st.map.get hash k
  rd st.store a

end Lolly.Shared
