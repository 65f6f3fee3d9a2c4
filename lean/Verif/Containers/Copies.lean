import Verif.Basic

set_option autoImplicit false

/-!
# Copies of strings, arrays and trees

Strings, arrays and trees are handles of representations in memory (classdef.hpp:137-176, array.hpp:97-101,
lolly_tree.hpp:140-158). Programs make them, pass the handles on, change them in place, and copy them.

Not modelled: `data` of trees, counts and destruction (C55, C111), elements of arrays that are no handles, and the default
trees that `copy` puts into the new array before it assigns the copies.
-/

namespace Lolly.Copies

/-- A representation: a string, an array of strings, arrays or trees, a tree with a label, a tree with an operator and an
array of children (lolly_tree.hpp:140-151). -/
inductive Cell (α : Type) where
  | str (s : List α)
  | arr (k : List Nat)
  | atom (l : Nat)
  | comp (op : Int) (a : Nat)
  deriving DecidableEq

/-- Memory. -/
abbrev Mem (α : Type) := List (Cell α)

variable {α : Type}

/-- The characters of a string. -/
def text (m : Mem α) (a : Nat) : Res (List α) := do
  match ← rd m a with
  | .str s => .ok s
  | _ => .ub

/-- The handles in an array. -/
def items (m : Mem α) (a : Nat) : Res (List Nat) := do
  match ← rd m a with
  | .arr k => .ok k
  | _ => .ub

/-- The loop of `copy` for the children (lolly_tree.hpp:394-395). -/
def copyAll (f : Mem α → Nat → Res (Mem α × Nat)) : Mem α → List Nat → Res (Mem α × List Nat)
  | m, [] => .ok (m, [])
  | m, k :: ks => do
    let (m, b) ← f m k
    let (m, bs) ← copyAll f m ks
    .ok (m, b :: bs)

/-- `copy` of trees (lolly_tree.hpp:387-398), if `f` calls of it fit on the stack. -/
def copyTree : Nat → Mem α → Nat → Res (Mem α × Nat)
  | 0, _, _ => .hang
  | f + 1, m, a => do
    match ← rd m a with
    | .atom l => do
      let s ← text m l
      .ok (m ++ [.str s, .atom m.length], m.length + 1)
    | .comp op k => do
      let ks ← items m k
      let (m, bs) ← copyAll (copyTree f) m ks
      .ok (m ++ [.arr bs, .comp op m.length], m.length + 1)
    | _ => .ub

/-- `copy` of strings (string.cpp:130-137), of arrays (array.hpp:176-180, array.ipp:57-62) and of trees. -/
def copyOf (f : Nat) (m : Mem α) (a : Nat) : Res (Mem α × Nat) := do
  match ← rd m a with
  | .str s => .ok (m ++ [.str s], m.length)
  | .arr k => .ok (m ++ [.arr k], m.length)
  | _ => copyTree f m a

structure State (α : Type) where
  mem : Mem α
  vars : Nat → Option Nat

inductive Stmt (α : Type) where
  | text (v : Nat) (s : List α)
  | atom (v w : Nat)
  | list (v : Nat) (ws : List Nat)
  | comp (v : Nat) (op : Int) (w : Nat)
  | share (v w : Nat)
  | label (v w : Nat)
  | kids (v w : Nat)
  | elem (v w i : Nat)
  | copy (v w : Nat)
  | append (v : Nat) (x : α)
  | push (v w : Nat)
  | put (v i w : Nat)

def State.handle (st : State α) (v : Nat) : Res Nat := .ofOption (st.vars v)

def State.handles (st : State α) : List Nat → Res (List Nat)
  | [] => .ok []
  | v :: vs => do
    let a ← st.handle v
    let as ← st.handles vs
    .ok (a :: as)

/-- A variable gets the handle `a`; the memory is `m` then. -/
def State.bind (st : State α) (m : Mem α) (v a : Nat) : State α :=
  { mem := m, vars := fun w => if w = v then some a else st.vars w }

/-- A variable gets the handle of a new representation. -/
def State.make (st : State α) (v : Nat) (c : Cell α) : State α := st.bind (st.mem ++ [c]) v st.mem.length

/-- The statements, with at most `f` calls on the stack. The compiler excludes those that are `ub` because of types. -/
def step (f : Nat) (st : State α) : Stmt α → Res (State α)
  | .text v s => .ok (st.make v (.str s)) -- string v= "..."
  | .atom v w => do -- lolly_tree v (w) for a string (lolly_tree.hpp:31, 149)
    let a ← st.handle w
    let _ ← Copies.text st.mem a
    .ok (st.make v (.atom a))
  | .list v ws => do -- array v; v << ...
    let k ← st.handles ws
    .ok (st.make v (.arr k))
  | .comp v op w => do -- lolly_tree v (op, w) for an array (lolly_tree.hpp:39-40, 150)
    let a ← st.handle w
    let _ ← items st.mem a
    .ok (st.make v (.comp op a))
  | .share v w => do -- v= w
    let a ← st.handle w
    .ok (st.bind st.mem v a)
  | .label v w => do -- string v= w->label
    let a ← st.handle w
    match ← rd st.mem a with
    | .atom l => .ok (st.bind st.mem v l)
    | _ => .ub
  | .kids v w => do -- array v= A (w) (lolly_tree.hpp:177-182)
    let a ← st.handle w
    match ← rd st.mem a with
    | .comp _ k => .ok (st.bind st.mem v k)
    | _ => .ub
  | .elem v w i => do -- v= w[i] (array.hpp:161)
    let a ← st.handle w
    let k ← items st.mem a
    let b ← rd k i
    .ok (st.bind st.mem v b)
  | .copy v w => do -- v= copy (w)
    let a ← st.handle w
    let (m, b) ← copyOf f st.mem a
    .ok (st.bind m v b)
  | .append v x => do -- v << x for strings (string.cpp:139-144)
    let a ← st.handle v
    let s ← Copies.text st.mem a
    let m ← wr st.mem a (.str (s ++ [x]))
    .ok { st with mem := m }
  | .push v w => do -- v << w for arrays (array.ipp:132-138)
    let a ← st.handle v
    let b ← st.handle w
    let k ← items st.mem a
    let m ← wr st.mem a (.arr (k ++ [b]))
    .ok { st with mem := m }
  | .put v i w => do -- v[i]= w for arrays (array.hpp:161)
    let a ← st.handle v
    let b ← st.handle w
    let k ← items st.mem a
    let k ← wr k i b
    let m ← wr st.mem a (.arr k)
    .ok { st with mem := m }

def run (f : Nat) : State α → List (Stmt α) → Res (State α)
  | st, [] => .ok st
  | st, s :: l => do
    let st ← step f st s
    run f st l

/-- The start: nothing. -/
def start : State α := ⟨[], fun _ => none⟩

end Lolly.Copies
