import Verif.Kernel.Refcount

set_option autoImplicit false

/-!
# Handles without reference counts

The same programs in a world in which no object is ever destroyed: an object is the list of its fields. `none` is a
mistake of the program: a variable or a field that does not exist, `NULL` is followed, or a node of a tree with children
gets the operator of leaves.
-/

namespace Lolly.Refcount

structure SState where
  vars : List (Option Nat)
  objs : List (List (Option Nat))

def sread (s : SState) : Loc → Option (Option Nat)
  | .var i => s.vars[i]?
  | .field o f => s.objs[o]?.bind fun l => l[f]?

def sfollow (s : SState) : Loc → List Nat → Option Loc
  | l, [] => some l
  | l, f :: p =>
    match sread s l with
    | some (some o) => sfollow s (.field o f) p
    | _ => none

def splace (s : SState) (p : Place) : Option (Option Nat) :=
  (sfollow s (.var p.root) p.path).bind (sread s)

def sfields (s : SState) : List (Option Place) → Option (List (Option Nat))
  | [] => some []
  | none :: l => (sfields s l).map (none :: ·)
  | some p :: l => (splace s p).bind fun r => (sfields s l).map (r :: ·)

/-- Write the handle to the place, which has to exist. -/
def swrite (s : SState) (r : Option Nat) : Loc → Option SState
  | .var i => if i < s.vars.length then some { s with vars := s.vars.set i r } else none
  | .field o f => s.objs[o]?.bind fun l =>
    if f < l.length then some { s with objs := s.objs.set o (l.set f r) } else none

def sstep (s : SState) : Op → Option SState
  | .null => some { s with vars := s.vars ++ [none] }
  | .new fields k =>
    if k = .tree 0 then none
    else (sfields s fields).map fun rs => ⟨s.vars ++ [some s.objs.length], s.objs ++ [rs]⟩
  | .copy src => (splace s src).map fun r => { s with vars := s.vars ++ [r] }
  | .assign dst src => (splace s src).bind fun r => (sfollow s (.var dst.root) dst.path).bind fun l => swrite s r l
  | .drop i => if i < s.vars.length then some { s with vars := s.vars.eraseIdx i } else none

def srun (s : SState) : List Op → Option SState
  | [] => some s
  | op :: l => (sstep s op).bind fun s => srun s l

/-- The object exists and is not destroyed. -/
def Live (s : State) (o : Nat) (x : Obj) : Prop := s.heap[o]? = some x ∧ x.life = .alive

/-- How many handles point to `o`: in variables, and in objects that are not destroyed. -/
def handles (s : State) (o : Nat) : Nat :=
  s.vars.count (some o) + ((s.heap.filter fun x => decide (x.life = .alive)).map fun x => x.fields.count (some o)).sum

/-- All objects have destructors that destroy their fields: none is a node of a tree with a negative operator. -/
def NoGeneric (ops : List Op) : Prop := ∀ (fields : List (Option Place)) (op : Int), Op.new fields (.tree op) ∈ ops → 0 ≤ op

/-- The objects that the program can get at. -/
inductive Reachable (s : State) : Nat → Prop
  | var {o : Nat} : some o ∈ s.vars → Reachable s o
  | field {o p : Nat} {x : Obj} : Reachable s o → s.heap[o]? = some x → some p ∈ x.fields → Reachable s p

/-- What a destroyed node of a tree with a negative operator still points to, and what can be reached from there. -/
inductive Kept (s : State) : Nat → Prop
  | lost {o p : Nat} {x : Obj} {op : Int} : s.heap[o]? = some x → x.life = .dead → x.kind = .tree op → op < 0 →
      some p ∈ x.fields → Kept s p
  | field {o p : Nat} {x : Obj} : Kept s o → s.heap[o]? = some x → some p ∈ x.fields → Kept s p

/-- The live objects do not form a cycle: handles go from higher to lower ranks. -/
def Acyclic (s : State) : Prop :=
  ∃ rank : Nat → Nat, ∀ (o p : Nat) (x : Obj), Live s o x → some p ∈ x.fields → rank p < rank o

end Lolly.Refcount
