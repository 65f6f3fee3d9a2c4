import Verif.Containers.HashMap

/-!
# References to the values of hash maps

`h(x)` gives a reference (`U&`) to the value in the node of `x` (`bracket_rw`, Kernel/Containers/hashmap.ipp:81-94). Here
nodes have identities: the value of an entry is a pair of the identity of its node and the value proper. The functions
are those of `Verif.Containers.HashMap`. A call of `resize` (hashmap.ipp:47-63) makes new nodes for all entries and
destroys the old ones, so that all identities change; the identity of a node is never used again (its address may be,
by the allocator).

Simplification: nothing else holds the nodes of the map (an iterator would keep the nodes at which it stands alive).
-/

set_option autoImplicit false

namespace Lolly.MapRefs

variable {K V : Type}

/-- A map with identities of nodes; identities from `next` on are not used yet. `dflt` is the default value. -/
structure St (K V : Type) where
  map : HashMap K (Nat × V)
  next : Nat
  dflt : V

/-- `hashmap<T,U> (init, n, max)` (hashmap.hpp:195-196). -/
def new (d : V) (n : Nat) (max : Int) : St K V := ⟨HashMap.new (0, d) n max, 0, d⟩

/-- New nodes for all entries. -/
def renew (s : St K V) : St K V :=
  { s with
    map := { s.map with a := s.map.a.map (·.map fun e => { e with im := (e.im.1 + s.next, e.im.2) }) }
    next := s.next + s.next }

/-- The state after a call which gave the table `h`: all nodes are new if the table was reorganised. The calls of
`resize` in `bracket_rw` and `reset` are with `n << 1` and `n >> 1` buckets (hashmap.ipp:89, 115), which differ from `n`. -/
def after (s : St K V) (h : HashMap K (Nat × V)) (next : Nat) : St K V :=
  if h.n = s.map.n then { s with map := h, next := next } else renew { s with map := h, next := next }

variable [DecidableEq K] (hash : K → BitVec 32)

/-- `h[x]` (hashmap.ipp:96-105). -/
def get (s : St K V) (x : K) : Res V := do
  let p ← { s.map with init := (0, s.dflt) }.get hash x
  .ok p.2

/-- `U& r= h(x)` (hashmap.ipp:81-94): the node of `r`. A new node has the identity `next`. -/
def ref (s : St K V) (x : K) : Res (Nat × St K V) := do
  let h ← { s.map with init := (s.next, s.dflt) }.touch hash x
  let s := after s h (s.next + 1)
  let p ← s.map.get hash x
  .ok (p.1, s)

/-- `h->reset (x)` (hashmap.ipp:107-120). -/
def reset (s : St K V) (x : K) : Res (St K V) := do
  let h ← s.map.reset hash x
  .ok (after s h s.next)

/-- `h->resize (n)` (hashmap.ipp:47-63). -/
def resize (s : St K V) (n : Nat) : Res (St K V) := do
  let h ← s.map.resize hash n
  .ok (renew { s with map := h })

omit [DecidableEq K] in
/-- Reading through a reference: undefined if its node is destroyed. -/
def load (s : St K V) (r : Nat) : Res V :=
  match s.map.a.flatten.find? (fun e => e.im.1 = r) with
  | some e => .ok e.im.2
  | none => .ub

omit [DecidableEq K] in
/-- Writing through a reference: undefined if its node is destroyed. -/
def store (s : St K V) (r : Nat) (v : V) : Res (St K V) :=
  match s.map.a.flatten.find? (fun e => e.im.1 = r) with
  | some _ => .ok { s with map := { s.map with
      a := s.map.a.map (·.map fun e => { e with im := if e.im.1 = r then (r, v) else e.im }) } }
  | none => .ub

/-- `h(x)= v`. -/
def set (s : St K V) (x : K) (v : V) : Res (St K V) := do
  let (r, s) ← ref hash s x
  store s r v

/-- What a program does to a map. -/
inductive Op (K V : Type)
  | ref (x : K)
  | set (x : K) (v : V)
  | reset (x : K)
  | resize (n : Nat)

def step (s : St K V) : Op K V → Res (St K V)
  | .ref x => do .ok (← ref hash s x).2
  | .set x v => set hash s x v
  | .reset x => reset hash s x
  | .resize n => resize hash s n

def run (s : St K V) : List (Op K V) → Res (St K V)
  | [] => .ok s
  | o :: os => do run (← step hash s o) os

end Lolly.MapRefs
