import Verif.Containers.HashMap

set_option autoImplicit false

/-!
# The cost of searching in hash maps (Kernel/Containers/hashmap.ipp)

The loop that `contains`, `h[x]`, `h(x)` and `reset` use to find a key, with the number of its rounds and of the
comparisons of keys. What `resize` costs is counted in GrowCost.
-/

namespace Lolly.ProbeCost

open Lolly.HashMap

variable {K V : Type} [DecidableEq K]

/-- What a search has cost. -/
structure Cost where
  /-- entries that were looked at -/
  rounds : Nat
  /-- calls of `==` for keys -/
  compares : Nat
  deriving DecidableEq, Repr

/-- The loop (hashmap.ipp:69-72, 85-88, 100-103, 111-119): `l->item.key == x` is evaluated only if the codes agree. -/
def findC (hv : BitVec 32) (x : K) : List (Entry K V) → Cost × Option V
  | [] => (⟨0, 0⟩, none)
  | e :: l =>
    if e.code = hv then
      if e.key = x then (⟨1, 1⟩, some e.im)
      else let (c, r) := findC hv x l; (⟨c.rounds + 1, c.compares + 1⟩, r)
    else let (c, r) := findC hv x l; (⟨c.rounds + 1, c.compares⟩, r)

variable (hash : K → BitVec 32)

/-- `h[x]` (hashmap.ipp:96-105) and its cost. -/
def getC (h : HashMap K V) (x : K) : Res (Cost × V) := do
  let l ← rd h.a (bidx (hash x) h.n)
  let (c, r) := findC (hash x) x l
  .ok (c, r.getD h.init)

/-- What is done to a map. -/
inductive Op (K V : Type)
  | set (x : K) (v : V)
  | reset (x : K)

/-- One operation: `h(x)= v` (hashmap.ipp:81-94) and `h->reset (x)` (hashmap.ipp:107-120), and the rounds of its search. -/
def step (h : HashMap K V) (o : Op K V) : Res (Nat × HashMap K V) := do
  let x := match o with
    | .set x _ => x
    | .reset x => x
  let (c, _) ← getC hash h x
  let h ← (match o with
    | .set x v => h.set hash x v
    | .reset x => h.reset hash x)
  .ok (c.rounds, h)

/-- A program: the rounds of all searches, and the map. -/
def run : HashMap K V → List (Op K V) → Res (Nat × HashMap K V)
  | h, [] => .ok (0, h)
  | h, o :: os => do
    let (c, h) ← step hash h o
    let (cs, h) ← run h os
    .ok (c + cs, h)

end Lolly.ProbeCost
