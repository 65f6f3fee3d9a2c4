import Verif.Containers.HashMap

/-!
# Functions of hash maps that go through a map which changes meanwhile

`join`, `pre_patch` and `post_patch` go through the map that is their argument while they change the map that they are
called for; nothing forbids that both are the same map (`h->post_patch (h, base)`). `generate` calls a routine of the
caller for each key, which may change the map. Here the loops are modelled on the one map as it is at each moment. The
loops of `join` and of the patches keep the number of buckets from before the loop in a local variable `n`, which hides
the member (hashmap.ipp:151, hashmap_extra.ipp:45, 59); the loop of `generate` reads the member (hashmap.ipp:125).

Simplification: the rest of the bucket in which a loop stands is a value here and a chain of shared nodes in the code.
This makes no difference for actions that change only the entry of the key just seen: its node is not part of the rest
(hashmap.ipp:113 unlinks the node of that key only, a change of `item.im` in place does not touch other nodes and
`resize` makes new nodes, hashmap.ipp:57-60).
-/

set_option autoImplicit false

namespace Lolly.HashMap

variable {K V : Type} [DecidableEq K]

/-- The inner loops `for (; !is_nil (l); l= l->next)` (hashmap.ipp:126-130, 153-155, hashmap_extra.ipp:47-53, 61-67):
the action is done for each entry of the bucket. -/
def overBucket (act : HashMap K V → Entry K V → Res (HashMap K V)) : List (Entry K V) → HashMap K V → Res (HashMap K V)
  | [], h => .ok h
  | e :: l, h => do
    let h ← act h e
    overBucket act l h

/-- The loops `for (; i < n; i++)` with the cached number of buckets: `k` buckets from `i` on are still to come. The
bucket is read from the map as it is now (hashmap.ipp:151-153, hashmap_extra.ipp:45-47, 59-61). -/
def overCached (act : HashMap K V → Entry K V → Res (HashMap K V)) : Nat → Nat → HashMap K V → Res (HashMap K V)
  | 0, _, h => .ok h
  | k + 1, i, h => do
    let l ← rd h.a i
    let h ← overBucket act l h
    overCached act k (i + 1) h

/-- `hashmap_rep::generate` (hashmap.ipp:122-132) with a routine that may change the map: the map at the end and the
keys with which the routine was called. `i < n` reads the member `n` each time. -/
def generateWith (act : HashMap K V → K → Res (HashMap K V)) : Nat → Nat → HashMap K V → Res (HashMap K V × List K)
  | 0, _, _ => .hang
  | fuel + 1, i, h =>
    if i < h.n then do
      let l ← rd h.a i
      let h ← overBucket (fun h e => act h e.key) l h
      let (h, ks) ← generateWith act fuel (i + 1) h
      .ok (h, l.map (·.key) ++ ks)
    else .ok (h, [])

variable (hash : K → BitVec 32)

/-- `h->join (h)` (hashmap.ipp:149-157). -/
def selfJoin (h : HashMap K V) : Res (HashMap K V) :=
  overCached (fun h e => h.set hash e.key e.im) h.n 0 h

variable [DecidableEq V]

/-- `h->post_patch (h, base)` (hashmap_extra.ipp:57-69), where `base` is another map, or `h` itself (`none`). -/
def selfPost (h : HashMap K V) (base : Option (HashMap K V)) : Res (HashMap K V) :=
  overCached (fun h e => h.patch1 hash (base.getD h) e.key e.im) h.n 0 h

/-- `h->pre_patch (h, base)` (hashmap_extra.ipp:43-55), where `base` is another map, or `h` itself (`none`). -/
def selfPre (h : HashMap K V) (base : Option (HashMap K V)) : Res (HashMap K V) :=
  overCached (fun h e => do
    let c ← h.contains hash e.key
    let y ← if c then h.get hash e.key else .ok e.im
    h.patch1 hash (base.getD h) e.key y) h.n 0 h

/-- `h->post_patch (p, h)` (hashmap_extra.ipp:57-69) for another map `p`. -/
def postOwnBase (h p : HashMap K V) : Res (HashMap K V) :=
  overBucket (fun h e => h.patch1 hash h e.key e.im) p.a.flatten h

/-- `h->pre_patch (p, h)` (hashmap_extra.ipp:43-55) for another map `p`. -/
def preOwnBase (h p : HashMap K V) : Res (HashMap K V) :=
  overBucket (fun h e => do
    let c ← h.contains hash e.key
    let y ← if c then h.get hash e.key else .ok e.im
    h.patch1 hash h e.key y) p.a.flatten h

/-- `h->write_back (x, h)` (hashmap_extra.ipp:19-41): the entry of `x` is looked for in the map that already has the
new entry with the default value. -/
def selfWriteBack (h : HashMap K V) (x : K) : Res (HashMap K V) := do
  let l ← rd h.a (bidx (hash x) h.n)
  match findB (hash x) x l with
  | some _ => .ok h
  | none => do
    let h ← h.insertNew hash x
    let bl ← rd h.a (bidx (hash x) h.n)
    match findB (hash x) x bl with
    | some v => h.assign hash x v
    | none => h.assign hash x h.init

end Lolly.HashMap
