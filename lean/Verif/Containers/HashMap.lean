import Verif.Basic

/-!
# Model of `hashmap<T,U>`

Kernel/Containers/hashmap.hpp, hashmap.ipp, hashmap_extra.ipp and the hashmap iterator of
Kernel/Containers/iterator.ipp.

Simplifications: `int` counters do not overflow (`n << 1` beyond 2^30 buckets is out of reach of
memory), and the linked lists of a bucket are Lean lists (they are never shared between buckets).
`hash` is an arbitrary function into 32-bit words.
-/

namespace Lolly

variable {K : Type} {V : Type}

/-- `hashentry<T,U>` (hashmap.hpp:39-45). -/
structure Entry (K : Type) (V : Type) where
  code : BitVec 32
  key : K
  im : V
  deriving DecidableEq, Repr

/-- `hashmap_rep<T,U>` (hashmap.hpp:47-52). -/
structure HashMap (K : Type) (V : Type) where
  size : Int
  n : Nat
  max : Int
  init : V
  a : List (List (Entry K V))
  deriving DecidableEq, Repr

/-- `hv & (n - 1)` (hashmap.ipp:57,68,84,90,99,110). For `n ≥ 1` the sign of `hv` is irrelevant. -/
def bidx (hv : BitVec 32) (n : Nat) : Nat := hv.toNat &&& (n - 1)

namespace HashMap

/-- Constructor (hashmap.hpp:64-66, 195-196): `n` empty buckets. -/
def new (init : V) (n : Nat := 1) (max : Int := 1) : HashMap K V :=
  { size := 0, n := n, max := max, init := init, a := List.replicate n [] }

variable [DecidableEq K]

/-- The lookup loop shared by `contains`, `bracket_ro`, `bracket_rw` (hashmap.ipp:69-72). -/
def findB (hv : BitVec 32) (x : K) : List (Entry K V) → Option V
  | [] => none
  | e :: l => if e.code = hv ∧ e.key = x then some e.im else findB hv x l

/-- Assignment through the reference returned by `bracket_rw`: overwrite `im` of the entry found by
the lookup loop (hashmap.ipp:86, 93). -/
def assignB (hv : BitVec 32) (x : K) (v : V) : List (Entry K V) → List (Entry K V)
  | [] => []
  | e :: l => if e.code = hv ∧ e.key = x then { e with im := v } :: l else e :: assignB hv x v l

/-- The unlinking loop of `reset` (hashmap.ipp:111-119): `none` if the key is not found. -/
def removeB (hv : BitVec 32) (x : K) : List (Entry K V) → Option (List (Entry K V))
  | [] => none
  | e :: l => if e.code = hv ∧ e.key = x then some l else (removeB hv x l).map (e :: ·)

variable (hash : K → BitVec 32)

/-- One step of the inner loop of `resize` (hashmap.ipp:57-58): push on the new bucket.
Note that the bucket is computed from `hash (key)`, not from the stored code. -/
def rehash1 (n2 : Nat) (a : List (List (Entry K V))) (e : Entry K V) :
    Res (List (List (Entry K V))) := do
  let i := bidx (hash e.key) n2
  let l ← rd a i
  wr a i (e :: l)

/-- The rehash loops of `resize` (hashmap.ipp:54-61) over all old entries in bucket order. -/
def rehash (n2 : Nat) : List (Entry K V) → List (List (Entry K V)) →
    Res (List (List (Entry K V)))
  | [], a => .ok a
  | e :: es, a => do
    let a' ← rehash1 hash n2 a e
    rehash n2 es a'

/-- `hashmap_rep::resize` (hashmap.ipp:47-63). -/
def resize (h : HashMap K V) (n2 : Nat) : Res (HashMap K V) := do
  let a ← rehash hash n2 h.a.flatten (List.replicate n2 [])
  .ok { h with n := n2, a := a }

/-- `hashmap_rep::contains` (hashmap.ipp:65-74). -/
def contains (h : HashMap K V) (x : K) : Res Bool := do
  let l ← rd h.a (bidx (hash x) h.n)
  .ok (findB (hash x) x l).isSome

/-- `hashmap_rep::empty` (hashmap.ipp:76-79). -/
def empty (h : HashMap K V) : Bool := h.size = 0

/-- `N (hashmap)` (hashmap.hpp:226-229). -/
def N (h : HashMap K V) : Int := h.size

/-- `hashmap_rep::bracket_ro` (hashmap.ipp:96-105), i.e. `h[x]`. -/
def get (h : HashMap K V) (x : K) : Res V := do
  let l ← rd h.a (bidx (hash x) h.n)
  .ok ((findB (hash x) x l).getD h.init)

/-- Insertion of a fresh entry, as in `bracket_rw` (hashmap.ipp:89-92) and `write_back`
(hashmap_extra.ipp:27-30). -/
def insertNew (h : HashMap K V) (x : K) : Res (HashMap K V) := do
  let h ← if h.size ≥ h.n * h.max then h.resize hash (h.n <<< 1) else .ok h
  let i := bidx (hash x) h.n
  let rl ← rd h.a i
  let a ← wr h.a i ({ code := hash x, key := x, im := h.init } :: rl)
  .ok { h with a := a, size := h.size + 1 }

/-- `hashmap_rep::bracket_rw` (hashmap.ipp:81-94), i.e. the effect of evaluating `h(x)`:
the map after the call. The returned reference is the entry of `x`. -/
def touch (h : HashMap K V) (x : K) : Res (HashMap K V) := do
  let l ← rd h.a (bidx (hash x) h.n)
  match findB (hash x) x l with
  | some _ => .ok h
  | none => h.insertNew hash x

/-- Assignment through the reference to the entry of `x`. -/
def assign (h : HashMap K V) (x : K) (v : V) : Res (HashMap K V) := do
  let i := bidx (hash x) h.n
  let l ← rd h.a i
  let a ← wr h.a i (assignB (hash x) x v l)
  .ok { h with a := a }

/-- `h(x) = v`. -/
def set (h : HashMap K V) (x : K) (v : V) : Res (HashMap K V) := do
  let h ← h.touch hash x
  h.assign hash x v

/-- `hashmap_rep::reset` (hashmap.ipp:107-120). -/
def reset (h : HashMap K V) (x : K) : Res (HashMap K V) := do
  let i := bidx (hash x) h.n
  let l ← rd h.a i
  match removeB (hash x) x l with
  | none => .ok h
  | some l' => do
    let a ← wr h.a i l'
    let h := { h with a := a, size := h.size - 1 }
    if h.size < ((h.n >>> 1 : Nat) : Int) * h.max then h.resize hash (h.n >>> 1) else .ok h

/-- `hashmap_rep::generate` (hashmap.ipp:122-132): the keys passed to the routine, in order. -/
def generate (h : HashMap K V) : List K := (h.a.flatten).map (·.key)

/-- The loop of `join` over the entries of the other map. -/
def joinEntries (h : HashMap K V) : List (Entry K V) → Res (HashMap K V)
  | [] => .ok h
  | e :: es => do
    let h ← h.set hash e.key e.im
    joinEntries h es

/-- `hashmap_rep::join` (hashmap.ipp:149-157); `copy` of a value is the value. -/
def join (h g : HashMap K V) : Res (HashMap K V) := h.joinEntries hash g.a.flatten

/-- `hashmap_rep::write_back` (hashmap_extra.ipp:19-41). -/
def writeBack (h : HashMap K V) (x : K) (base : HashMap K V) : Res (HashMap K V) := do
  let l ← rd h.a (bidx (hash x) h.n)
  match findB (hash x) x l with
  | some _ => .ok h
  | none => do
    let h ← h.insertNew hash x
    let bl ← rd base.a (bidx (hash x) base.n)
    match findB (hash x) x bl with
    | some v => h.assign hash x v
    | none => h.assign hash x base.init

/-- `operator==` (hashmap.ipp:159-169): the loop over the entries of `h1`. -/
def eqLoop [DecidableEq V] (h2 : HashMap K V) : List (Entry K V) → Res Bool
  | [] => .ok true
  | e :: es => do
    let v ← h2.get hash e.key
    if v ≠ e.im then .ok false else eqLoop h2 es

/-- `operator==` (hashmap.ipp:159-169). -/
def eqv [DecidableEq V] (h1 h2 : HashMap K V) : Res Bool :=
  if h1.size ≠ h2.size then .ok false else eqLoop hash h2 h1.a.flatten

/-- `operator!=` (hashmap.ipp:171-174). -/
def neq [DecidableEq V] (h1 h2 : HashMap K V) : Res Bool := do
  let b ← eqv hash h1 h2
  .ok (!b)

/-- Body shared by the two patch loops (hashmap_extra.ipp:51-52, 65-66). -/
def patch1 [DecidableEq V] (h base : HashMap K V) (x : K) (y : V) : Res (HashMap K V) := do
  let b ← base.get hash x
  if b = y then h.reset hash x else h.set hash x y

/-- `hashmap_rep::pre_patch` (hashmap_extra.ipp:43-55), over the entries of the patch.
`patch` and `base` are objects different from `this`. -/
def prePatchL [DecidableEq V] (h base : HashMap K V) : List (Entry K V) → Res (HashMap K V)
  | [] => .ok h
  | e :: es => do
    let c ← h.contains hash e.key
    let y ← if c then h.get hash e.key else .ok e.im
    let h ← h.patch1 hash base e.key y
    prePatchL h base es

def prePatch [DecidableEq V] (h patch base : HashMap K V) : Res (HashMap K V) :=
  h.prePatchL hash base patch.a.flatten

/-- `hashmap_rep::post_patch` (hashmap_extra.ipp:57-69). -/
def postPatchL [DecidableEq V] (h base : HashMap K V) : List (Entry K V) → Res (HashMap K V)
  | [] => .ok h
  | e :: es => do
    let h ← h.patch1 hash base e.key e.im
    postPatchL h base es

def postPatch [DecidableEq V] (h patch base : HashMap K V) : Res (HashMap K V) :=
  h.postPatchL hash base patch.a.flatten

/-- `copy_list` (hashmap_extra.ipp:71-78). -/
def copyList : List (Entry K V) → List (Entry K V)
  | [] => []
  | e :: l => { code := e.code, key := e.key, im := e.im } :: copyList l

/-- `copy` (hashmap_extra.ipp:80-88). -/
def copy (h : HashMap K V) : HashMap K V :=
  { size := h.size, n := h.n, max := h.max, init := h.init, a := h.a.map copyList }

/-- `changes` (hashmap_extra.ipp:90-102), loop. -/
def changesL [DecidableEq V] (base : HashMap K V) :
    List (Entry K V) → HashMap K V → Res (HashMap K V)
  | [], h => .ok h
  | e :: es, h => do
    let b ← base.get hash e.key
    let h ← if e.im ≠ b then h.set hash e.key e.im else .ok h
    changesL base es h

def changes [DecidableEq V] (patch base : HashMap K V) : Res (HashMap K V) :=
  changesL hash base patch.a.flatten (new base.init)

/-- `invert` (hashmap_extra.ipp:104-116), loop. -/
def invertL [DecidableEq V] (base : HashMap K V) :
    List (Entry K V) → HashMap K V → Res (HashMap K V)
  | [], h => .ok h
  | e :: es, h => do
    let b ← base.get hash e.key
    let h ← if e.im ≠ b then h.set hash e.key b else .ok h
    invertL base es h

def invert [DecidableEq V] (patch base : HashMap K V) : Res (HashMap K V) :=
  invertL hash base patch.a.flatten (new base.init)

end HashMap

/-- `hashmap_iterator_rep` (iterator.ipp:104-118): the bucket index and the rest of the current
bucket. The same class serves hashsets (iterator.ipp:38-51). `buckets` is `h->a`. -/
structure Iter (E : Type) where
  buckets : List (List E)
  i : Nat
  l : List E
  deriving DecidableEq, Repr

namespace Iter
variable {E : Type}

/-- Constructor (iterator.ipp:53-55, 120-122): reads `h->a[0]`. -/
def new (buckets : List (List E)) : Res (Iter E) := do
  let l ← rd buckets 0
  .ok { buckets := buckets, i := 0, l := l }

/-- The loop of `spool` (iterator.ipp:128-131): advance to the next non-empty bucket; recursion on
the buckets that remain after index `i`. -/
def spoolL : List (List E) → Nat → Nat × List E
  | [], i => (i + 1, [])
  | [] :: bs, i => spoolL bs (i + 1)
  | (e :: l) :: _, i => (i + 1, e :: l)

/-- `spool` (iterator.ipp:57-65, 124-132). -/
def spool (it : Iter E) : Iter E :=
  if it.i ≥ it.buckets.length then it
  else match it.l with
    | _ :: _ => it
    | [] =>
      let p := spoolL (it.buckets.drop (it.i + 1)) it.i
      { it with i := p.1, l := p.2 }

/-- `busy` (iterator.ipp:67-72, 134-139). -/
def busy (it : Iter E) : Bool × Iter E :=
  let it := it.spool
  (decide (it.i < it.buckets.length), it)

/-- `next` (iterator.ipp:74-81, 141-148): throws at the end; `l->item` of a nil list is UB. -/
def next (it : Iter E) : Res (E × Iter E) :=
  let (b, it) := it.busy
  if b then
    match it.l with
    | [] => .ub
    | e :: l => .ok (e, { it with l := l })
  else .thrown

/-- Client loop `while (it->busy ()) f (it->next ())`: the items seen, with fuel. -/
def drain : Nat → Iter E → Res (List E)
  | 0, _ => .hang
  | fuel + 1, it =>
    let (b, it) := it.busy
    if b then do
      let (e, it) ← it.next
      let es ← drain fuel it
      .ok (e :: es)
    else .ok []

end Iter

end Lolly
