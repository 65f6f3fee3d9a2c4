import Verif.Containers.HashMap

set_option autoImplicit false

/-!
# Strings and arrays as keys of hash maps

The functions of hashmap.ipp for keys that are handles of strings or arrays, as in `Containers/Shared.lean`: an entry has the hash
code that the key had when it was inserted and a handle of the key, and keys are compared by what they show now.
-/

namespace Lolly.SharedKeys

variable {α V : Type} [DecidableEq α]

/-- The test `l->item.code == hv && l->item.key == x` (hashmap.ipp:70, 86, 101, 112). -/
def hit (m : List (List α)) (hv : BitVec 32) (x : List α) (e : Entry Nat V) : Res Bool :=
  if e.code = hv then do
    let k ← rd m e.key
    .ok (decide (k = x))
  else .ok false

/-- The loop of `contains`, `bracket_ro` and `bracket_rw` (hashmap.ipp:69-72, 85-88, 100-103). -/
def find (m : List (List α)) (hv : BitVec 32) (x : List α) : List (Entry Nat V) → Res (Option V)
  | [] => .ok none
  | e :: l => do
    let b ← hit m hv x e
    if b then .ok (some e.im) else find m hv x l

/-- Assignment through the reference given by `bracket_rw` (hashmap.ipp:86, 93). -/
def assignL (m : List (List α)) (hv : BitVec 32) (x : List α) (v : V) : List (Entry Nat V) → Res (List (Entry Nat V))
  | [] => .ok []
  | e :: l => do
    let b ← hit m hv x e
    if b then .ok ({ e with im := v } :: l)
    else do
      let l ← assignL m hv x v l
      .ok (e :: l)

/-- The loop of `reset` (hashmap.ipp:111-119); `none` if the key is not found. -/
def removeL (m : List (List α)) (hv : BitVec 32) (x : List α) : List (Entry Nat V) → Res (Option (List (Entry Nat V)))
  | [] => .ok none
  | e :: l => do
    let b ← hit m hv x e
    if b then .ok (some l)
    else do
      let r ← removeL m hv x l
      .ok (r.map (e :: ·))

variable (hash : List α → BitVec 32)

/-- The loops of `resize` (hashmap.ipp:54-61), which compute the code of each key again. -/
def rehash (m : List (List α)) (n2 : Nat) : List (Entry Nat V) → List (List (Entry Nat V)) → Res (List (List (Entry Nat V)))
  | [], a => .ok a
  | e :: es, a => do
    let k ← rd m e.key
    let l ← rd a (bidx (hash k) n2)
    let a ← wr a (bidx (hash k) n2) (e :: l)
    rehash m n2 es a

/-- `resize` (hashmap.ipp:47-63). -/
def resize (m : List (List α)) (h : HashMap Nat V) (n2 : Nat) : Res (HashMap Nat V) := do
  let a ← rehash hash m n2 h.a.flatten (List.replicate n2 [])
  .ok { h with n := n2, a := a }

/-- `contains` (hashmap.ipp:65-74) for a key that shows `x`. -/
def contains (m : List (List α)) (h : HashMap Nat V) (x : List α) : Res Bool := do
  let l ← rd h.a (bidx (hash x) h.n)
  let r ← find m (hash x) x l
  .ok r.isSome

/-- `h[x]` (hashmap.ipp:96-105). -/
def get (m : List (List α)) (h : HashMap Nat V) (x : List α) : Res V := do
  let l ← rd h.a (bidx (hash x) h.n)
  let r ← find m (hash x) x l
  .ok (r.getD h.init)

/-- `h (k)` (hashmap.ipp:81-94), where `k` is the handle `a`. The new entry has this handle. -/
def touch (m : List (List α)) (h : HashMap Nat V) (a : Nat) : Res (HashMap Nat V) := do
  let x ← rd m a
  let l ← rd h.a (bidx (hash x) h.n)
  match ← find m (hash x) x l with
  | some _ => .ok h
  | none => do
    let h ← if h.size ≥ h.n * h.max then resize hash m h (h.n <<< 1) else .ok h
    let rl ← rd h.a (bidx (hash x) h.n)
    let b ← wr h.a (bidx (hash x) h.n) ({ code := hash x, key := a, im := h.init } :: rl)
    .ok { h with a := b, size := h.size + 1 }

/-- `h (k)= v`. -/
def set (m : List (List α)) (h : HashMap Nat V) (a : Nat) (v : V) : Res (HashMap Nat V) := do
  let h ← touch hash m h a
  let x ← rd m a
  let l ← rd h.a (bidx (hash x) h.n)
  let l ← assignL m (hash x) x v l
  let b ← wr h.a (bidx (hash x) h.n) l
  .ok { h with a := b }

/-- `h->reset (k)` (hashmap.ipp:107-120). -/
def reset (m : List (List α)) (h : HashMap Nat V) (x : List α) : Res (HashMap Nat V) := do
  let l ← rd h.a (bidx (hash x) h.n)
  match ← removeL m (hash x) x l with
  | none => .ok h
  | some l' => do
    let b ← wr h.a (bidx (hash x) h.n) l'
    let h := { h with a := b, size := h.size - 1 }
    if h.size < ((h.n >>> 1 : Nat) : Int) * h.max then resize hash m h (h.n >>> 1) else .ok h

/-- The keys that `generate` gives (hashmap.ipp:122-132). -/
def keys (m : List (List α)) (h : HashMap Nat V) : List (Option (List α)) := h.a.flatten.map fun e => m[e.key]?

/-! ## Programs -/

/-- The representations, the variables and the map. Variables that were not declared yet are `none`. -/
structure State (α V : Type) where
  store : List (List α)
  vars : Nat → Option Nat
  map : HashMap Nat V

inductive Stmt (α V : Type) where
  | fresh (v : Nat) (s : List α)
  | share (v w : Nat)
  | copy (v w : Nat)
  | append (v : Nat) (x : α)
  | put (k : Nat) (x : V)
  | reset (k : Nat)

def State.handle (st : State α V) (v : Nat) : Res Nat := .ofOption (st.vars v)

def State.setVar (st : State α V) (v a : Nat) : State α V :=
  { st with vars := fun w => if w = v then some a else st.vars w }

def State.make (st : State α V) (v : Nat) (s : List α) : State α V :=
  State.setVar { st with store := st.store ++ [s] } v st.store.length

def step (st : State α V) : Stmt α V → Res (State α V)
  | .fresh v s => .ok (st.make v s) -- v= "..."
  | .share v w => do -- v= w
    let a ← st.handle w
    .ok (st.setVar v a)
  | .copy v w => do -- v= copy (w)
    let a ← st.handle w
    let s ← rd st.store a
    .ok (st.make v s)
  | .append v x => do -- v << x
    let a ← st.handle v
    let s ← rd st.store a
    let t ← wr st.store a (s ++ [x])
    .ok { st with store := t }
  | .put k x => do -- h (k)= x
    let a ← st.handle k
    let m ← set hash st.store st.map a x
    .ok { st with map := m }
  | .reset k => do -- h->reset (k)
    let a ← st.handle k
    let s ← rd st.store a
    let m ← reset hash st.store st.map s
    .ok { st with map := m }

def run : State α V → List (Stmt α V) → Res (State α V)
  | st, [] => .ok st
  | st, s :: l => do
    let st ← step hash st s
    run st l

/-- A new map with the default `d`. -/
def start (d : V) : State α V := ⟨[], fun _ => none, HashMap.new d⟩

end Lolly.SharedKeys
