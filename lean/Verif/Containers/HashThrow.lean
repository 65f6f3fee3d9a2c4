import Verif.Containers.HashMap

/-!
# Hash maps with keys whose functions throw (Kernel/Containers/hashmap.ipp)

The functions of `HashMap.lean` once more, where `hash` of a key, `==` of two keys and the routine given to `generate` may
throw an exception. Calls of these functions are numbered one after the other; `fails k` says that call number `k` throws.
Hence a function of a key may throw although it did not throw before. A call that does not throw answers as always.
What counts when a call throws is the map at that moment, so outcomes carry the map.

Simplifications: those of `HashMap.lean`; copying keys and values does not throw, since they are handles or plain values.
The memory of the old table, which is not freed when `resize` is left by an exception (hashmap.ipp:62), is not modelled.
-/

set_option autoImplicit false

namespace Lolly.HashThrow

variable {K V α β : Type}

/-- Outcomes of a call on a map: the map afterwards, the number of the next call of a key's function, and the result. -/
inductive Out (K V α : Type)
  | ret (h : HashMap K V) (t : Nat) (x : α)
  | thrown (h : HashMap K V) (t : Nat)
  | ub
  deriving DecidableEq

def Out.bind : Out K V α → (HashMap K V → Nat → α → Out K V β) → Out K V β
  | .ret h t x, f => f h t x
  | .thrown h t, _ => .thrown h t
  | .ub, _ => .ub

/-- Accesses to the table do not throw. -/
def lift (h : HashMap K V) (t : Nat) : Res α → Out K V α
  | .ok x => .ret h t x
  | _ => .ub

variable (fails : Nat → Bool)

/-- Call number `t` of a function of a key, whose answer is `x`. -/
def call (h : HashMap K V) (t : Nat) (x : α) : Out K V α := if fails t then .thrown h (t + 1) else .ret h (t + 1) x

variable [DecidableEq K]

/-- The lookup loop (hashmap.ipp:69-72): `==` is called for entries with the same code only. -/
def find (hv : BitVec 32) (x : K) (h : HashMap K V) : List (Entry K V) → Nat → Out K V (Option V)
  | [], t => .ret h t none
  | e :: l, t =>
    if e.code = hv then
      (call fails h t (decide (e.key = x))).bind fun h t b => if b then .ret h t (some e.im) else find hv x h l t
    else find hv x h l t

/-- The loop of `reset` (hashmap.ipp:111-119): the list without the entry, or `none` if the key is not found. -/
def remove (hv : BitVec 32) (x : K) (h : HashMap K V) : List (Entry K V) → Nat → Out K V (Option (List (Entry K V)))
  | [], t => .ret h t none
  | e :: l, t =>
    if e.code = hv then
      (call fails h t (decide (e.key = x))).bind fun h t b =>
        if b then .ret h t (some l) else (remove hv x h l t).bind fun h t o => .ret h t (o.map (e :: ·))
    else (remove hv x h l t).bind fun h t o => .ret h t (o.map (e :: ·))

variable (hash : K → BitVec 32)

/-- The beginning of `contains`, `bracket_ro` and `bracket_rw` (hashmap.ipp:67-72, 83-88, 98-103). -/
def look (h : HashMap K V) (x : K) (t : Nat) : Out K V (Option V) :=
  (call fails h t (hash x)).bind fun h t hv =>
    (lift h t (rd h.a (bidx hv h.n))).bind fun h t l => find fails hv x h l t

/-- `hashmap_rep::contains` (hashmap.ipp:65-74). -/
def contains (h : HashMap K V) (x : K) (t : Nat) : Out K V Bool :=
  (look fails hash h x t).bind fun h t o => .ret h t o.isSome

/-- `hashmap_rep::bracket_ro` (hashmap.ipp:96-105). -/
def get (h : HashMap K V) (x : K) (t : Nat) : Out K V V :=
  (look fails hash h x t).bind fun h t o => .ret h t (o.getD h.init)

omit [DecidableEq K] in
/-- The loops of `resize` (hashmap.ipp:54-61) over the old entries, which fill the new table of the map. -/
def rehash (n2 : Nat) : List (Entry K V) → HashMap K V → Nat → Out K V Unit
  | [], h, t => .ret h t ()
  | e :: es, h, t =>
    (call fails h t (hash e.key)).bind fun h t hv =>
      (lift h t (rd h.a (bidx hv n2))).bind fun h t l =>
        (lift h t (wr h.a (bidx hv n2) (e :: l))).bind fun h t a => rehash n2 es { h with a := a } t

omit [DecidableEq K] in
/-- `hashmap_rep::resize` (hashmap.ipp:47-63): the new table is installed before it is filled. -/
def resize (h : HashMap K V) (n2 : Nat) (t : Nat) : Out K V Unit :=
  rehash fails hash n2 h.a.flatten { h with n := n2, a := List.replicate n2 [] } t

omit [DecidableEq K] in
/-- The end of `bracket_rw` (hashmap.ipp:89-92), where a new entry is made. -/
def insertNew (h : HashMap K V) (x : K) (t : Nat) : Out K V Unit :=
  (if h.size ≥ h.n * h.max then resize fails hash h (h.n <<< 1) t else .ret h t ()).bind fun h t _ =>
    (lift h t (rd h.a (bidx (hash x) h.n))).bind fun h t rl =>
      (lift h t (wr h.a (bidx (hash x) h.n) ({ code := hash x, key := x, im := h.init } :: rl))).bind fun h t a =>
        .ret { h with a := a, size := h.size + 1 } t ()

/-- `hashmap_rep::bracket_rw` (hashmap.ipp:81-94). -/
def touch (h : HashMap K V) (x : K) (t : Nat) : Out K V Unit :=
  (look fails hash h x t).bind fun h t o =>
    match o with
    | some _ => .ret h t ()
    | none => insertNew fails hash h x t

/-- `h(x) = v`: the assignment goes through the reference and calls no function of a key. -/
def set (h : HashMap K V) (x : K) (v : V) (t : Nat) : Out K V Unit :=
  (touch fails hash h x t).bind fun h t _ => (lift h t (h.assign hash x v)).bind fun _ t h => .ret h t ()

/-- `hashmap_rep::reset` (hashmap.ipp:107-120). -/
def reset (h : HashMap K V) (x : K) (t : Nat) : Out K V Unit :=
  (call fails h t (hash x)).bind fun h t hv =>
    (lift h t (rd h.a (bidx hv h.n))).bind fun h t l =>
      (remove fails hv x h l t).bind fun h t o =>
        match o with
        | none => .ret h t ()
        | some l' =>
          (lift h t (wr h.a (bidx hv h.n) l')).bind fun h t a =>
            if h.size - (1 : Int) < ((h.n >>> 1 : Nat) : Int) * h.max then
              resize fails hash { h with a := a, size := h.size - 1 } (h.n >>> 1) t
            else .ret { h with a := a, size := h.size - 1 } t ()

omit [DecidableEq K] in
/-- The loops of `generate` (hashmap.ipp:122-132): the keys the routine was called with, and whether the last of these
calls threw. -/
def generate : List K → Nat → List K × Bool
  | [], _ => ([], false)
  | x :: xs, t => if fails t then ([x], true) else let (l, b) := generate xs (t + 1); (x :: l, b)

end Lolly.HashThrow
