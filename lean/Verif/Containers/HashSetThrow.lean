import Verif.Containers.HashSet

/-!
# Hash sets with elements whose functions throw (Kernel/Containers/hashset.ipp)

The functions of `HashSet.lean` once more, where `hash` of an element and `==` of two elements may throw an exception. Calls
of these functions are numbered one after the other; `fails k` says that call number `k` throws. A call that does not throw
answers as always. What counts when a call throws is the set at that moment, so outcomes carry the set.

Simplifications: as in `HashThrow.lean`.
-/

set_option autoImplicit false

namespace Lolly.HashSetThrow

variable {T α : Type}

/-- Outcomes of a call on a set: the set afterwards, the number of the next call of an element's function, and the result. -/
inductive Out (T α : Type)
  | ret (h : HashSet T) (t : Nat) (x : α)
  | thrown (h : HashSet T) (t : Nat)
  | ub
  deriving DecidableEq

variable (fails : Nat → Bool) [DecidableEq T]

/-- `search` (hashset.ipp:35-43) from call `t` on: the number of the next call, and the answer if nothing was thrown. -/
def search (x : T) : List T → Nat → Nat × Option Bool
  | [], t => (t, some false)
  | y :: l, t => if fails t then (t + 1, none) else if y = x then (t + 1, some true) else search x l (t + 1)

/-- The loop of `remove` (hashset.ipp:65-73): the list without the element, if nothing was thrown and it was found. -/
def unlink (x : T) : List T → Nat → Nat × Option (Option (List T))
  | [], t => (t, some none)
  | y :: l, t =>
    if fails t then (t + 1, none)
    else if y = x then (t + 1, some (some l))
    else let (t, o) := unlink x l (t + 1); (t, o.map (·.map (y :: ·)))

variable (hash : T → BitVec 32)

omit [DecidableEq T] in
/-- The loops of `resize` (hashset.ipp:24-31) over the old elements: the table, the next call, and whether nothing was thrown. -/
def rehash (n2 : Nat) : List T → List (List T) → Nat → Res (List (List T) × Nat × Bool)
  | [], a, t => .ok (a, t, true)
  | x :: xs, a, t =>
    if fails t then .ok (a, t + 1, false)
    else do
      let l ← rd a (bidx (hash x) n2)
      let a ← wr a (bidx (hash x) n2) (x :: l)
      rehash n2 xs a (t + 1)

omit [DecidableEq T] in
/-- `hashset_rep::resize` (hashset.ipp:16-33): the new table is installed before it is filled. -/
def resize (h : HashSet T) (n2 : Nat) (t : Nat) : Out T Unit :=
  match rehash fails hash n2 h.a.flatten (List.replicate n2 []) t with
  | .ok (a, t, true) => .ret { h with n := n2, a := a } t ()
  | .ok (a, t, false) => .thrown { h with n := n2, a := a } t
  | _ => .ub

/-- `hashset_rep::contains` (hashset.ipp:45-49). -/
def contains (h : HashSet T) (x : T) (t : Nat) : Out T Bool :=
  if fails t then .thrown h (t + 1)
  else
    match rd h.a (bidx (hash x) h.n) with
    | .ok l =>
      match search fails x l (t + 1) with
      | (t, some b) => .ret h t b
      | (t, none) => .thrown h t
    | _ => .ub

/-- The end of `insert` (hashset.ipp:55-58). -/
def add (h : HashSet T) (x : T) (t : Nat) : Out T Unit :=
  if fails t then .thrown h (t + 1)
  else
    match rd h.a (bidx (hash x) h.n) with
    | .ok l =>
      match search fails x l (t + 1) with
      | (t, some true) => .ret h t ()
      | (t, some false) =>
        match wr h.a (bidx (hash x) h.n) (x :: l) with
        | .ok a => .ret { h with a := a, size := h.size + 1 } t ()
        | _ => .ub
      | (t, none) => .thrown h t
    | _ => .ub

/-- `hashset_rep::insert` (hashset.ipp:51-59): grows first, then looks for the element. -/
def insert (h : HashSet T) (x : T) (t : Nat) : Out T Unit :=
  if h.size = h.n * h.max then
    match resize fails hash h (h.n <<< 1) t with
    | .ret h t _ => add fails hash h x t
    | o => o
  else add fails hash h x t

/-- `hashset_rep::remove` (hashset.ipp:61-74). -/
def remove (h : HashSet T) (x : T) (t : Nat) : Out T Unit :=
  if fails t then .thrown h (t + 1)
  else
    match rd h.a (bidx (hash x) h.n) with
    | .ok l =>
      match unlink fails x l (t + 1) with
      | (t, some none) => .ret h t ()
      | (t, some (some l')) =>
        match wr h.a (bidx (hash x) h.n) l' with
        | .ok a => .ret { h with a := a, size := h.size - 1 } t ()
        | _ => .ub
      | (t, none) => .thrown h t
    | _ => .ub

end Lolly.HashSetThrow
