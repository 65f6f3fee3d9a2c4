import Verif.Containers.HashMap

/-!
# Model of `hashset<T>`

Kernel/Containers/hashset.hpp, hashset.ipp and the hashset iterator of
Kernel/Containers/iterator.ipp (the `Iter` of `Verif.Containers.HashMap`).
Simplifications: as for hashmaps.
-/

namespace Lolly

variable {T : Type}

/-- `hashset_rep<T>` (hashset.hpp:26-31). -/
structure HashSet (T : Type) where
  size : Int
  n : Nat
  max : Int
  a : List (List T)
  deriving DecidableEq, Repr

namespace HashSet

/-- Constructor (hashset.hpp:46-47, 80-81). -/
def new (n : Nat := 1) (max : Int := 1) : HashSet T :=
  { size := 0, n := n, max := max, a := List.replicate n [] }

variable [DecidableEq T]

/-- `search` (hashset.ipp:35-43): whether the item is found. -/
def search : List T → T → Bool
  | [], _ => false
  | y :: l, x => if y = x then true else search l x

/-- The unlinking loop of `remove` (hashset.ipp:65-73): `none` if not found. -/
def unlink : List T → T → Option (List T)
  | [], _ => none
  | y :: l, x => if y = x then some l else (unlink l x).map (y :: ·)

variable (hash : T → BitVec 32)

/-- The loops of `resize` (hashset.ipp:24-31) over the old items in bucket order. -/
def rehash (n2 : Nat) : List T → List (List T) → Res (List (List T))
  | [], a => .ok a
  | x :: xs, a => do
    let i := bidx (hash x) n2
    let l ← rd a i
    let a ← wr a i (x :: l)
    rehash n2 xs a

/-- `hashset_rep::resize` (hashset.ipp:16-33). -/
def resize (h : HashSet T) (n2 : Nat) : Res (HashSet T) := do
  let a ← rehash hash n2 h.a.flatten (List.replicate n2 [])
  .ok { h with n := n2, a := a }

/-- `hashset_rep::contains` (hashset.ipp:45-49). -/
def contains (h : HashSet T) (x : T) : Res Bool := do
  let l ← rd h.a (bidx (hash x) h.n)
  .ok (search l x)

/-- `hashset_rep::insert` (hashset.ipp:51-59): grows first, then looks for the item. -/
def insert (h : HashSet T) (x : T) : Res (HashSet T) := do
  let h ← if h.size = h.n * h.max then h.resize hash (h.n <<< 1) else .ok h
  let i := bidx (hash x) h.n
  let l ← rd h.a i
  if search l x then .ok h
  else do
    let a ← wr h.a i (x :: l)
    .ok { h with a := a, size := h.size + 1 }

/-- `hashset_rep::remove` (hashset.ipp:61-74). -/
def remove (h : HashSet T) (x : T) : Res (HashSet T) := do
  let i := bidx (hash x) h.n
  let l ← rd h.a i
  match unlink l x with
  | none => .ok h
  | some l' => do
    let a ← wr h.a i l'
    .ok { h with a := a, size := h.size - 1 }

/-- `copy (list)` (list.ipp) of one bucket. -/
def copyList : List T → List T
  | [] => []
  | x :: l => x :: copyList l

/-- `copy` (hashset.ipp:76-85). -/
def copy (h : HashSet T) : HashSet T :=
  { size := h.size, n := h.n, max := h.max, a := h.a.map copyList }

/-- `N` (hashset.hpp:92-96). -/
def N (h : HashSet T) : Int := h.size

/-- The loops of `operator<=` (hashset.ipp:92-96). -/
def leLoop (h2 : HashSet T) : List T → Res Bool
  | [] => .ok true
  | x :: xs => do
    let c ← h2.contains hash x
    if !c then .ok false else leLoop h2 xs

/-- `operator<=` (hashset.ipp:87-98). -/
def le (h1 h2 : HashSet T) : Res Bool :=
  if h1.N > h2.N then .ok false else leLoop hash h2 h1.a.flatten

/-- `operator<` (hashset.ipp:100-104). -/
def lt (h1 h2 : HashSet T) : Res Bool :=
  if h1.N < h2.N then le hash h1 h2 else .ok false

/-- `operator==` (hashset.ipp:106-110). -/
def eqv (h1 h2 : HashSet T) : Res Bool :=
  if h1.N = h2.N then le hash h1 h2 else .ok false

end HashSet
end Lolly
