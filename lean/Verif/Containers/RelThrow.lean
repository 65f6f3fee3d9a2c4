import Verif.Containers.HashThrow
import Verif.Containers.RelHashMap

/-!
# Merging layers of relative hash maps when functions of keys throw (Kernel/Containers/rel_hashmap.ipp)

The functions `change` and `merge` of `RelHashMap.lean` once more, with calls of functions of keys that may throw, as in
`HashThrow.lean`: calls are numbered and `fails k` says that call number `k` throws. Outcomes carry all layers.

Simplifications: those of `RelHashMap.lean` and `HashThrow.lean`.
-/

set_option autoImplicit false

namespace Lolly.RelThrow

open Lolly.HashThrow

variable {K V : Type}

/-- Outcomes of a call on a relative hash map. -/
inductive ROut (K V : Type)
  | ret (H : RelHashMap K V) (t : Nat)
  | thrown (H : RelHashMap K V) (t : Nat)
  | ub
  deriving DecidableEq

variable (fails : Nat → Bool) [DecidableEq K] (hash : K → BitVec 32)

/-- The loops of `change` (rel_hashmap.ipp:113-120) and of `hashmap_rep::join` (hashmap.ipp:149-157) over the entries of the
other map. -/
def changeE : List (Entry K V) → HashMap K V → Nat → Out K V Unit
  | [], h, t => .ret h t ()
  | e :: es, h, t => (HashThrow.set fails hash h e.key e.im t).bind fun h t _ => changeE es h t

/-- `change` (rel_hashmap.ipp:110-121): the innermost layer is changed in its place. -/
def change (H : RelHashMap K V) (CH : HashMap K V) (t : Nat) : ROut K V :=
  match H with
  | [] => .ub
  | item :: next =>
    match changeE fails hash CH.a.flatten item t with
    | .ret item t _ => .ret (item :: next) t
    | .thrown item t => .thrown (item :: next) t
    | .ub => .ub

/-- `merge` (rel_hashmap.ipp:62-68): an exception from `next->change (item)` leaves both layers, the lower one as it is at that
moment; `shorten` calls no function of a key. -/
def merge (H : RelHashMap K V) (t : Nat) : ROut K V :=
  match H with
  | [] => .ub
  | [item] => .thrown [item] t
  | item :: item' :: next =>
    match change fails hash (item' :: next) item t with
    | .ret next t => .ret next t
    | .thrown next t => .thrown (item :: next) t
    | .ub => .ub

end Lolly.RelThrow
