import Verif.Containers.RelHashMap

set_option autoImplicit false

/-!
# find_changes of relative hashmaps with a layer of the map itself (rel_hashmap.ipp:70-88)

The layers are public (rel_hashmap.hpp:29-33), and `find_changes` takes the map of changes by reference. All reads of
`find_changes` happen before its first write, so that it makes no difference to the function itself whether the changes are
a layer that it reads; what it leaves is then the new layer.
-/

namespace Lolly.RelLayers

variable {K V : Type} [DecidableEq K] [DecidableEq V] (hash : K → BitVec 32)

/-- `H->next->find_changes (H->item)`: the innermost layer is compared with the layers below. -/
def reduce : RelHashMap K V → Res (RelHashMap K V)
  | [] => .ub
  | item :: next => do
    let item ← RelHashMap.findChanges hash next item
    .ok (item :: next)

/-- `H->find_changes (H->item)`: the innermost layer is compared with the whole map, which has that layer. -/
def findOwn : RelHashMap K V → Res (RelHashMap K V)
  | [] => .ub
  | item :: next => do
    let item ← RelHashMap.findChanges hash (item :: next) item
    .ok (item :: next)

end Lolly.RelLayers
