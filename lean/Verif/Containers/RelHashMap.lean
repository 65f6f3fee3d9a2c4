import Verif.Containers.HashMap

/-!
# Model of `rel_hashmap<T,U>` (Kernel/Containers/rel_hashmap.ipp) and `hashfunc<T,U>`
(Kernel/Containers/hashfunc.ipp)

A relative hashmap is the list of its layers, innermost first; the empty list is the nil handle.
Simplification: layers are not shared with other relative hashmaps.
-/

namespace Lolly

variable {K V : Type} [DecidableEq K] (hash : K → BitVec 32)

abbrev RelHashMap (K V : Type) := List (HashMap K V)

namespace RelHashMap

/-- `operator[]` (rel_hashmap.ipp:21-27). -/
def get : RelHashMap K V → K → Res V
  | [], _ => .thrown
  | item :: next, x => do
    let c ← item.contains hash x
    if c || next.isEmpty then item.get hash x else get next x

/-- `rel_hashmap_rep::contains` (rel_hashmap.ipp:39-45); calling it through a nil handle is UB. -/
def contains : RelHashMap K V → K → Res Bool
  | [], _ => .ub
  | item :: next, x => do
    let c ← item.contains hash x
    if c then .ok true else if next.isEmpty then .ok false else contains next x

/-- `operator()` (rel_hashmap.ipp:29-37): the state after evaluating `H(x)`; the reference returned
is the entry of `x` in the innermost layer. -/
def touch : RelHashMap K V → K → Res (RelHashMap K V)
  | [], _ => .thrown
  | item :: next, x => do
    let c ← item.contains hash x
    if c then do
      let item ← item.touch hash x
      .ok (item :: next)
    else do
      let d ← if next.isEmpty then .ok false else contains hash next x
      let item ← if d then do
          let v ← get hash next x
          item.set hash x v
        else .ok item
      let item ← item.touch hash x
      .ok (item :: next)

/-- `H(x)= v`. -/
def set (H : RelHashMap K V) (x : K) (v : V) : Res (RelHashMap K V) := do
  match ← touch hash H x with
  | [] => .ub
  | item :: next => do
    let item ← item.assign hash x v
    .ok (item :: next)

/-- `extend` (rel_hashmap.ipp:47-52). -/
def extend : RelHashMap K V → Res (RelHashMap K V)
  | [] => .ub
  | item :: next => .ok (HashMap.new item.init :: item :: next)

/-- `shorten` (rel_hashmap.ipp:54-60). -/
def shorten : RelHashMap K V → Res (RelHashMap K V)
  | [] => .ub
  | [_] => .thrown
  | _ :: item :: next => .ok (item :: next)

/-- `change` (rel_hashmap.ipp:110-121). -/
def change : RelHashMap K V → HashMap K V → Res (RelHashMap K V)
  | [], _ => .ub
  | item :: next, CH => do
    let item ← item.joinEntries hash CH.a.flatten
    .ok (item :: next)

/-- `merge` (rel_hashmap.ipp:62-68). -/
def merge : RelHashMap K V → Res (RelHashMap K V)
  | [] => .ub
  | [_] => .thrown
  | item :: item' :: next => do
    let next' ← change hash (item' :: next) item
    shorten (item :: next')

/-- First loop of `find_changes` (rel_hashmap.ipp:75-83): the entries to remove, accumulated in
reverse order. -/
def agreeing [DecidableEq V] (H : RelHashMap K V) :
    List (Entry K V) → List (Entry K V) → Res (List (Entry K V))
  | [], acc => .ok acc
  | e :: es, acc => do
    let v ← get hash H e.key
    agreeing H es (if v = e.im then e :: acc else acc)

/-- Second loop of `find_changes` (rel_hashmap.ipp:84-87). -/
def removeAll : List (Entry K V) → HashMap K V → Res (HashMap K V)
  | [], CH => .ok CH
  | e :: es, CH => do
    let CH ← CH.reset hash e.key
    removeAll es CH

/-- `find_changes` (rel_hashmap.ipp:70-88): the map passed by reference after the call. -/
def findChanges [DecidableEq V] (H : RelHashMap K V) (CH : HashMap K V) : Res (HashMap K V) :=
  match H with
  | [] => .ub
  | H => do
    let r ← agreeing hash H CH.a.flatten []
    removeAll hash r CH

/-- First loop of `find_differences` (rel_hashmap.ipp:94-102). -/
def missing (CH : HashMap K V) : List (Entry K V) → List (Entry K V) → Res (List (Entry K V))
  | [], acc => .ok acc
  | e :: es, acc => do
    let c ← CH.contains hash e.key
    missing CH es (if !c then e :: acc else acc)

/-- Second loop of `find_differences` (rel_hashmap.ipp:103-106). -/
def addAll (next : RelHashMap K V) : List (Entry K V) → HashMap K V → Res (HashMap K V)
  | [], CH => .ok CH
  | e :: es, CH => do
    let v ← get hash next e.key
    let CH ← CH.set hash e.key v
    addAll next es CH

/-- `find_differences` (rel_hashmap.ipp:90-108). -/
def findDifferences [DecidableEq V] (H : RelHashMap K V) (CH : HashMap K V) :
    Res (HashMap K V) :=
  match H with
  | [] => .ub
  | item :: next => do
    let add ← missing hash CH item.a.flatten []
    let CH ← addAll hash next add CH
    findChanges hash (item :: next) CH

end RelHashMap

/-- `hashfunc_rep::apply` (hashfunc.ipp:16-23) on the state `remember`. The result is the value
returned, whether `func` was called, and the new state. -/
def hashfuncApply (f : K → V) (remember : HashMap K V) (x : K) :
    Res (V × Bool × HashMap K V) := do
  let c ← remember.contains hash x
  if c then do
    let y ← remember.get hash x
    .ok (y, false, remember)
  else do
    let y := f x
    let r ← remember.set hash x y
    .ok (y, true, r)

/-- A sequence of queries `F[x]`: the results and the list of arguments on which `func` was
called. -/
def hashfuncRun (f : K → V) : HashMap K V → List K → Res (List V × List K)
  | _, [] => .ok ([], [])
  | r, x :: xs => do
    let (y, called, r) ← hashfuncApply hash f r x
    let (ys, cs) ← hashfuncRun f r xs
    .ok (y :: ys, if called then x :: cs else cs)

end Lolly
