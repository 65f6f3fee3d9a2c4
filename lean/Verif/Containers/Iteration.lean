import Verif.Containers.HashSet

set_option autoImplicit false

/-!
# Iterating over hash maps in loops, and printing containers

Kernel/Containers/iterator.hpp and iterator.ipp (`current`, `increase`, `begin`, `end`, `operator<<`), and the
printing operators of hashmap.ipp, hashset.ipp, list.ipp and array.ipp. The iterator itself (`spool`, `busy`, `next`)
is in `Verif.Containers.HashMap`.

Printing yields the bytes written; how an element is written is a parameter.
-/

namespace Lolly

namespace Iter
variable {E : Type}

/-- `current` (iterator.ipp:83-89, 150-156): throws at the end; the bucket is found but not left. -/
def current (it : Iter E) : Res (E × Iter E) :=
  let (b, it) := it.busy
  if b then
    match it.l with
    | [] => .ub
    | e :: _ => .ok (e, it)
  else .thrown

/-- `increase` (iterator.ipp:91-95, 158-162): `l->next` of a nil list is undefined. -/
def increase (it : Iter E) : Res (Iter E) :=
  match it.l with
  | [] => .ub
  | _ :: l => .ok { it with l := l }

/-- `for (T x : it) ...` (iterator.hpp:71-79: `begin`, `operator!=`, `operator*`, `operator++`): the items seen. -/
def rangeFor : Nat → Iter E → Res (List E)
  | 0, _ => .hang
  | fuel + 1, it =>
    let (b, it) := it.busy
    if b then do
      let (e, it) ← it.current
      let it ← it.increase
      let es ← rangeFor fuel it
      .ok (e :: es)
    else .ok []

/-- The loop of `operator<<` on iterators (iterator.ipp:30-34). -/
def printLoop (pe : E → Bytes) : Nat → Bool → Iter E → Res Bytes
  | 0, _, _ => .hang
  | fuel + 1, flag, it =>
    let (b, it) := it.busy
    if b then do
      let (e, it) ← it.next
      let r ← printLoop pe fuel true it
      .ok ((if flag then b!", " else []) ++ pe e ++ r)
    else .ok []

/-- `operator<<` on iterators (iterator.ipp:25-36). -/
def print (pe : E → Bytes) (fuel : Nat) (it : Iter E) : Res Bytes := do
  let r ← printLoop pe fuel false it
  .ok ((b!"[ ") ++ r ++ (b!" ]"))

end Iter

namespace HashMap
variable {K V : Type}

/-- A client loop `while (it->busy ()) { k= it->next (); act (h, k); }` where `it` iterates over `h` itself: the
iterator holds a handle to the map, so that it sees the buckets as they are now (`h->n`, `h->a`), and the rest of
the bucket at which it stood. The result is the map at the end and the keys seen.
Simplification: that rest is a value here and a chain of shared nodes in the code. This makes no difference for loops
in which `act` changes only the entry of the key just seen, since its node is no longer part of the rest (a change of
`item.im` in place does not change keys; `resize` makes new nodes, hashmap.ipp:58-60). -/
def live (act : HashMap K V → K → Res (HashMap K V)) : Nat → HashMap K V → Iter (Entry K V) →
    Res (HashMap K V × List K)
  | 0, _, _ => .hang
  | fuel + 1, h, it =>
    let (b, it) := ({ it with buckets := h.a } : Iter (Entry K V)).busy
    if b then do
      let (e, it) ← it.next
      let h ← act h e.key
      let (h, ks) ← live act fuel h it
      .ok (h, e.key :: ks)
    else .ok (h, [])

/-- `iterator<T> it= iterate (h)` followed by the loop `live`. -/
def iterateWith (act : HashMap K V → K → Res (HashMap K V)) (fuel : Nat) (h : HashMap K V) :
    Res (HashMap K V × List K) := do
  let it ← Iter.new h.a
  live act fuel h it

/-- `operator<<` on entries (hashmap.ipp:27-31). -/
def printEntry (pk : K → Bytes) (pv : V → Bytes) (e : Entry K V) : Bytes := pk e.key ++ (b!"->") ++ pv e.im

/-- The loops of `operator<<` on maps (hashmap.ipp:138-144) and on sets (hashset.ipp:116-122): all items in the order of
the buckets, `j` counts them. -/
def printItems {E : Type} (pe : E → Bytes) (size : Int) : List E → Int → Bytes
  | [], _ => []
  | e :: es, j => pe e ++ (if j ≠ size - 1 then b!", " else []) ++ printItems pe size es (j + 1)

/-- `operator<<` on hash maps (hashmap.ipp:134-147). -/
def print (pk : K → Bytes) (pv : V → Bytes) (h : HashMap K V) : Bytes :=
  (b!"{ ") ++ printItems (printEntry pk pv) h.size h.a.flatten 0 ++ (b!" }")

end HashMap

/-- `operator<<` on hash sets (hashset.ipp:111-125). -/
def HashSet.print {T : Type} (pe : T → Bytes) (h : HashSet T) : Bytes :=
  (b!"{ ") ++ HashMap.printItems pe h.size h.a.flatten 0 ++ (b!" }")

/-- The second loop of `operator<<` on lists (list.ipp:28-31). -/
def printTail {T : Type} (pe : T → Bytes) : List T → Bytes
  | [] => []
  | x :: l => (b!", ") ++ pe x ++ printTail pe l

/-- `operator<<` on lists (list.ipp:20-33). -/
def printList {T : Type} (pe : T → Bytes) (l : List T) : Bytes :=
  match l with
  | [] => (b!"[") ++ (b!" ]")
  | x :: l => (b!"[") ++ (b!" ") ++ pe x ++ printTail pe l ++ (b!" ]")

/-- The loop of `operator<<` on arrays (array.ipp:125-126), from index `i` on, `k` rounds. -/
def printFrom {T : Type} (pe : T → Bytes) (a : List T) : Nat → Nat → Res Bytes
  | 0, _ => .ok []
  | k + 1, i => do
    let x ← rd a i
    let r ← printFrom pe a k (i + 1)
    .ok (pe x ++ (b!", ") ++ r)

/-- `operator<<` on arrays (array.ipp:118-130). -/
def printArray {T : Type} (pe : T → Bytes) (a : List T) : Res Bytes :=
  if a.length = 0 then .ok (b!"[ ]")
  else do
    let r ← printFrom pe a (a.length - 1) 0
    let x ← rd a (a.length - 1)
    .ok ((b!"[ ") ++ r ++ pe x ++ (b!" ]"))

end Lolly
