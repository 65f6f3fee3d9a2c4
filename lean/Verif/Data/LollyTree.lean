import Verif.Loop
import Verif.Strings.Convert

set_option autoImplicit false

/-!
# Model of `lolly_tree<T>` (lolly/data/lolly_tree.hpp)

Trees, arrays of trees and strings are shared objects, so they live in a heap and are named by their
index. A node has an operator and one member of a union, a string or an array; using the other member is
undefined. `TM_DEBUG` is empty (Kernel/Abstractions/classdef.hpp:13), so no check protects the union.
Simplifications: arrays are lists (their buffers are modelled in `Containers.Array`), objects are never
released (reference counts are modelled separately), and the field `data`, which neither `copy` nor
`==` look at, is left out. Recursion takes fuel: a cyclic tree makes it end in `hang`.
-/

namespace Lolly.LTree

/-- The union of lolly_tree_rep (lolly_tree.hpp:145-148). -/
inductive Member where
  | str (s : Nat)
  | arr (a : Nat)
  deriving DecidableEq

/-- `lolly_tree_rep` (lolly_tree.hpp:140-148). -/
structure Node where
  op : Int
  mem : Member
  deriving DecidableEq

/-- The objects. -/
structure Heap where
  trees : List Node
  arrs : List (List Nat)
  strs : List Bytes

/-- A new string object. -/
def newStr (h : Heap) (l : Bytes) : Heap × Nat := ({ h with strs := h.strs ++ [l] }, h.strs.length)

/-- `tm_new<lolly_tree_rep<T>>`. -/
def newNode (h : Heap) (x : Node) : Heap × Nat := ({ h with trees := h.trees ++ [x] }, h.trees.length)

/-- A new array object. -/
def newArr (h : Heap) (l : List Nat) : Heap × Nat := ({ h with arrs := h.arrs ++ [l] }, h.arrs.length)

/-- `lolly_tree (string l)` with a string object, and `lolly_tree ()` (lolly_tree.hpp:30-32, 150). -/
def ofStr (h : Heap) (s : Nat) : Heap × Nat := newNode h ⟨0, .str s⟩

/-- `lolly_tree ()` (lolly_tree.hpp:30). -/
def dflt (h : Heap) : Heap × Nat :=
  let p := newStr h []
  ofStr p.1 p.2

/-- The `n` default trees of `array<lolly_tree<T>> (n)`. -/
def dflts : Nat → Heap → Heap × List Nat
  | 0, h => (h, [])
  | n + 1, h =>
    let p := dflt h
    let q := dflts n p.1
    (q.1, p.2 :: q.2)

/-- `array<lolly_tree<T>> (n)` (array.ipp:30-33). -/
def arrayN (h : Heap) (n : Nat) : Heap × Nat :=
  let p := dflts n h
  newArr p.1 p.2

/-- `lolly_tree (int l, array a)`, sharing the array (lolly_tree.hpp:39-40, 151). -/
def ofArr (h : Heap) (l : Int) (a : Nat) : Heap × Nat := newNode h ⟨l, .arr a⟩

/-- `lolly_tree (int l, int n)` and `lolly_tree (t, n)`, which passes `t->op`
(lolly_tree.hpp:36-37, 42-45). -/
def ofN (h : Heap) (l : Int) (n : Nat) : Heap × Nat :=
  let p := arrayN h n
  ofArr p.1 l p.2

/-- `t->op`. -/
def op (h : Heap) (t : Nat) : Res Int := do
  let x ← rd h.trees t
  .ok x.op

/-- `t->label`: undefined if the array is the member in use. -/
def label (h : Heap) (t : Nat) : Res Bytes := do
  let x ← rd h.trees t
  match x.mem with
  | .str s => rd h.strs s
  | .arr _ => .ub

/-- `A (t)`: `t->a` (lolly_tree.hpp:177-182); undefined if the string is the member in use. -/
def A (h : Heap) (t : Nat) : Res Nat := do
  let x ← rd h.trees t
  match x.mem with
  | .arr a => .ok a
  | .str _ => .ub

/-- The elements of `t->a`. -/
def kids (h : Heap) (t : Nat) : Res (List Nat) := do
  let a ← A h t
  rd h.arrs a

/-- `N (t)` (lolly_tree.hpp:163-168). -/
def N (h : Heap) (t : Nat) : Res Nat := do
  let l ← kids h t
  .ok l.length

/-- `arity (t)` (lolly_tree.hpp:170-175). -/
def arity (h : Heap) (t : Nat) : Res Nat := do
  let o ← op h t
  if o = 0 then .ok 0 else N h t

/-- `is_atomic` (lolly_tree.hpp:191-195). -/
def isAtomic (h : Heap) (t : Nat) : Res Bool := do
  let o ← op h t
  .ok (decide (o = 0))

/-- `is_compound` (lolly_tree.hpp:197-201). -/
def isCompound (h : Heap) (t : Nat) : Res Bool := do
  let o ← op h t
  .ok (decide (o > 0))

/-- `is_generic` (lolly_tree.hpp:203-207). -/
def isGeneric (h : Heap) (t : Nat) : Res Bool := do
  let o ← op h t
  .ok (decide (o < 0))

/-- `t[i]` (lolly_tree.hpp:124-127). -/
def child (h : Heap) (t i : Nat) : Res Nat := do
  let l ← kids h t
  rd l i

/-- `t[i]= c` (lolly_tree.hpp:124-127). -/
def setChild (h : Heap) (t i c : Nat) : Res Heap := do
  let a ← A h t
  let l ← rd h.arrs a
  let l' ← wr l i c
  .ok { h with arrs := h.arrs.set a l' }

/-- `lolly_tree (int l, t1)` (lolly_tree.hpp:47-50). -/
def of1 (h : Heap) (l : Int) (t1 : Nat) : Res (Heap × Nat) := do
  let p := ofN h l 1
  let h ← setChild p.1 p.2 0 t1
  .ok (h, p.2)

/-- `rep->a[i]= t1; rep->a[i+1]= t2; ...`. -/
def setFrom (h : Heap) (r : Nat) : Nat → List Nat → Res Heap
  | _, [] => .ok h
  | i, t :: ts => do
    let h ← setChild h r i t
    setFrom h r (i + 1) ts

/-- `lolly_tree (int l, t1, ..., tn)` for two to eight trees (lolly_tree.hpp:52-122). -/
def ofTrees (h : Heap) (l : Int) (ts : List Nat) : Res (Heap × Nat) := do
  let p := ofN h l ts.length
  let h ← setFrom p.1 p.2 0 ts
  .ok (h, p.2)

/-- `t (start, end)` (lolly_tree.hpp:129-134): for `start <= end`. -/
def slice (h : Heap) (t s e : Nat) : Res (Heap × Nat) := do
  if e < s then .ub
  else
    let o ← op h t
    let p := ofN h o (e - s)
    let h ← forUp s e p.1 fun i h => do
      let c ← child h t i
      setChild h p.2 (i - s) c
    .ok (h, p.2)

/-- The loop of `a != b` on arrays (array.ipp:108-116) with the comparison `ne` of elements. -/
def arrNe (ne : Nat → Nat → Res Bool) (a b : List Nat) : Res Bool :=
  if a.length ≠ b.length then .ok true
  else do
    let r ← forRet 0 a.length fun i => do
      let x ← rd a i
      let y ← rd b i
      let d ← ne x y
      .ok (if d then some true else none)
    .ok (r.getD false)

/-- The loop of `a == b` on arrays (array.ipp:98-106), which uses `!=` of the elements. -/
def arrEq (ne : Nat → Nat → Res Bool) (a b : List Nat) : Res Bool :=
  if a.length ≠ b.length then .ok false
  else do
    let r ← forRet 0 a.length fun i => do
      let x ← rd a i
      let y ← rd b i
      let d ← ne x y
      .ok (if d then some false else none)
    .ok (r.getD true)

/-- `t != u` (lolly_tree.hpp:253-259). -/
def ne (h : Heap) : Nat → Nat → Nat → Res Bool
  | 0, _, _ => .hang
  | f + 1, t, u =>
    if t = u then .ok false
    else do
      let o ← op h t
      let o' ← op h u
      if o ≠ o' then .ok true
      else if o = 0 then do
        let l ← label h t
        let l' ← label h u
        .ok (decide (l ≠ l'))
      else do
        let k ← kids h t
        let k' ← kids h u
        arrNe (fun x y => ne h f x y) k k'

/-- `t == u` (lolly_tree.hpp:245-251). -/
def eq (h : Heap) (f : Nat) (t u : Nat) : Res Bool :=
  if t = u then .ok true
  else do
    let o ← op h t
    let o' ← op h u
    if o ≠ o' then .ok false
    else if o = 0 then do
      let l ← label h t
      let l' ← label h u
      .ok (decide (l = l'))
    else do
      let k ← kids h t
      let k' ← kids h u
      arrEq (fun x y => ne h f x y) k k'

/-- `t == lab` for a label (lolly_tree.hpp:209-213): `N (t)` is evaluated only for the same operator. -/
def eqLab (h : Heap) (t : Nat) (lab : Int) : Res Bool := do
  let o ← op h t
  if o = lab then do
    let n ← N h t
    .ok (decide (n = 0))
  else .ok false

/-- `t == s` for a string (lolly_tree.hpp:221-225). -/
def eqStr (h : Heap) (t : Nat) (s : Bytes) : Res Bool := do
  let o ← op h t
  if o = 0 then do
    let l ← label h t
    .ok (decide (l = s))
  else .ok false

/-- `t != lab` (lolly_tree.hpp:215-219). -/
def neLab (h : Heap) (t : Nat) (lab : Int) : Res Bool := do
  let o ← op h t
  if o ≠ lab then .ok true
  else do
    let n ← N h t
    .ok (decide (n ≠ 0))

/-- `t != s` for a string (lolly_tree.hpp:227-231). -/
def neStr (h : Heap) (t : Nat) (s : Bytes) : Res Bool := do
  let o ← op h t
  if o ≠ 0 then .ok true
  else do
    let l ← label h t
    .ok (decide (l ≠ s))

/-- `is_func (t, l)` (lolly_tree.hpp:267-271). -/
def isFuncAny (h : Heap) (t : Nat) (l : Int) : Res Bool := do
  let o ← op h t
  if o = l then do
    let n ← N h t
    .ok (decide (n ≠ 0))
  else .ok false

/-- `is_func (t, l, i)` (lolly_tree.hpp:273-277). -/
def isFunc (h : Heap) (t : Nat) (l : Int) (i : Nat) : Res Bool := do
  let o ← op h t
  if o = l then do
    let n ← N h t
    .ok (decide (n = i))
  else .ok false

/-- `to_string (t)` (lolly_tree.hpp:331-336). -/
def toString (h : Heap) (t : Nat) : Res Bytes := do
  let o ← op h t
  if o = 0 then label h t else .ok []

/-- `is_bool (t)` (lolly_tree.hpp:279-283). -/
def isBool (h : Heap) (t : Nat) : Res Bool := do
  let b ← isAtomic h t
  if b then do
    let l ← label h t
    .ok (Conv.isBool l)
  else .ok false

/-- `is_int (t)` (lolly_tree.hpp:285-289). -/
def isInt (h : Heap) (t : Nat) : Res Bool := do
  let b ← isAtomic h t
  if b then do
    let l ← label h t
    Conv.isInt (rd l) l.length
  else .ok false

/-- `is_double (t)` (lolly_tree.hpp:291-295). -/
def isDouble (h : Heap) (t : Nat) : Res Bool := do
  let b ← isAtomic h t
  if b then do
    let l ← label h t
    Conv.isDouble (rd l) l.length
  else .ok false

/-- `is_string (t)` (lolly_tree.hpp:297-301). -/
def isString (h : Heap) (t : Nat) : Res Bool := isAtomic h t

/-- `as_bool (t)` (lolly_tree.hpp:303-308). -/
def asBool (h : Heap) (t : Nat) : Res Bool := do
  let b ← isAtomic h t
  if b then do
    let l ← label h t
    .ok (Conv.asBool l)
  else .ok false

/-- `as_int (t)` and `as_long_int (t)` (lolly_tree.hpp:310-322) with the limit of the type. -/
def asInt (lim : Int) (h : Heap) (t : Nat) : Res Int := do
  let b ← isAtomic h t
  if b then do
    let l ← label h t
    Conv.asInt lim l
  else .ok 0

/-- `if (is_atomic (t1)) t1= lolly_tree<T> (t2->op, t1)` (lolly_tree.hpp:344-345). -/
def wrap (h : Heap) (t1 t2 : Nat) : Res (Heap × Nat) := do
  let b ← isAtomic h t1
  if b then do
    let o ← op h t2
    of1 h o t1
  else .ok (h, t1)

/-- `t1 * t2` (lolly_tree.hpp:340-352). -/
def mul (h : Heap) (t1 t2 : Nat) : Res (Heap × Nat) := do
  let p1 ← wrap h t1 t2
  let p2 ← wrap p1.1 t2 p1.2
  let h := p2.1
  let t1 := p1.2
  let t2 := p2.2
  let n1 ← N h t1
  let n2 ← N h t2
  let o ← op h t1
  let r := ofN h o (n1 + n2)
  let h ← forUp 0 n1 r.1 fun i h => do
    let c ← child h t1 i
    setChild h r.2 i c
  let h ← forUp 0 n2 h fun i h => do
    let c ← child h t2 i
    setChild h r.2 (i + n1) c
  .ok (h, r.2)

/-- `t << t2` (lolly_tree.hpp:354-360, array.ipp:132-138). -/
def push (h : Heap) (t t2 : Nat) : Res Heap := do
  let a ← A h t
  let l ← rd h.arrs a
  .ok { h with arrs := h.arrs.set a (l ++ [t2]) }

/-- `t << a` (lolly_tree.hpp:362-368, array.ipp:140-148): the new cells hold default trees first, and the
bound `N (b)` is read again at each turn. For two different arrays that bound is constant. -/
def pushAll (h : Heap) (t b : Nat) : Res Heap := do
  let a ← A h t
  let l ← rd h.arrs a
  let m ← rd h.arrs b
  let p := dflts m.length h
  let h := { p.1 with arrs := p.1.arrs.set a (l ++ p.2) }
  let m ← rd h.arrs b
  forUp 0 m.length h fun i h => do
    let m ← rd h.arrs b
    let c ← rd m i
    let k ← rd h.arrs a
    let k ← wr k (i + l.length) c
    .ok { h with arrs := h.arrs.set a k }

/-- `copy (t)` (lolly_tree.hpp:387-398). -/
def copy : Nat → Heap → Nat → Res (Heap × Nat)
  | 0, _, _ => .hang
  | f + 1, h, t => do
    let o ← op h t
    if o = 0 then do
      let l ← label h t
      let p := newStr h l
      .ok (ofStr p.1 p.2)
    else do
      let n ← N h t
      let p := ofN h o n
      let h ← forUp 0 n p.1 fun i h => do
        let c ← child h t i
        let q ← copy f h c
        setChild q.1 p.2 i q.2
      .ok (h, p.2)

/-- Printing the trees of `l` one after the other, separated by `", "` (lolly_tree.hpp:378-380). -/
def printList (pr : Nat → Res Bytes) : List Nat → Res Bytes
  | [] => .ub
  | [x] => pr x
  | x :: y :: l => do
    let a ← pr x
    let b ← printList pr (y :: l)
    .ok (a ++ b!", " ++ b)

/-- `out << t` (lolly_tree.hpp:370-384): the bytes written. -/
def print (h : Heap) : Nat → Nat → Res Bytes
  | 0, _ => .hang
  | f + 1, t => do
    let o ← op h t
    if o = 0 then label h t
    else if 0 < o then do
      let l ← kids h t
      if l.length = 0 then .ok (Conv.asString o ++ b!"()")
      else do
        let b ← printList (fun x => print h f x) l
        .ok (Conv.asString o ++ b!" (" ++ b ++ b!")")
    else .ok []

end Lolly.LTree
