import Verif.Basic

/-!
# Model of `list<T>` (Kernel/Containers/list.hpp, list.ipp)

List nodes live in a heap: a list of cells addressed by position. A `list<T>` value is a pointer,
`none` for nil. Nodes are never reclaimed in this model (reference counting is modelled separately).
Since chains can be made cyclic by the in-place operations, every recursion and loop carries fuel,
and the entry points give it `cells + 1`, which is enough for every acyclic chain; a cyclic chain makes
the real code loop forever, here `hang`.
-/

set_option autoImplicit false

namespace Lolly.LL

variable {T : Type}

/-- `list_rep<T>` (list.hpp: `T item; list<T> next;`). -/
structure Cell (T : Type) where
  item : T
  next : Option Nat
  deriving DecidableEq

abbrev Ptr := Option Nat
abbrev Cells (T : Type) := List (Cell T)

/-- `l->...`: undefined on nil. -/
def deref (h : Cells T) : Ptr → Res (Cell T)
  | none => .ub
  | some a => rd h a

/-- `ASSERT (!is_nil (l), ...)` followed by `l->...`. -/
def derefA (h : Cells T) : Ptr → Res (Cell T)
  | none => .thrown
  | some a => rd h a

/-- `list<T> (item, next)`. -/
def mk (h : Cells T) (x : T) (p : Ptr) : Ptr × Cells T := (some h.length, h ++ [⟨x, p⟩])

/-- `operator[]` (list.ipp:35-41) for reading. -/
def nthF (h : Cells T) : Nat → Ptr → Int → Res T
  | 0, _, _ => .hang
  | f + 1, p, i => do
    let c ← derefA h p
    if i = 0 then .ok c.item else nthF h f c.next (i - 1)

def nth (h : Cells T) (p : Ptr) (i : Int) : Res T := nthF h (h.length + 1) p i

/-- `last_item` (list.ipp:77-85). -/
def lastLoop (h : Cells T) : Nat → Cell T → Res T
  | 0, _ => .hang
  | f + 1, c =>
    match c.next with
    | none => .ok c.item
    | some a => do lastLoop h f (← rd h a)

def lastItem (h : Cells T) (p : Ptr) : Res T := do
  let c ← derefA h p
  lastLoop h (h.length + 1) c

section eq
variable [DecidableEq T]

/-- `operator==` (list.ipp:114-122). -/
def eqF (h : Cells T) : Nat → Ptr → Ptr → Res Bool
  | 0, _, _ => .hang
  | f + 1, p, q =>
    if p.isNone || q.isNone then .ok (p.isNone == q.isNone)
    else do
      let c ← deref h p
      let d ← deref h q
      if c.item ≠ d.item then .ok false else eqF h f c.next d.next

def eq (h : Cells T) (p q : Ptr) : Res Bool := eqF h (h.length + 1) p q

/-- `operator!=` (list.ipp:124-129). -/
def neF (h : Cells T) : Nat → Ptr → Ptr → Res Bool
  | 0, _, _ => .hang
  | f + 1, p, q =>
    if p.isNone || q.isNone then .ok (p.isNone != q.isNone)
    else do
      let c ← deref h p
      let d ← deref h q
      if c.item ≠ d.item then .ok true else neF h f c.next d.next

def ne (h : Cells T) (p q : Ptr) : Res Bool := neF h (h.length + 1) p q

/-- `operator<` (list.ipp:131-136). -/
def ltF (h : Cells T) : Nat → Ptr → Ptr → Res Bool
  | 0, _, _ => .hang
  | f + 1, p, q =>
    if p.isNone || q.isNone then .ok (!q.isNone)
    else do
      let c ← deref h p
      let d ← deref h q
      if c.item = d.item then ltF h f c.next d.next else .ok false

def lt (h : Cells T) (p q : Ptr) : Res Bool := ltF h (h.length + 1) p q

/-- `operator<=` (list.ipp:138-143). -/
def leF (h : Cells T) : Nat → Ptr → Ptr → Res Bool
  | 0, _, _ => .hang
  | f + 1, p, q =>
    if p.isNone || q.isNone then .ok p.isNone
    else do
      let c ← deref h p
      let d ← deref h q
      if c.item = d.item then leF h f c.next d.next else .ok false

def le (h : Cells T) (p q : Ptr) : Res Bool := leF h (h.length + 1) p q

/-- `contains` (list.ipp:220-227). -/
def containsF (h : Cells T) (x : T) : Nat → Ptr → Res Bool
  | 0, _ => .hang
  | f + 1, p =>
    match p with
    | none => .ok false
    | some a => do
      let c ← rd h a
      if c.item = x then .ok true else containsF h x f c.next

def contains (h : Cells T) (p : Ptr) (x : T) : Res Bool := containsF h x (h.length + 1) p

/-- `remove` (list.ipp:212-218). -/
def removeF (x : T) : Nat → Cells T → Ptr → Res (Ptr × Cells T)
  | 0, _, _ => .hang
  | f + 1, h, p =>
    match p with
    | none => .ok (none, h)
    | some a => do
      let c ← rd h a
      if c.item = x then removeF x f h c.next
      else do
        let (q, h) ← removeF x f h c.next
        .ok (mk h c.item q)

def remove (h : Cells T) (p : Ptr) (x : T) : Res (Ptr × Cells T) := removeF x (h.length + 1) h p

end eq

/-- `N` (list.ipp:149-160). -/
def lenLoop (h : Cells T) : Nat → Cell T → Nat → Res Nat
  | 0, _, _ => .hang
  | f + 1, c, cnt =>
    match c.next with
    | none => .ok cnt
    | some a => do lenLoop h f (← rd h a) (cnt + 1)

def len (h : Cells T) : Ptr → Res Nat
  | none => .ok 0
  | some a => do lenLoop h (h.length + 1) (← rd h a) 1

/-- `copy` (list.ipp:162-167). -/
def copyF : Nat → Cells T → Ptr → Res (Ptr × Cells T)
  | 0, _, _ => .hang
  | f + 1, h, p =>
    match p with
    | none => .ok (none, h)
    | some a => do
      let c ← rd h a
      let (q, h) ← copyF f h c.next
      .ok (mk h c.item q)

def copy (h : Cells T) (p : Ptr) : Res (Ptr × Cells T) := copyF (h.length + 1) h p

/-- `operator* (list<T>, T)` (list.ipp:169-174). -/
def snocF (x : T) : Nat → Cells T → Ptr → Res (Ptr × Cells T)
  | 0, _, _ => .hang
  | f + 1, h, p =>
    match p with
    | none => .ok (mk h x none)
    | some a => do
      let c ← rd h a
      let (q, h) ← snocF x f h c.next
      .ok (mk h c.item q)

def snoc (h : Cells T) (p : Ptr) (x : T) : Res (Ptr × Cells T) := snocF x (h.length + 1) h p

/-- `operator* (list<T>, list<T>)` (list.ipp:176-181). -/
def concatF (p2 : Ptr) (f2 : Nat) : Nat → Cells T → Ptr → Res (Ptr × Cells T)
  | 0, _, _ => .hang
  | f + 1, h, p =>
    match p with
    | none => copyF f2 h p2
    | some a => do
      let c ← rd h a
      let (q, h) ← concatF p2 f2 f h c.next
      .ok (mk h c.item q)

def concat (h : Cells T) (p1 p2 : Ptr) : Res (Ptr × Cells T) :=
  concatF p2 (h.length + 1) (h.length + 1) h p1

/-- `head` (list.ipp:183-189). -/
def headF : Nat → Cells T → Ptr → Int → Res (Ptr × Cells T)
  | 0, _, _, _ => .hang
  | f + 1, h, p, n =>
    if n = 0 then .ok (none, h)
    else do
      let c ← derefA h p
      let (q, h) ← headF f h c.next (n - 1)
      .ok (mk h c.item q)

def head (h : Cells T) (p : Ptr) (n : Int) : Res (Ptr × Cells T) := headF (h.length + 1) h p n

/-- `tail` (list.ipp:191-199). -/
def tailN (h : Cells T) : Nat → Ptr → Res Ptr
  | 0, p => .ok p
  | n + 1, p => do
    let c ← derefA h p
    tailN h n c.next

def tail (h : Cells T) (p : Ptr) (n : Int) : Res Ptr := tailN h n.toNat p

/-- `reverse` (list.ipp:201-210). -/
def reverseLoop : Nat → Cells T → Ptr → Ptr → Res (Ptr × Cells T)
  | 0, _, _, _ => .hang
  | f + 1, h, p, r =>
    match p with
    | none => .ok (r, h)
    | some a => do
      let c ← rd h a
      let (r, h) := mk h c.item r
      reverseLoop f h c.next r

def reverse (h : Cells T) (p : Ptr) : Res (Ptr × Cells T) := reverseLoop (h.length + 1) h p none

/-! ## In-place operations

A `list<T>&` is a variable of the program or the `next` field of a node. -/

structure State (T : Type) where
  cells : Cells T
  vars : List Ptr

inductive Ref
  | var (i : Nat)
  | nxt (a : Nat)

def load (s : State T) : Ref → Res Ptr
  | .var i => rd s.vars i
  | .nxt a => do .ok (← rd s.cells a).next

def store (s : State T) (r : Ref) (p : Ptr) : Res (State T) :=
  match r with
  | .var i => do .ok { s with vars := ← wr s.vars i p }
  | .nxt a => do
    let c ← rd s.cells a
    .ok { s with cells := ← wr s.cells a { c with next := p } }

/-- `operator<< (list<T>&, T)` (list.ipp:47-53). -/
def pushF (x : T) : Nat → State T → Ref → Res (State T)
  | 0, _, _ => .hang
  | f + 1, s, r => do
    match ← load s r with
    | none =>
      let (q, h) := mk s.cells x none
      store { s with cells := h } r q
    | some a => pushF x f s (.nxt a)

def push (s : State T) (v : Nat) (x : T) : Res (State T) := pushF x (s.cells.length + 1) s (.var v)

/-- `operator<< (list<T>&, list<T>)` (list.ipp:55-61). -/
def joinF (q : Ptr) : Nat → State T → Ref → Res (State T)
  | 0, _, _ => .hang
  | f + 1, s, r => do
    match ← load s r with
    | none => store s r q
    | some a => joinF q f s (.nxt a)

def join (s : State T) (v : Nat) (q : Ptr) : Res (State T) := joinF q (s.cells.length + 1) s (.var v)

/-- `operator>> (T, list<T>&)` (list.ipp:63-67). -/
def cons (s : State T) (x : T) (v : Nat) : Res (State T) := do
  let p ← load s (.var v)
  let (q, h) := mk s.cells x p
  store { s with cells := h } (.var v) q

/-- `operator<< (T&, list<T>&)` (list.ipp:69-75): nil is dereferenced without a test. -/
def pop (s : State T) (v : Nat) : Res (T × State T) := do
  let p ← load s (.var v)
  let c ← deref s.cells p
  let s ← store s (.var v) c.next
  .ok (c.item, s)

/-- `access_last (l)= x` (list.ipp:87-93). -/
def setLastF (x : T) : Nat → State T → Ref → Res (State T)
  | 0, _, _ => .hang
  | f + 1, s, r => do
    match ← load s r with
    | none => .thrown
    | some a => do
      let c ← rd s.cells a
      match c.next with
      | none => .ok { s with cells := ← wr s.cells a { c with item := x } }
      | some _ => setLastF x f s (.nxt a)

def setLast (s : State T) (v : Nat) (x : T) : Res (State T) :=
  setLastF x (s.cells.length + 1) s (.var v)

/-- `l[i]= x` (`operator[]`, list.ipp:35-41, gives a reference to the item). -/
def setNthF (x : T) : Nat → State T → Ptr → Int → Res (State T)
  | 0, _, _, _ => .hang
  | f + 1, s, p, i =>
    match p with
    | none => .thrown
    | some a => do
      let c ← rd s.cells a
      if i = 0 then .ok { s with cells := ← wr s.cells a { c with item := x } }
      else setNthF x f s c.next (i - 1)

def setNth (s : State T) (v : Nat) (i : Int) (x : T) : Res (State T) := do
  let p ← load s (.var v)
  setNthF x (s.cells.length + 1) s p i

/-- `strong_equal` (list.ipp:108-112): the addresses of the first nodes are compared. -/
def strongEqual (p q : Ptr) : Bool := decide (p = q)

/-- `is_atom` (list.hpp:144-148). -/
def isAtom (h : Cells T) (p : Ptr) : Res Bool :=
  match p with
  | none => .ok false
  | some a => do .ok (← rd h a).next.isNone

/-- `suppress_last` (list.ipp:95-102). -/
def suppressF : Nat → State T → Ref → Res (State T)
  | 0, _, _ => .hang
  | f + 1, s, r => do
    match ← load s r with
    | none => .thrown
    | some a => do
      let c ← rd s.cells a
      match c.next with
      | none => store s r none
      | some _ => suppressF f s (.nxt a)

def suppressLast (s : State T) (v : Nat) : Res (State T) :=
  suppressF (s.cells.length + 1) s (.var v)

end Lolly.LL
