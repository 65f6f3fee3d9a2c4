import Verif.Containers.LinkedList

set_option autoImplicit false

/-!
# The cost of building lists and of going through them

The functions of LinkedList.lean that walk along a list, with the number of their calls or rounds, and the loops in which
programs use them.
-/

namespace Lolly.ListCost

open LL

variable {T : Type}

/-- Add `n` to the cost. -/
def plus {α : Type} (n : Nat) (x : Res (α × Nat)) : Res (α × Nat) := do
  let (a, m) ← x
  .ok (a, n + m)

/-- The outcome without the cost. -/
def forget {α : Type} (x : Res (α × Nat)) : Res α := do
  let (a, _) ← x
  .ok a

/-- `operator<< (list<T>&, T)` (list.ipp:47-53), with the number of calls. -/
def pushC (x : T) : Nat → State T → Ref → Res (State T × Nat)
  | 0, _, _ => .hang
  | f + 1, s, r => do
    match ← load s r with
    | none =>
      let (q, h) := mk s.cells x none
      let s' ← store { s with cells := h } r q
      .ok (s', 1)
    | some a => plus 1 (pushC x f s (.nxt a))

/-- `operator[]` (list.ipp:35-41), with the number of calls. -/
def nthC (h : Cells T) : Nat → Ptr → Int → Res (T × Nat)
  | 0, _, _ => .hang
  | f + 1, p, i => do
    let c ← derefA h p
    if i = 0 then .ok (c.item, 1) else plus 1 (nthC h f c.next (i - 1))

/-- The loop of `N` (list.ipp:155-158), with the number of rounds. -/
def lenLoopC (h : Cells T) : Nat → Cell T → Nat → Res (Nat × Nat)
  | 0, _, _ => .hang
  | f + 1, c, cnt =>
    match c.next with
    | none => .ok (cnt, 0)
    | some a => do plus 1 (lenLoopC h f (← rd h a) (cnt + 1))

/-- `N` (list.ipp:149-160). -/
def lenC (h : Cells T) : Ptr → Res (Nat × Nat)
  | none => .ok (0, 0)
  | some a => do lenLoopC h (h.length + 1) (← rd h a) 1

/-- The loop of `reverse` (list.ipp:201-210), with the number of rounds. -/
def reverseLoopC : Nat → Cells T → Ptr → Ptr → Res ((Ptr × Cells T) × Nat)
  | 0, _, _, _ => .hang
  | f + 1, h, p, r =>
    match p with
    | none => .ok ((r, h), 0)
    | some a => do
      let c ← rd h a
      let (r, h) := mk h c.item r
      plus 1 (reverseLoopC f h c.next r)

/-- A program that appends items: `l << x;` for every one. -/
def appendAll (v : Nat) : List T → State T → Res (State T × Nat)
  | [], s => .ok (s, 0)
  | x :: xs, s => do
    let (s, n) ← pushC x (s.cells.length + 1) s (.var v)
    plus n (appendAll v xs s)

/-- A program that puts items in front: `x >> l;` for every one (list.ipp:63-67, no loop). -/
def consAll (v : Nat) : List T → State T → Res (State T × Nat)
  | [], s => .ok (s, 0)
  | x :: xs, s => do
    let s ← cons s x v
    plus 1 (consAll v xs s)

/-- A program that puts items in front and reverses the list: `x >> l; ... l= reverse (l);`. -/
def consReverse (v : Nat) (xs : List T) (s : State T) : Res (State T × Nat) := do
  let (s, n) ← consAll v xs s
  let p ← load s (.var v)
  let ((q, h), m) ← reverseLoopC (s.cells.length + 1) s.cells p none
  let s ← store { s with cells := h } (.var v) q
  .ok (s, n + m)

/-- A program that collects items by index: `for (i= 0; i < N (l); i++) ... l[i] ...`. -/
def indexLoop (h : Cells T) (p : Ptr) : Nat → Int → List T → Res (List T × Nat)
  | 0, _, _ => .hang
  | f + 1, i, acc => do
    let (n, a) ← lenC h p
    if i < n then do
      let (x, b) ← nthC h (h.length + 1) p i
      plus (a + b) (indexLoop h p f (i + 1) (acc ++ [x]))
    else .ok (acc, a)

/-- A program that collects items from node to node: `for (; !is_nil (l); l= l->next) ... l->item ...`. -/
def walkLoop (h : Cells T) : Nat → Ptr → List T → Res (List T × Nat)
  | 0, _, _ => .hang
  | _ + 1, none, acc => .ok (acc, 0)
  | f + 1, some a, acc => do
    let c ← rd h a
    plus 1 (walkLoop h f c.next (acc ++ [c.item]))

end Lolly.ListCost
