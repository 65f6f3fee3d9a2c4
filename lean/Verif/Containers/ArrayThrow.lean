import Verif.Containers.Array

/-!
# Arrays of elements whose functions throw (Kernel/Containers/array.ipp)

`array<T>` once more, where the constructor `T ()` and the assignment of elements may throw an exception. Calls of these
functions are numbered one after the other; `fails k` says that call number `k` throws. What counts when a call throws is the
array at that moment, so outcomes carry the array. A block of memory may have been freed (`live`) and may have cells in which
no element was constructed (`none`); its header says how many elements it should have.

Simplifications: lengths are not negative and do not overflow, and there is always memory (for these see `ArrayMem.lean`); an
assignment that throws leaves its element as it was; destructors do not throw. `moves` says whether `fast_realloc` gives a new
block: it does for small blocks, and for large ones `realloc` may or may not (fast_alloc.cpp:120-138). Blocks
that are leaked when a constructor throws are not modelled.
-/

set_option autoImplicit false

namespace Lolly.ArrayThrow

variable {T α β : Type}

/-- A block of `tm_new_array` (System/Memory/fast_alloc.hpp:406-416): not yet freed, the number in its header, its cells. -/
structure Blk (T : Type) where
  live : Bool
  num : Nat
  cells : List (Option T)
  deriving DecidableEq

/-- `array_rep<T>` (array.hpp:53-55). -/
structure Arr (T : Type) where
  n : Nat
  a : Option (Blk T)
  deriving DecidableEq

/-- Outcomes: the state afterwards, the number of the next call of an element's function, and the result. -/
inductive Out (S α : Type)
  | ret (s : S) (t : Nat) (x : α)
  | thrown (s : S) (t : Nat)
  | ub
  deriving DecidableEq

/-- A cell of a block is read. -/
def cell (b : Blk T) (i : Nat) : Res T :=
  if b.live then
    match b.cells[i]? with
    | some (some x) => .ok x
    | _ => .ub
  else .ub

/-- `a[i]` (array.hpp:161). -/
def get (a : Arr T) (i : Nat) : Res T :=
  match a.a with
  | some b => cell b i
  | none => .ub

/-- All cells below `k` hold elements. -/
def full (b : Blk T) : Nat → Bool
  | 0 => true
  | k + 1 => (match b.cells[k]? with | some (some _) => true | _ => false) && full b k

/-- `tm_delete_array` (fast_alloc.hpp:433-443): destroys as many elements as the header says and frees the block. -/
def delete (b : Blk T) : Res Unit := if b.live && full b b.num then .ok () else .ub

/-- `~array_rep` (array.hpp:73-75). -/
def destroy (a : Arr T) : Res Unit :=
  if a.n ≠ 0 then
    match a.a with
    | some b => delete b
    | none => .ub
  else .ok ()

variable (fails : Nat → Bool) (dv : T)

/-- `for (...; i++, ctr++) new (ctr) C ()` with `k` rounds from call `t` on (fast_alloc.hpp:413-414, 428-429): how many
elements were constructed, and whether the loop came to its end. -/
def construct : Nat → Nat → Nat × Bool
  | 0, _ => (0, true)
  | k + 1, t => if fails t then (0, false) else let (m, b) := construct k (t + 1); (m + 1, b)

/-- `array_rep<T>::array_rep (int n2)` (array.ipp:30-33); if it throws there is no array. -/
def make (n : Nat) (t : Nat) : Out Unit (Arr T) :=
  if n = 0 then .ret () t ⟨0, none⟩
  else
    let (m, b) := construct fails (Arr.roundLength n) t
    if b then .ret () (t + m) ⟨n, some ⟨true, Arr.roundLength n, List.replicate (Arr.roundLength n) (some dv)⟩⟩
    else .thrown () (t + m + 1)

/-- `a= tm_resize_array<T> (mm, a)` (fast_alloc.hpp:417-431): the old block is gone, or stays with the new number in its
header, before elements are constructed; `a` is set afterwards. -/
def realloc (moves : Bool) (a : Arr T) (b : Blk T) (mm : Nat) (t : Nat) : Out (Arr T) Unit :=
  if b.live then
    let (m, e) := construct fails (mm - b.num) t
    let cells := b.cells.take mm ++ List.replicate m (some dv) ++ List.replicate (mm - b.num - m) none
    if e then .ret { a with a := some ⟨true, mm, cells⟩ } (t + m) ()
    else .thrown { a with a := some (if moves then { b with live := false } else ⟨true, mm, cells⟩) } (t + m + 1)
  else .ub

/-- `array_rep<T>::resize` (array.ipp:35-55). -/
def resize (moves : Bool) (a : Arr T) (m : Nat) (t : Nat) : Out (Arr T) Unit :=
  let nn := Arr.roundLength a.n
  let mm := Arr.roundLength m
  if mm ≠ nn then
    if mm ≠ 0 then
      if nn ≠ 0 then
        match a.a with
        | none => .ub
        | some b =>
          match realloc fails dv moves a b mm t with
          | .ret a t _ => .ret { a with n := m } t ()
          | o => o
      else
        let (k, e) := construct fails mm t
        if e then .ret ⟨m, some ⟨true, mm, List.replicate mm (some dv)⟩⟩ (t + k) () else .thrown a (t + k + 1)
    else
      match a.a with
      | none => .ub
      | some b =>
        match delete b with
        | .ok _ => .ret ⟨m, none⟩ t ()
        | _ => .ub
  else .ret { a with n := m } t ()

omit dv in
/-- `a[i]= x` (array.hpp:161): the element must be there to be assigned to. -/
def put (a : Arr T) (i : Nat) (x : T) (t : Nat) : Out (Arr T) Unit :=
  match a.a with
  | none => .ub
  | some b =>
    match cell b i with
    | .ok _ => if fails t then .thrown a (t + 1) else .ret { a with a := some { b with cells := b.cells.set i (some x) } } (t + 1) ()
    | _ => .ub

/-- `a << x` (array.ipp:132-138). -/
def push (moves : Bool) (a : Arr T) (x : T) (t : Nat) : Out (Arr T) Unit :=
  match resize fails dv moves a (a.n + 1) t with
  | .ret a t _ => put fails a (a.n - 1) x t
  | o => o

omit dv in
/-- The loop of `a << b` (array.ipp:145-146): the elements of `b` from position `i` on. -/
def puts (a : Arr T) (i : Nat) : List T → Nat → Out (Arr T) Unit
  | [], t => .ret a t ()
  | x :: xs, t =>
    match put fails a i x t with
    | .ret a t _ => puts a (i + 1) xs t
    | o => o

/-- `a << b` for another array with the elements `l` (array.ipp:140-148). -/
def append (moves : Bool) (a : Arr T) (l : List T) (t : Nat) : Out (Arr T) Unit :=
  match resize fails dv moves a (a.n + l.length) t with
  | .ret a' t _ => puts fails a' a.n l t
  | o => o

end Lolly.ArrayThrow
