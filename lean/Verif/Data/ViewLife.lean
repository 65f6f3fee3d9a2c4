import Verif.Strings.StrLemmas

/-!
# Model of views of strings while the strings are changed (Kernel/Types/string.hpp, string.cpp,
lolly/data/string_view.hpp)

A view keeps the pointer and the length that the string had; it does not keep the string. Here blocks have identities,
which are never used again: an access to a block that was freed is undefined even if the allocator gives the same
address again. Handles that share a representation are the same string here. Strings are shorter than `2^31`.

`a << b` for strings (string.cpp:146-153) is `resize` and then one assignment for each character of `b`.
-/

set_option autoImplicit false

namespace Lolly.ViewLife

/-- `string_rep` (string.hpp:23-26); the pointer is the identity of the block, `none` is NULL. -/
structure Rep where
  n : Nat
  a : Option Nat
  deriving DecidableEq

/-- The members of a view (string_view.hpp:27-28); the pointer is a block and an offset in it. -/
structure View where
  n : Nat
  a : Option (Nat × Nat)
  deriving DecidableEq

/-- The memory, the representations (`none` if destroyed) and the views. `next` is the first identity that was not
used yet. -/
structure State where
  block : Nat → Option Bytes
  next : Nat
  strs : List (Option Rep)
  views : List View

/-- What a program does. Strings and views are numbered in the order in which they are made. -/
inductive Op where
  | make (l : Bytes)
  | view (s : Nat)
  | part (v : Nat) (b e : Int)
  | put (s i : Nat) (x : UInt8)
  | resize (s m : Nat)
  | push (s : Nat) (x : UInt8)
  | drop (s : Nat)
  deriving DecidableEq

def init : State := ⟨fun _ => none, 0, [], []⟩

/-- Change of one block. -/
def upd (f : Nat → Option Bytes) (b : Nat) (c : Option Bytes) : Nat → Option Bytes := fun k => if k = b then c else f k

/-- Access to a representation. -/
def getStr (st : State) (s : Nat) : Res Rep :=
  match st.strs[s]? with
  | some (some r) => .ok r
  | _ => .ub

/-- Access to a block. -/
def getBlk (st : State) : Option Nat → Res (Nat × Bytes)
  | some b =>
    match st.block b with
    | some c => .ok (b, c)
    | none => .ub
  | none => .ub

/-- The string `s` gets a new length and pointer. -/
def setStr (st : State) (s : Nat) (r : Rep) : State := { st with strs := st.strs.set s (some r) }

/-- `string (const char*, int)` (string.cpp:74-79) with the constructor of the representation (string.cpp:34-36): the
cells behind the characters are zero. -/
def make (st : State) (l : Bytes) : State :=
  if l.length = 0 then { st with strs := st.strs ++ [some ⟨0, none⟩] }
  else { st with
    block := upd st.block st.next (some (l ++ List.replicate (Str.roundLength l.length - l.length) 0))
    next := st.next + 1
    strs := st.strs ++ [some ⟨l.length, some st.next⟩] }

/-- `operator string_view<char>` (string.hpp:57-59). -/
def view (st : State) (s : Nat) : Res State := do
  let r ← getStr st s
  .ok { st with views := st.views ++ [⟨r.n, r.a.map fun b => (b, 0)⟩] }

/-- `operator()` of a view (string_view.hpp:57-66). -/
def part (st : State) (v : Nat) (b e : Int) : Res State := do
  let w ← rd st.views v
  if e ≤ b then .ok { st with views := st.views ++ [⟨0, none⟩] }
  else
    let b := (max (min (w.n : Int) b) 0).toNat
    let e := (max (min (w.n : Int) e) 0).toNat
    .ok { st with views := st.views ++ [⟨e - b, w.a.map fun p => (p.1, p.2 + b)⟩] }

/-- `s[i]= x` (string.hpp:48). -/
def put (st : State) (s i : Nat) (x : UInt8) : Res State := do
  let r ← getStr st s
  let p ← getBlk st r.a
  let c ← wr p.2 i x
  .ok { st with block := upd st.block p.1 (some c) }

/-- `string_rep::resize` (string.cpp:38-54) with `tm_resize_array` (fast_alloc.hpp:417-431). -/
def resize (st : State) (s m : Nat) : Res State := do
  let r ← getStr st s
  let nn := Str.roundLength r.n
  let mm := Str.roundLength m
  if mm ≠ nn then
    if mm ≠ 0 then
      if nn ≠ 0 then do
        let p ← getBlk st r.a
        .ok (setStr { st with
          block := upd (upd st.block p.1 none) st.next (some (Arr.resizeCells 0 mm p.2))
          next := st.next + 1 } s ⟨m, some st.next⟩)
      else
        .ok (setStr { st with
          block := upd st.block st.next (some (List.replicate mm 0))
          next := st.next + 1 } s ⟨m, some st.next⟩)
    else do
      let p ← getBlk st r.a
      .ok (setStr { st with block := upd st.block p.1 none } s ⟨m, r.a⟩)
  else .ok (setStr st s ⟨m, r.a⟩)

/-- `operator<< (string&, char)` (string.cpp:139-144). -/
def push (st : State) (s : Nat) (x : UInt8) : Res State := do
  let r ← getStr st s
  let st ← resize st s (r.n + 1)
  let r ← getStr st s
  put st s (r.n - 1) x

/-- The last handle of a string disappears: `~string_rep` (string.hpp:31-33). -/
def drop (st : State) (s : Nat) : Res State := do
  let r ← getStr st s
  if r.n ≠ 0 then do
    let p ← getBlk st r.a
    .ok { st with block := upd st.block p.1 none, strs := st.strs.set s none }
  else .ok { st with strs := st.strs.set s none }

def step (st : State) : Op → Res State
  | .make l => .ok (make st l)
  | .view s => view st s
  | .part v b e => part st v b e
  | .put s i x => put st s i x
  | .resize s m => resize st s m
  | .push s x => push st s x
  | .drop s => drop st s

def run : State → List Op → Res State
  | st, [] => .ok st
  | st, op :: ops => do
    let st ← step st op
    run st ops

/-- Reading all elements of a view, as the comparisons of views do (string_view.hpp:68-148). -/
def text (st : State) (v : Nat) : Res Bytes := do
  let w ← rd st.views v
  if w.n = 0 then .ok []
  else
    match w.a with
    | none => .ub
    | some (b, o) =>
      match st.block b with
      | none => .ub
      | some c => if o + w.n ≤ c.length then .ok ((c.drop o).take w.n) else .ub

/-- The characters of a string, read with `s[i]` (string.hpp:48). -/
def chars (st : State) (s : Nat) : Res Bytes := do
  let r ← getStr st s
  if r.n = 0 then .ok []
  else do
    let p ← getBlk st r.a
    if r.n ≤ p.2.length then .ok (p.2.take r.n) else .ub

end Lolly.ViewLife
