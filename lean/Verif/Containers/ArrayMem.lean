import Verif.Containers.Array

set_option autoImplicit false

/-!
# Lifetimes of the elements of arrays

`tm_new_array`, `tm_resize_array`, `tm_delete_array` (System/Memory/fast_alloc.hpp:405-443, not `DEBUG_ON`) and `array_rep`
on top of them (Kernel/Containers/array.hpp:53-75, array.ipp:20-55).

Elements are objects with an identity: `construct` makes a new one in a cell, copying of memory moves it, and the world
remembers which ones were destroyed. Every block belongs to one array, so that it is a value here. Assignments to elements
neither construct nor destroy and are left out. `sz` is `sizeof (T)`; `lim` is the size from which on there is no memory.
-/

namespace Lolly.ArrayMem

/-- A block: the size asked for, the number in its header, and the object in each cell (`none`: raw memory). -/
structure Block where
  bytes : Nat
  num : Int
  cells : List (Option Nat)
  deriving DecidableEq

/-- How many objects were constructed (they are numbered from 0), and which ones were destroyed. -/
structure World where
  objs : Nat
  dead : List Nat
  deriving DecidableEq

/-- `n * sizeof (C) + WORD_LENGTH` in `size_t` (fast_alloc.hpp:409, 423, 442). -/
def bytes (sz : Nat) (n : Int) : Nat := ((n * sz + 8) % 2 ^ 64).toNat

/-- How many elements fit behind the header. -/
def room (sz b : Nat) : Nat := (b - 8) / sz

/-- `for (...; i++, ctr++) new (ctr) C ()` with `k` rounds from cell `i` on (fast_alloc.hpp:413-414, 428-429). -/
def construct : Nat → Nat → World → List (Option Nat) → Res (World × List (Option Nat))
  | 0, _, w, c => .ok (w, c)
  | k + 1, i, w, c => do
    let c ← wr c i (some w.objs)
    construct k (i + 1) { w with objs := w.objs + 1 } c

/-- `for (...; ctr--) ctr->~C ()` from cell `k - 1` down to cell 0 (fast_alloc.hpp:439-441). -/
def destroy : Nat → World → List (Option Nat) → Res World
  | 0, w, _ => .ok w
  | k + 1, w, c => do
    let x ← rd c k
    match x with
    | none => .ub
    | some o => destroy k { w with dead := w.dead ++ [o] } c

/-- `tm_new_array` (fast_alloc.hpp:406-416). `fast_alloc` aborts without memory; blocks of size 0 are shared (C53). -/
def newArray (sz lim : Nat) (n : Int) (w : World) : Res (World × Block) :=
  let b := bytes sz n
  if lim ≤ b then .thrown
  else if b = 0 then .ub
  else do
    let (w, c) ← construct n.toNat 0 w (List.replicate (room sz b) none)
    .ok (w, ⟨b, n, c⟩)

/-- `tm_resize_array` (fast_alloc.hpp:417-431). The size given to `fast_realloc` must be that of the block. Without memory
`fast_realloc` aborts for a small block and gives NULL for a large one (fast_alloc.cpp:120-138). -/
def resizeArray (sz lim : Nat) (m : Int) (w : World) (b : Block) : Res (World × Block) :=
  let old := b.num
  if bytes sz old ≠ b.bytes then .ub
  else if lim ≤ bytes sz m then if b.bytes ≤ 256 then .thrown else .ub
  else if bytes sz m = 0 then .ub
  else do
    let r := room sz (bytes sz m)
    let c := b.cells.take r ++ List.replicate (r - b.cells.length) none
    let (w, c) ← construct (m - old).toNat old.toNat w c
    .ok (w, ⟨bytes sz m, m, c⟩)

/-- `tm_delete_array` (fast_alloc.hpp:433-443). The size given to `fast_free` must be that of the block. -/
def deleteArray (sz : Nat) (w : World) (b : Block) : Res World := do
  let w ← destroy b.num.toNat w b.cells
  if bytes sz b.num ≠ b.bytes then .ub else .ok w

/-- `array_rep<T>` (array.hpp:53-55). -/
structure Rep where
  n : Int
  a : Option Block
  deriving DecidableEq

/-- `round_length` (array.ipp:20-28); `i<<= 1` overflows for more than 2^30 elements. -/
def roundLength (n : Int) : Res Int :=
  if n < 6 then .ok n else if n ≤ 2 ^ 30 then .ok (pow2up n.toNat 8) else .ub

/-- `array_rep (int n)` (array.ipp:30-33). -/
def create (sz lim : Nat) (n : Int) (w : World) : Res (World × Rep) :=
  if n = 0 then .ok (w, ⟨n, none⟩)
  else do
    let nn ← roundLength n
    let (w, b) ← newArray sz lim nn w
    .ok (w, ⟨n, some b⟩)

/-- `resize` (array.ipp:35-55). -/
def resize (sz lim : Nat) (m : Int) (w : World) (r : Rep) : Res (World × Rep) := do
  let nn ← roundLength r.n
  let mm ← roundLength m
  if mm ≠ nn then
    if mm ≠ 0 then
      if nn ≠ 0 then
        match r.a with
        | none => .ub
        | some b => do
          let (w, b) ← resizeArray sz lim mm w b
          .ok (w, ⟨m, some b⟩)
      else do
        let (w, b) ← newArray sz lim mm w
        .ok (w, ⟨m, some b⟩)
    else if nn ≠ 0 then
      match r.a with
      | none => .ub
      | some b => do
        let w ← deleteArray sz w b
        .ok (w, ⟨m, none⟩)
    else .ok (w, ⟨m, none⟩)
  else .ok (w, { r with n := m })

/-- `~array_rep` (array.hpp:73-75). -/
def finish (sz : Nat) (w : World) (r : Rep) : Res World :=
  if r.n ≠ 0 then
    match r.a with
    | none => .ub
    | some b => deleteArray sz w b
  else .ok w

/-- An array is resized several times. -/
def resizes (sz lim : Nat) : List Int → World → Rep → Res (World × Rep)
  | [], w, r => .ok (w, r)
  | m :: ms, w, r => do
    let (w, r) ← resize sz lim m w r
    resizes sz lim ms w r

/-- The life of an array: it is made with `n` elements, resized several times, and destroyed. -/
def life (sz lim : Nat) (n : Int) (ms : List Int) (w : World) : Res World := do
  let (w, r) ← create sz lim n w
  let (w, r) ← resizes sz lim ms w r
  finish sz w r

end Lolly.ArrayMem
