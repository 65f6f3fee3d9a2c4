import Verif.Basic

set_option autoImplicit false

/-!
# The guards around blocks in debugging builds

`fast_new`, `alloc_check` and `fast_delete` (System/Memory/impl/fast_alloc.cpp:139-226) and `tm_new_array`,
`tm_delete_array` (System/Memory/fast_alloc.hpp:363-404) if `DEBUG_ON` is defined. Where the memory comes from and
where it goes is not part of this model (see C52): a block is memory whose contents are not known. Words are stored with
the lower bytes first; that the last guard of an array of characters need not be aligned is ignored.
-/

namespace Lolly.AllocDebug

/-- Memory from the beginning of a block on: what can be read, and how much of it. -/
structure Mem where
  byte : Nat → UInt8
  len : Nat

/-- The number in `k` bytes from `off` on. -/
def num (f : Nat → UInt8) : Nat → Nat → Nat
  | 0, _ => 0
  | k + 1, off => (f off).toNat + 256 * num f k (off + 1)

/-- Reading an unsigned number of `k` bytes at an offset. -/
def load (k : Nat) (m : Mem) (off : Int) : Res Nat :=
  if 0 ≤ off ∧ off + k ≤ m.len then .ok (num m.byte k off.toNat) else .ub

/-- Writing such a number. -/
def store (k : Nat) (m : Mem) (off : Int) (v : Nat) : Res Mem :=
  if 0 ≤ off ∧ off + k ≤ m.len then
    .ok { m with byte := fun i => if off ≤ i ∧ i < off + k then UInt8.ofNat (v / 256 ^ (i - off.toNat)) else m.byte i }
  else .ub

/-- What is printed. -/
inductive Report
  /-- `Bad pointer in fast_alloc:...` (fast_alloc.cpp:298-299) -/
  | badPointer
  /-- `... size mismatch ...` with the two sizes and their sums with the complement -/
  | mismatch (s sc s1 s1c : Int)
  /-- `... buffer overflow ...` -/
  | overflow
  deriving DecidableEq

/-- `(s + (4 * WORD_LENGTH) + WORD_LENGTH_INC) & WORD_MASK` (fast_alloc.cpp:143). -/
def size (s : Nat) : Nat := (s + 39) % 2 ^ 64 / 8 * 8

/-- `fast_new` (fast_alloc.cpp:163-172) on the memory it got; the caller gets the address after three words. -/
def fastNew (s : Nat) (m : Mem) : Res Mem := do
  let m ← store 8 m 0 (size s)
  let m ← store 8 m 8 (size s)
  let m ← store 8 m 16 (2 ^ 64 - 1 - size s)
  store 4 m (size s - 8 : Int) 0x55aa

/-- `alloc_check` (fast_alloc.cpp:179-199), with the size it finds. `outside`: the block does not lie between the ends of the
pools, so that `break_stub` (fast_alloc.cpp:294-304) reports it. -/
def allocCheck (outside : Bool) (m : Mem) : Res (List Report × Nat) := do
  let comp ← load 8 m 16
  let s1 ← load 8 m 8
  let s ← load 8 m 0
  let bad := (s1 + comp) % 2 ^ 64 ≠ 2 ^ 64 - 1 ∨ (s + comp) % 2 ^ 64 ≠ 2 ^ 64 - 1
  let r := if bad then
    Report.mismatch s ((s + comp) % 2 ^ 64 : Nat) s1 ((s1 + comp) % 2 ^ 64 : Nat) ::
      (if outside then [.badPointer] else []) else []
  let s := if bad ∧ outside then (if s1 < s then s1 else s) else s
  let g ← load 4 m (s - 8 : Int)
  if g ≠ 0x55AA then do
    let _ ← load 4 m (s - 1 : Int)
    .ok (r ++ [.overflow], s)
  else .ok (r, s)

/-- A number of 32 bits as an `int`. -/
def toInt (v : Nat) : Int := if v < 2 ^ 31 then v else v - 2 ^ 32

/-- An `int` as it is stored. -/
def ofInt (n : Int) : Nat := (n % 2 ^ 32).toNat

/-- Elements made one after the other from an offset on; `init i` is what the constructor writes for the `i`-th. -/
def construct (sz : Nat) (init : Nat → Nat → UInt8) (n : Nat) (m : Mem) : Mem :=
  { m with byte := fun i => if 24 ≤ i ∧ i < 24 + n * sz then init ((i - 24) / sz) ((i - 24) % sz) else m.byte i }

/-- `tm_new_array` (fast_alloc.hpp:364-379) on the memory it got, which are `n * sizeof (C) + 32` bytes. -/
def newArray (sz : Nat) (init : Nat → Nat → UInt8) (n : Int) (m : Mem) : Res Mem := do
  let m ← store 4 m 0 (ofInt n)
  let m ← store 4 m 8 (ofInt n)
  let m ← store 4 m 16 (ofInt (-n - 1))
  if 24 + n.toNat * sz ≤ m.len then
    store 4 (construct sz init n.toNat m) (24 + n.toNat * sz : Nat) 0x55AA
  else .ub

/-- A sum of two `int`. -/
def plus (a b : Int) : Res Int := if -2 ^ 31 ≤ a + b ∧ a + b < 2 ^ 31 then .ok (a + b) else .ub

/-- What `tm_delete_array` does: what it prints, which elements it destroys in which order, and the size it gives to
`fast_free`. -/
structure Deleted where
  reports : List Report
  destroyed : List Nat
  freed : Int
  deriving DecidableEq

/-- `tm_delete_array` (fast_alloc.hpp:381-404). The second sum is needed only if the first one is -1, or to be printed. -/
def deleteArray (sz : Nat) (m : Mem) : Res Deleted := do
  let comp ← load 4 m 16
  let n1 ← load 4 m 8
  let n ← load 4 m 0
  let comp := toInt comp
  let n1 := toInt n1
  let n := toInt n
  let x1 ← plus n1 comp
  let x ← plus n comp
  let r := if x1 ≠ -1 ∨ x ≠ -1 then [Report.mismatch n x n1 x1] else []
  let g ← load 4 m (24 + n * sz)
  let r := if g ≠ 0x55AA then r ++ [.overflow] else r
  if 24 + n.toNat * sz ≤ m.len then .ok ⟨r, (List.range n.toNat).reverse, n * sz + 32⟩ else .ub

end Lolly.AllocDebug
