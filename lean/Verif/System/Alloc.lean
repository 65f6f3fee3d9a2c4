import Verif.Basic

set_option autoImplicit false

/-!
# The memory allocator

System/Memory/impl/fast_alloc.cpp (without `DEBUG_ON`, `MEM_DEBUG` is 0). Addresses are natural numbers, memory is a
function from addresses to bytes. `heap` lists the regions that the C library has handed out by `malloc` and not taken
back; the library may change every byte outside of them whenever it is called. An access outside of them, and an access
to a word at an unaligned address, is undefined behaviour. Where `malloc` puts a region is a parameter of each call
(`Ora`).

The operators `new`, `delete`, `new[]` and `delete[]` that are defined for `X11TEXMACS` (fast_alloc.cpp:316-376) have the
same bodies as `fast_new` and `fast_delete`.

Not modelled: the statistics printed by `mem_info`, `fast_alloc_mw`, `fast_free_mw` (not declared in any header), and
overflow of the counter of chunks.
-/

namespace Lolly.Alloc

/-- `MAX_FAST` (fast_alloc.hpp:20); `WORD_LENGTH` (fast_alloc.hpp:16) is written as 8 below. -/
def maxFast : Nat := 264

/-- `BLOCK_SIZE` (fast_alloc.hpp:21). -/
def blockSize : Nat := 65536

/-- A part of memory: address and size. -/
abbrev Region := Nat × Nat

structure World where
  mem : Nat → UInt8
  heap : List Region
  /-- `alloc_table` (fast_alloc.cpp:25); 0 is `NULL` -/
  table : Nat → Nat
  /-- `alloc_mem` (fast_alloc.cpp:26) -/
  allocMem : Nat
  /-- `alloc_remains` (fast_alloc.cpp:31) -/
  remains : Nat
  /-- `fast_chunks` (fast_alloc.cpp:33) -/
  chunks : Nat
  /-- `large_uses` (fast_alloc.cpp:34), an `int` that is updated by way of `size_t` -/
  large : BitVec 32

/-- The start of a program. -/
def init (mem : Nat → UInt8) : World :=
  { mem, heap := [], table := fun _ => 0, allocMem := 0, remains := 0, chunks := 0, large := 0 }

/-- What the C library does when it is called: where the new region is (0: no memory left), and what is written to the
bytes outside of the regions handed out. -/
structure Ora where
  p : Nat
  junk : Nat → UInt8

/-- Is the range of `n` bytes at `a` inside one region? -/
def covered (heap : List Region) (a n : Nat) : Bool := heap.any fun r => decide (r.1 ≤ a ∧ a + n ≤ r.1 + r.2)

/-- `*((void**) a)`, little endian. -/
def ld (mem : Nat → UInt8) (a : Nat) : Nat :=
  (mem a).toNat + 256 * ((mem (a + 1)).toNat + 256 * ((mem (a + 2)).toNat + 256 * ((mem (a + 3)).toNat +
    256 * ((mem (a + 4)).toNat + 256 * ((mem (a + 5)).toNat + 256 * ((mem (a + 6)).toNat + 256 * (mem (a + 7)).toNat))))))

/-- `*((void**) a) = v`. -/
def st (mem : Nat → UInt8) (a v : Nat) : Nat → UInt8 :=
  fun x => if a ≤ x ∧ x < a + 8 then UInt8.ofNat (v / 256 ^ (x - a)) else mem x

/-- Read a word (macro `ind`, fast_alloc.cpp:42). -/
def load (w : World) (a : Nat) : Res Nat := if covered w.heap a 8 ∧ a % 8 = 0 then .ok (ld w.mem a) else .ub

/-- Write a word. -/
def store (w : World) (a v : Nat) : Res World :=
  if covered w.heap a 8 ∧ a % 8 = 0 then .ok { w with mem := st w.mem a v } else .ub

/-- `alloc_ptr (i)` (fast_alloc.cpp:41). -/
def tab (w : World) (i : Nat) : Res Nat := if i < maxFast then .ok (w.table i) else .ub

/-- `alloc_ptr (i) = v`. -/
def setTab (w : World) (i v : Nat) : Res World :=
  if i < maxFast then .ok { w with table := fun j => if j = i then v else w.table j } else .ub

/-- `safe_malloc (n)` (fast_alloc.cpp:47-55); `abort` is the outcome `thrown`. -/
def cMalloc (w : World) (n : Nat) (o : Ora) : Res (Nat × World) :=
  if o.p = 0 then .thrown
  else .ok (o.p, { w with
    heap := (o.p, n) :: w.heap
    mem := fun a => if covered w.heap a 1 then w.mem a else o.junk a })

/-- `free (p)` of the C library: `p` must be the start of a region. -/
def cFree (w : World) (p : Nat) (o : Ora) : Res World :=
  if w.heap.any fun r => decide (r.1 = p) then
    let rest := w.heap.filter fun r => decide (r.1 ≠ p)
    .ok { w with heap := rest, mem := fun a => if covered rest a 1 then w.mem a else o.junk a }
  else .ub

/-- `realloc (p, n)` of the C library; when no memory is left it returns `NULL` and nothing changes. -/
def cRealloc (w : World) (p n : Nat) (o : Ora) : Res (Nat × World) :=
  match w.heap.find? fun r => decide (r.1 = p) with
  | none => .ub
  | some (_, m) =>
    if o.p = 0 then .ok (0, w)
    else
      let rest := w.heap.filter fun r => decide (r.1 ≠ p)
      .ok (o.p, { w with
        heap := (o.p, n) :: rest
        mem := fun a =>
          if o.p ≤ a ∧ a < o.p + min m n then w.mem (p + (a - o.p))
          else if covered rest a 1 then w.mem a else o.junk a })

/-- `memcpy (dst, src, n)`: both ranges must be valid and must not overlap. -/
def memcpy (w : World) (dst src n : Nat) : Res World :=
  if covered w.heap dst n ∧ covered w.heap src n ∧ (dst + n ≤ src ∨ src + n ≤ dst) then
    .ok { w with mem := fun a => if dst ≤ a ∧ a < dst + n then w.mem (src + (a - dst)) else w.mem a }
  else .ub

/-- `(sz + WORD_LENGTH_INC) & WORD_MASK` in 64 bits. -/
def roundUp (sz : Nat) : Nat := (sz + 7) % 2 ^ 64 / 8 * 8

/-- Put a block into its list (fast_alloc.cpp:61-62, 109-110, 216-217). -/
def give (w : World) (p sz : Nat) : Res World := do
  let h ← tab w sz
  let w ← store w p h
  setTab w sz p

/-- The first half of `enlarge_malloc` (fast_alloc.cpp:59-74): make a new chunk if the present one is too small; what
is left of that becomes a free block. -/
def newChunk (w : World) (o : Ora) : Res World := do
  let w ← (if 0 < w.remains then give w w.allocMem w.remains else .ok w)
  let (p, w) ← cMalloc w blockSize o
  .ok { w with allocMem := p, remains := blockSize, chunks := w.chunks + 1 }

/-- `enlarge_malloc (sz)` (fast_alloc.cpp:57-79). -/
def enlarge (w : World) (sz : Nat) (o : Ora) : Res (Nat × World) := do
  let w ← (if w.remains < sz then newChunk w o else .ok w)
  .ok (w.allocMem, { w with allocMem := w.allocMem + sz, remains := w.remains - sz })

/-- Take a block of the size `sz` from its list or from the chunk (fast_alloc.cpp:85-91, 149-151). -/
def take (w : World) (sz : Nat) (o : Ora) : Res (Nat × World) := do
  let p ← tab w sz
  if p = 0 then enlarge w sz o
  else do
    let q ← load w p
    let w ← setTab w sz q
    .ok (p, w)

/-- `fast_alloc (sz)` (fast_alloc.cpp:81-99). -/
def fastAlloc (w : World) (sz : Nat) (o : Ora) : Res (Nat × World) :=
  let s := roundUp sz
  if s < maxFast then take w s o
  else cMalloc { w with large := w.large + BitVec.ofNat 32 s } s o

/-- `fast_free (ptr, sz)` (fast_alloc.cpp:101-118). -/
def fastFree (w : World) (p sz : Nat) (o : Ora) : Res World :=
  let s := roundUp sz
  if s < maxFast then give w p s
  else cFree { w with large := w.large - BitVec.ofNat 32 s } p o

/-- `fast_realloc (ptr, old_size, new_size)` (fast_alloc.cpp:120-138). Two calls of the C library are possible; `o2` is
for the second one. -/
def fastRealloc (w : World) (p old new : Nat) (o o2 : Ora) : Res (Nat × World) :=
  if maxFast ≤ roundUp old ∧ maxFast ≤ roundUp new then
    cRealloc { w with large := w.large + (BitVec.ofNat 32 new - BitVec.ofNat 32 old) } p new o
  else do
    let (q, w) ← fastAlloc w new o
    let w ← memcpy w q p (if old < new then old else new)
    let w ← fastFree w p old o2
    .ok (q, w)

/-- `fast_new (s)` (fast_alloc.cpp:140-177): the size is stored before the block. -/
def fastNew (w : World) (sz : Nat) (o : Ora) : Res (Nat × World) := do
  let s := roundUp (sz + 8)
  let (p, w) ← (if s < maxFast then take w s o
    else do
      let (p, w) ← cMalloc w s o
      .ok (p, { w with large := w.large + BitVec.ofNat 32 s }))
  let w ← store w p s
  .ok (p + 8, w)

/-- `fast_delete (ptr)` (fast_alloc.cpp:202-226). -/
def fastDelete (w : World) (ptr : Nat) (o : Ora) : Res World := do
  let p := ptr - 8
  let s ← load w p
  if s < maxFast then give w p s
  else do
    let w ← cFree w p o
    .ok { w with large := w.large - BitVec.ofNat 32 s }

/-! ## Statistics -/

/-- `compute_free (alloc_table + i)` (fast_alloc.cpp:256-264): the length of a list of free blocks; `p` is the next
block. -/
def computeFree (w : World) : Nat → Nat → Res Nat
  | 0, _ => .hang
  | f + 1, p =>
    if p = 0 then .ok 0
    else do
      let q ← load w p
      let n ← computeFree w f q
      .ok (n + 1)

/-- The result of an `int` operation. -/
def int32 (x : Int) : Res Int := if -2147483648 ≤ x ∧ x ≤ 2147483647 then .ok x else .ub

/-- The loop of `mem_used` (fast_alloc.cpp:271-272): `n` sizes are left, the next one is `i`. -/
def freeBytes (w : World) (f : Nat) : Nat → Nat → Int → Res Int
  | 0, _, acc => .ok acc
  | n + 1, i, acc => do
    let k ← computeFree w f (w.table i)
    let x ← int32 (i * k)
    let acc ← int32 (acc + x)
    freeBytes w f n (i + 8) acc

/-- `mem_used ()` (fast_alloc.cpp:266-275). -/
def memUsed (w : World) (f : Nat) : Res Int := do
  let use ← int32 (blockSize * w.chunks)
  let fr ← freeBytes w f 32 8 w.remains
  let small ← int32 (use - fr)
  int32 (small + w.large.toInt)

/-! ## Clients -/

/-- A block that a client owns: its address, the size asked for, whether it comes from `fast_new`. The last field is
only for the proofs: how many bytes the allocator has reserved, from `addr` or, for `fast_new`, from the word before. -/
structure Blk where
  addr : Nat
  req : Nat
  isNew : Bool
  cap : Nat

structure Prog where
  w : World
  live : List Blk

/-- What a client can do; a block is named by its position among the live blocks. -/
inductive Op
  | alloc (sz : Nat) (o : Ora)
  | free (k : Nat) (o : Ora)
  | realloc (k n : Nat) (o o2 : Ora)
  | new (sz : Nat) (o : Ora)
  | del (k : Nat) (o : Ora)
  | write (k off : Nat) (v : UInt8)

/-- One operation. A block that is not live, or of the other kind, is a mistake of the client. -/
def step (P : Prog) : Op → Res Prog
  | .alloc sz o => do
    let (p, w) ← fastAlloc P.w sz o
    .ok ⟨w, P.live ++ [⟨p, sz, false, roundUp sz⟩]⟩
  | .free k o =>
    match P.live[k]? with
    | some b =>
      if b.isNew then .ub
      else do
        let w ← fastFree P.w b.addr b.req o
        .ok ⟨w, P.live.eraseIdx k⟩
    | none => .ub
  | .realloc k n o o2 =>
    match P.live[k]? with
    | some b =>
      if b.isNew then .ub
      else do
        let (p, w) ← fastRealloc P.w b.addr b.req n o o2
        .ok ⟨w, P.live.set k ⟨p, n, false, if maxFast ≤ roundUp b.req ∧ maxFast ≤ roundUp n then n else roundUp n⟩⟩
    | none => .ub
  | .new sz o => do
    let (p, w) ← fastNew P.w sz o
    .ok ⟨w, P.live ++ [⟨p, sz, true, roundUp (sz + 8)⟩]⟩
  | .del k o =>
    match P.live[k]? with
    | some b =>
      if b.isNew then do
        let w ← fastDelete P.w b.addr o
        .ok ⟨w, P.live.eraseIdx k⟩
      else .ub
    | none => .ub
  | .write k off v =>
    match P.live[k]? with
    | some b =>
      if off < b.req ∧ covered P.w.heap (b.addr + off) 1 then
        .ok ⟨{ P.w with mem := fun a => if a = b.addr + off then v else P.w.mem a }, P.live⟩
      else .ub
    | none => .ub

/-- A history. -/
def run (P : Prog) : List Op → Res Prog
  | [] => .ok P
  | op :: l => do
    let P ← step P op
    run P l

end Lolly.Alloc
