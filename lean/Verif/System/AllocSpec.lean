import Verif.System.Alloc

set_option autoImplicit false

/-!
# What the clients of the allocator may rely on

A block is a list of bytes that were written or not; there are no addresses. Operations are those of `Alloc.Op`; the
answers of the C library in them are not looked at. `none`: the client has made a mistake, or has asked for no bytes or
for more bytes than there are addresses.
-/

namespace Lolly.Alloc

structure SBlk where
  isNew : Bool
  data : List (Option UInt8)

def sstep (l : List SBlk) : Op → Option (List SBlk)
  | .alloc sz _ => if 0 < sz ∧ sz + 7 < 2 ^ 64 then some (l ++ [⟨false, List.replicate sz none⟩]) else none
  | .free k _ =>
    match l[k]? with
    | some s => if s.isNew then none else some (l.eraseIdx k)
    | none => none
  | .realloc k n _ _ =>
    match l[k]? with
    | some s =>
      if s.isNew ∨ n = 0 ∨ 2 ^ 64 ≤ n + 7 then none
      else some (l.set k ⟨false, s.data.take n ++ List.replicate (n - s.data.length) none⟩)
    | none => none
  | .new sz _ => if sz + 15 < 2 ^ 64 then some (l ++ [⟨true, List.replicate sz none⟩]) else none
  | .del k _ =>
    match l[k]? with
    | some s => if s.isNew then some (l.eraseIdx k) else none
    | none => none
  | .write k off v =>
    match l[k]? with
    | some s => if off < s.data.length then some (l.set k ⟨s.isNew, s.data.set off (some v)⟩) else none
    | none => none

def srun (l : List SBlk) : List Op → Option (List SBlk)
  | [] => some l
  | op :: ops =>
    match sstep l op with
    | some l' => srun l' ops
    | none => none

/-- The memory that `malloc` answers with is not in use. -/
def FreshMem (heap : List Region) (n p : Nat) : Prop :=
  0 < p ∧ p % 8 = 0 ∧ p + n ≤ 2 ^ 64 ∧ ∀ r ∈ heap, p + n ≤ r.1 ∨ r.1 + r.2 ≤ p

/-- The size of the region that the allocator asks the C library for when it needs a block of `n` bytes: a chunk, or a
region of its own for more than 256 bytes. -/
def asked (n : Nat) : Nat := if n ≤ 256 then 65536 else (n + 7) / 8 * 8

/-- The C library has memory left and answers as it should in the next operation. The block that is given to `realloc`
may be used again. -/
def LibOk (P : Prog) : Op → Prop
  | .alloc sz o => FreshMem P.w.heap (asked sz) o.p
  | .new sz o => FreshMem P.w.heap (asked (sz + 8)) o.p
  | .realloc k n o _ => ∀ b : Blk, P.live[k]? = some b →
    if 256 < b.req ∧ 256 < n then FreshMem (P.w.heap.filter fun r => decide (r.1 ≠ b.addr)) n o.p
    else FreshMem P.w.heap (asked n) o.p
  | _ => True

/-- ... in the whole history. -/
def LibOks (P : Prog) : List Op → Prop
  | [] => True
  | op :: ops => LibOk P op ∧ ∀ P', step P op = .ok P' → LibOks P' ops

/-- The live blocks `b` of the program are the blocks `s` of the specification. -/
structure Sound (P : Prog) (S : List SBlk) : Prop where
  number : P.live.length = S.length
  /-- kind and size -/
  size : ∀ (k : Nat) (b : Blk) (s : SBlk), P.live[k]? = some b → S[k]? = some s → b.isNew = s.isNew ∧ b.req = s.data.length
  /-- what was written can be read -/
  contents : ∀ (k : Nat) (b : Blk) (s : SBlk), P.live[k]? = some b → S[k]? = some s → ∀ i v, s.data[i]? = some (some v) → P.w.mem (b.addr + i) = v
  /-- the bytes belong to memory that the C library has handed out -/
  inside : ∀ b ∈ P.live, ∃ r ∈ P.w.heap, r.1 ≤ b.addr ∧ b.addr + b.req ≤ r.1 + r.2
  aligned : ∀ b ∈ P.live, 0 < b.addr ∧ b.addr % 8 = 0
  /-- two blocks share no byte -/
  disjoint : ∀ (j k : Nat) (b c : Blk), j ≠ k → P.live[j]? = some b → P.live[k]? = some c →
    ∀ x, b.addr ≤ x → x < b.addr + b.req → ¬ (c.addr ≤ x ∧ x < c.addr + c.req)

/-- The bytes used for a block: a multiple of eight; `fast_new` needs eight bytes more. -/
def foot (s : SBlk) : Nat := (s.data.length + (if s.isNew then 8 else 0) + 7) / 8 * 8

/-- What `x` lacks to a multiple of eight. -/
def slack (x : Nat) : Int := (8 - x % 8) % 8

/-- By how much the statistics go wrong with an operation: the sizes of large blocks are counted rounded up when they are made and
freed, but not when they are reallocated. -/
def error (S : List SBlk) : Op → Int
  | .realloc k n _ _ =>
    match S[k]? with
    | some s => if 256 < s.data.length ∧ 256 < n then slack s.data.length - slack n else 0
    | none => 0
  | _ => 0

/-- ... in the whole history. -/
def errors (S : List SBlk) : List Op → Int
  | [] => 0
  | op :: ops => error S op + (sstep S op).elim 0 (fun S' => errors S' ops)

/-- A large block is only reallocated to a large block if both sizes leave the same rest modulo eight. -/
def Calm (S : List SBlk) : Op → Prop
  | .realloc k n _ _ => ∀ s : SBlk, S[k]? = some s → 256 < s.data.length → 256 < n → n % 8 = s.data.length % 8
  | _ => True

/-- ... in the whole history. -/
def Calms (S : List SBlk) : List Op → Prop
  | [] => True
  | op :: ops => Calm S op ∧ ∀ S', sstep S op = some S' → Calms S' ops

end Lolly.Alloc
