import Verif.Basic
import Verif.Loop

set_option autoImplicit false

/-!
# uuid_make (lolly/hash/uuid.cpp)

The generator `tb_uuid4_make_cstr` of tbox is an oracle: it fails, or it writes a text with a terminating NUL to the buffer
that it is given and returns the buffer.
-/

namespace Lolly.Uuid

/-- The generator at the buffer `m`: the memory at the pointer that is returned. Writing beyond the buffer is undefined. -/
def makeCstr (gen : Option Bytes) (m : Bytes) : Res (Option Bytes) :=
  match gen with
  | none => .ok none
  | some t =>
    if t.length + 1 ≤ m.length then .ok (some (t ++ 0 :: m.drop (t.length + 1))) else .ub

/-- `strlen` of the memory `m` from `i` on; beyond its end the behaviour is undefined. -/
def strlen (m : Bytes) : Nat → Nat → Res Nat
  | 0, _ => .hang
  | f + 1, i => do
    let c ← rd m i
    if c = 0 then .ok i else strlen m f (i + 1)

/-- `string (const char*)` (string.cpp:67-72): the characters of the string. -/
def ofCstr (m : Bytes) : Res Bytes := do
  let n ← strlen m (m.length + 1) 0
  forUp 0 n [] fun i r => do
    let c ← rd m i
    .ok (r ++ [c])

/-- `uuid_make` (lolly/hash/uuid.cpp:19-27). `m` is what the 37 characters of the buffer `uuid` are at the start, which
is arbitrary as the buffer is not initialised. `TM_FAILED` throws (basic.hpp:93-94). -/
def uuidMake (gen : Option Bytes) (m : Bytes) : Res Bytes := do
  let ret ← makeCstr gen m
  match ret with
  | none => .thrown
  | some p => ofCstr p

end Lolly.Uuid
