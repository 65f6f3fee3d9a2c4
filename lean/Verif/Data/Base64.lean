import Verif.Bytes

/-!
# base64 (lolly/data/base64.cpp)
-/

set_option autoImplicit false

namespace Lolly.Base64

/-- How a left shift of a negative `int` behaves. Strictly it is undefined in C++17; the supported
compilers define it as the shift of the two's complement representation (as C++20 does). -/
inductive Shift where
  | strict
  | wrap
  deriving DecidableEq

/-- A `char` promoted to `int`. -/
def sx (c : UInt8) : BitVec 32 := c.toBitVec.signExtend 32

/-- `x << k` on `int`. -/
def shl (m : Shift) (x : BitVec 32) (k : Nat) : Res (BitVec 32) :=
  if m = .strict ∧ x.msb then .ub else .ok (x <<< k)

/-- `int_to_b64` (base64.cpp:20-21). -/
def intToB64 : Bytes := b!"ABCDEFGHIJKLMNOPQRSTUVWXYZabcdefghijklmnopqrstuvwxyz0123456789+/"

/-- `int_to_b64[idx]`. -/
def letter (idx : BitVec 32) : Res UInt8 := rdI intToB64 idx.toInt

/-- `encode_base64 (char, char, char)` (base64.cpp:23-38). -/
def encode3 (m : Shift) (c1 c2 c3 : UInt8) : Res Bytes := do
  let idx0 := (sx c1).sshiftRight 2 &&& 0x3F#32
  let s1 ← shl m (sx c1) 4
  let idx1 := (s1 &&& 0x30#32) + ((sx c2).sshiftRight 4 &&& 0x0F#32)
  let s2 ← shl m (sx c2) 2
  let idx2 := (s2 &&& 0x3C#32) + ((sx c3).sshiftRight 6 &&& 0x03#32)
  let idx3 := sx c3 &&& 0x3F#32
  let r0 ← letter idx0
  let r1 ← letter idx1
  let r2 ← letter idx2
  let r3 ← letter idx3
  .ok [r0, r1, r2, r3]

/-- `if (i > 0 && i % 60 == 0) r << "\n";` -/
def newline (i : Nat) (r : Bytes) : Bytes := if i > 0 ∧ i % 60 = 0 then r ++ [10] else r

/-- The loop of `encode_base64 (string)` (base64.cpp:44-47): the final `i` and `r`. -/
def encodeLoop (m : Shift) (s : Bytes) (i : Nat) (r : Bytes) : Res (Nat × Bytes) :=
  if i + 2 < s.length then do
    let c1 ← rd s i
    let c2 ← rd s (i + 1)
    let c3 ← rd s (i + 2)
    let g ← encode3 m c1 c2 c3
    encodeLoop m s (i + 3) (newline i r ++ g)
  else .ok (i, r)
termination_by s.length - i

/-- The rest of `encode_base64 (string)` (base64.cpp:49-57). -/
def encodeTail (m : Shift) (s : Bytes) (i : Nat) (r : Bytes) : Res Bytes :=
  if i + 1 = s.length then do
    let c1 ← rd s i
    let g ← encode3 m c1 0 0
    .ok (newline i r ++ g.take 2 ++ b!"==")
  else if i + 2 = s.length then do
    let c1 ← rd s i
    let c2 ← rd s (i + 1)
    let g ← encode3 m c1 c2 0
    .ok (newline i r ++ g.take 3 ++ b!"=")
  else .ok r

/-- `encode_base64 (string)` (base64.cpp:40-58). -/
def encode (m : Shift) (s : Bytes) : Res Bytes := do
  let (i, r) ← encodeLoop m s 0 []
  encodeTail m s i r

/-- `b64_to_int` (base64.cpp:62-64), with the terminating 0. -/
def b64ToInt : Bytes :=
  List.replicate 43 (c! '?') ++ [126] ++ (b!"???") ++ [127] ++ (b!"tuvwxyz{|}??") ++
  (b!"?????@ABCDEFGHIJKLMNOPQRSTUVWXY??????Z[\\]^_`abcdefghijklmnopqrs?????") ++ [0]

/-- `b64_to_int[(int) c]`: a negative `char` is outside of the table. -/
def look (c : UInt8) : Res UInt8 := rdI b64ToInt (schar c)

/-- `b64_to_int[(int) ac[k]] - 64`, where `ac` holds characters. -/
def digit (ac : Bytes) (k : Nat) : Res (BitVec 32) := do
  let c ← rd ac k
  let v ← look c
  .ok (sx v - 64#32)

/-- `(n > k) ? b64_to_int[(int) ac[k]] - 64 : 0`. -/
def digitOr0 (ac : Bytes) (k : Nat) : Res (BitVec 32) :=
  if ac.length > k then digit ac k else .ok 0#32

/-- Conversion of an `int` to `char`. -/
def toChar (x : BitVec 32) : UInt8 := UInt8.ofNat x.toNat

/-- `decode_base64 (array<int>)` (base64.cpp:66-81). Only reached with characters other than those
that map to `'?'`, so that no negative number is shifted. `r (0, n - 1)` is empty if `n <= 1`. -/
def decode4 (ac : Bytes) : Res Bytes := do
  let n1 ← digit ac 0
  let n2 ← digit ac 1
  let n3 ← digitOr0 ac 2
  let n4 ← digitOr0 ac 3
  let r0 := toChar ((n1 <<< 2 &&& 0xFC#32) + (n2.sshiftRight 4 &&& 0x03#32))
  let r1 := toChar ((n2 <<< 4 &&& 0xF0#32) + (n3.sshiftRight 2 &&& 0x0F#32))
  let r2 := toChar ((n3 <<< 6 &&& 0xC0#32) + (n4 &&& 0x3F#32))
  .ok ([r0, r1, r2].take (ac.length - 1))

/-- The loop of `decode_base64 (string)` (base64.cpp:89-103); `cnt` is always the length of `tmp`.
The first two statements of the body: the new `tmp` and `end`. -/
def decodeStep (c : UInt8) (tmp : Bytes) : Res (Bytes × Bool) := do
  let v ← look c
  if v ≠ c! '?' then .ok (tmp ++ [c], false)
  else .ok (tmp, c == c! '=')

def decodeLoop (s : Bytes) (i : Nat) (tmp r : Bytes) : Res Bytes :=
  if i < s.length then do
    let c ← rd s i
    let (tmp, done) ← decodeStep c tmp
    if tmp.length = 4 ∨ done then do
      let d ← decode4 tmp
      if done then .ok (r ++ d) else decodeLoop s (i + 1) [] (r ++ d)
    else decodeLoop s (i + 1) tmp r
  else .ok r
termination_by s.length - i

/-- `decode_base64 (string)` (base64.cpp:83-105). -/
def decode (s : Bytes) : Res Bytes := decodeLoop s 0 [] []

end Lolly.Base64
