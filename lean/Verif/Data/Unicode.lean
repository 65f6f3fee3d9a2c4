import Verif.Loop
import Verif.Strings.Search
import Verif.Strings.StrProps

/-!
# UTF-8 and unicode ranges (lolly/data/unicode.cpp)

The conversions to and from UTF-16 are in `Verif.Data.Utf16`.
-/

set_option autoImplicit false

namespace Lolly.Unicode

open Lolly.An (sub)

/-- Assignment of an `uint32_t` to a `char`. -/
def toChar (x : Nat) : UInt8 := UInt8.ofNat x

/-- `encode_as_utf8` (unicode.cpp:18-49); `code` is below 2^32. -/
def encode (code : Nat) : Bytes :=
  if code ≤ 0x7F then [toChar code]
  else if 0x80 ≤ code ∧ code ≤ 0x7FF then
    [toChar ((code >>> 6 &&& 0x1F) ||| 0xC0), toChar ((code &&& 0x3F) ||| 0x80)]
  else if 0x800 ≤ code ∧ code ≤ 0xFFFF then
    [toChar ((code >>> 12 &&& 0x0F) ||| 0xE0), toChar ((code >>> 6 &&& 0x3F) ||| 0x80),
     toChar ((code &&& 0x3F) ||| 0x80)]
  else if 0x10000 ≤ code ∧ code ≤ 0x1FFFFF then
    [toChar ((code >>> 18 &&& 0x07) ||| 0xF0), toChar ((code >>> 12 &&& 0x3F) ||| 0x80),
     toChar ((code >>> 6 &&& 0x3F) ||| 0x80), toChar ((code &&& 0x3F) ||| 0x80)]
  else []

/-- The classification of the first byte (unicode.cpp:61-81): `trail` and the bits of the code, or
`none` for the failsafe branch. -/
def leadByte (c : UInt8) : Option (Nat × Nat) :=
  if 0xE0 &&& c = 0xC0 then some (1, (c &&& 0x1F).toNat)
  else if 0xF0 &&& c = 0xE0 then some (2, (c &&& 0x0F).toNat)
  else if 0xF8 &&& c = 0xF0 then some (3, (c &&& 0x07).toNat)
  else none

/-- The loop over the trailing bytes (unicode.cpp:83-95), where `start` is the position of the first
byte minus 1: the code and the new position. -/
def trailLoop (s : Bytes) (start : Int) : Nat → Int → Nat → Res (Nat × Int)
  | 0, i, code => .ok (code, i + 1)
  | trail + 1, i, code => do
    let i := i + 1
    let i := if i ≥ s.length then (s.length : Int) - 1 else i
    let c ← rdI s i
    if 0xC0 &&& c = 0x80 then trailLoop s start trail i ((code <<< 6) ||| (c &&& 0x3F).toNat)
    else do
      let i := start + 1
      let c ← rdI s i
      .ok (c.toNat, i + 1)

/-- `decode_from_utf8` (unicode.cpp:51-96): the code and the new value of `i`. -/
def decode (s : Bytes) (i : Int) : Res (Nat × Int) := do
  let c ← rdI s i
  if 0x80 &&& c = 0 then .ok (c.toNat, i + 1)
  else match leadByte c with
    | some (trail, code) => trailLoop s (i - 1) trail i code
    | none => .ok (c.toNat, i + 1)

/-- `unicode_get_range` (unicode.cpp:98-114). -/
def getRange (code : Int) : Bytes :=
  if code ≤ 0x7f then b!"ascii"
  else if code ≥ 0x80 ∧ code ≤ 0x37f then b!"latin"
  else if code ≥ 0x370 ∧ code ≤ 0x3ff then b!"greek"
  else if code ≥ 0x400 ∧ code ≤ 0x4ff then b!"cyrillic"
  else if code ≥ 0x2460 ∧ code ≤ 0x24ff then b!"enclosed_alphanumerics"
  else if code ≥ 0x3000 ∧ code ≤ 0x303f then b!"cjk"
  else if code ≥ 0x4e00 ∧ code ≤ 0x9fcc then b!"cjk"
  else if code ≥ 0xff00 ∧ code ≤ 0xffef then b!"cjk"
  else if code ≥ 0x3040 ∧ code ≤ 0x309F then b!"hiragana"
  else if code ≥ 0xac00 ∧ code ≤ 0xd7af then b!"hangul"
  else if code ≥ 0x2000 ∧ code ≤ 0x23ff then b!"mathsymbols"
  else if code ≥ 0x2900 ∧ code ≤ 0x2e7f then b!"mathextra"
  else if code ≥ 0x1d400 ∧ code ≤ 0x1d7ff then b!"mathletters"
  else []

/-- `while (i < n && s[i] != '>') i++;` (unicode.cpp:123-124, 142-143). -/
def closing (s : Bytes) (i : Nat) : Res Nat :=
  if i < s.length then do
    let c ← rd s i
    if c ≠ c! '>' then closing s (i + 1) else .ok i
  else .ok i
termination_by s.length - i

/-- `s[i] == '<' && i + 1 < n && s[i + 1] == '#'` (unicode.cpp:120, 139). -/
def isRef (s : Bytes) (i : Nat) : Res Bool := do
  let c ← rd s i
  if c = c! '<' ∧ i + 1 < s.length then do
    let d ← rd s (i + 1)
    .ok (d == c! '#')
  else .ok false

/-- `"4E00" <= r && r <= "9FBF"`; the comparison of strings is the one of C15. -/
def inRange (r : Bytes) : Bool := StrProps.lexLE (b!"4E00") r && StrProps.lexLE r (b!"9FBF")

/-- `is_cjk_unified_ideographs` (unicode.cpp:116-133) from position `i`; `f` is fuel. -/
def isCjkLoop (s : Bytes) : Nat → Nat → Res Bool
  | 0, _ => .hang
  | f + 1, i =>
    if i < s.length then do
      let b ← isRef s i
      if b then do
        let e ← closing s (i + 2)
        if inRange (sub s (i + 2 : Nat) e) then isCjkLoop s f (e + 1) else .ok false
      else .ok false
    else .ok true

def isCjk (s : Bytes) : Res Bool := isCjkLoop s (s.length + 1) 0

/-- `has_cjk_unified_ideographs` (unicode.cpp:135-152). -/
def hasCjkLoop (s : Bytes) : Nat → Nat → Res Bool
  | 0, _ => .hang
  | f + 1, i =>
    if i < s.length then do
      let b ← isRef s i
      if b then do
        let e ← closing s (i + 2)
        if inRange (sub s (i + 2 : Nat) e) then .ok true else hasCjkLoop s f (e + 1)
      else hasCjkLoop s f (i + 1)
    else .ok false

def hasCjk (s : Bytes) : Res Bool := hasCjkLoop s (s.length + 1) 0

end Lolly.Unicode
