import Verif.Loop
import Verif.Strings.Search
import Verif.Strings.Chars
import Verif.Strings.Convert
import Verif.Data.Base64

/-!
# Readers with a position (Kernel/Types/analyze.cpp)

A position `int& i` becomes an argument and a result. Positions are not negative.
-/

set_option autoImplicit false

namespace Lolly.Readers

open Lolly.An (sub isDigit isNumeric isAlpha)
open Lolly.Base64 (Shift)

/-- `while ((i < n) && p (s[i])) i++;` -/
def skipWhile (p : UInt8 → Bool) (s : Bytes) (i : Nat) : Res Nat :=
  if i < s.length then do
    let c ← rd s i
    if p c then skipWhile p s (i + 1) else .ok i
  else .ok i
termination_by s.length - i

/-- The loop of `read` (analyze.cpp:610-617): the new `k`, or `none` for `return false`. -/
def readLoop (s : Bytes) : Nat → Bytes → Res (Option Nat)
  | k, [] => .ok (some k)
  | k, c :: t =>
    if k ≥ s.length then .ok none
    else do
      let d ← rd s k
      if d ≠ c then .ok none else readLoop s (k + 1) t

/-- `read (string, int&, string)` (analyze.cpp:607-618): the result and the new `i`. -/
def read (s : Bytes) (i : Nat) (t : Bytes) : Res (Bool × Nat) := do
  match ← readLoop s i t with
  | some k => .ok (true, k)
  | none => .ok (false, i)

/-- `read (string, int&, const char*)` (analyze.cpp:588-599); `t` is the memory at the pointer, which
contains a 0. -/
def readC (s : Bytes) (i : Nat) (t : Bytes) : Res (Bool × Nat) := read s i (t.takeWhile (· != 0))

/-- `read (string, string)` (analyze.cpp:601-605). -/
def readStart (s t : Bytes) : Res Bool := do
  let (b, _) ← read s 0 t
  .ok b

/-- The loop of `read_line` (analyze.cpp:623-630): the result, the new `i` and the line. -/
def readLineLoop (s : Bytes) (start i : Nat) : Res (Bool × Nat × Bytes) :=
  if i < s.length then do
    let c ← rd s i
    if c = 10 then .ok (true, i + 1, sub s start i) else readLineLoop s start (i + 1)
  else .ok (false, i, sub s start i)
termination_by s.length - i

/-- `read_line` (analyze.cpp:620-631). -/
def readLine (s : Bytes) (i : Nat) : Res (Bool × Nat × Bytes) := readLineLoop s i i

/-- The optional minus sign of `read_int` and `read_double` (analyze.cpp:637-643, 654-660), where `p` is
`is_digit` or `is_numeric`: the new `i`, or `none` for `return false`. -/
def readSign (p : UInt8 → Bool) (s : Bytes) (i : Nat) : Res (Option Nat) :=
  if i = s.length then .ok none
  else do
    let c ← rd s i
    if c = c! '-' then
      if i + 1 = s.length then .ok none
      else do
        let d ← rd s (i + 1)
        if p d then .ok (some (i + 1)) else .ok none
    else if p c then .ok (some i) else .ok none

/-- `read_int` (analyze.cpp:633-648): the result, the new `i` and the integer. -/
def readInt (s : Bytes) (i : Nat) : Res (Bool × Nat × Int) := do
  match ← readSign isDigit s i with
  | none => .ok (false, i, 0)
  | some j => do
    let e ← skipWhile isDigit s j
    let v ← Conv.asInt (2 ^ 31) (sub s i e)
    .ok (true, e, v)

/-- `if ((i < n) && (s[i] == c)) i++;` for a set of characters. -/
def skipOne (p : UInt8 → Bool) (s : Bytes) (i : Nat) : Res Nat :=
  if i < s.length then do
    let c ← rd s i
    .ok (if p c then i + 1 else i)
  else .ok i

/-- The exponent in `read_double` (analyze.cpp:666-675): the new `i`, or `none` for `return false`. -/
def readExponent (s : Bytes) (i : Nat) : Res (Option Nat) := do
  let j ← skipOne (fun c => c == c! 'e' || c == c! 'E') s i
  if j = i then .ok (some i)
  else do
    let k ← skipOne (· == c! '-') s j
    if k = s.length then .ok none
    else do
      let c ← rd s k
      if !isDigit c then .ok none
      else do
        let e ← skipWhile isDigit s k
        .ok (some e)

/-- `read_double` (analyze.cpp:650-678): the result, the new `i` and the text that is passed to
`as_double` (empty if the result is false). -/
def readDouble (s : Bytes) (i : Nat) : Res (Bool × Nat × Bytes) := do
  match ← readSign isNumeric s i with
  | none => .ok (false, i, [])
  | some j => do
    let j ← skipWhile isDigit s j
    let j ← skipOne (· == c! '.') s j
    let j ← skipWhile isDigit s j
    match ← readExponent s j with
    | none => .ok (false, i, [])
    | some e => .ok (true, e, sub s i e)

/-- `read_word` (analyze.cpp:680-688). -/
def readWord (s : Bytes) (i : Nat) : Res (Bool × Nat × Bytes) := do
  let e ← skipWhile isAlpha s i
  .ok (decide (e > i), e, sub s i e)

/-- `skip_spaces` (analyze.cpp:697-702). -/
def skipSpaces (s : Bytes) (i : Nat) : Res Nat := skipWhile (fun c => c == c! ' ' || c == 9) s i

/-- `skip_whitespace` (analyze.cpp:704-709). -/
def skipWhitespace (s : Bytes) (i : Nat) : Res Nat := skipWhile (fun c => c == c! ' ' || c == 9 || c == 10) s i

/-- `skip_line` (analyze.cpp:711-717). -/
def skipLine (s : Bytes) (i : Nat) : Res Nat := do
  let i ← skipWhile (· != 10) s i
  .ok (if i < s.length then i + 1 else i)

/-- The loop of `skip_symbol` (analyze.cpp:724-725). -/
def symbolLoop (s : Bytes) (i : Nat) : Res Nat :=
  if i < s.length then do
    let c ← rd s (i - 1)
    if c = c! '>' then .ok i else symbolLoop s (i + 1)
  else .ok i
termination_by s.length - i

/-- `skip_symbol` (analyze.cpp:719-729). -/
def skipSymbol (s : Bytes) (i : Nat) : Res Nat :=
  if i < s.length then do
    let c ← rd s i
    if c = c! '<' then symbolLoop s (i + 1) else .ok (i + 1)
  else .ok i

/-! ## Binary data -/

/-- `x << 8` on `int`. -/
def shl8 (m : Shift) (x : Int) : Res Int :=
  if m = .strict ∧ x < 0 then .ub else .ok (Int.bmod (x * 256) (2 ^ 32))

/-- `parse` for `char` (analyze.cpp:754-757): the value and the new position. -/
def parseQI (s : Bytes) (pos : Nat) : Res (Int × Nat) := do
  let c ← rd s pos
  .ok (schar c, pos + 1)

/-- `parse` for `unsigned char` (analyze.cpp:759-762). -/
def parseQN (s : Bytes) (pos : Nat) : Res (Int × Nat) := do
  let c ← rd s pos
  .ok (c.toNat, pos + 1)

/-- `parse` for `short` (analyze.cpp:764-769); the `int` is converted to `short`. -/
def parseHI (m : Shift) (s : Bytes) (pos : Nat) : Res (Int × Nat) := do
  let c1 ← rd s pos
  let c2 ← rd s (pos + 1)
  let x ← shl8 m (schar c1)
  .ok (Int.bmod (x + c2.toNat) (2 ^ 16), pos + 2)

/-- `parse` for `unsigned short` (analyze.cpp:771-776). -/
def parseHN (m : Shift) (s : Bytes) (pos : Nat) : Res (Int × Nat) := do
  let c1 ← rd s pos
  let c2 ← rd s (pos + 1)
  let x ← shl8 m c1.toNat
  .ok ((x + c2.toNat) % 2 ^ 16, pos + 2)

/-- `parse` for `int` (analyze.cpp:778-785); the sums do not overflow. -/
def parseSI (m : Shift) (s : Bytes) (pos : Nat) : Res (Int × Nat) := do
  let c1 ← rd s pos
  let c2 ← rd s (pos + 1)
  let c3 ← rd s (pos + 2)
  let c4 ← rd s (pos + 3)
  let x ← shl8 m (schar c1)
  let x ← shl8 m (x + c2.toNat)
  let x ← shl8 m (x + c3.toNat)
  .ok (x + c4.toNat, pos + 4)

/-- `parse` for an array of `int` (analyze.cpp:787-793). -/
def parseArray (m : Shift) (s : Bytes) : Nat → Nat → Res (List Int × Nat)
  | 0, pos => .ok ([], pos)
  | len + 1, pos => do
    let (v, pos) ← parseSI m s pos
    let (vs, pos) ← parseArray m s len pos
    .ok (v :: vs, pos)

/-- `parse_length` (analyze.cpp:1105-1121): the text that is converted by `as_double`, and the unit;
`none` for the length 0.0 with the unit "error". -/
def parseLength (s : Bytes) : Res (Option (Bytes × Bytes)) := do
  let i ← skipWhile (fun c => !An.isLocase c) s 0
  let s1 := sub s 0 i
  let s2 := sub s i s.length
  let d ← Conv.isDouble (rd s1) s1.length
  if d then do
    let a ← An.allBytes An.isLocase s2
    .ok (if a || s2.isEmpty then some (s1, s2) else none)
  else .ok none

end Lolly.Readers
