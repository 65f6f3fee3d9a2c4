import Verif.Strings.Readers

/-!
# Positions that are any `int` (Kernel/Types/analyze.cpp)

The functions of `Search` and `Readers` once more, with positions of type `int` that may be negative or beyond the end, and
with additions that may overflow. `s[i]` is `rdI s i`: undefined outside of the string. The loops have fuel; it suffices,
see `C173_same` and the other theorems, in which no call hangs.
-/

set_option autoImplicit false

namespace Lolly.Pos

open Lolly.An (sub isDigit isNumeric isAlpha)

/-- `a + b` on `int`. -/
def plus (a b : Int) : Res Int := if -2147483648 ≤ a + b ∧ a + b ≤ 2147483647 then .ok (a + b) else .ub

/-- How often a loop that goes up from `i` can be run. -/
def rounds (s : Bytes) (i : Int) : Nat := (s.length - i).toNat + 2

/-- `test (string, int, string)` (analyze.cpp:553-563). -/
def test (s : Bytes) : Int → Bytes → Res Bool
  | _, [] => .ok true
  | i, c :: t =>
    if i ≥ s.length then .ok false
    else do
      let d ← rdI s i
      if d ≠ c then .ok false
      else do
        let i ← plus i 1
        test s i t

/-- The loop of `read` (analyze.cpp:610-615): the new `k`, or `none` for `return false`. -/
def readLoop (s : Bytes) : Int → Bytes → Res (Option Int)
  | k, [] => .ok (some k)
  | k, c :: t =>
    if k ≥ s.length then .ok none
    else do
      let d ← rdI s k
      if d ≠ c then .ok none
      else do
        let k ← plus k 1
        readLoop s k t

/-- `read (string, int&, string)` (analyze.cpp:607-618): the result and the new `i`. -/
def read (s : Bytes) (i : Int) (t : Bytes) : Res (Bool × Int) := do
  match ← readLoop s i t with
  | some k => .ok (true, k)
  | none => .ok (false, i)

/-- `while ((i < n) && p (s[i])) i++;` -/
def skipF (p : UInt8 → Bool) (s : Bytes) : Nat → Int → Res Int
  | 0, _ => .hang
  | f + 1, i =>
    if i < s.length then do
      let c ← rdI s i
      if p c then do
        let i ← plus i 1
        skipF p s f i
      else .ok i
    else .ok i

def skipWhile (p : UInt8 → Bool) (s : Bytes) (i : Int) : Res Int := skipF p s (rounds s i) i

/-- `skip_spaces` (analyze.cpp:697-702). -/
def skipSpaces (s : Bytes) (i : Int) : Res Int := skipWhile (fun c => c == c! ' ' || c == 9) s i

/-- `skip_whitespace` (analyze.cpp:704-709). -/
def skipWhitespace (s : Bytes) (i : Int) : Res Int := skipWhile (fun c => c == c! ' ' || c == 9 || c == 10) s i

/-- `skip_line` (analyze.cpp:711-717). -/
def skipLine (s : Bytes) (i : Int) : Res Int := do
  let i ← skipWhile (· != 10) s i
  if i < s.length then plus i 1 else .ok i

/-- The loop of `skip_symbol` (analyze.cpp:724-725). -/
def symbolF (s : Bytes) : Nat → Int → Res Int
  | 0, _ => .hang
  | f + 1, i =>
    if i < s.length then do
      let c ← rdI s (i - 1)
      if c = c! '>' then .ok i
      else do
        let i ← plus i 1
        symbolF s f i
    else .ok i

/-- `skip_symbol` (analyze.cpp:719-729). -/
def skipSymbol (s : Bytes) (i : Int) : Res Int :=
  if i < s.length then do
    let c ← rdI s i
    let j ← plus i 1
    if c = c! '<' then symbolF s (rounds s j) j else .ok j
  else .ok i

/-- The loop of `read_line` (analyze.cpp:623-630): the result, the new `i` and the line. -/
def readLineF (s : Bytes) (start : Int) : Nat → Int → Res (Bool × Int × Bytes)
  | 0, _ => .hang
  | f + 1, i =>
    if i < s.length then do
      let c ← rdI s i
      let j ← plus i 1
      if c = 10 then .ok (true, j, sub s start i) else readLineF s start f j
    else .ok (false, i, sub s start i)

/-- `read_line` (analyze.cpp:620-631). -/
def readLine (s : Bytes) (i : Int) : Res (Bool × Int × Bytes) := readLineF s i (rounds s i) i

/-- `read_word` (analyze.cpp:680-688). -/
def readWord (s : Bytes) (i : Int) : Res (Bool × Int × Bytes) := do
  let e ← skipWhile isAlpha s i
  .ok (decide (e > i), e, sub s i e)

/-- The optional minus sign of `read_int` and `read_double` (analyze.cpp:637-643, 654-660): the new `i`, or `none` for
`return false`. -/
def readSign (p : UInt8 → Bool) (s : Bytes) (i : Int) : Res (Option Int) :=
  if i = s.length then .ok none
  else do
    let c ← rdI s i
    if c = c! '-' then do
      let j ← plus i 1
      if j = s.length then .ok none
      else do
        let d ← rdI s j
        if p d then .ok (some j) else .ok none
    else if p c then .ok (some i) else .ok none

/-- `read_int` (analyze.cpp:633-648): the result, the new `i` and the integer. -/
def readInt (s : Bytes) (i : Int) : Res (Bool × Int × Int) := do
  match ← readSign isDigit s i with
  | none => .ok (false, i, 0)
  | some j => do
    let e ← skipWhile isDigit s j
    let v ← Conv.asInt (2 ^ 31) (sub s i e)
    .ok (true, e, v)

/-- `if ((i < n) && (s[i] == c)) i++;` for a set of characters. -/
def skipOne (p : UInt8 → Bool) (s : Bytes) (i : Int) : Res Int :=
  if i < s.length then do
    let c ← rdI s i
    if p c then plus i 1 else .ok i
  else .ok i

/-- The exponent in `read_double` (analyze.cpp:666-675): the new `i`, or `none` for `return false`. -/
def readExponent (s : Bytes) (i : Int) : Res (Option Int) := do
  let j ← skipOne (fun c => c == c! 'e' || c == c! 'E') s i
  if j = i then .ok (some i)
  else do
    let k ← skipOne (· == c! '-') s j
    if k = s.length then .ok none
    else do
      let c ← rdI s k
      if !isDigit c then .ok none
      else do
        let e ← skipWhile isDigit s k
        .ok (some e)

/-- `read_double` (analyze.cpp:650-678): the result, the new `i` and the text that is passed to `as_double` (empty if the
result is false). -/
def readDouble (s : Bytes) (i : Int) : Res (Bool × Int × Bytes) := do
  match ← readSign isNumeric s i with
  | none => .ok (false, i, [])
  | some j => do
    let j ← skipWhile isDigit s j
    let j ← skipOne (· == c! '.') s j
    let j ← skipWhile isDigit s j
    match ← readExponent s j with
    | none => .ok (false, i, [])
    | some e => .ok (true, e, sub s i e)

/-- `in[pos] == c && test (in, pos, s)` (analyze.cpp:815, 828). -/
def testHead (inn : Bytes) (pos : Int) (c : UInt8) (s : Bytes) : Res Bool := do
  let d ← rdI inn pos
  if d = c then test inn pos s else .ok false

/-- The loop of `search_forwards (string, int, string)` (analyze.cpp:827-830). -/
def forwardsF (s : Bytes) (c : UInt8) (inn : Bytes) : Nat → Int → Res Int
  | 0, _ => .hang
  | f + 1, pos => do
    let e ← plus pos s.length
    if e ≤ inn.length then do
      let t ← testHead inn pos c s
      if t then .ok pos
      else do
        let pos ← plus pos 1
        forwardsF s c inn f pos
    else .ok (-1)

/-- `search_forwards (string, int, string)` (analyze.cpp:822-832). -/
def forwards (s : Bytes) (pos : Int) (inn : Bytes) : Res Int :=
  if s.length = 0 then .ok pos
  else do
    let c ← rd s 0
    forwardsF s c inn (rounds inn pos) pos

/-- One round of `search_forwards (array)` (analyze.cpp:814-816): does some pattern match at `pos`? -/
def anyAt (inn : Bytes) (pos : Int) : List Bytes → Res Bool
  | [] => .ok false
  | p :: ps =>
    match p with
    | [] => anyAt inn pos ps
    | c :: _ => do
      let t ← testHead inn pos c p
      if t then .ok true else anyAt inn pos ps

/-- The loop of `search_forwards (array<string>, int, string)` (analyze.cpp:813-818). -/
def anyF (a : List Bytes) (inn : Bytes) : Nat → Int → Res Int
  | 0, _ => .hang
  | f + 1, pos =>
    if pos ≤ inn.length then do
      let t ← anyAt inn pos a
      if t then .ok pos
      else do
        let pos ← plus pos 1
        anyF a inn f pos
    else .ok (-1)

/-- `search_forwards (array<string>, int, string)` (analyze.cpp:810-820). -/
def forwardsAny (a : List Bytes) (pos : Int) (inn : Bytes) : Res Int := anyF a inn (rounds inn pos) pos

/-- The loop of `search_backwards (string, int, string)` (analyze.cpp:862-865), with fuel. -/
def backwardsF (s inn : Bytes) : Nat → Int → Res Int
  | 0, _ => .hang
  | f + 1, pos =>
    if pos ≥ 0 then do
      let t ← test inn pos s
      if t then .ok pos
      else do
        let pos ← plus pos (-1)
        backwardsF s inn f pos
    else .ok (-1)

/-- `search_backwards (string, int, string)` (analyze.cpp:860-867). -/
def backwards (s : Bytes) (pos : Int) (inn : Bytes) : Res Int := backwardsF s inn ((pos + 1).toNat + 1) pos

/-- `find_non_alpha (s, pos, true)` (analyze.cpp:936-939). -/
def alphaF (s : Bytes) : Nat → Int → Res Int
  | 0, _ => .hang
  | f + 1, pos =>
    if pos < s.length then do
      let c ← rdI s pos
      if !isAlpha c then .ok pos
      else do
        let pos ← plus pos 1
        alphaF s f pos
    else .ok (-1)

def nonAlphaForward (s : Bytes) (pos : Int) : Res Int := alphaF s (rounds s pos) pos

/-- `find_non_alpha (s, pos, false)` (analyze.cpp:940-943). -/
def alphaB (s : Bytes) : Nat → Int → Res Int
  | 0, _ => .hang
  | f + 1, pos =>
    if pos > 0 then do
      let c ← rdI s (pos - 1)
      if !isAlpha c then .ok (pos - 1)
      else do
        let pos ← plus pos (-1)
        alphaB s f pos
    else .ok (-1)

def nonAlphaBackward (s : Bytes) (pos : Int) : Res Int := alphaB s (pos.toNat + 1) pos

end Lolly.Pos
