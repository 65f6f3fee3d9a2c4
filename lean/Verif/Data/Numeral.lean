import Verif.Strings.Chars

/-!
# Model of lolly/data/numeral.cpp
-/

set_option autoImplicit false

namespace Lolly.Numeral

open Lolly.An

/-! ## Roman numerals -/

/-- `roman_ones`, `roman_tens`, `roman_hundreds`, `roman_thousands` (numeral.cpp:18-24). -/
def romanOnes : List Bytes :=
  [b!"", b!"i", b!"ii", b!"iii", b!"iv", b!"v", b!"vi", b!"vii", b!"viii", b!"ix"]
def romanTens : List Bytes :=
  [b!"", b!"x", b!"xx", b!"xxx", b!"xl", b!"l", b!"lx", b!"lxx", b!"lxxx", b!"xc"]
def romanHundreds : List Bytes :=
  [b!"", b!"c", b!"cc", b!"ccc", b!"cd", b!"d", b!"dc", b!"dcc", b!"dccc", b!"cm"]
def romanThousands : List Bytes := [b!"", b!"m", b!"mm", b!"mmm"]

/-- The last statement of `to_roman` (numeral.cpp:38-39), for a nonnegative argument. -/
def romanNat (nr : Nat) : Res Bytes := do
  let a ← rd romanThousands ((nr / 1000) % 10)
  let b ← rd romanHundreds ((nr / 100) % 10)
  let c ← rd romanTens ((nr / 10) % 10)
  let d ← rd romanOnes (nr % 10)
  .ok (a ++ b ++ c ++ d)

/-- `to_roman` (numeral.cpp:33-40). The recursive call is made with a positive argument, for which the
first three tests fail or have been made. -/
def toRoman (nr : Int) : Res Bytes :=
  if nr = 0 then .ok (b!"o")
  else if nr > 3999 ∨ nr < -3999 then .ok (b!"?")
  else if nr < 0 then do
    let r ← romanNat (-nr).toNat
    .ok (b!"-" ++ r)
  else romanNat nr.toNat

/-- `to_Roman` (numeral.cpp:42-45). -/
def toRomanUp (nr : Int) : Res Bytes := do
  let r ← toRoman nr
  upcaseAll r

/-! ## Chinese numerals

The source is UTF-8; a string made by concatenating literals is modelled by its list of characters. -/

/-- `chars_han` (numeral.cpp:28-29). -/
def charsHan : List Char := ['?', '一', '二', '三', '四', '五', '六', '七', '八', '九']

/-- `hanzi_sub` (numeral.cpp:47-127) for `0 <= nr`. The `default` case of the `switch` is not reached:
`cases` is a number below 32. -/
def hanziSub (nr : Nat) (leadingZero : Bool) : Res (List Char) := do
  let thousand := (nr % 10000) / 1000
  let hundred := (nr % 1000) / 100
  let ten := (nr % 100) / 10
  let one := nr % 10
  let t ← rd charsHan thousand
  let h ← rd charsHan hundred
  let d ← rd charsHan ten
  let o ← rd charsHan one
  match thousand == 0, hundred == 0, ten == 0, one == 0 with
  | false, false, false, false => .ok [t, '千', h, '百', d, '十', o]
  | false, false, false, true => .ok [t, '千', h, '百', d, '十']
  | false, false, true, false => .ok [t, '千', h, '百', '零', o]
  | false, false, true, true => .ok [t, '千', h, '百']
  | false, true, false, false => .ok [t, '千', '零', d, '十', o]
  | false, true, false, true => .ok [t, '千', '零', d, '十']
  | false, true, true, false => .ok [t, '千', '零', o]
  | false, true, true, true => .ok [t, '千']
  | true, false, false, false =>
    .ok (if leadingZero then ['零', h, '百', d, '十', o] else [h, '百', d, '十', o])
  | true, false, false, true => .ok (if leadingZero then ['零', h, '百', d, '十'] else [h, '百', d, '十'])
  | true, false, true, false => .ok (if leadingZero then ['零', h, '百', '零', o] else [h, '百', '零', o])
  | true, false, true, true => .ok (if leadingZero then ['零', h, '百'] else [h, '百'])
  | true, true, false, false =>
    .ok (if leadingZero then ['零', d, '十', o] else if ten = 1 then ['十', o] else [d, '十', o])
  | true, true, false, true =>
    .ok (if leadingZero then ['零', d, '十'] else if ten = 1 then ['十'] else [d, '十'])
  | true, true, true, false => .ok (if leadingZero then ['零', o] else [o])
  | true, true, true, true => .ok []

/-- The part of `to_hanzi` for positive arguments (numeral.cpp:134-142). -/
def hanziNat (nr : Nat) : Res (List Char) :=
  if nr ≥ 100000000 then do
    let a ← hanziSub (nr / 100000000) false
    let b ← hanziSub ((nr / 10000) % 10000) true
    let c ← hanziSub (nr % 10000) true
    .ok (a ++ ['亿'] ++ b ++ ['万'] ++ c)
  else if nr ≥ 10000 then do
    let a ← hanziSub (nr / 10000) false
    let b ← hanziSub (nr % 10000) true
    .ok (a ++ ['万'] ++ b)
  else hanziSub nr false

/-- `to_hanzi` (numeral.cpp:129-143). -/
def toHanzi (nr : Int) : Res (List Char) :=
  if nr = 0 then .ok ['零']
  else if nr = -2 ^ 31 then .ok ("负二十一亿四千七百四十八万三千六百四十八".toList)
  else if nr < 0 then do
    let r ← hanziNat (-nr).toNat
    .ok ('负' :: r)
  else hanziNat nr.toNat

/-! ## Hexadecimal -/

/-- `hex_string` (numeral.cpp:31). -/
def hexString : Bytes := b!"0123456789ABCDEF"

/-- `to_padded_Hex` (numeral.cpp:145-150). -/
def toPaddedHexUp (i : UInt8) : Res Bytes := do
  let hi ← rd hexString (i.toNat / 16)
  let lo ← rd hexString (i.toNat % 16)
  .ok ([hi] ++ [lo])

/-- `to_padded_hex` (numeral.cpp:152-155). -/
def toPaddedHex (i : UInt8) : Res Bytes := do
  let r ← toPaddedHexUp i
  locaseAll r

/-- `to_Hex_positive` (numeral.cpp:163-171); the argument is an unsigned integer of any width. -/
def toHexPositive (i : Nat) (s : Bytes) : Res Bytes :=
  if i ≥ 16 then do
    let s ← toHexPositive (i / 16) s
    let d ← rd hexString (i % 16)
    .ok (s ++ [d])
  else do
    let d ← rd hexString (i % 16)
    .ok (s ++ [d])
termination_by i
decreasing_by omega

/-- `to_Hex (int32_t)` (numeral.cpp:173-186). -/
def toHexUp (i : Int) : Res Bytes :=
  if i = -2 ^ 31 then .ok (b!"-80000000")
  else if i < 0 then toHexPositive (-i).toNat (b!"-")
  else toHexPositive i.toNat []

/-- `to_hex (int32_t)` (numeral.cpp:188-191). -/
def toHex (i : Int) : Res Bytes := do
  let r ← toHexUp i
  locaseAll r

/-- `to_Hex (pointer)` (numeral.cpp:193-206); `i` is the value of the pointer as `intptr_t`, whose
smallest value cannot be negated. -/
def toHexPtr (i : Int) : Res Bytes :=
  if i < 0 then if i = -2 ^ 63 then .ub else toHexPositive (-i).toNat (b!"-")
  else toHexPositive i.toNat []

/-- `res << 4` on `int` in C++17: undefined for a negative operand or when the result does not fit
in `unsigned int`; otherwise the bit pattern is kept. -/
def shl4 (r : Int) : Res Int :=
  if r < 0 then .ub
  else if r * 16 < 2 ^ 31 then .ok (r * 16)
  else if r * 16 < 2 ^ 32 then .ok (r * 16 - 2 ^ 32)
  else .ub

/-- What the three `if` statements of `from_hex` add (numeral.cpp:219-221). -/
def hexAdd (c : UInt8) : Int :=
  (if isDigit c then schar c - 48 else 0) +
  (if schar c ≥ 65 ∧ schar c ≤ 70 then schar c + 10 - 65 else 0) +
  (if schar c ≥ 97 ∧ schar c ≤ 102 then schar c + 10 - 97 else 0)

/-- The loop of `from_hex` (numeral.cpp:217-222). The addition cannot overflow: the low four bits of
the shifted value are 0. -/
def fromHexLoop (s : Bytes) : Res Int :=
  forUp 0 s.length 0 fun i res => do
    let res ← shl4 res
    let c ← rd s i
    .ok (res + hexAdd c)

/-- `from_hex` (numeral.cpp:213-224); `s (1, n)` is the tail. -/
def fromHex : Bytes → Res Int
  | [] => fromHexLoop []
  | c :: r =>
    if c = c! '-' then do
      let v ← fromHex r
      if v = -2 ^ 31 then .ub else .ok (-v)
    else fromHexLoop (c :: r)

/-- `as_hexadecimal_sub<cur>` (numeral.cpp:236-244). -/
def asHexadecimalSub : Nat → Nat → Bytes → Res Bytes
  | 0, i, s => do
    let d ← rd hexString (i % 16)
    wr s 0 d
  | cur + 1, i, s => do
    let s ← asHexadecimalSub cur (i / 16) s
    let d ← rd hexString (i % 16)
    wr s (cur + 1) d

/-- `as_hexadecimal` (numeral.cpp:246-303), for `len >= 0`; the `switch` lists 1, ..., 16. -/
def asHexadecimal (i : Int) (len : Nat) : Res Bytes :=
  if 1 ≤ len ∧ len ≤ 16 then
    asHexadecimalSub (len - 1) (i % 2 ^ 32).toNat (List.replicate len 0)
  else .thrown

/-- `uint32_to_Hex` (numeral.cpp:305-310). -/
def uint32ToHex (i : Nat) : Res Bytes := toHexPositive i []

/-- `binary_to_hexadecimal` (numeral.cpp:312-322). -/
def binaryToHexadecimal (bin : Bytes) : Res Bytes :=
  forUp 0 bin.length (List.replicate (2 * bin.length) 0) fun k res => do
    let ch ← rd bin k
    let hi ← rd hexString (ch.toNat / 16)
    let res ← wr res (2 * k) hi
    let lo ← rd hexString (ch.toNat % 16)
    wr res (2 * k + 1) lo

end Lolly.Numeral
