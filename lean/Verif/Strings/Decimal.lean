import Verif.Kernel.Rounding
import Verif.Strings.ConvertLemmas

/-!
# Doubles as decimal text

Model of `as_string (double)` (Kernel/Types/string.cpp:302-308), `as_double` (Kernel/Types/string.cpp:240-253) and of
printing to streams with `operator<< (float)` and `operator<< (double)` (System/IO/tm_ostream.cpp:297-311). All of them
use `%g` of `sprintf` and `%lf` of `sscanf`, which are modelled after the C standard (7.21.6.1, 7.21.6.2, 7.22.1.3)
with correctly rounded conversions, ties to even, as in glibc, and for the decimal point of the locale "C".

Simplifications: as in `Rounding`, the two zeros are one value, printed as `0`; a NaN has no sign; hexadecimal numbers
are not read; of a text that begins like a number or like `infinity` the longest part that is one is read.
-/

set_option autoImplicit false

namespace Lolly.Decimal

open Lolly.Rounding Lolly.Conv

/-- The integer nearest to `a / b`, the even one of two. -/
def rhe (a b : Nat) : Nat :=
  if 2 * (a % b) < b ∨ (2 * (a % b) = b ∧ a / b % 2 = 0) then a / b else a / b + 1

/-- The number of decimal digits of `n`, less one. -/
def log10 (n : Nat) : Nat := if n < 10 then 0 else log10 (n / 10) + 1

/-- The six significant digits `q` of the double `n * 2 ^ -1074` and its decimal exponent, as in the conversion `%e`.
The exponent is increased by 330, so that it is never negative: the result stands for `q * 10 ^ (y - 335)`. -/
def six (n : Nat) : Nat × Nat :=
  let y := log10 (n * 10 ^ 330 / one)
  let q := rhe (n * 10 ^ 330) (one * 10 ^ (y - 5))
  if q < 10 ^ 6 then (q, y) else (10 ^ 5, y + 1)

/-- Zeros at the end are removed from the fraction. -/
def strip (f : Bytes) : Bytes := (f.reverse.dropWhile (· = c! '0')).reverse

/-- The fraction with the point; no point if nothing is left of the fraction. -/
def fraction (f : Bytes) : Bytes := if strip f = [] then [] else c! '.' :: strip f

/-- The exponent: a sign and at least two digits. -/
def exponent (x : Int) : Bytes :=
  b!"e" ++ (if x < 0 then b!"-" else b!"+") ++ (if x.natAbs < 10 then b!"0" else []) ++ natDec x.natAbs

/-- `%g` for a positive number with six digits `q` and the exponent `y - 330`: the style of `%e` is used if the exponent
is less than -4 or at least 6. -/
def layout (q y : Nat) : Bytes :=
  if y < 326 ∨ 336 ≤ y then
    (natDec q).take 1 ++ fraction ((natDec q).drop 1) ++ exponent ((y : Int) - 330)
  else if y < 330 then b!"0" ++ fraction (List.replicate (329 - y) (c! '0') ++ natDec q)
  else (natDec q).take (y - 329) ++ fraction ((natDec q).drop (y - 329))

/-- The text of `%g`. -/
def fmtG : Dbl → Bytes
  | .fin n =>
    if n = 0 then b!"0"
    else (if n < 0 then b!"-" else []) ++ layout (six n.natAbs).1 (six n.natAbs).2
  | .inf neg => (if neg then b!"-" else []) ++ b!"inf"
  | .nan => b!"nan"

/-- `sprintf (buf, "%g", x)` into an array of `size` characters: the text and a NUL must fit. -/
def sprintfG (size : Nat) (x : Dbl) : Res Bytes := if (fmtG x).length < size then .ok (fmtG x) else .ub

/-- `as_string (x)` (Kernel/Types/string.cpp:302-308). -/
def asString (x : Dbl) : Res Bytes := sprintfG 64 x

/-- What `out << x` writes for a double (System/IO/tm_ostream.cpp:305-311). -/
def printDouble (x : Dbl) : Res Bytes := sprintfG 64 x

/-- What `out << x` writes for a float (System/IO/tm_ostream.cpp:297-303); a float is given to `sprintf` as a double. -/
def printFloat (x : Dbl) : Res Bytes := sprintfG 32 x

/-- The double nearest to `a / b` times `2 ^ -1074`. -/
def nearestQ (a b : Nat) : Dbl :=
  let k := (a / b).log2 - 52
  let n := rhe a (b * 2 ^ k) * 2 ^ k
  if n < 2 ^ 2098 then .fin n else .inf false

/-- The double nearest to `m * 10 ^ e`. -/
def nearest (m : Nat) (e : Int) : Dbl := nearestQ (m * one * 10 ^ e.toNat) (10 ^ (-e).toNat)

def negate : Dbl → Dbl
  | .fin n => .fin (-n)
  | .inf neg => .inf (!neg)
  | .nan => .nan

/-- `isspace` in the locale "C". -/
def isSpace (c : UInt8) : Bool := c = 32 || (9 ≤ c && c ≤ 13)

/-- The exponent part of a number, `e` or `E`, a sign and digits; 0 if there is none. -/
def scanExp (s : Bytes) : Int :=
  match s with
  | c :: t =>
    if c = c! 'e' ∨ c = c! 'E' then
      match t with
      | d :: u =>
        if d = c! '-' then -(value (u.takeWhile isDig) : Int)
        else if d = c! '+' then (value (u.takeWhile isDig) : Int)
        else (value (t.takeWhile isDig) : Int)
      | [] => 0
    else 0
  | [] => 0

/-- The digits after the point and the rest. -/
def scanFrac (s : Bytes) : Bytes × Bytes :=
  match s with
  | c :: t => if c = c! '.' then (t.takeWhile isDig, t.dropWhile isDig) else ([], s)
  | [] => ([], [])

/-- The longest decimal number at the beginning of a text without sign, as `m * 10 ^ e`. -/
def scanNum (s : Bytes) : Option (Nat × Int) :=
  let i := s.takeWhile isDig
  let fr := scanFrac (s.dropWhile isDig)
  if i ++ fr.1 = [] then none else some (value (i ++ fr.1), scanExp fr.2 - fr.1.length)

/-- `tolower` in the locale "C". -/
def lower (c : UInt8) : UInt8 := if 65 ≤ c && c ≤ 90 then c + 32 else c

/-- The conversion `%lf` for a text without sign; `inf` and `nan` may be written with small and capital letters. -/
def scanAbs (s : Bytes) : Option Dbl :=
  match scanNum s with
  | some (m, e) => some (nearest m e)
  | none =>
    if (b!"inf").isPrefixOf (s.map lower) then some (.inf false)
    else if (b!"nan").isPrefixOf (s.map lower) then some .nan else none

/-- The conversion `%lf` of `sscanf`. -/
def scanDouble (s : Bytes) : Option Dbl :=
  match s.dropWhile isSpace with
  | c :: t =>
    if c = c! '-' then (scanAbs t).map negate else if c = c! '+' then scanAbs t else scanAbs (c :: t)
  | [] => none

/-- `as_double (s)` (Kernel/Types/string.cpp:240-253): the text is copied and ends with the first NUL; if nothing is
read the value stays 0. -/
def asDouble (s : Bytes) : Dbl := (scanDouble (s.takeWhile (· ≠ 0))).getD (.fin 0)

end Lolly.Decimal
