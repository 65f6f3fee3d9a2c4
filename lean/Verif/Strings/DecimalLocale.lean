import Verif.Strings.Decimal

/-!
# Doubles as decimal text in other locales

`as_string (double)` (Kernel/Types/string.cpp:302-308), `as_double` (Kernel/Types/string.cpp:240-253) and printing to streams
with `operator<< (float)` and `operator<< (double)` (System/IO/tm_ostream.cpp:297-311) once more. `%g` of `sprintf` and `%lf` of
`sscanf` use the decimal point of the present locale of the program (C standard 7.1.1, 7.21.6, 7.22.1.3), which is "C" at the
start and which the program, or a library it uses, may set with `setlocale`. Here `p` is this decimal point, a string, since it
may have several bytes. The functions of `Decimal` that do not deal with the point are used as they are.

Simplifications: those of `Decimal`; of the locale nothing else counts (white space and letters are those of ASCII).
-/

set_option autoImplicit false

namespace Lolly.DecimalLocale

open Lolly.Rounding Lolly.Conv Lolly.Decimal

variable (p : Bytes)

/-- The fraction with the point; no point if nothing is left of the fraction. -/
def fraction (f : Bytes) : Bytes := if strip f = [] then [] else p ++ strip f

/-- `%g` for a positive number with six digits `q` and the exponent `y - 330`. -/
def layout (q y : Nat) : Bytes :=
  if y < 326 ∨ 336 ≤ y then
    (natDec q).take 1 ++ fraction p ((natDec q).drop 1) ++ exponent ((y : Int) - 330)
  else if y < 330 then b!"0" ++ fraction p (List.replicate (329 - y) (c! '0') ++ natDec q)
  else (natDec q).take (y - 329) ++ fraction p ((natDec q).drop (y - 329))

/-- The text of `%g`. -/
def fmtG : Dbl → Bytes
  | .fin n =>
    if n = 0 then b!"0"
    else (if n < 0 then b!"-" else []) ++ layout p (six n.natAbs).1 (six n.natAbs).2
  | .inf neg => (if neg then b!"-" else []) ++ b!"inf"
  | .nan => b!"nan"

/-- `sprintf (buf, "%g", x)` into an array of `size` characters: the text and a NUL must fit. -/
def sprintfG (size : Nat) (x : Dbl) : Res Bytes := if (fmtG p x).length < size then .ok (fmtG p x) else .ub

/-- `as_string (x)` (Kernel/Types/string.cpp:302-308). -/
def asString (x : Dbl) : Res Bytes := sprintfG p 64 x

/-- What `out << x` writes for a double (System/IO/tm_ostream.cpp:305-311). -/
def printDouble (x : Dbl) : Res Bytes := sprintfG p 64 x

/-- What `out << x` writes for a float (System/IO/tm_ostream.cpp:297-303). -/
def printFloat (x : Dbl) : Res Bytes := sprintfG p 32 x

/-- The digits after the point and the rest. -/
def scanFrac (s : Bytes) : Bytes × Bytes :=
  if p.isPrefixOf s then ((s.drop p.length).takeWhile isDig, (s.drop p.length).dropWhile isDig) else ([], s)

/-- The longest decimal number at the beginning of a text without sign, as `m * 10 ^ e`. -/
def scanNum (s : Bytes) : Option (Nat × Int) :=
  let i := s.takeWhile isDig
  let fr := scanFrac p (s.dropWhile isDig)
  if i ++ fr.1 = [] then none else some (value (i ++ fr.1), scanExp fr.2 - fr.1.length)

/-- The conversion `%lf` for a text without sign. -/
def scanAbs (s : Bytes) : Option Dbl :=
  match scanNum p s with
  | some (m, e) => some (nearest m e)
  | none =>
    if (b!"inf").isPrefixOf (s.map lower) then some (.inf false)
    else if (b!"nan").isPrefixOf (s.map lower) then some .nan else none

/-- The conversion `%lf` of `sscanf`. -/
def scanDouble (s : Bytes) : Option Dbl :=
  match s.dropWhile isSpace with
  | c :: t =>
    if c = c! '-' then (scanAbs p t).map negate else if c = c! '+' then scanAbs p t else scanAbs p (c :: t)
  | [] => none

/-- `as_double (s)` (Kernel/Types/string.cpp:240-253). -/
def asDouble (s : Bytes) : Dbl := (scanDouble p (s.takeWhile (· ≠ 0))).getD (.fin 0)

end Lolly.DecimalLocale
