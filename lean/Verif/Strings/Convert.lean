import Verif.Loop
import Verif.Bytes

/-!
# Model of the conversions of Kernel/Types/string.cpp between strings and numbers

`get i` reads `s[i]`. It is a parameter, so that the same code can be run on the bytes of a string
(reading `s[N(s)]` is then undefined) and on its allocated block.
`as_double` and `as_string (double)` are in `Decimal.lean`.
-/

set_option autoImplicit false

namespace Lolly.Conv

/-- The digit loop of `as_int` (string.cpp:211-217) and `as_long_int` (string.cpp:229-235), on the
bytes from position `i` on; `lim` is 2^31 or 2^63 and signed overflow is undefined. -/
def digitLoop (lim : Int) : Bytes → Int → Res Int
  | [], val => .ok val
  | c :: cs, val =>
    if schar c < 48 then .ok val
    else if schar c > 57 then .ok val
    else
      let val := val * 10
      if ¬ (-lim ≤ val ∧ val < lim) then .ub
      else
        let val := val + (schar c - 48)
        if ¬ (-lim ≤ val ∧ val < lim) then .ub else digitLoop lim cs val

/-- `as_int` (string.cpp:205-220) with `lim` = 2^31, `as_long_int` (string.cpp:222-238) with `lim` =
2^63. -/
def asInt (lim : Int) (s : Bytes) : Res Int :=
  if s.length = 0 then .ok 0
  else do
    let c ← rd s 0
    let i := if c = c! '+' then 1 else 0
    let i := if c = c! '-' then i + 1 else i
    let val ← digitLoop lim (s.drop i) 0
    if c = c! '-' then
      if val = -lim then .ub else .ok (-val)
    else .ok val

/-- Decimal digits of a natural number, as printed by `std::to_string` and by `sprintf "%u"`. -/
def natDec (n : Nat) : Bytes :=
  if n < 10 then [UInt8.ofNat (48 + n)] else natDec (n / 10) ++ [UInt8.ofNat (48 + n % 10)]

/-- `as_string` of a signed integer (string.cpp:271-284) and of an unsigned one (string.cpp:286-300). -/
def asString (i : Int) : Bytes :=
  if i < 0 then c! '-' :: natDec (-i).toNat else natDec i.toNat

/-- `(s[i] < '0') || (s[i] > '9')`. -/
def nonDigit (c : UInt8) : Bool := decide (schar c < 48) || decide (schar c > 57)

/-- `for (; i < n; i++) if (nondigit s[i]) break;` with `k = n - i`: the final `i`. -/
def skip (get : Nat → Res UInt8) : Nat → Nat → Res Nat
  | 0, i => .ok i
  | k + 1, i => do
    let c ← get i
    if nonDigit c then .ok i else skip get k (i + 1)

/-- `for (; i < n; i++) if (nondigit s[i]) return false; return true;`. -/
def allDigits (get : Nat → Res UInt8) : Nat → Nat → Res Bool
  | 0, _ => .ok true
  | k + 1, i => do
    let c ← get i
    if nonDigit c then .ok false else allDigits get k (i + 1)

/-- `if (s[i] == '+') i++; if (s[i] == '-') i++;`. -/
def sign (get : Nat → Res UInt8) (i : Nat) : Res Nat := do
  let c ← get i
  let i := if c = c! '+' then i + 1 else i
  let c ← get i
  .ok (if c = c! '-' then i + 1 else i)

/-- `is_int` (string.cpp:325-335). -/
def isInt (get : Nat → Res UInt8) (n : Nat) : Res Bool :=
  if n = 0 then .ok false
  else do
    let i ← sign get 0
    if i = n then .ok false else allDigits get (n - i) i

/-- `is_double` (string.cpp:337-361). -/
def isDouble (get : Nat → Res UInt8) (n : Nat) : Res Bool :=
  if n = 0 then .ok false
  else do
    let i ← sign get 0
    if i = n then .ok false
    else do
      let i ← skip get (n - i) i
      if i = n then .ok true
      else do
        let c ← get i
        let exponent (i : Nat) : Res Bool :=
          if i = n then .ok true
          else do
            let c ← get i
            let i := i + 1
            if c ≠ c! 'e' then .ok false
            else do
              let i ← sign get i
              if i = n then .ok false else allDigits get (n - i) i
        if c = c! '.' then
          let i := i + 1
          if i = n then .ok false
          else do
            let i ← skip get (n - i) i
            exponent i
        else exponent i

/-- `is_bool` (string.cpp:320-323), `as_bool` (string.cpp:200-203). -/
def isBool (s : Bytes) : Bool := s == b!"true" || s == b!"false"
def asBool (s : Bytes) : Bool := s == b!"true" || s == b!"#t"

/-- `as_string_bool` (string.cpp:265-269). -/
def asStringBool (b : Bool) : Bytes := if b then b!"true" else b!"false"

/-- `is_id` (string.cpp:375-387). -/
def isId (s : Bytes) : Res Bool :=
  if s.length = 0 then .ok false
  else do
    let r ← forRet 0 s.length fun i => do
      let c ← rd s i
      .ok (if i > 0 ∧ schar c ≥ 48 ∧ schar c ≤ 57 then none
        else if schar c ≥ 97 ∧ schar c ≤ 122 then none
        else if schar c ≥ 65 ∧ schar c ≤ 90 then none
        else if c = c! '_' then none
        else some ())
    .ok r.isNone

end Lolly.Conv
