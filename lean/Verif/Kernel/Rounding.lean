import Verif.Basic

/-!
# Rounding floating point numbers

Model of `as_int (double)` and `tm_round (double)`
(Kernel/Abstractions/basic.hpp:253-275).

A finite IEEE 754 double is an integral multiple of `2 ^ -1074`, so a finite
value is kept as the integer `n` which stands for `n * 2 ^ -1074`.  The sum of
two doubles is the exact sum rounded to 53 significant bits, ties to the even
neighbour (the default rounding mode; on the targets of the library doubles are
computed in double precision).  A sum of two multiples of `2 ^ -1074` is such a
multiple again, so that underflow never loses anything.

Simplification: the two zeros are one value.
-/

set_option autoImplicit false

namespace Lolly.Rounding

/-- One, as a multiple of `2 ^ -1074`. -/
def one : Nat := 2 ^ 1074

/-- A double: finite values are multiples of `2 ^ -1074`. -/
inductive Dbl where
  | fin (n : Int)
  | inf (neg : Bool)
  | nan
  deriving DecidableEq, Repr

/-- Round a magnitude to 53 significant bits, ties to the even neighbour
(IEEE 754 roundTiesToEven). -/
def rne (n : Nat) : Nat :=
  if n < 2 ^ 53 then n
  else
    let k := n.log2 - 52
    let q := n / 2 ^ k
    let r := n % 2 ^ k
    if 2 * r < 2 ^ k ∨ (2 * r = 2 ^ k ∧ q % 2 = 0) then q * 2 ^ k
    else (q + 1) * 2 ^ k

/-- Round an exact value. -/
def rnd (a : Int) : Int :=
  if a < 0 then -(rne a.natAbs : Int) else (rne a.natAbs : Int)

/-- `x + y` on doubles. -/
def add : Dbl → Dbl → Dbl
  | .fin a, .fin b =>
    let c := rnd (a + b)
    if c.natAbs < 2 ^ 2098 then .fin c else .inf (decide (c < 0))
  | .inf s, .inf t => if s = t then .inf s else .nan
  | .inf s, .fin _ => .inf s
  | .fin _, .inf s => .inf s
  | .nan, _ => .nan
  | _, .nan => .nan

/-- `floor (x)` of `<math.h>`. -/
def floor : Dbl → Dbl
  | .fin a => .fin (a / (one : Int) * (one : Int))
  | x => x

/-- The literal `0.5`. -/
def half : Dbl := .fin (2 ^ 1073 : Nat)

/-- `tm_round (x)` (Kernel/Abstractions/basic.hpp:265-275):
`floor (x + 0.5)`. -/
def tmRound (x : Dbl) : Dbl := floor (add x half)

/-- The conversion `(SI) x`: the fraction is dropped; undefined if the result
is not an `int` ([conv.fpint]). -/
def toInt : Dbl → Res Int
  | .fin a =>
    let z := a.tdiv (one : Int)
    if -2147483648 ≤ z ∧ z ≤ 2147483647 then .ok z else .ub
  | _ => .ub

/-- `as_int (x)` (Kernel/Abstractions/basic.hpp:253-263):
`(SI) floor (x + 0.5)`. -/
def asInt (x : Dbl) : Res Int := toInt (floor (add x half))

end Lolly.Rounding
