import Verif.Basic

set_option autoImplicit false

/-!
# Smaller and larger numbers

Model of `min` and `max` for `SI`, `DI` and `double` (Kernel/Abstractions/minmax.hpp:27-94).
-/

namespace Lolly.MinMax

/-- `min (SI, SI)` and `min (DI, DI)` (minmax.hpp:27-30, 53-56). -/
def minI (i j : Int) : Int := if i < j then i else j

/-- `max (SI, SI)` and `max (DI, DI)` (minmax.hpp:40-43, 66-69). -/
def maxI (i j : Int) : Int := if i > j then i else j

/-- A double as it is stored (IEEE 754, binary64): the sign, the exponent and the fraction. -/
structure F64 where
  neg : Bool
  exp : Fin 2048
  man : Fin 4503599627370496
  deriving DecidableEq

def F64.isNaN (x : F64) : Bool := x.exp.val = 2047 && x.man.val ≠ 0

/-- The magnitude as a multiple of `2 ^ -1074`; that of infinity is larger than all others. -/
def F64.mag (x : F64) : Nat :=
  if x.exp.val = 0 then x.man.val else (4503599627370496 + x.man.val) * 2 ^ (x.exp.val - 1)

/-- The value, as a multiple of `2 ^ -1074`. -/
def F64.val (x : F64) : Int := if x.neg then -(x.mag : Int) else x.mag

/-- `x < y`: never true for a NaN. -/
def F64.lt (x y : F64) : Bool := !x.isNaN && !y.isNaN && x.val < y.val

/-- `min (double, double)` (minmax.hpp:79-82). -/
def minD (i j : F64) : F64 := if i.lt j then i else j

/-- `max (double, double)` (minmax.hpp:91-94). -/
def maxD (i j : F64) : F64 := if j.lt i then i else j

end Lolly.MinMax
