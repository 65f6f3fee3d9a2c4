import Verif.System.Ostream

set_option autoImplicit false

/-!
# Comparing streams (System/IO/tm_ostream.cpp:176-179)
-/

namespace Lolly.Ostream

/-- `tm_ostream::operator==` (tm_ostream.cpp:176-179): the addresses of the two variables are compared. Different
variables have different addresses, so that these are the positions `i` and `j` among the variables. -/
def equal (w : World) (i j : Nat) : Res Bool := do
  let _ ← var w i
  let _ ← var w j
  .ok (decide (j = i))

end Lolly.Ostream
