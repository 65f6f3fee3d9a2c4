import Verif.System.Ostream

set_option autoImplicit false

/-!
# Asking streams (System/IO/tm_ostream.cpp)
-/

namespace Lolly.Writable

open Lolly.Ostream

/-- `rep->is_writable ()` (System/IO/tm_ostream.cpp:90-93 for files, 135-138 for buffers). -/
def isWritableRep (w : World) (id : Nat) : Res Bool :=
  match w.reps[id]? with
  | none => .ub
  | some r =>
    if !r.alive then .ub
    else
      match r.kind with
      | .buf _ _ => .ok true
      | .std _ isW _ => .ok isW

/-- `x->is_writable ()` (lines 165-168). -/
def isWritable (w : World) (i : Nat) : Res Bool := do
  let id ← var w i
  isWritableRep w id

end Lolly.Writable
