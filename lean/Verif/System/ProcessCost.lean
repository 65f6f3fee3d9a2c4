import Verif.System.Process

set_option autoImplicit false

/-!
# The cost of collecting the output of a command

The buffer of the thread that reads (Plugins/Unix/unix_sys_utils.cpp:62-93, 137-154) as in `Process`, with a count of the
characters that `memcpy` copies.
-/

namespace Lolly.ProcessCost

open Process

/-- `memcpy (a + i, b, b.length)`, after `k` characters have been copied. -/
def memcpyC (k : Nat) (a : Bytes) (i : Nat) (b : Bytes) : Res (Bytes × Nat) := do
  let a ← memcpy a i b
  .ok (a, k + b.length)

/-- `resize (m)` (unix_sys_utils.cpp:72-80). -/
def resizeC (junk : Nat → UInt8) (t : Ts) (k m : Nat) : Res (Ts × Nat) :=
  if m ≤ t.n then .ok (t, k)
  else if 2 * t.n < 2 ^ 31 ∧ m < 2 ^ 31 then do
    let l := max (2 * t.n) m
    if t.n ≤ t.a.length then do
      let (a, k) ← memcpyC k ((List.range l).map junk) 0 (t.a.take t.n)
      .ok (⟨t.n, l, a⟩, k)
    else .ub
  else .ub

/-- `append (b, m)` (unix_sys_utils.cpp:82-86). -/
def appendC (junk : Nat → UInt8) (t : Ts) (k : Nat) (b : Bytes) : Res (Ts × Nat) := do
  let (t, k) ← resizeC junk t k (b.length + t.n)
  let (a, k) ← memcpyC k t.a t.n b
  .ok (⟨t.n + b.length, t.l, a⟩, k)

/-- `_background_read_task` (unix_sys_utils.cpp:137-154); the last component is the number of characters copied. -/
def readLoopC (junk : Nat → UInt8) (read : Nat → Option Bytes) (closes : Bool) : Nat → Nat → Ts → Nat → Res ((Ts × Nat × Bool) × Nat)
  | 0, _, _, _ => .hang
  | f + 1, i, t, k =>
    match read i with
    | none => .ok ((t, 0, false), k)
    | some b =>
      if b.length = 0 then .ok ((t, 1, !closes), k)
      else do
        let (t, k) ← appendC junk t k b
        readLoopC junk read closes f (i + 1) t k

end Lolly.ProcessCost
