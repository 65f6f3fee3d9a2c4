import Verif.Loop

set_option autoImplicit false

/-!
# Stack traces (System/Misc/sys_utils.cpp:174-216)

tbox is asked for the frames and their names: `frames` are the names of the frames above the caller, from the innermost on,
`none` if there is no name. Names are C strings.
-/

namespace Lolly.Stack

/-- `tb_backtrace_frames (addrlist, max_frames, 2)` into an array of `size` pointers: at most `max` of the frames are
written. -/
def frames (size max : Nat) (all : List (Option Bytes)) : Res (List (Option Bytes)) :=
  if (all.take max).length ≤ size then .ok (all.take max) else .ub

/-- The line of a frame (sys_utils.cpp:204-209). -/
def addFrame (r : Bytes) : Option Bytes → Bytes
  | none => r ++ b!"  null\n"
  | some s => r ++ (b!"  ") ++ s.takeWhile (· ≠ 0) ++ (b!"\n")

/-- `get_stacktrace` (sys_utils.cpp:174-216). `max_frames + 1` is an `unsigned int`; an array of no pointers (sys_utils.cpp:181)
is undefined. That a large array does not fit on the stack is not modelled. -/
def getStacktrace (max : Nat) (all : List (Option Bytes)) : Res Bytes :=
  let r := b!"Backtrace of C++ stack:\n"
  let size := (max + 1) % 2 ^ 32
  if size = 0 then .ub
  else do
    let addrlist ← frames size max all
    if addrlist.length = 0 then .ok (r ++ b!"  <empty, possibly corrupt>\n")
    else
      forUp 0 addrlist.length r fun i r => do
        let curname ← rd addrlist i
        .ok (addFrame r curname)

end Lolly.Stack
