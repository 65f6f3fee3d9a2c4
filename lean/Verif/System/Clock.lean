import Verif.Basic

set_option autoImplicit false

/-!
# The time (System/Classes/tm_timer.cpp)

`tb_gettimeofday` gives the microseconds since 1970 as whole seconds and the rest. `time_t` and the seconds have 64 bits.
-/

namespace Lolly.Clock

/-- `tb_timeval_t`. -/
structure TimeVal where
  sec : Int
  usec : Int
  deriving DecidableEq

/-- `tb_gettimeofday` when the clock shows `t` microseconds. -/
def timeOfDay (t : Int) : TimeVal := ⟨t / 1000000, t % 1000000⟩

/-- The result of an operation on 64 bits; overflow is undefined. -/
def long (x : Int) : Res Int := if -2 ^ 63 ≤ x ∧ x < 2 ^ 63 then .ok x else .ub

/-- `get_sec_time` (tm_timer.cpp:23-28). -/
def getSecTime (t : Int) : Int := (timeOfDay t).sec

/-- `get_usec_time` (tm_timer.cpp:30-35). -/
def getUsecTime (t : Int) : Int := (timeOfDay t).usec

/-- `raw_time` (tm_timer.cpp:37-42). -/
def rawTime (t : Int) : Res Int := do
  let tp := timeOfDay t
  let a ← long (tp.sec * 1000)
  long (a + tp.usec.tdiv 1000)

/-- `start_time` (tm_timer.cpp:44), which is 0 until it is initialised. -/
structure State where
  start : Int
  deriving DecidableEq

/-- Before the variables with initialisers get their values. -/
def boot : State := ⟨0⟩

/-- What happens in the program, with the time on the clock. -/
inductive Ev
  /-- the initialiser of `start_time` -/
  | init (t : Int)
  /-- `texmacs_time ()` -/
  | ask (t : Int)

/-- `texmacs_time` (tm_timer.cpp:46-51). -/
def texmacsTime (st : State) (t : Int) : Res Int := do
  let r ← rawTime t
  long (r - st.start)

/-- The state after an event and what `texmacs_time` has returned. -/
def step (st : State) : Ev → Res (State × List Int)
  | .init t => do
    let r ← rawTime t
    .ok (⟨r⟩, [])
  | .ask t => do
    let r ← texmacsTime st t
    .ok (st, [r])

/-- Events in order. -/
def run (st : State) : List Ev → Res (State × List Int)
  | [] => .ok (st, [])
  | e :: l => do
    let (st, a) ← step st e
    let (st, b) ← run st l
    .ok (st, a ++ b)

end Lolly.Clock
