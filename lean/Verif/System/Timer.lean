import Verif.Algorithms.MergeSort
import Verif.Strings.Convert
import Verif.Strings.StrProps

set_option autoImplicit false

/-!
# Timers (lolly/system/timer.cpp)

The four `hashmap<string, uint32_t>` are lists of keys with values; that the hash map is a map is C01 and C02. The
clock is a parameter of the calls. `LF` is printed without indentation.
-/

namespace Lolly.Timer

abbrev Map := List (Bytes × UInt32)

/-- `m[k]` of a `hashmap` with the default 0. -/
def get (m : Map) (k : Bytes) : UInt32 := ((m.find? fun p => p.1 == k).map (·.2)).getD 0

/-- `m (k) = v`. -/
def put (m : Map) (k : Bytes) (v : UInt32) : Map :=
  if m.any fun p => p.1 == k then m.map fun p => if p.1 == k then (k, v) else p else m ++ [(k, v)]

/-- `m->reset (k)`. -/
def reset (m : Map) (k : Bytes) : Map := m.filter fun p => !(p.1 == k)

/-- The static variables (lolly/system/timer.cpp:21-24). -/
structure State where
  level : Map
  nr : Map
  cumul : Map
  last : Map

def init : State := ⟨[], [], [], []⟩

/-- `(uint32_t) texmacs_time ()`. -/
def u32 (t : Int) : UInt32 := UInt32.ofInt t

/-- `timer_start` (lolly/system/timer.cpp:30-35). -/
def timerStart (s : State) (task : Bytes) (now : Int) : State :=
  let s := if get s.level task = 0 then { s with last := put s.last task (u32 now) } else s
  { s with level := put s.level task (get s.level task + 1) }

/-- `timer_cumul` (lolly/system/timer.cpp:37-47). -/
def timerCumul (s : State) (task : Bytes) (now : Int) : State :=
  let s := { s with level := put s.level task (get s.level task - 1) }
  if get s.level task = 0 then
    let ms := u32 now - get s.last task
    { s with
      nr := put s.nr task (get s.nr task + 1)
      cumul := put s.cumul task (get s.cumul task + ms)
      last := reset s.last task }
  else s

/-- `timer_reset` (lolly/system/timer.cpp:49-56). -/
def timerReset (s : State) (task : Bytes) : State :=
  ⟨reset s.level task, reset s.nr task, reset s.cumul task, reset s.last task⟩

/-- `bench_print` of one task (lolly/system/timer.cpp:58-67): what is written. A string is written character by
character, and a NUL is lost (System/IO/tm_ostream.cpp:225-231, 327-334). -/
def benchPrint (s : State) (task : Bytes) (threshold : UInt32) : Bytes :=
  let elapse := get s.cumul task
  if elapse < threshold then []
  else
    let nr := get s.nr task
    (b!"Task '") ++ task.filter (· ≠ 0) ++ (b!"' took ") ++ Conv.natDec elapse.toNat ++ (b!" ms") ++
      (if nr > 1 then (b!" (") ++ Conv.natDec nr.toNat ++ (b!" invocations)") else []) ++ (b!"\n")

/-- `collect` (lolly/system/timer.cpp:69-77): the keys in the order of `operator<=` on strings (C15). -/
def collect (m : Map) : Res (List Bytes) := MergeSort.sort StrProps.lexLE [] (m.map (·.1))

/-- `bench_print` of all tasks (lolly/system/timer.cpp:79-86). -/
def benchPrintAll (s : State) : Res Bytes := do
  let a ← collect s.cumul
  .ok (a.flatMap fun task => benchPrint s task 0)

inductive Ev
  | start (now : Int)
  | cumul (now : Int)
  | reset

def step (s : State) (task : Bytes) : Ev → State
  | .start now => timerStart s task now
  | .cumul now => timerCumul s task now
  | .reset => timerReset s task

def run (s : State) : List (Bytes × Ev) → State
  | [] => s
  | (task, e) :: l => run (step s task e) l

end Lolly.Timer
