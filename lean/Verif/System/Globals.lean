import Verif.Basic

/-!
# Objects with static storage duration

The library has global objects that are made when the program starts, before `main`, and destroyed when it ends, after
`main`. Those of one source file are made in the order in which they are defined; the order of the source files is not
specified. Objects that are `static` in a function are made by the first call that gets there. Everything is destroyed in
the reverse of the order in which its construction was completed.

Modelled are the objects whose construction needs code: `string`s, `hashmap`s, streams, a mutex and urls. Using one of them
before it was made, or after it was destroyed, is undefined (its pointer is null or dangling). Numbers and pointers with
constant values (`alloc_table`, `allocated`, `current_indent`, the counter of `new_type_identifier`) are there from the
beginning to the end and do not appear. `start_time` (System/Classes/tm_timer.cpp:44) is a number, too: `texmacs_time` is
defined before it is set, but counts from 1970 then.

Not modelled: threads, `exit` inside of destructors, shared libraries that are unloaded.
-/

set_option autoImplicit false

namespace Lolly.Globals

/-- The places where global objects are defined. Their own construction uses nothing but memory.
* `basic`: `the_exception`, `the_report` (Kernel/Abstractions/basic.cpp:22-23)
* `ostream`: `private_cout`, `private_cerr` (System/IO/tm_ostream.cpp:340-341)
* `analyze`: `il2_to_cork_string`, `cork_to_il2_string` (Kernel/Types/analyze.cpp:320-338)
* `numeral`: `roman_ones` etc., `chars_han` (lolly/data/numeral.cpp:18-29)
* `timer`: `timing_level` etc. (lolly/system/timer.cpp:22-25)
* `spawn`: `_ts_memory_lock` (Plugins/Unix/unix_sys_utils.cpp:48)
* `resource`: `instances` (Kernel/Abstractions/resource.hpp:37-38) -/
inductive Src
  | basic | ostream | analyze | numeral | timer | spawn | resource
  deriving DecidableEq, Repr

/-- Objects that are `static` in a function.
* `tempDir`: `u` of `url_temp_dir` and `tmp_dir` of `url_temp_dir_sub` (System/Files/file.cpp:295, 301), which are made by
  the same call
* `language`: `language` of `windows_locale_to_language` (System/Language/locale.cpp:48) -/
inductive Loc
  | tempDir | language
  deriving DecidableEq, Repr

/-- Functions, by the objects they use.
* `handle`: `handle_exceptions` (Kernel/Abstractions/basic.cpp:37-45)
* `failed`: a failing check, `tm_throw` (Kernel/Abstractions/basic.cpp:26-35)
* `print`: writing to `cout` or `cerr` (System/IO/tm_ostream.cpp:343-344)
* `latin2`: `il2_to_cork`, `cork_to_il2` of other than ASCII characters (Kernel/Types/analyze.cpp:340-370)
* `numerals`: `to_roman`, `to_Roman`, `to_hanzi` (lolly/data/numeral.cpp:33-120)
* `timing`: `timer_start`, `timer_cumul`, `timer_reset`, `bench_print` to a stream of the program
  (lolly/system/timer.cpp:31-89)
* `system`: `unix_system` with inputs or outputs (Plugins/Unix/unix_sys_utils.cpp:50-60)
* `resources`: making, finding and deleting resources, shared libraries among them
  (Kernel/Abstractions/resource.hpp:23-28, 45-51)
* `temp`: `url_temp`, `url_temp_dir` (System/Files/file.cpp:273-308)
* `locale`: `get_locale_language` on Windows (System/Language/locale.cpp:46-50)
* `other`: what only uses its arguments, such as strings, arrays, lists, maps, trees and urls -/
inductive Fn
  | handle | failed | print | latin2 | numerals | timing | system | resources | temp | locale | other
  deriving DecidableEq, Repr

/-- The source files whose objects are used. -/
def needs : Fn → List Src
  | .handle => [.basic]
  | .failed => [.basic, .ostream]
  | .print => [.ostream]
  | .latin2 => [.analyze]
  | .numerals => [.numeral]
  | .timing => [.timer]
  | .system => [.spawn]
  | .resources => [.resource]
  | .temp => []
  | .locale => []
  | .other => []

/-- The objects in the function. -/
def locals : Fn → List Loc
  | .temp => [.tempDir]
  | .locale => [.language]
  | _ => []

/-- A global object of the program: the functions that its constructor and its destructor call. -/
structure Global where
  ctor : List Fn
  dtor : List Fn

/-- A step of the initialisation: the objects of a source file of the library, or an object of the program. -/
inductive Init
  | src (s : Src)
  | user (g : Global)

/-- What has been constructed. -/
inductive Done
  | src (s : Src)
  | loc (l : Loc)
  | user (dtor : List Fn)
  deriving DecidableEq

/-- What has been constructed and not destroyed, the latest first, and the objects in functions that have been
destroyed. -/
structure State where
  done : List Done
  dead : List Loc

/-- Control gets to the definition of an object in a function. -/
def useLoc (st : State) (l : Loc) : Res State :=
  if l ∈ st.dead then .ub
  else if .loc l ∈ st.done then .ok st
  else .ok { st with done := .loc l :: st.done }

def useLocs (st : State) : List Loc → Res State
  | [] => .ok st
  | l :: r => do let st ← useLoc st l; useLocs st r

/-- A call. -/
def call (st : State) (f : Fn) : Res State :=
  if (needs f).all fun s => decide (Done.src s ∈ st.done) then useLocs st (locals f) else .ub

def calls (st : State) : List Fn → Res State
  | [] => .ok st
  | f :: r => do let st ← call st f; calls st r

/-- A step of the initialisation. -/
def initOne (st : State) : Init → Res State
  | .src s => .ok { st with done := .src s :: st.done }
  | .user g => do
    let st ← calls st g.ctor
    .ok { st with done := .user g.dtor :: st.done }

def initAll (st : State) : List Init → Res State
  | [] => .ok st
  | x :: r => do let st ← initOne st x; initAll st r

/-- The end of the program: everything is destroyed, the latest first. What is constructed meanwhile comes next. -/
def finish : Nat → State → Res State
  | 0, st => if st.done = [] then .ok st else .hang
  | n + 1, st =>
    match st.done with
    | [] => .ok st
    | .src _ :: r => finish n { st with done := r }
    | .loc l :: r => finish n ⟨r, l :: st.dead⟩
    | .user fs :: r => do
      let st ← calls { st with done := r } fs
      finish n st

/-- The number of objects in functions. -/
def nLocs : Nat := 2

/-- A program: the initialisation in the order `init`, `main`, and the end. -/
def run (init : List Init) (main : List Fn) : Res State := do
  let st ← initAll ⟨[], []⟩ init
  let st ← calls st main
  finish (init.length + nLocs) st

end Lolly.Globals
