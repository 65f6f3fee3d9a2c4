import Verif.System.Display

set_option autoImplicit false

/-!
# Failed checks (Kernel/Abstractions/basic.cpp:21-46, basic.hpp:50-94)

`ASSERT` and `TM_FAILED` in programs that print to `cout` and catch what is thrown. What is written to `cout` is taken to
arrive (see C58). Messages are C strings; the characters from a NUL on are cut.
-/

namespace Lolly.Failure

open Lolly.Display Lolly.Ostream

/-- Programs; the last argument is what comes next. -/
inductive Prog
  | done
  /-- `cout << s` -/
  | print (s : Bytes) (next : Prog)
  /-- `cout << c` -/
  | ctrl (c : Ctrl) (next : Prog)
  /-- `ASSERT (cond, msg)`; `TM_FAILED (msg)` if `cond` is false -/
  | check (cond : Bool) (msg : Bytes) (next : Prog)
  /-- `try { body } catch (string msg) { handler }` -/
  | attempt (body handler next : Prog)
  /-- `handle_exceptions ()` -/
  | handle (next : Prog)

/-- `current_indent` (basic.cpp:59), `the_exception` and `the_report` (basic.cpp:22-23), what was written to `cout`, and the
strings that were caught. -/
structure St where
  ind : Int
  out : Bytes
  pending : Bytes
  report : Bytes
  caught : List Bytes
  deriving DecidableEq

/-- The start of the program. -/
def start : St := ⟨0, [], [], [], []⟩

/-- `cout << "-------------------------------------------------\n"` (basic.cpp:31, 33). -/
def rule : Bytes := b!"-------------------------------------------------\n"

/-- `tm_throw` (basic.cpp:26-35): the state when the exception leaves it, and the string that is thrown. -/
def tmThrow (st : St) (msg : Bytes) : Res (St × Bytes) := do
  let st := { st with pending := cstr msg }
  let (nl, i) ← display st.ind .lf
  let st := { st with ind := i, out := st.out ++ (b!"Throwing ") ++ cstr msg ++ nl }
  let st := { st with out := st.out ++ rule }
  let (nl, i) ← display st.ind .lf
  let st := { st with ind := i, out := st.out ++ st.report.filter (· ≠ 0) ++ nl }
  let st := { st with out := st.out ++ rule }
  .ok (st, cstr msg)

/-- `handle_exceptions` (basic.cpp:37-45). -/
def handleExceptions (st : St) : St :=
  if st.pending.length ≠ 0 then { st with pending := [], report := [] } else st

/-- A program: the state at its end, or when an exception leaves it, with its string. -/
def exec : Prog → St → Res (St × Option Bytes)
  | .done, st => .ok (st, none)
  | .print s p, st => exec p { st with out := st.out ++ cstr s }
  | .ctrl c p, st => do
    let (s, i) ← display st.ind c
    exec p { st with ind := i, out := st.out ++ s }
  | .check b msg p, st =>
    if !b then do
      let (st, m) ← tmThrow st msg
      .ok (st, some m)
    else exec p st
  | .attempt b h p, st => do
    let (st, r) ← exec b st
    match r with
    | none => exec p st
    | some m =>
      let (st, r) ← exec h { st with caught := st.caught ++ [m] }
      match r with
      | none => exec p st
      | some m => .ok (st, some m)
  | .handle p, st => exec p (handleExceptions st)

end Lolly.Failure
