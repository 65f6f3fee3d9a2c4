import Verif.Basic

set_option autoImplicit false

/-!
# Values written by several threads (System/IO/tm_ostream.cpp:225-319)

Every `operator<<` of `tm_ostream` for a built-in type prints the value into an array of its own with `sprintf` and then
gives the array to the stream. The arrays are static: there is one for each type, whatever the stream and the thread.

Every thread writes to a stream of its own. A step is a single access to an array; the C++ standard allows even more,
since unsynchronised accesses are a data race. Texts are those that `sprintf` makes (see Verif/System/Printing.lean).
Streams read an array once; `std_ostream_rep::write` goes through it a second time to look for a newline and string
`operator<<` measures it first, which is not modelled. Streams that cannot be written to are not modelled.
-/

namespace Lolly.SharedBuf

/-- The operators with an array. -/
inductive Kind
  | char
  | short
  | ushort
  | int
  | uint
  | long
  | ulong
  | llong
  | ullong
  | float
  | double
  | ldouble
  deriving DecidableEq, Repr

/-- The sizes of the arrays (lines 227, 235, 243, 251, 259, 267, 275, 283, 291, 299, 307, 315). -/
def size : Kind → Nat
  | .char => 8
  | .short => 32
  | .ushort => 32
  | .int => 64
  | .uint => 64
  | .long => 64
  | .ulong => 64
  | .llong => 64
  | .ullong => 64
  | .float => 32
  | .double => 64
  | .ldouble => 128

/-- Where a thread is: between two values; in `sprintf` (line 252 and so on) with the bytes that are still to be stored
and the place of the next one; or in `write` (line 253 and so on) with the place of the next byte and the bytes read so
far. -/
inductive Phase
  | idle
  | fmt (k : Kind) (rest : Bytes) (i : Nat)
  | read (k : Kind) (i : Nat) (got : Bytes)
  deriving DecidableEq, Repr

/-- A thread: the values that it still has to write, where it is, and what its stream has received. -/
structure Th where
  todo : List (Kind × Bytes)
  phase : Phase
  out : Bytes

/-- The static arrays and the threads. -/
structure State where
  buf : Kind → Bytes
  th : Nat → Th

def setBuf (st : State) (k : Kind) (b : Bytes) : State := { st with buf := fun j => if j = k then b else st.buf j }

def setTh (st : State) (t : Nat) (x : Th) : State := { st with th := fun u => if u = t then x else st.th u }

/-- One step of the thread `t` (tm_ostream.cpp:225-319). -/
def step (st : State) (t : Nat) : Res State :=
  match (st.th t).phase with
  | .idle =>
    match (st.th t).todo with
    | [] => .ok st
    | (k, s) :: l => .ok (setTh st t ⟨l, .fmt k (s ++ [0]) 0, (st.th t).out⟩)
  | .fmt k [] _ => .ok (setTh st t ⟨(st.th t).todo, .read k 0 [], (st.th t).out⟩)
  | .fmt k (c :: r) i => do
    let b ← wr (st.buf k) i c
    .ok (setTh (setBuf st k b) t ⟨(st.th t).todo, .fmt k r (i + 1), (st.th t).out⟩)
  | .read k i got => do
    let c ← rd (st.buf k) i
    if c = 0 then .ok (setTh st t ⟨(st.th t).todo, .idle, (st.th t).out ++ got⟩)
    else .ok (setTh st t ⟨(st.th t).todo, .read k (i + 1) (got ++ [c]), (st.th t).out⟩)

/-- The schedule lists the threads that take a step. -/
def run (st : State) : List Nat → Res State
  | [] => .ok st
  | t :: l => do
    let st ← step st t
    run st l

/-- At the beginning the arrays are zero. -/
def start (prog : Nat → List (Kind × Bytes)) : State :=
  ⟨fun k => List.replicate (size k) 0, fun t => ⟨prog t, .idle, []⟩⟩

end Lolly.SharedBuf
