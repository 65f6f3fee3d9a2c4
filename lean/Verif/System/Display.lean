import Verif.System.Ostream

set_option autoImplicit false

/-!
# Display controls and flushing of output streams

`INDENT`, `UNINDENT`, `HRULE` and `LF` (Kernel/Abstractions/basic.cpp:59-83) with the indentation in a global variable, and
the buffer of the `FILE` behind a standard stream (System/IO/tm_ostream.cpp:95-111).
-/

namespace Lolly.Display

/-- `display_control` (Kernel/Abstractions/basic.hpp:287). -/
inductive Ctrl
  | indent
  | unindent
  | hrule
  | lf
  deriving DecidableEq

/-- `current_indent+= d`; signed overflow is undefined. -/
def addIndent (ind d : Int) : Res Int :=
  if -2 ^ 31 ≤ ind + d ∧ ind + d < 2 ^ 31 then .ok (ind + d) else .ub

/-- `for (i= a; i < b; i++) out << c` with one character `c`. -/
def fill (a b : Int) (c : UInt8) : Bytes := List.replicate (b - a).toNat c

/-- The case `LF` (basic.cpp:76-80). -/
def newLine (ind : Int) : Bytes := (b!"\n") ++ fill 0 ind (c! ' ')

/-- `operator<< (tm_ostream&, display_control)` (basic.cpp:61-83): what is written, and the new indentation. `HRULE` falls
through to `LF`. -/
def display (ind : Int) : Ctrl → Res (Bytes × Int)
  | .indent => do
    let i ← addIndent ind 2
    .ok ((b!"  "), i)
  | .unindent => do
    let i ← addIndent ind (-2)
    .ok ([8, 8], i)
  | .hrule => .ok (fill ind 78 (c! '-') ++ newLine ind, ind)
  | .lf => .ok (newLine ind, ind)

/-- What a program does with its streams. -/
inductive Op
  | ctrl (k : Nat) (c : Ctrl)
  | text (k : Nat) (s : Bytes)
  deriving DecidableEq

/-- `current_indent` (basic.cpp:59) and what was written to every stream. -/
structure St where
  ind : Int
  out : Nat → Bytes

/-- Write to a stream. -/
def St.put (st : St) (k : Nat) (s : Bytes) : St :=
  { st with out := fun x => if x = k then st.out x ++ s else st.out x }

/-- One operation. -/
def step (st : St) : Op → Res St
  | .ctrl k c => do
    let (s, i) ← display st.ind c
    .ok { st.put k s with ind := i }
  | .text k s => .ok (st.put k s)

/-- Operations in order. -/
def run (st : St) : List Op → Res St
  | [] => .ok st
  | o :: l => do
    let st ← step st o
    run st l

/-- The start of the program. -/
def start : St := ⟨0, fun _ => []⟩

/-! ## Flushing -/

/-- A standard stream with its open `FILE`: what was given to the system, what is still in the buffer of the `FILE`, and
`is_w`. -/
structure Std where
  visible : Bytes
  pending : Bytes
  isW : Bool
  deriving DecidableEq

/-- What happens in `fprintf`: it fails, or works and gives the first `n` characters of the buffer to the system. -/
abbrev Answer := Option Nat

/-- `flush` (tm_ostream.cpp:108-111); `fflush` works. -/
def Std.flush (f : Std) : Std := if f.isW then { f with visible := f.visible ++ f.pending, pending := [] } else f

/-- The loop `while (*c != 0 && *c != '\n') ++c` followed by `*c == '\n'` (tm_ostream.cpp:99-102). -/
def hasLine : Bytes → Bool
  | [] => false
  | c :: s => if c ≠ 0 ∧ c ≠ c! '\n' then hasLine s else decide (c = c! '\n')

/-- `write` of a C string (tm_ostream.cpp:95-106); `s` has no NUL. -/
def Std.write (f : Std) (a : Answer) (s : Bytes) : Std :=
  if f.isW then
    match a with
    | some n =>
      let b := f.pending ++ s
      let f := { f with visible := f.visible ++ b.take n, pending := b.drop n }
      if hasLine s then f.flush else f
    | none => { f with isW := false }
  else f

/-- `operator<< (string)` (tm_ostream.cpp:327-334, 225-231): every character by itself. The answers of `fprintf` are
taken from a list; there is one for every character. -/
def Std.writeString (f : Std) (as : List Answer) : Bytes → Std
  | [] => f
  | c :: s => (f.write (as.headD (some 0)) (Ostream.cstr [c])).writeString as.tail s

/-- Uses of a stream. -/
inductive Use
  /-- `out << "..."`, and numbers (tm_ostream.cpp:218-325) -/
  | puts (a : Answer) (s : Bytes)
  /-- `out << string` -/
  | write (as : List Answer) (s : Bytes)
  | flush

/-- One use. -/
def Std.use (f : Std) : Use → Std
  | .puts a s => f.write a (Ostream.cstr s)
  | .write as s => f.writeString as s
  | .flush => f.flush

end Lolly.Display
