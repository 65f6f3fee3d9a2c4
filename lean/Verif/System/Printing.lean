import Verif.System.Ostream
import Verif.Strings.Decimal

set_option autoImplicit false

/-!
# Values of the built-in types on streams (System/IO/tm_ostream.cpp:218-325)

Every `operator<<` of a `tm_ostream` prints into an array of its own with `sprintf` and gives that array to the stream. The
arrays are static; only one thread is modelled here (several are in Verif/System/SharedBuf.lean). `long double` is not modelled.
-/

namespace Lolly.Printing

open Lolly.Conv Lolly.Rounding

/-- The integer types with an `operator<<`. -/
inductive Ty
  | short
  | ushort
  | int
  | uint
  | long
  | ulong
  | llong
  | ullong
  deriving DecidableEq

/-- How the conversion in the format takes its argument: the number of bits and whether there is a sign; `%hd` (line 236),
`%hu` (line 244), `%d` (line 252), `%u` (line 260), `%ld` (line 268), `%lu` (line 276), `%lld` (line 284), `%llu`
(line 292). A `long` has `L` bits. -/
def format (L : Nat) : Ty → Nat × Bool
  | .short => (16, true)
  | .ushort => (16, false)
  | .int => (32, true)
  | .uint => (32, false)
  | .long => (L, true)
  | .ulong => (L, false)
  | .llong => (64, true)
  | .ullong => (64, false)

/-- The size of `_buf` (lines 235, 243, 251, 259, 267, 275, 283, 291). -/
def size : Ty → Nat
  | .short => 32
  | .ushort => 32
  | .int => 64
  | .uint => 64
  | .long => 64
  | .ulong => 64
  | .llong => 64
  | .ullong => 64

/-- The value with the low `f.1` bits of `v`. -/
def convert (f : Nat × Bool) (v : Int) : Int :=
  let u := v % 2 ^ f.1
  if f.2 ∧ 2 ^ (f.1 - 1) ≤ u then u - 2 ^ f.1 else u

/-- `sprintf` into an array: the text and a NUL must fit. -/
def sprintf (size : Nat) (s : Bytes) : Res Bytes := if s.length < size then .ok s else .ub

/-- A value given to a stream. -/
inductive Val
  | bool (b : Bool)
  | char (c : UInt8)
  | int (t : Ty) (v : Int)
  | float (x : Dbl)
  | double (x : Dbl)
  | chars (s : Bytes)

/-- The characters given to `rep->write`, as a C string: `operator<<` for `bool` (lines 218-223), `char` (lines 225-231),
integers (lines 233-295), `float` (lines 297-303), `double` (lines 305-311) and `const char*` (lines 321-325). -/
def print (L : Nat) : Val → Res Bytes
  | .bool b => .ok (if b then b!"true" else b!"false")
  | .char c => sprintf 8 [c]
  | .int t v => sprintf (size t) (asString (convert (format L t) v))
  | .float x => Decimal.printFloat x
  | .double x => Decimal.printDouble x
  | .chars s => .ok s

/-- `out << v` for the stream `i`. -/
def put (L : Nat) (fails : Nat → Bytes → Bytes → Option Nat) (w : Ostream.World) (i : Nat) (v : Val) : Res Ostream.World := do
  let s ← print L v
  let r ← Ostream.step fails w (.puts i s)
  .ok r.1

/-- `out << v1 << v2 << ...`. -/
def puts (L : Nat) (fails : Nat → Bytes → Bytes → Option Nat) (w : Ostream.World) (i : Nat) : List Val → Res Ostream.World
  | [] => .ok w
  | v :: l => do
    let w ← put L fails w i v
    puts L fails w i l

/-- `out.buffer (); out << v1 << v2 << ...; r= out.unbuffer ();`. -/
def capture (L : Nat) (fails : Nat → Bytes → Bytes → Option Nat) (w : Ostream.World) (i : Nat) (l : List Val) :
    Res (Ostream.World × List Bytes) := do
  let r ← Ostream.step fails w (.buffer i)
  let w ← puts L fails r.1 i l
  Ostream.step fails w (.unbuffer i)

end Lolly.Printing
