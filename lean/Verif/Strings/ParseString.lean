import Verif.Strings.Search

/-!
# Model of `parse_string` (Kernel/Types/parse_string.hpp, parse_string.cpp)

The two lists `l` (strings left to parse) and `p` (positions in them) always have the same length and
are modelled as one list of pairs. Arguments `n` are not negative and sums of positions do not overflow.
-/

set_option autoImplicit false

namespace Lolly.ParseString

open Lolly.An (sub)

/-- `l` and `p` of `parse_string_rep` (parse_string.hpp:19-20). -/
abbrev Rep := List (Bytes × Nat)

/-- `parse_string ()` and `parse_string (s)` (parse_string.hpp:23-24). -/
def empty : Rep := []
def ofString (s : Bytes) : Rep := [(s, 0)]

/-- `operator bool` (parse_string.hpp:43). -/
def toBool (r : Rep) : Bool := !r.isEmpty

/-- `advance` (parse_string.cpp:15-25). -/
def advance : Rep → Nat → Rep
  | [], _ => []
  | (s, p) :: l, n =>
    if n = 0 then (s, p) :: l
    else if p + n ≥ s.length then advance l (p + n - s.length)
    else (s, p + n) :: l

/-- `read` (parse_string.cpp:27-44): the string read and the new lists. -/
def read : Rep → Nat → Bytes × Rep
  | [], _ => ([], [])
  | (s, p) :: l, n =>
    if p + n > s.length then
      let (t, r) := read l (n - (s.length - p))
      (sub s p s.length ++ t, r)
    else (sub s p (p + n : Nat), if p + n ≥ s.length then l else (s, p + n) :: l)

/-- `write` (parse_string.cpp:46-52). -/
def write (r : Rep) (s : Bytes) : Rep := if s.length > 0 then (s, 0) :: r else r

/-- The loop of `get_char` (parse_string.cpp:61-67). -/
def charLoop : Rep → Nat → Res UInt8
  | [], _ => .ok 0
  | (s, p) :: l, n => if p + n ≥ s.length then charLoop l (n - (s.length - p)) else rd s (p + n)

/-- `get_char` (parse_string.cpp:54-69). -/
def getChar (r : Rep) (n : Nat) : Res UInt8 :=
  match r with
  | [] => .ok 0
  | (s, p) :: _ => if p + n < s.length then rd s (p + n) else charLoop r n

/-- The loop of `get_string` (parse_string.cpp:79-85); `n >= 0` always holds. -/
def stringLoop : Rep → Nat → Bytes
  | [], _ => []
  | (s, p) :: l, n =>
    let m := min (s.length - p) n
    sub s p (p + m : Nat) ++ stringLoop l (n - m)

/-- `get_string` (parse_string.cpp:71-87). -/
def getString (r : Rep) (n : Nat) : Bytes :=
  match r with
  | [] => []
  | (s, p) :: _ => if p + n ≤ s.length then sub s p (p + n : Nat) else stringLoop r n

/-- `test` (parse_string.cpp:89-95). -/
def test (r : Rep) (t : Bytes) : Res Bool :=
  match r with
  | [] => .ok (decide (t.length = 0))
  | (s, p) :: _ => if p + t.length ≤ s.length then An.test s p t else .ok (getString r t.length == t)

/-- `operator<<` (parse_string.cpp:102-112). -/
def print : Rep → Bytes
  | [] => []
  | (s, p) :: l => sub s p s.length ++ print l

/-- A call of one of the operations. -/
inductive Op where
  | advance (n : Nat)
  | read (n : Nat)
  | write (s : Bytes)
  | char (n : Nat)
  | string (n : Nat)
  | test (s : Bytes)
  | print

/-- What a call returns. -/
inductive Out where
  | none
  | char (c : UInt8)
  | bytes (s : Bytes)
  | bool (b : Bool)
  deriving DecidableEq

/-- One call. -/
def step (r : Rep) : Op → Res (Out × Rep)
  | .advance n => .ok (.none, advance r n)
  | .read n => let (t, r) := read r n; .ok (.bytes t, r)
  | .write s => .ok (.none, write r s)
  | .char n => do
    let c ← getChar r n
    .ok (.char c, r)
  | .string n => .ok (.bytes (getString r n), r)
  | .test s => do
    let b ← test r s
    .ok (.bool b, r)
  | .print => .ok (.bytes (print r), r)

/-- A history: the list of the results and the final state. -/
def run : Rep → List Op → Res (List Out × Rep)
  | r, [] => .ok ([], r)
  | r, o :: os => do
    let (x, r) ← step r o
    let (xs, r) ← run r os
    .ok (x :: xs, r)

end Lolly.ParseString
