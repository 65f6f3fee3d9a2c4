import Verif.Basic

set_option autoImplicit false

/-!
# The arithmetic in hash codes of strings and arrays

`hash (string)` (Kernel/Types/string.cpp:186-194), `hash (string_u16)` (lolly/data/string_u16.hpp:102-110) and
`hash (array<T>)` (Kernel/Containers/array.ipp:203-210) once more, this time with the rule of C++ that a sum of two
`int` outside of the range of `int` is undefined. The models of the classes themselves (`Str.hashCode`, `Arr.hashCode`)
take these sums modulo 2^32. Shifts to the left wrap in both, which compilers promise although C++17 does not.
-/

namespace Lolly.HashCodes

/-- `a + b` for `int`. -/
def plus (a b : BitVec 32) : Res (BitVec 32) := if BitVec.saddOverflow a b then .ub else .ok (a + b)

/-- The body of the loops of `hash (string)` and `hash (string_u16)` (string.cpp:190-191, string_u16.hpp:106-107). -/
def charStep (h c : BitVec 32) : Res (BitVec 32) := do
  let h ← plus (h <<< 9) (h.sshiftRight 23)
  plus h c

/-- The loops, from a value of `h` on; the characters have been converted to `int`. -/
def charLoop (h : BitVec 32) : List (BitVec 32) → Res (BitVec 32)
  | [] => .ok h
  | c :: s => do
    let h ← charStep h c
    charLoop h s

/-- `hash (string)` (string.cpp:186-194). -/
def ofString (s : Bytes) : Res (BitVec 32) := charLoop 0#32 (s.map fun c => BitVec.ofInt 32 (schar c))

/-- `hash (string_u16)` (string_u16.hpp:102-110). -/
def ofU16 (s : List UInt16) : Res (BitVec 32) := charLoop 0#32 (s.map fun c => BitVec.ofNat 32 c.toNat)

/-- The loop of `hash (array<T>)` (array.ipp:207-208) over the hash codes of the elements. -/
def arrayLoop (h : BitVec 32) : List (BitVec 32) → Res (BitVec 32)
  | [] => .ok h
  | k :: s => do
    let g ← plus (h <<< 7) (h.sshiftRight 25)
    arrayLoop (k ^^^ g) s

/-- `hash (array<T>)` (array.ipp:203-210), given the hash codes of the elements. -/
def ofArray (s : List (BitVec 32)) : Res (BitVec 32) := arrayLoop 0#32 s

end Lolly.HashCodes
