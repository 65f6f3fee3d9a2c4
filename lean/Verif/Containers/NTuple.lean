import Verif.Basic

/-!
# Model of the tuple classes (Kernel/Containers/ntuple.hpp) and of the hash functions of the scalar
types (Kernel/Abstractions/basic.hpp, basic.cpp)

`int` hash codes are `BitVec 32`. Shifting a negative `int` to the left is strictly undefined in C++17;
here it wraps, as it does with every compiler the project supports.
-/

namespace Lolly

/-- What a tuple needs from a component type: its `==`, `!=` and `hash`. -/
structure Comp (T : Type) where
  eq : T → T → Bool
  ne : T → T → Bool
  hash : T → BitVec 32

namespace NTuple

/-- `(h << 11) ^ (h >> 21) ^ k` (ntuple.hpp:34 and everywhere below). -/
def mix (h k : BitVec 32) : BitVec 32 := (h <<< 11) ^^^ (h.sshiftRight 21) ^^^ k

variable {A B C D E F : Type}

/-- `pair` (ntuple.hpp:16-35). -/
def pair (a : Comp A) (b : Comp B) : Comp (A × B) where
  eq p q := a.eq p.1 q.1 && b.eq p.2 q.2
  ne p q := a.ne p.1 q.1 || b.ne p.2 q.2
  hash p := mix (a.hash p.1) (b.hash p.2)

/-- `triple` (ntuple.hpp:43-72). -/
def triple (a : Comp A) (b : Comp B) (c : Comp C) : Comp (A × B × C) where
  eq | (x1, x2, x3), (y1, y2, y3) => a.eq x1 y1 && b.eq x2 y2 && c.eq x3 y3
  ne | (x1, x2, x3), (y1, y2, y3) => a.ne x1 y1 || b.ne x2 y2 || c.ne x3 y3
  hash | (x1, x2, x3) => mix (mix (a.hash x1) (b.hash x2)) (c.hash x3)

/-- `quartet` (ntuple.hpp:80-112). -/
def quartet (a : Comp A) (b : Comp B) (c : Comp C) (d : Comp D) : Comp (A × B × C × D) where
  eq | (x1, x2, x3, x4), (y1, y2, y3, y4) => a.eq x1 y1 && b.eq x2 y2 && c.eq x3 y3 && d.eq x4 y4
  ne | (x1, x2, x3, x4), (y1, y2, y3, y4) => a.ne x1 y1 || b.ne x2 y2 || c.ne x3 y3 || d.ne x4 y4
  hash | (x1, x2, x3, x4) => mix (mix (mix (a.hash x1) (b.hash x2)) (c.hash x3)) (d.hash x4)

/-- `quintuple` (ntuple.hpp:121-157). -/
def quintuple (a : Comp A) (b : Comp B) (c : Comp C) (d : Comp D) (e : Comp E) :
    Comp (A × B × C × D × E) where
  eq | (x1, x2, x3, x4, x5), (y1, y2, y3, y4, y5) =>
        a.eq x1 y1 && b.eq x2 y2 && c.eq x3 y3 && d.eq x4 y4 && e.eq x5 y5
  ne | (x1, x2, x3, x4, x5), (y1, y2, y3, y4, y5) =>
        a.ne x1 y1 || b.ne x2 y2 || c.ne x3 y3 || d.ne x4 y4 || e.ne x5 y5
  hash | (x1, x2, x3, x4, x5) =>
        mix (mix (mix (mix (a.hash x1) (b.hash x2)) (c.hash x3)) (d.hash x4)) (e.hash x5)

/-- `sextuple` (ntuple.hpp:166-208). -/
def sextuple (a : Comp A) (b : Comp B) (c : Comp C) (d : Comp D) (e : Comp E) (f : Comp F) :
    Comp (A × B × C × D × E × F) where
  eq | (x1, x2, x3, x4, x5, x6), (y1, y2, y3, y4, y5, y6) =>
        a.eq x1 y1 && b.eq x2 y2 && c.eq x3 y3 && d.eq x4 y4 && e.eq x5 y5 && f.eq x6 y6
  ne | (x1, x2, x3, x4, x5, x6), (y1, y2, y3, y4, y5, y6) =>
        a.ne x1 y1 || b.ne x2 y2 || c.ne x3 y3 || d.ne x4 y4 || e.ne x5 y5 || f.ne x6 y6
  hash | (x1, x2, x3, x4, x5, x6) =>
        mix (mix (mix (mix (mix (a.hash x1) (b.hash x2)) (c.hash x3)) (d.hash x4)) (e.hash x5))
          (f.hash x6)

end NTuple

namespace ScalarHash

/-- `hash (int)` and `hash (unsigned int)` (basic.hpp:150-153, 183-186). -/
def hInt (i : BitVec 32) : BitVec 32 := i

/-- `hash (long)`, `hash (DI)`, `hash (unsigned long)`, `hash (DN)` (basic.hpp:161-175, 194-208) for
64-bit integers: truncation. -/
def hLong (i : BitVec 64) : BitVec 32 := i.truncate 32

/-- `hash (float)` (basic.hpp:216-224), the argument given by its IEEE 754 bit pattern. -/
def hFloat (x : BitVec 32) : BitVec 32 := x &&& 0xffffffff#32

/-- `hash (double)` (basic.hpp:232-240), the argument given by its IEEE 754 bit pattern; `>>` on the
signed 64-bit integer is arithmetic. -/
def hDouble (x : BitVec 64) : BitVec 32 := (x ^^^ x.sshiftRight 32).truncate 32

/-- `hash (pointer)` (basic.cpp:16-19): the sum is done in `int`, overflow is undefined. -/
def hPointer (p : BitVec 64) : Res (BitVec 32) :=
  let i : Int := (p.truncate 32).toInt
  let r := i + i.tmod 19
  if -2147483648 ≤ r ∧ r ≤ 2147483647 then .ok (BitVec.ofInt 32 r) else .ub

/-- IEEE 754 `==` on binary32 bit patterns (not code of the repository: the meaning of C++ `==`). -/
def floatEq (x y : BitVec 32) : Bool :=
  let nan (z : BitVec 32) : Bool := decide ((z &&& 0x7fffffff#32).toNat > 0x7f800000)
  !nan x && !nan y && (x == y || ((x &&& 0x7fffffff#32) == 0#32 && (y &&& 0x7fffffff#32) == 0#32))

/-- IEEE 754 `==` on binary64 bit patterns. -/
def doubleEq (x y : BitVec 64) : Bool :=
  let m := 0x7fffffffffffffff#64
  let nan (z : BitVec 64) : Bool := decide ((z &&& m).toNat > 0x7ff0000000000000)
  !nan x && !nan y && (x == y || ((x &&& m) == 0#64 && (y &&& m) == 0#64))

end ScalarHash
end Lolly
