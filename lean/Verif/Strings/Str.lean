import Verif.Containers.ArrayLemmas

/-!
# Model of the class `string` (Kernel/Types/string.hpp, string.cpp)

A representation is its length and its block (`none` is NULL), as for arrays. `tm_new_array<char>` and
`tm_resize_array<char>` value-initialise new cells, so they are zero. Every access is checked against the
block. `gen` counts allocations and is not in the C++ code. String handles are shared, so operations that mutate work on a heap of representations.
Simplification: `int` lengths do not overflow and are not negative.
-/

set_option autoImplicit false

namespace Lolly

/-- `string_rep` (string.hpp:23-26). -/
structure Str where
  n : Nat
  blk : Option Bytes
  gen : Nat := 0
  deriving DecidableEq

namespace Str

/-- `round_length` (string.cpp:24-32). -/
def roundLength (n : Nat) : Nat :=
  let n := (n + 3) / 4 * 4
  if n < 24 then n else pow2up n 32

/-- `string_rep::string_rep (int n)` (string.cpp:34-36). -/
def new (n : Nat) : Str :=
  { n := n, blk := if n = 0 then none else some (List.replicate (roundLength n) 0) }

/-- `string_rep::resize` (string.cpp:38-54). -/
def resize (a : Str) (m : Nat) : Res Str :=
  let nn := roundLength a.n
  let mm := roundLength m
  if mm ≠ nn then
    if mm ≠ 0 then
      if nn ≠ 0 then
        match a.blk with
        | some b => .ok { n := m, blk := some (Arr.resizeCells 0 mm b), gen := a.gen + 1 }
        | none => .ub
      else .ok { n := m, blk := some (List.replicate mm 0), gen := a.gen + 1 }
    else .ok { n := m, blk := none, gen := a.gen + 1 }
  else .ok { a with n := m }

/-- `s[i]` read (string.hpp:48). -/
def get (a : Str) (i : Nat) : Res UInt8 :=
  match a.blk with
  | some b => rd b i
  | none => .ub

/-- `s[i]= c`. -/
def put (a : Str) (i : Nat) (x : UInt8) : Res Str :=
  match a.blk with
  | some b => do
    let b ← wr b i x
    .ok { a with blk := some b }
  | none => .ub

/-- `string (char c)` (string.cpp:56-59). -/
def ofChar (c : UInt8) : Res Str := (new 1).put 0 c

/-- `string (char c, int n)` (string.cpp:61-65). -/
def ofCharN (c : UInt8) (n : Nat) : Res Str := forUp 0 n (new n) fun i s => s.put i c

/-- `string (const char* a, int n)` and `string (const char* a)` (string.cpp:67-79); `l` are the bytes
that `a` points to, for the second form up to the terminating NUL. -/
def ofBytes (l : Bytes) : Res Str :=
  forUp 0 l.length (new l.length) fun i a => do
    let x ← rd l i
    a.put i x

/-- `operator()` (string.cpp:117-128). -/
def sub (a : Str) (b e : Int) : Res Str :=
  if e ≤ b then .ok (new 0)
  else
    let b := (max (min (a.n : Int) b) 0).toNat
    let e := (max (min (a.n : Int) e) 0).toNat
    forUp b e (new (e - b)) fun i r => do
      let x ← a.get i
      r.put (i - b) x

/-- `copy` (string.cpp:130-137). -/
def copy (s : Str) : Res Str :=
  forUp 0 s.n (new s.n) fun i r => do
    let x ← s.get i
    r.put i x

/-- `operator<< (string&, char)` (string.cpp:139-144). -/
def push (a : Str) (x : UInt8) : Res Str := do
  let a ← a.resize (a.n + 1)
  a.put (a.n - 1) x

/-- `operator<< (string& a, string b)` (string.cpp:146-153) on a heap of representations: `ia` and `ib`
may be the same; both lengths are read before the resize. -/
def appendTo (hp : List Str) (ia ib : Nat) : Res (List Str) := do
  let a ← rd hp ia
  let b ← rd hp ib
  let k1 := a.n
  let k2 := b.n
  let a ← a.resize (k1 + k2)
  let hp ← wr hp ia a
  forUp 0 k2 hp fun i hp => do
    let b ← rd hp ib
    let x ← b.get i
    let a ← rd hp ia
    let a ← a.put (i + k1) x
    wr hp ia a

/-- `operator* (string, string)` (string.cpp:155-164), also with a `const char*` operand
(string.cpp:166-174). -/
def concat (a b : Str) : Res Str := do
  let c := new (a.n + b.n)
  let c ← forUp 0 a.n c fun i c => do
    let y ← a.get i
    c.put i y
  forUp 0 b.n c fun i c => do
    let y ← b.get i
    c.put (i + a.n) y

/-- `as_charp` (string.cpp:255-263): a NUL-terminated copy of `n + 1` cells. -/
def asCharp (s : Str) : Res Bytes := do
  let l ← forUp 0 s.n (List.replicate (s.n + 1) 0) fun i l => do
    let x ← s.get i
    wr l i x
  wr l s.n 0

/-- `operator== (const char*)` (string.cpp:85-94); `c` holds the bytes before the terminating NUL and
contains no NUL itself. Reading past the NUL is undefined. -/
def eqC (s : Str) (c : Bytes) : Res Bool := do
  let r ← forRet 0 s.n fun i => do
    let x ← rd (c ++ [0]) i
    let y ← s.get i
    .ok (if x ≠ y then some false else if x = 0 then some false else none)
  match r with
  | some b => .ok b
  | none => do
    let x ← rd (c ++ [0]) s.n
    .ok (x == 0)

/-- `operator!= (const char*)` (string.cpp:96-105). -/
def neC (s : Str) (c : Bytes) : Res Bool := do
  let r ← forRet 0 s.n fun i => do
    let x ← rd (c ++ [0]) i
    let y ← s.get i
    .ok (if x ≠ y then some true else if x = 0 then some true else none)
  match r with
  | some b => .ok b
  | none => do
    let x ← rd (c ++ [0]) s.n
    .ok (x != 0)

/-- `operator==` (string.cpp:107-110, string_view.hpp:68-77). -/
def eqv (a b : Str) : Res Bool :=
  if a.n ≠ b.n then .ok false
  else do
    let r ← forRet 0 a.n fun i => do
      let x ← a.get i
      let y ← b.get i
      .ok (if x ≠ y then some () else none)
    .ok r.isNone

/-- `operator!=` (string.cpp:112-115, string_view.hpp:91-100). -/
def neq (a b : Str) : Res Bool :=
  if a.n ≠ b.n then .ok true
  else do
    let r ← forRet 0 a.n fun i => do
      let x ← a.get i
      let y ← b.get i
      .ok (if x ≠ y then some () else none)
    .ok r.isSome

/-- The comparison loop of `operator<` and `operator<=` (string_view.hpp:114-124, 138-148); `char` is
signed. -/
def cmpLoop (a b : Str) : Res (Option Bool) :=
  forRet 0 (min a.n b.n) fun i => do
    let x ← a.get i
    let y ← b.get i
    .ok (if schar x < schar y then some true else if schar y < schar x then some false else none)

/-- `operator<` (string.cpp:176-179). -/
def lt (a b : Str) : Res Bool := do
  match ← cmpLoop a b with
  | some r => .ok r
  | none => .ok (decide (a.n < b.n))

/-- `operator<=` (string.cpp:181-184). -/
def le (a b : Str) : Res Bool := do
  match ← cmpLoop a b with
  | some r => .ok r
  | none => .ok (decide (a.n ≤ b.n))

/-- `hash` (string.cpp:186-194); arithmetic modulo 2^32, `>>` arithmetic. -/
def hashCode (s : Str) : Res (BitVec 32) :=
  forUp 0 s.n 0#32 fun i h => do
    let c ← s.get i
    .ok ((h <<< 9) + h.sshiftRight 23 + BitVec.ofInt 32 (schar c))

end Str
end Lolly
