import Verif.Strings.StrProps
import Verif.Containers.ArrayProps
import Verif.Data.StringU16

/-!
# Lengths as 32 bit integers

In the other models lengths are natural numbers. Here `round_length` and the additions of lengths are those of the C++
code, with `int` of 32 bits; the loops are the same as there. `fuel` bounds the turns of the loop in `round_length`; a loop
that needs more is taken for one that does not end. Left shifts of an `int` drop the bits that leave it. A parameter that
is no `int` (from 2^31 on) gives `.ub`, and so does the request for a block of negative size.
-/

set_option autoImplicit false

namespace Lolly.Long

/-- `i <<= 1` on an `int`. -/
def shl (i : Int) : Int := Int.bmod (2 * i) (2 ^ 32)

/-- `while (n > i) i <<= 1; return i;` (string.cpp:28-31, string_u16.cpp:20-23, array.ipp:24-27). -/
def grow : Nat → Int → Int → Res Int
  | 0, _, _ => .hang
  | fuel + 1, n, i => if n > i then grow fuel n (shl i) else .ok i

/-- `a + b` on lengths. -/
def add (a b : Nat) : Res Nat := if a + b < 2 ^ 31 then .ok (a + b) else .ub

/-- `round_length (int n)` (string.cpp:24-32, string_u16.cpp:16-24) for `n` from 0 on. The mask is unsigned, and the
result becomes an `int` again. -/
def roundStr (fuel : Nat) (n : Nat) : Res Nat := do
  let m ← add n 3
  let m := (BitVec.ofNat 32 m &&& 0xfffffffc#32).toInt
  if m < 24 then .ok m.toNat
  else do
    let r ← grow fuel m 32
    .ok r.toNat

/-- `round_length (int n, size_t s)` (array.ipp:20-28) for `n` from 0 on. -/
def roundArr (fuel : Nat) (n : Nat) : Res Nat :=
  if n < 6 then .ok n
  else if n < 2 ^ 31 then do
    let r ← grow fuel n 8
    .ok r.toNat
  else .ub

/-! ## Strings -/

/-- `string_rep (int n2)` (string.cpp:34-36). -/
def new (fuel : Nat) (n : Nat) : Res Str :=
  if n = 0 then .ok { n := n, blk := none }
  else do
    let r ← roundStr fuel n
    .ok { n := n, blk := some (List.replicate r 0) }

/-- `string_rep::resize` (string.cpp:38-54). -/
def resize (fuel : Nat) (a : Str) (m : Nat) : Res Str := do
  let nn ← roundStr fuel a.n
  let mm ← roundStr fuel m
  if mm ≠ nn then
    if mm ≠ 0 then
      if nn ≠ 0 then
        match a.blk with
        | some b => .ok { n := m, blk := some (Arr.resizeCells 0 mm b), gen := a.gen + 1 }
        | none => .ub
      else .ok { n := m, blk := some (List.replicate mm 0), gen := a.gen + 1 }
    else .ok { n := m, blk := none, gen := a.gen + 1 }
  else .ok { a with n := m }

/-- `string (char c)` (string.cpp:56-59). -/
def ofChar (fuel : Nat) (c : UInt8) : Res Str := do
  let s ← new fuel 1
  s.put 0 c

/-- `string (char c, int n)` (string.cpp:61-65). -/
def ofCharN (fuel : Nat) (c : UInt8) (n : Nat) : Res Str := do
  let s ← new fuel n
  forUp 0 n s fun i s => s.put i c

/-- `string (const char* a, int n)` (string.cpp:74-79). -/
def ofBytes (fuel : Nat) (l : Bytes) : Res Str := do
  let s ← new fuel l.length
  forUp 0 l.length s fun i a => do
    let x ← rd l i
    a.put i x

/-- `string (const char* a)` (string.cpp:67-72); `l` are the characters before the terminating NUL. The result of `strlen`
becomes an `int`. -/
def ofText (fuel : Nat) (l : Bytes) : Res Str :=
  let n := (BitVec.ofNat 32 l.length).toInt
  if n < 0 then .ub
  else do
    let n := n.toNat
    let s ← new fuel n
    forUp 0 n s fun i a => do
      let x ← rd l i
      a.put i x

/-- `operator()` (string.cpp:117-128). -/
def sub (fuel : Nat) (a : Str) (b e : Int) : Res Str :=
  if e ≤ b then new fuel 0
  else do
    let b := (max (min (a.n : Int) b) 0).toNat
    let e := (max (min (a.n : Int) e) 0).toNat
    let r ← new fuel (e - b)
    forUp b e r fun i r => do
      let x ← a.get i
      r.put (i - b) x

/-- `copy` (string.cpp:130-137). -/
def copy (fuel : Nat) (s : Str) : Res Str := do
  let r ← new fuel s.n
  forUp 0 s.n r fun i r => do
    let x ← s.get i
    r.put i x

/-- `operator<< (string&, char)` (string.cpp:139-144). -/
def push (fuel : Nat) (a : Str) (x : UInt8) : Res Str := do
  let m ← add a.n 1
  let a ← resize fuel a m
  a.put (a.n - 1) x

/-- `operator<< (string& a, string b)` (string.cpp:146-153). -/
def appendTo (fuel : Nat) (hp : List Str) (ia ib : Nat) : Res (List Str) := do
  let a ← rd hp ia
  let b ← rd hp ib
  let k1 := a.n
  let k2 := b.n
  let m ← add k1 k2
  let a ← resize fuel a m
  let hp ← wr hp ia a
  forUp 0 k2 hp fun i hp => do
    let b ← rd hp ib
    let x ← b.get i
    let a ← rd hp ia
    let a ← a.put (i + k1) x
    wr hp ia a

/-- `operator* (string, string)` (string.cpp:155-164). -/
def concat (fuel : Nat) (a b : Str) : Res Str := do
  let m ← add a.n b.n
  let c ← new fuel m
  let c ← forUp 0 a.n c fun i c => do
    let y ← a.get i
    c.put i y
  forUp 0 b.n c fun i c => do
    let y ← b.get i
    c.put (i + a.n) y

/-- One command on a heap of strings, as `StrProps.step`. -/
def step (fuel : Nat) (hp : List Str) : StrProps.Cmd → Res (List Str)
  | .new n => do .ok (hp ++ [← new fuel n])
  | .ofBytes l => do .ok (hp ++ [← ofBytes fuel l])
  | .ofChar c => do .ok (hp ++ [← ofChar fuel c])
  | .ofCharN c n => do .ok (hp ++ [← ofCharN fuel c n])
  | .resize i m => do wr hp i (← resize fuel (← rd hp i) m)
  | .push i c => do wr hp i (← push fuel (← rd hp i) c)
  | .put i j c => do wr hp i (← (← rd hp i).put j c)
  | .append i j => appendTo fuel hp i j
  | .sub i b e => do .ok (hp ++ [← sub fuel (← rd hp i) b e])
  | .copy i => do .ok (hp ++ [← copy fuel (← rd hp i)])
  | .concat i j => do .ok (hp ++ [← concat fuel (← rd hp i) (← rd hp j)])

/-- A program: one command after the other. -/
def run (fuel : Nat) (hp : List Str) : List StrProps.Cmd → Res (List Str)
  | [] => .ok hp
  | c :: cs => do
    let hp ← step fuel hp c
    run fuel hp cs

/-! ## Arrays -/

section
variable {T : Type}

/-- `array_rep<T>::array_rep (int n2)` (array.ipp:30-33). -/
def newArr (fuel : Nat) (dv : T) (n : Nat) : Res (Arr T) :=
  if n = 0 then .ok { n := n, blk := none }
  else do
    let r ← roundArr fuel n
    .ok { n := n, blk := some (List.replicate r dv) }

/-- `array_rep<T>::resize` (array.ipp:35-55). -/
def resizeArr (fuel : Nat) (dv : T) (a : Arr T) (m : Nat) : Res (Arr T) := do
  let nn ← roundArr fuel a.n
  let mm ← roundArr fuel m
  if mm ≠ nn then
    if mm ≠ 0 then
      if nn ≠ 0 then
        match a.blk with
        | some b => .ok { n := m, blk := some (Arr.resizeCells dv mm b), gen := a.gen + 1 }
        | none => .ub
      else .ok { n := m, blk := some (List.replicate mm dv), gen := a.gen + 1 }
    else .ok { n := m, blk := none, gen := a.gen + 1 }
  else .ok { a with n := m }

/-- The constructors from a C array and from elements (array.ipp:57-63). -/
def ofList (fuel : Nat) (dv : T) (l : List T) : Res (Arr T) := do
  let a ← newArr fuel dv l.length
  forUp 0 l.length a fun i a => do
    let x ← rd l i
    a.put i x

/-- `operator<< (array<T>& a, T x)` (array.ipp:132-138). -/
def pushArr (fuel : Nat) (dv : T) (a : Arr T) (x : T) : Res (Arr T) := do
  let m ← add a.n 1
  let a ← resizeArr fuel dv a m
  a.put (a.n - 1) x

/-- `operator<< (array<T>& a, array<T> b)` (array.ipp:140-148). -/
def appendArr (fuel : Nat) (dv : T) (hp : List (Arr T)) (ia ib : Nat) : Res (List (Arr T)) := do
  let a ← rd hp ia
  let b ← rd hp ib
  let k := a.n
  let m ← add a.n b.n
  let a ← resizeArr fuel dv a m
  let hp ← wr hp ia a
  let b ← rd hp ib
  forUp 0 b.n hp fun i hp => do
    let b ← rd hp ib
    let x ← b.get i
    let a ← rd hp ia
    let a ← a.put (i + k) x
    wr hp ia a

/-- One command on a heap of arrays, as `ArrayProps.step`. -/
def stepArr (fuel : Nat) (dv : T) (hp : List (Arr T)) : ArrayProps.Cmd T → Res (List (Arr T))
  | .new n => do .ok (hp ++ [← newArr fuel dv n])
  | .ofList l => do .ok (hp ++ [← ofList fuel dv l])
  | .resize i m => do wr hp i (← resizeArr fuel dv (← rd hp i) m)
  | .push i x => do wr hp i (← pushArr fuel dv (← rd hp i) x)
  | .put i j x => do wr hp i (← (← rd hp i).put j x)
  | .append i j => appendArr fuel dv hp i j

end

/-! ## Strings of 16 bit characters -/

/-- `string_u16_rep (int)` (string_u16.cpp:26-28). -/
def newU (fuel : Nat) (n : Nat) : Res U16.Rep := do
  let r ← roundStr fuel n
  .ok ⟨n, r, if n = 0 then .null else U16.newArray r⟩

/-- `resize` (string_u16.cpp:30-52), with the number of blocks lost. -/
def resizeU (fuel : Nat) (u : U16.Rep) (m : Nat) : Res (U16.Rep × Nat) := do
  let nn ← roundStr fuel u.n
  let mm ← roundStr fuel m
  if mm ≠ nn then
    if mm ≠ 0 then
      if nn ≠ 0 then do
        let p ← U16.resizeArray mm u.a
        .ok (⟨m, mm, p⟩, 0)
      else .ok (⟨m, mm, U16.newArray mm⟩, U16.loses u.a)
    else if nn ≠ 0 then do
      let _ ← U16.deleteArray u.a
      .ok (⟨m, 0, .null⟩, 0)
    else .ok ({ u with n := m }, 0)
  else .ok ({ u with n := m }, 0)

/-- `reserve` (string_u16.cpp:62-82). -/
def reserveU (fuel : Nat) (u : U16.Rep) (m : Nat) : Res (U16.Rep × Nat) :=
  if m ≠ 0 then
    if u.aN = 0 then do
      let s ← roundStr fuel m
      .ok ({ u with aN := s, a := U16.newArray s }, U16.loses u.a)
    else if u.aN < m then do
      let s ← roundStr fuel m
      let p ← U16.resizeArray s u.a
      .ok ({ u with aN := s, a := p }, 0)
    else .ok (u, 0)
  else if u.aN ≠ 0 then do
    let _ ← U16.deleteArray u.a
    .ok ({ u with aN := 0, a := .null }, 0)
  else .ok (u, 0)

/-- `expand_or_shrink_by` (string_u16.cpp:54-60). -/
def expandU (fuel : Nat) (u : U16.Rep) (d : Int) : Res (U16.Rep × Nat) :=
  if (u.n : Int) + d < 0 ∨ 2 ^ 31 ≤ (u.n : Int) + d then .ub
  else reserveU fuel { u with n := ((u.n : Int) + d).toNat } ((u.n : Int) + d).toNat

/-- `operator<< (string_u16&, char16_t)` (string_u16.cpp:113-118). -/
def pushU (fuel : Nat) (u : U16.Rep) (x : UInt16) : Res (U16.Rep × Nat) := do
  let r ← expandU fuel u 1
  let v ← U16.put r.1 u.n x
  .ok (v, r.2)

/-- `operator<< (string_u16&, string_u16)` (string_u16.cpp:120-127); `none` means that the second
argument is another handle to the first string. -/
def appendU (fuel : Nat) (u : U16.Rep) (b : Option U16.Rep) : Res (U16.Rep × Nat) := do
  let bN := (b.getD u).n
  let r ← expandU fuel u bN
  let v ← forUp 0 bN r.1 fun i v => do
    let x ← U16.get (b.getD v) i
    U16.put v (i + u.n) x
  .ok (v, r.2)

/-- One call, as `U16.exec`. -/
def execU (fuel : Nat) (u : U16.Rep) : U16.Op → Res (U16.Rep × Nat)
  | .resize m => resizeU fuel u m
  | .reserve m => reserveU fuel u m
  | .expand d => expandU fuel u d
  | .put i x => do
    let v ← U16.put u i x
    .ok (v, 0)
  | .push x => pushU fuel u x
  | .append b => appendU fuel u (some b)
  | .appendSelf => appendU fuel u none

end Lolly.Long
