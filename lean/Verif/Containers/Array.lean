import Verif.Loop

/-!
# Model of `array<T>` (Kernel/Containers/array.hpp, array.ipp)

A representation is its length and its block, a list of cells (`none` is NULL). The block knows its
own number of cells, as the header word of `tm_new_array` (System/Memory/fast_alloc.hpp:406-415) does.
Every access is bounds-checked against the block; an access outside is `ub`. `dv` is `T ()`.
`gen` counts the calls of `tm_new_array`, `tm_resize_array` and `tm_delete_array` and is not in the
C++ code. Since handles are shared, operations on two arrays work on a heap of representations.
Simplification: `int` lengths do not overflow.
-/

namespace Lolly

/-- The loop `while (n > i) i <<= 1` (array.ipp:25-26, string.cpp:26-27). -/
def pow2up (n i : Nat) : Nat :=
  if h : n > i ∧ 0 < i then pow2up n (i * 2) else i
termination_by n - i
decreasing_by omega

/-- `array_rep<T>` (array.hpp:52-54). -/
structure Arr (T : Type) where
  n : Nat
  blk : Option (List T)
  gen : Nat := 0
  deriving DecidableEq

namespace Arr

variable {T : Type}

/-- `round_length` (array.ipp:20-28). -/
def roundLength (n : Nat) : Nat := if n < 6 then n else pow2up n 8

/-- `array_rep<T>::array_rep (int n)` (array.ipp:30-33). -/
def new (dv : T) (n : Nat) : Arr T :=
  { n := n, blk := if n = 0 then none else some (List.replicate (roundLength n) dv) }

/-- `tm_resize_array` (System/Memory/fast_alloc.hpp:417-432): copy the old cells that fit, construct the
rest. -/
def resizeCells (dv : T) (mm : Nat) (b : List T) : List T :=
  b.take mm ++ List.replicate (mm - b.length) dv

/-- `array_rep<T>::resize` (array.ipp:35-55). -/
def resize (dv : T) (a : Arr T) (m : Nat) : Res (Arr T) :=
  let nn := roundLength a.n
  let mm := roundLength m
  if mm ≠ nn then
    if mm ≠ 0 then
      if nn ≠ 0 then
        match a.blk with
        | some b => .ok { n := m, blk := some (resizeCells dv mm b), gen := a.gen + 1 }
        | none => .ub
      else .ok { n := m, blk := some (List.replicate mm dv), gen := a.gen + 1 }
    else .ok { n := m, blk := none, gen := a.gen + 1 }
  else .ok { a with n := m }

/-- `a[i]` read (array.hpp:161): `rep->a[i]`. -/
def get (a : Arr T) (i : Nat) : Res T :=
  match a.blk with
  | some b => rd b i
  | none => .ub

/-- `a[i]= x`. -/
def put (a : Arr T) (i : Nat) (x : T) : Res (Arr T) :=
  match a.blk with
  | some b => do
    let b ← wr b i x
    .ok { a with blk := some b }
  | none => .ub

/-- `array (T* a, int n)` (array.ipp:57-62), also `copy` (array.hpp:177-180) and the constructors from
2 to 5 elements (array.ipp:64-92). -/
def ofList (dv : T) (l : List T) : Res (Arr T) :=
  forUp 0 l.length (new dv l.length) fun i a => do
    let x ← rd l i
    a.put i x

/-- `operator<< (array<T>& a, T x)` (array.ipp:132-138). -/
def push (dv : T) (a : Arr T) (x : T) : Res (Arr T) := do
  let a ← a.resize dv (a.n + 1)
  a.put (a.n - 1) x

/-- `operator<< (array<T>& a, array<T> b)` (array.ipp:140-148) on a heap of representations: `ia` and
`ib` may be the same. `N (b)` is read after the resize. -/
def appendTo (dv : T) (hp : List (Arr T)) (ia ib : Nat) : Res (List (Arr T)) := do
  let a ← rd hp ia
  let b ← rd hp ib
  let k := a.n
  let a ← a.resize dv (a.n + b.n)
  let hp ← wr hp ia a
  let b ← rd hp ib
  forUp 0 b.n hp fun i hp => do
    let b ← rd hp ib
    let x ← b.get i
    let a ← rd hp ia
    let a ← a.put (i + k) x
    wr hp ia a

/-- `operator==` (array.ipp:98-106). -/
def eqv [DecidableEq T] (a b : Arr T) : Res Bool := do
  if a.n ≠ b.n then .ok false
  else do
    let r ← forRet 0 a.n fun i => do
      let x ← a.get i
      let y ← b.get i
      .ok (if x ≠ y then some () else none)
    .ok r.isNone

/-- `operator!=` (array.ipp:108-116). -/
def neq [DecidableEq T] (a b : Arr T) : Res Bool := do
  if a.n ≠ b.n then .ok true
  else do
    let r ← forRet 0 a.n fun i => do
      let x ← a.get i
      let y ← b.get i
      .ok (if x ≠ y then some () else none)
    .ok r.isSome

/-- `contains` (array.ipp:150-157). -/
def contains [DecidableEq T] (x : T) (b : Arr T) : Res Bool := do
  let r ← forRet 0 b.n fun i => do
    let y ← b.get i
    .ok (if x = y then some () else none)
  .ok r.isSome

/-- `append (t a, array<t> b)` (array.ipp:159-168). -/
def cons (dv : T) (x : T) (b : Arr T) : Res (Arr T) := do
  let c := new dv (b.n + 1)
  let c ← c.put 0 x
  forUp 0 b.n c fun i c => do
    let y ← b.get i
    c.put (i + 1) y

/-- `append (array<T> a, array<T> b)` (array.ipp:170-180). -/
def append (dv : T) (a b : Arr T) : Res (Arr T) := do
  let c := new dv (a.n + b.n)
  let c ← forUp 0 a.n c fun i c => do
    let y ← a.get i
    c.put i y
  forUp 0 b.n c fun i c => do
    let y ← b.get i
    c.put (i + a.n) y

/-- `range` (array.ipp:182-191); a negative length `j - i` is taken as undefined (it asks for a block
of negative size; `ArrayMem.create` says what comes of it). -/
def range (dv : T) (a : Arr T) (i j : Int) : Res (Arr T) :=
  if i ≥ 0 ∧ j ≤ a.n then
    if j - i < 0 then .ub
    else forUp i.toNat j.toNat (new dv (j - i).toNat) fun k r => do
      let x ← a.get k
      r.put (k - i.toNat) x
  else .thrown

/-- `reverse` (array.ipp:193-201). -/
def reverse (dv : T) (a : Arr T) : Res (Arr T) :=
  forUp 0 a.n (new dv a.n) fun i r => do
    let x ← a.get (a.n - 1 - i)
    r.put i x

/-- `hash` (array.ipp:203-210); `h << 7` and `+` are taken modulo 2^32. -/
def hashCode (hash : T → BitVec 32) (a : Arr T) : Res (BitVec 32) :=
  forUp 0 a.n 0#32 fun i h => do
    let x ← a.get i
    .ok (hash x ^^^ ((h <<< 7) + h.sshiftRight 25))

/-- `operator* (array<T>, T)` and `operator/` (array.ipp:212-230). -/
def mapScalar (dv : T) (op : T → T → T) (a : Arr T) (c : T) : Res (Arr T) :=
  forUp 0 a.n (new dv a.n) fun i r => do
    let x ← a.get i
    r.put i (op x c)

end Arr
end Lolly
