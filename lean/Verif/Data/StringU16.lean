import Verif.Strings.StrLemmas

/-!
# Model of `string_u16` (lolly/data/string_u16.hpp, string_u16.cpp) and of `string_view`
(lolly/data/string_view.hpp)

The block of a representation is owned by it alone, so it is kept inside of it; `lost` counts the blocks
that are not reachable any more and were not freed. New cells are value-initialised, hence zero. `int`
lengths do not overflow; lengths passed to `resize` and `reserve` are not negative.
-/

set_option autoImplicit false

namespace Lolly.U16

/-- The pointer `a`: NULL, an allocated block, or a block that was freed. -/
inductive Ptr where
  | null
  | block (cells : List UInt16)
  | freed
  deriving DecidableEq

/-- `string_u16_rep` (string_u16.hpp:23-26). -/
structure Rep where
  n : Nat
  aN : Nat
  a : Ptr
  deriving DecidableEq

/-- `round_length` (string_u16.cpp:16-24), the same as for `string`. -/
def roundLength (n : Nat) : Nat := Str.roundLength n

/-- `tm_new_array<char16_t>` (fast_alloc.hpp:406-416). -/
def newArray (n : Nat) : Ptr := .block (List.replicate n 0)

/-- `tm_resize_array<char16_t>` (fast_alloc.hpp:417-431): reads the length in front of the block. -/
def resizeArray (n : Nat) : Ptr → Res Ptr
  | .block c => .ok (.block (c.take n ++ List.replicate (n - c.length) 0))
  | _ => .ub

/-- `tm_delete_array` (fast_alloc.hpp:433-443): reads the length in front of the block, so that NULL is
not allowed. The pointer keeps its value. -/
def deleteArray : Ptr → Res Ptr
  | .block _ => .ok .freed
  | _ => .ub

/-- How many blocks are lost if the pointer is overwritten or disappears. -/
def loses : Ptr → Nat
  | .block _ => 1
  | _ => 0

/-- `string_u16_rep ()` (string_u16.hpp:29). -/
def empty : Rep := ⟨0, 0, .null⟩

/-- `string_u16_rep (int)` (string_u16.cpp:26-28). -/
def new (n : Nat) : Rep := ⟨n, roundLength n, if n = 0 then .null else newArray (roundLength n)⟩

/-- `~string_u16_rep` (string_u16.hpp:31-33): the number of blocks lost. -/
def destroy (u : Rep) : Res Nat :=
  if u.n ≠ 0 then do
    let p ← deleteArray u.a
    .ok (loses p)
  else .ok (loses u.a)

/-- `resize` (string_u16.cpp:30-52), with the number of blocks lost. -/
def resize (u : Rep) (m : Nat) : Res (Rep × Nat) :=
  let nn := roundLength u.n
  let mm := roundLength m
  if mm ≠ nn then
    if mm ≠ 0 then
      if nn ≠ 0 then do
        let p ← resizeArray mm u.a
        .ok (⟨m, mm, p⟩, 0)
      else .ok (⟨m, mm, newArray mm⟩, loses u.a)
    else if nn ≠ 0 then do
      let _ ← deleteArray u.a
      .ok (⟨m, 0, .null⟩, 0)
    else .ok ({ u with n := m }, 0)
  else .ok ({ u with n := m }, 0)

/-- `reserve` (string_u16.cpp:62-82). -/
def reserve (u : Rep) (m : Nat) : Res (Rep × Nat) :=
  if m ≠ 0 then
    if u.aN = 0 then
      let s := roundLength m
      .ok ({ u with aN := s, a := newArray s }, loses u.a)
    else if u.aN < m then do
      let s := roundLength m
      let p ← resizeArray s u.a
      .ok ({ u with aN := s, a := p }, 0)
    else .ok (u, 0)
  else if u.aN ≠ 0 then do
    let _ ← deleteArray u.a
    .ok ({ u with aN := 0, a := .null }, 0)
  else .ok (u, 0)

/-- `expand_or_shrink_by` (string_u16.cpp:54-60); a negative result is undefined here. The old length is
`u.n`. -/
def expand (u : Rep) (d : Int) : Res (Rep × Nat) :=
  if (u.n : Int) + d < 0 then .ub
  else reserve { u with n := ((u.n : Int) + d).toNat } ((u.n : Int) + d).toNat

/-- `s[i]` read (string_u16.hpp:93). -/
def get (u : Rep) (i : Nat) : Res UInt16 :=
  match u.a with
  | .block c => rd c i
  | _ => .ub

/-- `s[i]= x` (string_u16.hpp:93). -/
def put (u : Rep) (i : Nat) (x : UInt16) : Res Rep :=
  match u.a with
  | .block c => do
    let c ← wr c i x
    .ok { u with a := .block c }
  | _ => .ub

/-- `operator<< (string_u16&, char16_t)` (string_u16.cpp:113-118). -/
def push (u : Rep) (x : UInt16) : Res (Rep × Nat) := do
  let r ← expand u 1
  let v ← put r.1 u.n x
  .ok (v, r.2)

/-- `operator<< (string_u16&, string_u16)` (string_u16.cpp:120-127); `none` means that the second
argument is another handle to the first string. -/
def append (u : Rep) (b : Option Rep) : Res (Rep × Nat) := do
  let bN := (b.getD u).n
  let r ← expand u bN
  let v ← forUp 0 bN r.1 fun i v => do
    let x ← get (b.getD v) i
    put v (i + u.n) x
  .ok (v, r.2)

/-- The constructors from a literal, from a view and `copy` (string_u16.hpp:67-72, string_u16.cpp:88-92,
99-106): `l` are the elements of the view. -/
def ofList (l : List UInt16) : Res Rep :=
  forUp 0 l.length (new l.length) fun i u => do
    let x ← rd l i
    put u i x

/-- `string_u16 (char16_t)` (string_u16.cpp:84-86). -/
def ofChar (c : UInt16) : Res Rep := put (new 1) 0 c

/-- `string_u16 (char16_t, int)` (string_u16.cpp:94-97). -/
def ofCharN (c : UInt16) (n : Nat) : Res Rep := forUp 0 n (new n) fun i u => put u i c

/-- `operator*` (string_u16.cpp:129-140); `b` are the elements of the view. -/
def concat (a : Rep) (b : List UInt16) : Res Rep := do
  let c ← forUp 0 a.n (new (a.n + b.length)) fun i c => do
    let x ← get a i
    put c i x
  forUp 0 b.length c fun i c => do
    let x ← rd b i
    put c (i + a.n) x

/-- A call of an operation that changes the string. -/
inductive Op where
  | resize (m : Nat)
  | reserve (m : Nat)
  | expand (d : Int)
  | put (i : Nat) (x : UInt16)
  | push (x : UInt16)
  | append (b : Rep)
  | appendSelf

/-- One call: the string afterwards and the number of blocks lost. -/
def exec (u : Rep) : Op → Res (Rep × Nat)
  | .resize m => resize u m
  | .reserve m => reserve u m
  | .expand d => expand u d
  | .put i x => do
    let v ← put u i x
    .ok (v, 0)
  | .push x => push u x
  | .append b => append u (some b)
  | .appendSelf => append u none

/-! ## Views -/

variable {T : Type} [DecidableEq T] (lt : T → T → Bool)

/-- A view of the elements of `a` from `b` to `e`, made from a pointer and a length; a view that reaches outside `a`
shows memory that does not belong to it. -/
def window (a : List T) (b e : Int) : Res (List T) :=
  if 0 ≤ b ∧ b ≤ e ∧ e ≤ a.length then .ok ((a.drop b.toNat).take (e - b).toNat) else .ub

/-- `operator()` of a view (string_view.hpp:57-66): the elements of the resulting view. -/
def viewSub (a : List T) (b e : Int) : Res (List T) :=
  if e ≤ b then .ok []
  else
    let b := max (min (a.length : Int) b) 0
    let e := max (min (a.length : Int) e) 0
    window a b e

/-- `operator==` of views (string_view.hpp:68-77). -/
def viewEq (a b : List T) : Res Bool :=
  if a.length ≠ b.length then .ok false
  else do
    let r ← forRet 0 a.length fun i => do
      let x ← rd a i
      let y ← rd b i
      .ok (if x ≠ y then some false else none)
    .ok (r.getD true)

/-- `operator!=` of views (string_view.hpp:91-100). -/
def viewNe (a b : List T) : Res Bool :=
  if a.length ≠ b.length then .ok true
  else do
    let r ← forRet 0 a.length fun i => do
      let x ← rd a i
      let y ← rd b i
      .ok (if x ≠ y then some true else none)
    .ok (r.getD false)

/-- The loop of `operator<` and `operator<=` (string_view.hpp:119-122, 143-146). -/
def viewCmp (a b : List T) : Res (Option Bool) :=
  forRet 0 (min a.length b.length) fun i => do
    let x ← rd a i
    let y ← rd b i
    .ok (if lt x y then some true else if lt y x then some false else none)

/-- `operator<` (string_view.hpp:114-124). -/
def viewLt (a b : List T) : Res Bool := do
  let r ← viewCmp lt a b
  .ok (r.getD (decide (a.length < b.length)))

/-- `operator<=` (string_view.hpp:138-148). -/
def viewLe (a b : List T) : Res Bool := do
  let r ← viewCmp lt a b
  .ok (r.getD (decide (a.length ≤ b.length)))

end Lolly.U16
