/-!
# Common definitions

Outcomes of C++ calls, byte strings, and byte-string literals.
-/

namespace Lolly

/-- Outcome of a modelled C++ call.
`ub`: undefined behaviour (out-of-range access, NULL dereference, signed overflow, ...).
`thrown`: an exception raised by `ASSERT`/`TM_FAILED`
(Kernel/Abstractions/basic.hpp:85-94, `tm_throw`).
`hang`: a loop whose fuel ran out. -/
inductive Res (α : Type) where
  | ok (a : α)
  | ub
  | thrown
  | hang
  deriving Repr, DecidableEq

namespace Res

variable {α : Type} {β : Type} {γ : Type}

@[inline] def bind (x : Res α) (f : α → Res β) : Res β :=
  match x with
  | ok a => f a
  | ub => ub
  | thrown => thrown
  | hang => hang

instance : Monad Res where
  pure := Res.ok
  bind := Res.bind

@[simp] theorem pure_def {α : Type} (a : α) : (pure a : Res α) = ok a := rfl
@[simp] theorem ok_bind {α β : Type} (a : α) (f : α → Res β) : (ok a >>= f) = f a := rfl
@[simp] theorem ub_bind {α β : Type} (f : α → Res β) : ((ub : Res α) >>= f) = ub := rfl
@[simp] theorem thrown_bind {α β : Type} (f : α → Res β) :
    ((thrown : Res α) >>= f) = thrown := rfl
@[simp] theorem hang_bind {α β : Type} (f : α → Res β) : ((hang : Res α) >>= f) = hang := rfl
@[simp] theorem map_ok {α β : Type} (f : α → β) (a : α) : (f <$> (ok a)) = ok (f a) := rfl

theorem bind_eq_ok {α β : Type} {x : Res α} {f : α → Res β} {b : β} :
    (x >>= f) = ok b ↔ ∃ a, x = ok a ∧ f a = ok b := by
  cases x <;> simp

/-- Turn a failed lookup into undefined behaviour. -/
def ofOption : Option α → Res α
  | some a => ok a
  | none => ub

@[simp] theorem ofOption_some (a : α) : ofOption (some a) = ok a := rfl
@[simp] theorem ofOption_none : ofOption (none : Option α) = ub := rfl

end Res

/-- Bounds-checked read of a C array cell: `a[i]`. -/
def rd {α : Type} (a : List α) (i : Nat) : Res α := Res.ofOption a[i]?

theorem rd_ok {α : Type} {a : List α} {i : Nat} (h : i < a.length) : rd a i = .ok a[i] := by
  simp [rd, h]

theorem rd_eq_ok {α : Type} {a : List α} {i : Nat} {x : α} :
    rd a i = .ok x ↔ a[i]? = some x := by
  unfold rd; cases a[i]? <;> simp [Res.ofOption]

theorem rd_ub {α : Type} {a : List α} {i : Nat} (h : a.length ≤ i) : rd a i = .ub := by
  simp [rd, h]

/-- Bounds-checked read at a signed index. -/
def rdI {α : Type} (a : List α) (i : Int) : Res α :=
  if 0 ≤ i then rd a i.toNat else .ub

/-- Bounds-checked write of a C array cell: `a[i] = x`. -/
def wr {α : Type} (a : List α) (i : Nat) (x : α) : Res (List α) :=
  if i < a.length then .ok (a.set i x) else .ub

theorem wr_ok {α : Type} {a : List α} {i : Nat} {x : α} (h : i < a.length) :
    wr a i x = .ok (a.set i x) := by simp [wr, h]

/-- Byte strings: the contents of a lolly `string`. -/
abbrev Bytes := List UInt8

/-- `char` is signed on the modelled platforms. -/
def schar (c : UInt8) : Int := c.toInt8.toInt

open Lean in
/-- `b!"abc"`: the byte list of a string literal (UTF-8). -/
macro "b!" s:str : term => do
  let elems := s.getString.toUTF8.toList.toArray.map fun b => Syntax.mkNumLit (toString b.toNat)
  `(([$elems,*] : List UInt8))

open Lean in
/-- `c! 'a'`: the byte of a character literal. -/
macro "c!" c:char : term => do
  let n := Syntax.mkNumLit (toString c.getChar.toNat)
  `(($n : UInt8))

end Lolly
