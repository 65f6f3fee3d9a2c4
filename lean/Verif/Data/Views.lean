import Verif.Data.StringU16

/-!
# Model of the constructors and conversions of `string_view` (lolly/data/string_view.hpp)

`Data/StringU16.lean` models the operators on views as operators on the sequences that they show. Here a view is what
the class stores, an `int` and a pointer, so that the constructors and the conversion to `std::basic_string` can be
modelled. The pointer is the list of the elements from there to the end of the object that it points into; NULL is the
empty list. Lengths of objects are `size_t` and are not limited.
-/

set_option autoImplicit false

namespace Lolly.Views

/-- The members of `string_view<T>` (string_view.hpp:27-28). -/
structure View (T : Type) where
  n : Int
  a : List T
  deriving DecidableEq

variable {T : Type}

/-- The conversion of a `size_t` to `int`. -/
def toInt (n : Nat) : Int := (BitVec.ofNat 32 n).toInt

/-- `string_view (const T* a_, int N_)` (string_view.hpp:33). -/
def ofPointer (a : List T) (n : Int) : View T := ⟨n, a⟩

/-- `string_view (const T (&null_end_str)[N_])` (string_view.hpp:37-39); `arr` are all elements of the array, of which
there is at least one. -/
def ofArray (arr : List T) : View T := ⟨toInt (arr.length - 1), arr⟩

/-- `string_view (const std::basic_string<T>&)` (string_view.hpp:43-44); `zero` is the element that `data ()` has
behind the last one. -/
def ofStd (zero : T) (s : List T) : View T := ⟨toInt s.length, s ++ [zero]⟩

/-- `operator std::basic_string<T>` (string_view.hpp:45): a negative `N` becomes a `size_t` that exceeds `max_size ()`,
for which the constructor throws `std::length_error`. -/
def toStd (v : View T) : Res (List T) :=
  if v.n < 0 then .thrown
  else if v.n ≤ v.a.length then .ok (v.a.take v.n.toNat)
  else .ub

/-- `operator()` (string_view.hpp:57-66); a pointer behind the end of the object must not be made. -/
def slice (v : View T) (b e : Int) : Res (View T) :=
  if e ≤ b then .ok ⟨0, []⟩
  else
    let b := max (min v.n b) 0
    let e := max (min v.n e) 0
    if b ≤ v.a.length then .ok ⟨e - b, v.a.drop b.toNat⟩ else .ub

variable [DecidableEq T] (lt : T → T → Bool)

/-- `operator==` (string_view.hpp:68-77). -/
def eq (v w : View T) : Res Bool :=
  if v.n ≠ w.n then .ok false
  else do
    let r ← forRet 0 v.n.toNat fun i => do
      let x ← rd v.a i
      let y ← rd w.a i
      .ok (if x ≠ y then some false else none)
    .ok (r.getD true)

/-- `operator!=` (string_view.hpp:91-100). -/
def ne (v w : View T) : Res Bool :=
  if v.n ≠ w.n then .ok true
  else do
    let r ← forRet 0 v.n.toNat fun i => do
      let x ← rd v.a i
      let y ← rd w.a i
      .ok (if x ≠ y then some true else none)
    .ok (r.getD false)

/-- The loop of `operator<` and `operator<=` (string_view.hpp:119-122, 143-146). -/
def cmp (v w : View T) : Res (Option Bool) :=
  forRet 0 (min v.n w.n).toNat fun i => do
    let x ← rd v.a i
    let y ← rd w.a i
    .ok (if lt x y then some true else if lt y x then some false else none)

/-- `operator<` (string_view.hpp:114-124). -/
def less (v w : View T) : Res Bool := do
  let r ← cmp lt v w
  .ok (r.getD (decide (v.n < w.n)))

/-- `operator<=` (string_view.hpp:138-148). -/
def lessEq (v w : View T) : Res Bool := do
  let r ← cmp lt v w
  .ok (r.getD (decide (v.n ≤ w.n)))

end Lolly.Views
