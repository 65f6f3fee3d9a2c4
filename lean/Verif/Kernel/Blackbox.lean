import Verif.Basic

set_option autoImplicit false

/-!
# Boxes (Kernel/Abstractions/blackbox.hpp)

`Ty` is the set of the types of the program, `V t` the values of the type `t`, `eqv` its `operator==`. An object
remembers the type it was created with; to read it as another type is undefined behaviour. `display` is not modelled.
-/

namespace Lolly.Blackbox

variable {Ty : Type} [DecidableEq Ty] {V : Ty → Type}

/-- `new_type_identifier` (Kernel/Abstractions/basic.cpp:52-57): the new value of the static counter. -/
def newId (id : Int) : Int := id - 1

/-- The initialisation of `type_helper<T>::id` (Kernel/Abstractions/basic.hpp:324) for every type of the program, in
some order; `id` is the counter before. -/
def initIds : List Ty → Int → List (Ty × Int)
  | [], _ => []
  | t :: l, id => (t, newId id) :: initIds l (newId id)

/-- `type_helper<T>::id`; a static variable is 0 before its initialisation. -/
def idOf (ids : List (Ty × Int)) (t : Ty) : Int := ((ids.find? fun p => p.1 == t).map (·.2)).getD 0

/-- `blackbox` (blackbox.hpp:24-28): `NULL`, or a `whitebox_rep<T>`. -/
abbrev Box (V : Ty → Type) := Option ((t : Ty) × V t)

/-- `type_box` (blackbox.hpp:108-111) and `get_type` (line 47). -/
def typeBox (ids : List (Ty × Int)) (b : Box V) : Int :=
  match b with
  | none => 0
  | some p => idOf ids p.1

/-- `((whitebox_rep<T>*) ptr)->data`. -/
def readAs (t : Ty) (b : Box V) : Res (V t) :=
  match b with
  | none => .ub
  | some ⟨u, v⟩ => if h : u = t then .ok (h ▸ v) else .ub

/-- `close_box` (blackbox.hpp:119-123). -/
def closeBox (t : Ty) (v : V t) : Box V := some ⟨t, v⟩

/-- `open_box` (blackbox.hpp:131-138). -/
def openBox (ids : List (Ty × Int)) (t : Ty) (b : Box V) : Res (V t) :=
  if typeBox ids b = idOf ids t then readAs t b else .thrown

/-- `whitebox_rep<T>::equal` (blackbox.hpp:56-59). -/
def equalRep (ids : List (Ty × Int)) (eqv : (t : Ty) → V t → V t → Bool) (t : Ty) (v : V t) (ptr : Box V) : Res Bool :=
  match ptr with
  | none => .ok false
  | some p =>
    if idOf ids p.1 = idOf ids t then do
      let w ← readAs t ptr
      .ok (eqv t w v)
    else .ok false

/-- `operator==` (blackbox.hpp:74-78). -/
def eqBox (ids : List (Ty × Int)) (eqv : (t : Ty) → V t → V t → Bool) (b1 b2 : Box V) : Res Bool :=
  match b1 with
  | none => .ok b2.isNone
  | some ⟨t, v⟩ => equalRep ids eqv t v b2

/-- `operator!=` (blackbox.hpp:86-90). -/
def neBox (ids : List (Ty × Int)) (eqv : (t : Ty) → V t → V t → Bool) (b1 b2 : Box V) : Res Bool :=
  match b1 with
  | none => .ok (!b2.isNone)
  | some ⟨t, v⟩ => do
    let r ← equalRep ids eqv t v b2
    .ok (!r)

end Lolly.Blackbox
