import Verif.Kernel.Blackbox

set_option autoImplicit false

/-!
# C56: blackbox is type safe

`order` lists the types of the program in the order in which their identifiers are initialised, each one once. The
number of types does not overflow an `int`.
-/

namespace Lolly.BlackboxProps

open Lolly.Blackbox

variable {Ty : Type} [DecidableEq Ty] {V : Ty → Type}

theorem idOf_initIds (l : List Ty) (t : Ty) (id : Int) (ht : t ∈ l) :
    idOf (initIds l id) t = id - 1 - l.idxOf t := by
  induction l generalizing id with
  | nil => simp at ht
  | cons u l ih =>
    by_cases hu : u = t
    · subst hu
      simp [initIds, idOf, newId]
    · have hm : t ∈ l := by simpa [Ne.symm hu] using ht
      have := ih (newId id) hm
      simp only [idOf, initIds] at this ⊢
      rw [List.find?_cons_of_neg (by simpa using hu), this, List.idxOf_cons]
      have hb : (u == t) = false := by simpa using hu
      rw [hb, cond_false, newId]
      omega

/-- Every type has an identifier of its own, and none has the one of the empty box. -/
theorem C56_ids {order : List Ty} {t u : Ty} (ht : t ∈ order) (hu : u ∈ order) :
    (idOf (initIds order 0) t = idOf (initIds order 0) u ↔ t = u) ∧ idOf (initIds order 0) t < 0 := by
  rw [idOf_initIds _ _ _ ht, idOf_initIds _ _ _ hu]
  refine ⟨⟨fun h => ?_, fun h => by rw [h]⟩, by omega⟩
  have h1 : order.idxOf t = order.idxOf u := by omega
  have h2 := List.getElem_idxOf (List.idxOf_lt_length_of_mem ht)
  have h3 := List.getElem_idxOf (List.idxOf_lt_length_of_mem hu)
  rw [← h2, ← h3]
  simp only [h1]

/-- What was put into a box comes out of it. -/
theorem C56_round_trip (order : List Ty) (t : Ty) (v : V t) : openBox (initIds order 0) t (closeBox t v) = .ok v := by
  simp [openBox, closeBox, typeBox, readAs]

/-- To open an empty box, or one with a value of another type, throws. -/
theorem C56_type_safe {order : List Ty} {t : Ty} (ht : t ∈ order) (b : Box V) (hb : ∀ p, b = some p → p.1 ∈ order) :
    (∃ v, b = some ⟨t, v⟩ ∧ openBox (initIds order 0) t b = .ok v) ∨
      ((∀ v, b ≠ some ⟨t, v⟩) ∧ openBox (initIds order 0) t b = .thrown) := by
  cases b with
  | none =>
    refine .inr ⟨by simp, ?_⟩
    have := (C56_ids ht ht).2
    rw [openBox, if_neg]
    simp only [typeBox]
    omega
  | some p =>
    obtain ⟨u, v⟩ := p
    by_cases hu : u = t
    · subst hu
      exact .inl ⟨v, rfl, C56_round_trip order u v⟩
    · refine .inr ⟨fun w hw => ?_, ?_⟩
      · injection hw with hw
        injection hw with h1 h2
        exact hu h1
      · rw [openBox, if_neg]
        exact fun h => hu ((C56_ids (hb _ rfl) ht).1.1 h)

/-- Equality of boxes: both empty, or values of the same type that are equal. -/
inductive Equal (eqv : (t : Ty) → V t → V t → Bool) : Box V → Box V → Prop
  | nil : Equal eqv none none
  | value {t : Ty} {v w : V t} : eqv t v w = true → Equal eqv (some ⟨t, v⟩) (some ⟨t, w⟩)

/-- `==` decides this equality and `!=` its negation; no data is read as another type. The operator of the type is
called with the second value first. -/
theorem C56_equal {order : List Ty} (eqv : (t : Ty) → V t → V t → Bool) (b1 b2 : Box V)
    (h1 : ∀ p, b1 = some p → p.1 ∈ order) (h2 : ∀ p, b2 = some p → p.1 ∈ order) :
    ∃ r, eqBox (initIds order 0) eqv b1 b2 = .ok r ∧ neBox (initIds order 0) eqv b1 b2 = .ok (!r) ∧
      (r = true ↔ Equal eqv b2 b1) := by
  cases b1 with
  | none =>
    cases b2 with
    | none => exact ⟨true, rfl, rfl, by simp; exact .nil⟩
    | some p => exact ⟨false, rfl, rfl, by simp; exact nofun⟩
  | some p =>
    obtain ⟨t, v⟩ := p
    cases b2 with
    | none => exact ⟨false, rfl, rfl, by simp; exact nofun⟩
    | some q =>
      obtain ⟨u, w⟩ := q
      by_cases hu : u = t
      · subst hu
        refine ⟨eqv u w v, ?_, ?_, fun h => .value h, fun h => ?_⟩
        · simp [eqBox, equalRep, readAs]
        · simp [neBox, equalRep, readAs]
        · cases h; assumption
      · have : idOf (initIds order 0) u ≠ idOf (initIds order 0) t := fun h =>
          hu ((C56_ids (h2 _ rfl) (h1 _ rfl)).1.1 h)
        refine ⟨false, ?_, ?_, ?_⟩
        · simp [eqBox, equalRep, this]
        · simp [neBox, equalRep, this]
        · simp only [Bool.false_eq_true, false_iff]
          intro h
          cases h
          exact hu rfl

/-- If the equality of every type is an equivalence, so is the equality of boxes. -/
theorem C56_equivalence {order : List Ty} (eqv : (t : Ty) → V t → V t → Bool)
    (hr : ∀ t v, eqv t v v = true) (hs : ∀ t v w, eqv t v w = true → eqv t w v = true)
    (ht : ∀ t u v w, eqv t u v = true → eqv t v w = true → eqv t u w = true) (a b c : Box V)
    (ha : ∀ p, a = some p → p.1 ∈ order) (hb : ∀ p, b = some p → p.1 ∈ order) (hc : ∀ p, c = some p → p.1 ∈ order) :
    eqBox (initIds order 0) eqv a a = .ok true ∧
    eqBox (initIds order 0) eqv a b = eqBox (initIds order 0) eqv b a ∧
    (eqBox (initIds order 0) eqv a b = .ok true → eqBox (initIds order 0) eqv b c = .ok true →
      eqBox (initIds order 0) eqv a c = .ok true) := by
  have sym : ∀ {x y : Box V}, Equal eqv x y → Equal eqv y x := by
    intro x y h
    cases h with
    | nil => exact .nil
    | value h => exact .value (hs _ _ _ h)
  obtain ⟨r1, e1, -, i1⟩ := C56_equal eqv a a ha ha
  obtain ⟨r2, e2, -, i2⟩ := C56_equal eqv a b ha hb
  obtain ⟨r3, e3, -, i3⟩ := C56_equal eqv b a hb ha
  obtain ⟨r4, e4, -, i4⟩ := C56_equal eqv b c hb hc
  obtain ⟨r5, e5, -, i5⟩ := C56_equal eqv a c ha hc
  refine ⟨?_, ?_, ?_⟩
  · rw [e1, i1.2]
    cases a with
    | none => exact .nil
    | some p => exact .value (hr _ _)
  · rw [e2, e3]
    have : r2 = true ↔ r3 = true := i2.trans ⟨fun h => i3.2 (sym h), fun h => sym (i3.1 h)⟩
    congr 1
    exact Bool.eq_iff_iff.2 this
  · rw [e2, e4, e5]
    intro h4 h5
    injection h4 with h4
    injection h5 with h5
    have h6 := i2.1 h4
    have h7 := i4.1 h5
    rw [i5.2]
    cases h6 with
    | nil => cases h7; exact .nil
    | value h8 => cases h7 with | value h9 => exact .value (ht _ _ _ _ h9 h8)

theorem idOf_not_mem {l : List Ty} {t : Ty} (id : Int) (ht : t ∉ l) : idOf (initIds l id) t = 0 := by
  induction l generalizing id with
  | nil => rfl
  | cons u l ih =>
    have h1 : u ≠ t := fun h => ht (h ▸ List.mem_cons_self)
    have h2 := ih (newId id) fun h => ht (List.mem_cons_of_mem _ h)
    simp only [idOf, initIds] at h2 ⊢
    rw [List.find?_cons_of_neg (by simpa using h1), h2]

/-- Before `main`, when `order` lists only the types whose identifiers have been initialised so far: a box opened with
the type of its value gives that value; otherwise opening throws, except that the data is reinterpreted if neither type
has an identifier yet, and an empty box is read if the requested type has none. -/
theorem C56_early (order : List Ty) (t : Ty) :
    (openBox (V := V) (initIds order 0) t none = if t ∈ order then .thrown else .ub) ∧
    ∀ (u : Ty) (v : V u), (∀ h : u = t, openBox (initIds order 0) t (closeBox u v) = .ok (h ▸ v)) ∧
      (u ≠ t → openBox (initIds order 0) t (closeBox u v) = if t ∈ order ∨ u ∈ order then .thrown else .ub) := by
  refine ⟨?_, fun u v => ⟨fun h => ?_, fun h => ?_⟩⟩
  · by_cases ht : t ∈ order
    · have := (C56_ids ht ht).2
      rw [if_pos ht, openBox, if_neg]
      simp only [typeBox]
      omega
    · rw [if_neg ht, openBox, if_pos]
      · rfl
      · rw [idOf_not_mem 0 ht]; rfl
  · subst h
    exact C56_round_trip order u v
  · have key : typeBox (initIds order 0) (closeBox u v) = idOf (initIds order 0) u := rfl
    by_cases ht : t ∈ order
    · rw [if_pos (.inl ht), openBox, key, if_neg]
      by_cases hu : u ∈ order
      · exact fun e => h ((C56_ids hu ht).1.1 e)
      · have := (C56_ids ht ht).2
        rw [idOf_not_mem 0 hu]
        omega
    · by_cases hu : u ∈ order
      · have := (C56_ids hu hu).2
        rw [if_pos (.inr hu), openBox, key, if_neg]
        rw [idOf_not_mem 0 ht]
        omega
      · rw [if_neg (by simp [ht, hu]), openBox, key, if_pos]
        · simp [readAs, closeBox, h]
        · rw [idOf_not_mem 0 hu, idOf_not_mem 0 ht]

/-- Type safety fails for boxes used by the initialisers of static variables: a number is read as a truth value. -/
theorem C56_early_violated : ∃ (V : Bool → Type) (v : V false),
    openBox (initIds [] 0) true (closeBox false v) = .ub :=
  ⟨fun b => cond b Bool Nat, (5 : Nat), rfl⟩

/-- Two types, numbers and truth values, initialised in this order. -/
example : openBox (V := fun b : Bool => cond b Bool Nat) (initIds [false, true] 0) false (closeBox false (5 : Nat)) = .ok (5 : Nat) ∧
    openBox (V := fun b : Bool => cond b Bool Nat) (initIds [false, true] 0) true (closeBox false (5 : Nat)) = .thrown ∧
    openBox (V := fun b : Bool => cond b Bool Nat) (initIds [false, true] 0) true none = .thrown := ⟨rfl, rfl, rfl⟩

end Lolly.BlackboxProps
