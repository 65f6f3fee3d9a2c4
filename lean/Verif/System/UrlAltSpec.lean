import Verif.System.UrlSpec

set_option autoImplicit false

/-!
# What alternatives mean

A url with alternatives stands for a list of paths. The components of a path are names or names with wildcards; a root
may come first.
-/

namespace Lolly.Url

/-- A component that stands for itself: neither `.`, `..` nor `...`. -/
def Comp (x : Url) : Prop := Elem x ∧ x ≠ parent ∧ x ≠ ancestor

instance (x : Url) : Decidable (Comp x) := inferInstanceAs (Decidable (_ ∧ _ ∧ _))

/-- Urls built from components, concatenation and alternatives; with `b` also from roots, as first factors. -/
def Free : Bool → Url → Prop
  | b, .concat a c => Free b a ∧ isConcat a = false ∧ Free false c
  | b, .or a c => Free b a ∧ Free b c
  | b, .root _ => b = true
  | _, u => Comp u

/-- The paths that a url stands for, in order. -/
def den : Url → List (List Url)
  | .concat a c => (den a).flatMap fun x => (den c).map (x ++ ·)
  | .or a c => den a ++ den c
  | u => [[u]]

/-- The url with the given alternatives. -/
def orOf : List Url → Url
  | [] => .none
  | [x] => x
  | x :: y :: l => .or x (orOf (y :: l))

/-- Put `a` in front, unless it is there. -/
def ins {α : Type} [DecidableEq α] (a : α) (l : List α) : List α := if l.head? = some a then l else a :: l

/-- Of equal neighbours keep one. -/
def merge {α : Type} [DecidableEq α] (l : List α) : List α := l.foldr ins []

/-- Two lists that have the same elements in the same order of first occurrence: every search finds the same. -/
def SameOrder {α : Type} (l m : List α) : Prop := ∀ p : α → Bool, l.find? p = m.find? p

end Lolly.Url
