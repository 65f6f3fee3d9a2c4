import Verif.System.Url
import Verif.Strings.SearchSpec

set_option autoImplicit false

/-!
# What paths mean

A path is a list of components, each a name, a name with wildcards, or `..`. Following it from a directory enters
the named directories and leaves a directory at each `..`; leaving the top does nothing.
-/

namespace Lolly.Url

/-- A component of a path: a name (neither `.` nor empty; `..` is allowed) or a name with wildcards. -/
def Elem (x : Url) : Prop := isPseudoAtomic x = true ∧ x ≠ here ∧ x ≠ .atom []

instance (x : Url) : Decidable (Elem x) := inferInstanceAs (Decidable (_ ∧ _ ∧ _))

/-- The relative path with the given components (url.hpp:111: `a/b/c` is `(concat a (concat b c))`). -/
def P : List Url → Url
  | [] => here
  | [x] => x
  | x :: y :: l => .concat x (P (y :: l))

/-- The path with the given root and components. -/
def R (r : Bytes) (l : List Url) : Url := if l = [] then .root r else .concat (.root r) (P l)

/-- Is `r` one of the protocols of web urls? -/
def webProtocol (r : Bytes) : Bool := decide (r = b!"http" ∨ r = b!"https" ∨ r = b!"ftp" ∨ r = b!"blank")

/-- Follow a path: `d` is the directory where one is, innermost name first. -/
def walk (d : List Url) : List Url → List Url
  | [] => d
  | x :: l => if x = parent then walk d.tail l else walk (x :: d) l

/-- A path in which no name is followed by `..`. -/
def Normal : List Url → Prop
  | x :: y :: l => (y = parent → x = parent) ∧ Normal (y :: l)
  | _ => True

/-- The trees that the documented representation allows (url.hpp:107-118): concatenations nest to the right, and
only the first component can be a root. -/
def Good : Url → Prop
  | .concat a b => Good a ∧ Good b ∧ isConcat a = false ∧ topRoot b = false
  | .or a b => Good a ∧ Good b
  | .root3 p _ => p = b!"ramdisc"
  | _ => True

/-- The component of a path with the given name; a name with `*` is a wildcard. -/
def elemOf (s : Bytes) : Url := if c! '*' ∈ s then .wild1 s else .atom s

/-- A name that stands for itself in the text of a path: not empty, not `.`, without `/`, and not expanded from the
environment. -/
structure Name (s : Bytes) : Prop where
  nonempty : s ≠ []
  not_here : s ≠ b!"."
  no_slash : c! '/' ∉ s
  not_home : s ≠ b!"~"
  no_var : s.head? ≠ some (c! '$')

/-- The text of a path: the names with `/` between them. -/
def text (ns : List Bytes) : Bytes := An.join (b!"/") ns

end Lolly.Url
