import Verif.System.Url

set_option autoImplicit false

/-!
# The cost of printing urls

`as_string` of urls (System/Classes/url.cpp:728-803) as in `Url`, with a count of the characters that concatenations of strings copy:
`a * b` makes a new string of all characters of both (string.cpp:155-164). Not counted: the tests of what kind of url it is, and
making strings of literals.
-/

namespace Lolly.UrlCost

open Url

/-- A string, and the number of characters copied to get it. -/
structure Str where
  s : Bytes
  k : Nat
  deriving DecidableEq

/-- `a * b` (string.cpp:155-164). -/
def cat (a b : Str) : Str := ⟨a.s ++ b.s, a.k + b.k + (a.s.length + b.s.length)⟩

/-- A literal. -/
def lit (s : Bytes) : Str := ⟨s, 0⟩

/-- `"{" * s * "}"`. -/
def brace (s : Str) : Str := cat (cat (lit (b!"{")) s) (lit (b!"}"))

/-- `as_string (u, type)` on Unix (url.cpp:728-803). -/
def print : Url → Str
  | .none => lit (b!"{}")
  | .atom l => lit l
  | .concat a b =>
    let s1 := print a
    let s2 := print b
    let s1 := if isRootS a (b!"default") then ⟨[], s1.k⟩ else s1
    let s1 := if !isName a && !isRoot a then brace s1 else s1
    let s2 := if !isConcat b && !isAtomic b && !isWild1 b then brace s2 else s2
    cat (cat s1 (lit (b!"/"))) s2
  | .or a b =>
    let s1 := print a
    let s2 := print b
    let s1 := if !isNameInPath a then brace s1 else s1
    let s2 := if !isOr b && !isNameInPath b then brace s2 else s2
    cat (cat s1 (lit (b!":"))) s2
  | .root p =>
    if p = (b!"default") then lit (b!"/")
    else if p = (b!"blank") then lit (b!"/")
    else if p = (b!"file") then cat (lit p) (lit (b!"://"))
    else cat (lit p) (lit (b!":/"))
  | .root3 p _ =>
    if p = (b!"default") then lit (b!"/")
    else if p = (b!"blank") then lit (b!"/")
    else if p = (b!"file") then cat (lit p) (lit (b!"://"))
    else cat (lit p) (lit (b!":/"))
  | .wild0 => lit (b!"**")
  | .wild1 s => lit s

end Lolly.UrlCost
