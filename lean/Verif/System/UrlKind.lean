import Verif.System.Url

/-!
# Kinds of urls (System/Classes/url.cpp)

`is_rooted`, `is_rooted (u, protocol)` and `is_name` are in Verif.System.Url. `is_rooted_blank` (blank_url.cpp:26-30) is
`is_rooted (u, "blank")`.
-/

set_option autoImplicit false

namespace Lolly.Url

/-- `is_rooted_web (u)` (url.cpp:699-703). -/
def isRootedWeb : Url → Bool
  | .concat a _ => isRootedWeb a
  | .or a b => isRootedWeb a && isRootedWeb b
  | u => isRootWeb u

/-- `is_rooted_name (u)` (url.cpp:712-715). -/
def isRootedName : Url → Bool
  | .concat a b => isRoot a && isName b
  | _ => false

/-- `is_ramdisc (u)` (url.cpp:723-726). -/
def isRamdisc : Url → Bool
  | .concat a _ => isRootS a (b!"ramdisc")
  | _ => false

end Lolly.Url
