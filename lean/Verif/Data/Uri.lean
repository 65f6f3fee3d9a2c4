import Verif.System.Url

/-!
# Parts of uris (lolly/data/uri.cpp)
-/

set_option autoImplicit false

namespace Lolly.Uri

open Lolly.Url

/-- `url::operator[]` (System/Classes/url.hpp:50) for the indices 1 and 2: the children of the tree behind the url
(url.hpp:107-118, url.cpp:22-41). An atom has no children; the array of children of `none` has one element. -/
def child : Url → Nat → Res Url
  | .concat a _, 1 => .ok a
  | .concat _ b, 2 => .ok b
  | .or a _, 1 => .ok a
  | .or _ b, 2 => .ok b
  | .root p, 1 => .ok (.atom p)
  | .root3 p _, 1 => .ok (.atom p)
  | .root3 _ c, 2 => .ok (.atom c)
  | .wild1 s, 1 => .ok (.atom s)
  | _, _ => .ub

/-- `uri_host` (uri.cpp:17-20). -/
def uriHost (u : Url) : Res Bytes := do
  let v ← child u 2
  let w ← child v 1
  .ok (asString w)

/-- `uri_path` (uri.cpp:22-25). The type of the text plays no role on Linux. -/
def uriPath (u : Url) : Res Bytes := do
  let v ← child u 2
  let w ← child v 2
  .ok ((b!"/") ++ asString w)

end Lolly.Uri
