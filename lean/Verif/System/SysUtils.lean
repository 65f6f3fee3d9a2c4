import Verif.System.Spawn
import Verif.Strings.SearchSpec

/-!
# Model of environment variables and of `evaluate_system` (System/Misc/sys_utils.cpp)

tbox is not part of the repository. The variables of the process are a function; `split` is how
`tb_environment_load` cuts a value into the values that `tb_for_all_if` visits, and `tb_environment_save` sets the
variable to the values with `:` between them. Whether `tb_environment_init` gives an environment and whether saving
works are parameters of each call. The build is the one for Linux (`URL_SEPARATOR` is `:`, sys_utils.hpp:23).
-/

set_option autoImplicit false

namespace Lolly.SysUtils

/-- The variables of the process; `none` if a variable is not set. -/
abbrev Vars := Bytes → Option Bytes

/-- What `c_string` hands over: the characters before the first NUL (string.hpp:128). -/
def cstr (s : Bytes) : Bytes := s.takeWhile (· ≠ 0)

/-- The loop of `get_env` (sys_utils.cpp:33-35). -/
def collect : Bytes → List Bytes → Bytes
  | ret, [] => ret
  | ret, v :: vs => collect (ret ++ v ++ (b!":")) vs

/-- `get_env (var)` (sys_utils.cpp:24-46). -/
def getEnv (split : Bytes → List Bytes) (vars : Vars) (init : Bool) (var : Bytes) : Bytes :=
  let vs := if init then (vars (cstr var)).elim [] split else []
  let size := vs.length
  let ret := if init ∧ 1 ≤ size then collect [] vs else []
  if size ≤ 0 then ret else An.sub ret 0 ((ret.length : Int) - 1)

/-- `set_env (var, with)` (sys_utils.cpp:48-61): an environment with the one value `with` is saved. -/
def setEnv (vars : Vars) (init save : Bool) (var value : Bytes) : Vars :=
  if value = [] then vars
  else if init && save then fun v => if v = cstr var then some (An.join (b!":") [cstr value]) else vars v
  else vars

/-- `evaluate_system` (sys_utils.cpp:144-165) when `unix_system` has ended in the state `x` of the network of the
process and the threads: the answer as a string, then what arrived on each of the descriptors `fd_out`, here `ks`. -/
def evaluateSystem {σ ι κ : Type} (is : List ι) (ks : List κ) (x : Spawn.Net σ ι κ) : List Bytes :=
  [Conv.asString (Spawn.answer is x)] ++ ks.map fun j => (x.rs j).got

end Lolly.SysUtils
