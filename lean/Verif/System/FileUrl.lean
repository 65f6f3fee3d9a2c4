import Verif.System.Url

/-!
# Files by name: `file_url`, `concretize` and the constructors with a directory

Model of `System/Classes/file_url.cpp` and of the constructors in `System/Classes/url.cpp:60-64, 305-335` on Unix.
-/

set_option autoImplicit false

namespace Lolly.FileUrl

open Lolly.Url

/-- `file_url (name)` (file_url.cpp:14-19); `f` bounds the expansion of variables as in `general`. -/
def fileUrl (env : Env) (f : Nat) (name : Bytes) : Res Url := rooted env (general env f 0) (b!"file") name 0

/-- `is_wildcard (u, 1)` and the label it returns then (url.cpp:676-679, file_url.cpp:25). -/
def wildLabel : Url → Option Bytes
  | .wild1 s => some s
  | _ => none

/-- `file_url::concretize ()` (file_url.cpp:21-28). `TM_FAILED` throws. -/
def concretize (u : Url) : Res Bytes := do
  let c ← reroot (b!"default") u
  if isNone c then
    match wildLabel u with
    | some s => .ok s
    | none => .thrown
  else .ok (asString c)

/-- `url_system (name)`, `url_unix (name)` and `url_standard (name)` (url.cpp:305-308, 315-318, file_url.cpp:30-33):
`type` is 0, 1 or 2; `url (name)` (url.cpp:61-62) is `url_system (name)`. -/
def named (env : Env) (f type : Nat) (name : Bytes) : Res Url := general env f type name

/-- `url_system (dir, name)`, `url_unix (dir, name)` and `url_standard (dir, name)` (url.cpp:310-313, 320-323,
file_url.cpp:35-38); `url (dir, name)` (url.cpp:63-64) is `url_system (dir, name)`. -/
def below (env : Env) (f type : Nat) (dir name : Bytes) : Res Url := do
  let u ← named env f type dir
  let v ← named env f type name
  mul u v

/-- `url_pwd ()` (url.cpp:325-335): `cwd` is what `tb_directory_current` finds, if it finds anything. -/
def pwd (env : Env) (f : Nat) (cwd : Option Bytes) : Res Url :=
  match cwd with
  | some path => named env f 0 path
  | none => .thrown

end Lolly.FileUrl
