import Verif.Strings.Search
import Verif.Data.Utf16

/-!
# The names of the user

`get_user_login` and `get_user_name` (System/Misc/sys_utils.cpp:63-91) on Unix and
Windows.
-/

set_option autoImplicit false

namespace Lolly.User

/-- The entry of a user in the data base of users (`struct passwd`): `pw_name` and
`pw_gecos`. -/
structure Passwd where
  name : Bytes
  gecos : Bytes

/-- `unix_get_login ()` (unix_sys_utils.cpp:311-316); `pwd` is what
`getpwuid (getuid ())` gives, `none` the null pointer. -/
def unixGetLogin (pwd : Option Passwd) : Res Bytes :=
  match pwd with
  | none => .ub
  | some p => .ok p.name

/-- `unix_get_username ()` (unix_sys_utils.cpp:318-323). -/
def unixGetUsername (pwd : Option Passwd) : Res Bytes :=
  match pwd with
  | none => .ub
  | some p => do
    let a ← An.tokenize (p.gecos.length + 1) p.gecos (b!",")
    rd a 0

/-- `GetUserNameExW (NameDisplay, buffer, &len)` of Windows: `name` is the display
name, `none` if there is none; `len` the size of the buffer that the caller gives,
`after` what `len` is if there is no name.  The name and a terminating zero are
written if `len` is large enough, which is undefined beyond the end of the buffer;
otherwise `len` becomes the size that is needed. -/
def getUserNameEx (name : Option (List UInt16)) (after : Nat) (buffer : List UInt16) (len : Nat) :
    Res (List UInt16 × Nat) :=
  match name with
  | none => .ok (buffer, after)
  | some w =>
    if w.length + 1 ≤ len then
      if w.length + 1 ≤ buffer.length then .ok (w ++ 0 :: buffer.drop (w.length + 1), w.length)
      else .ub
    else .ok (buffer, w.length + 1)

/-- `win_get_username ()` (win_sys_utils.cpp:140-150): neither `buffer`, of 100
units, nor `len` is initialised; `buffer` and `len` are what happens to be in
memory. -/
def winGetUsername (conv : Utf16.Conv) (name : Option (List UInt16)) (after : Nat)
    (buffer : List UInt16) (len : Nat) : Res Bytes := do
  let (buffer, len) ← getUserNameEx name after buffer len
  if len = 0 then .ok []
  else if 0 ∈ buffer then Utf16.wcharToUtf8 conv buffer
  else .ub

end Lolly.User
