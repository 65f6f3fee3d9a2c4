import Verif.System.Dirs
import Verif.Strings.Convert

set_option autoImplicit false

/-!
# Moving and copying files, the current directory, the directory of temporary files (System/Files/file.cpp)

A place is an entry of a directory that is no link; two names of one file (hard links) have the same place. What the
system does with directories and devices is left out: nothing is moved or copied then.
-/

namespace Lolly.Move

open Lolly.Url Lolly.Files Lolly.Dirs

/-- `tb_file_rename` on files: the file is at the other place, and what was there is gone. `ok` is its answer. -/
def sysRename (ok : Bool) (fs : FS) (p q : Bytes) : FS :=
  let k := fs.place p
  let m := fs.place q
  match fs.node k with
  | .regular c => if ok && decide (k ≠ m) then (fs.put m (.regular c)).put k .absent else fs
  | _ => fs

/-- `tb_file_copy` on files: `opens` tells whether both could be opened, `wrote` how much was written. What becomes of a
file that is copied to itself is left out. -/
def sysCopy (opens : Bool) (wrote : Nat) (fs : FS) (p q : Bytes) : FS :=
  let k := fs.place p
  let m := fs.place q
  match fs.node k with
  | .regular c => if opens && decide (k ≠ m) && decide (fs.node m ≠ .special) then fs.put m (.regular (c.take wrote)) else fs
  | _ => fs

/-- `move` (file.cpp:309-315). The answer of the system is not looked at. -/
def move (ok : Bool) (fs : FS) (u1 u2 : Url) : Res FS := do
  let p1 ← asLocalPath u1
  let p2 ← asLocalPath u2
  .ok (sysRename ok fs (cname p1) (cname p2))

/-- `copy` (file.cpp:317-323). The answer of the system is not looked at. -/
def copy (opens : Bool) (wrote : Nat) (fs : FS) (u1 u2 : Url) : Res FS := do
  let p1 ← asLocalPath u1
  let p2 ← asLocalPath u2
  .ok (sysCopy opens wrote fs (cname p1) (cname p2))

/-- `chdir` (file.cpp:262-271); `set` is `tb_directory_current_set`, which gives the new current directory if it can. -/
def chdir {C : Type} (set : C → Bytes → Option C) (cwd : C) (u : Url) : Res C :=
  if isLocalAndSingle u then do
    let p ← asLocalPath u
    match set cwd (cname p) with
    | some c => .ok c
    | none => .thrown
  else .thrown

/-- The static variables `tmp_dir` of `url_temp_dir_sub` and `u` of `url_temp_dir`. -/
structure Statics where
  tmpDir : Option Url
  u : Url

/-- Before the first call: `tmp_dir` is not initialised, `u` is `url ()` (url.cpp:60). -/
def Statics.init : Statics := ⟨none, .none⟩

/-- `url_temp_dir_sub` on Unix (file.cpp:288-297); `sys` is `url_system`, `pid` the result of `get_process_id`
(sys_utils.cpp:129-137, unix_sys_utils.cpp:24-27). -/
def urlTempDirSub (sys : Bytes → Res Url) (pid : Nat) (s : Statics) : Res (Url × Statics) := do
  let a ← sys (b!"/tmp")
  let b ← sys (b!".lolly")
  let mainTmpDir ← mul a b
  match s.tmpDir with
  | some t => .ok (t, s)
  | none => do
    let c ← sys (Conv.asString pid)
    let t ← mul mainTmpDir c
    .ok (t, { s with tmpDir := some t })

/-- `url_temp_dir` (file.cpp:299-307); `create` is `tb_directory_create`. -/
def urlTempDir (create : Stat → Bytes → Stat) (f : Nat) (sys : Bytes → Res Url) (pid : Nat) (w : Stat) (s : Statics) :
    Res (Url × Stat × Statics) :=
  if s.u = .none then do
    let (t, s) ← urlTempDirSub sys pid s
    let w ← makeDir create f w t
    .ok (t, w, { s with u := t })
  else .ok (s.u, w, s)

end Lolly.Move
