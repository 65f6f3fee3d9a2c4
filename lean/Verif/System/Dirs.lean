import Verif.System.Files

set_option autoImplicit false

/-!
# Directories and properties of files (System/Files/file.cpp)

What the system tells about a path is an argument: `tb_file_info` is a function from names to `Info`, the permissions of
`tb_file_access` and the lists of `tb_directory_walk` are oracles, and so is what `tb_directory_create` does. For `chdir`,
`move` and `copy` see `System/Move`.
-/

namespace Lolly.Dirs

open Lolly.Url Lolly.Files

/-- `tb_file_type_e`. `none` of `tb_file_info` is a path that does not exist. -/
inductive Kind where
  | dir
  | file
  | other
  deriving DecidableEq

/-- `tb_file_info_t`: the size has 64 bits, the time of the last change is signed; `flags` tells whether the path is a
link (bit 0). -/
structure Info where
  kind : Kind
  size : Nat
  mtime : Int
  flags : Nat
  deriving DecidableEq

/-- `tb_file_info (path, &info)`. -/
abbrev Stat := Bytes → Option Info

/-- `is_directory` (file.cpp:37-54). -/
def isDirectory (w : Stat) (u : Url) : Res Bool :=
  if !isLocalAndSingle u then .ok false
  else do
    let p ← asLocalPath u
    match w (cname p) with
    | some i => .ok (decide (i.kind = .dir))
    | none => .ok false

/-- `is_regular` (file.cpp:56-73). -/
def isRegularFile (w : Stat) (u : Url) : Res Bool :=
  if !isLocalAndSingle u then .ok false
  else do
    let p ← asLocalPath u
    match w (cname p) with
    | some i => .ok (decide (i.kind = .file))
    | none => .ok false

/-- `is_symbolic_link` (file.cpp:75-87). -/
def isSymbolicLink (w : Stat) (u : Url) : Res Bool :=
  if !isLocalAndSingle u then .ok false
  else do
    let p ← asLocalPath u
    match w (cname p) with
    | some i => .ok (decide (i.flags &&& 1 ≠ 0))
    | none => .ok false

/-- `is_newer` (file.cpp:89-102). -/
def isNewer (w : Stat) (which than : Url) : Res Bool :=
  if !isLocalAndSingle which then .ok false
  else if !isLocalAndSingle than then .ok false
  else do
    let p ← asLocalPath which
    let q ← asLocalPath than
    match w (cname p), w (cname q) with
    | some i, some j => .ok (decide (i.mtime > j.mtime))
    | _, _ => .ok false

/-- `is_ramdisc` (url.cpp:723-726). -/
def isRamdisc : Url → Bool
  | .concat a _ => isRootS a (b!"ramdisc")
  | _ => false

/-- The modes of `tb_file_access`. -/
inductive Mode where
  | ro
  | wo
  | exec
  deriving DecidableEq

/-- The `switch` of `is_of_type` (file.cpp:128-150): whether the loop goes on. -/
def passes (access : Bytes → Mode → Bool) (path : Bytes) (i : Info) (c : UInt8) : Bool :=
  if c = c! 'f' then decide (i.kind = .file)
  else if c = c! 'd' then decide (i.kind = .dir)
  else if c = c! 'l' then decide (i.flags = 1)
  else if c = c! 'r' then access path .ro
  else if c = c! 'w' then access path .wo
  else if c = c! 'x' then access path .exec
  else true

/-- The loop of `is_of_type` (file.cpp:127-151). -/
def typeLoop (access : Bytes → Mode → Bool) (path : Bytes) (i : Info) : Bytes → Bool
  | [] => true
  | c :: l => if passes access path i c then typeLoop access path i l else false

/-- `is_of_type` on Unix (file.cpp:104-152). -/
def isOfType (w : Stat) (access : Bytes → Mode → Bool) (u : Url) (filter : Bytes) : Res Bool :=
  if isRamdisc u then .ok true
  else if !isLocalAndSingle u then .ok false
  else if filter = [] then .ok true
  else do
    let p ← asLocalPath u
    match w (cname p) with
    | none => .ok false
    | some i => .ok (typeLoop access (cname p) i filter)

/-- Conversion of a 64 bit number to `int` (file.cpp:161, 175): the low 32 bits, as a signed number. -/
def toInt32 (n : Int) : Int := (BitVec.ofInt 32 n).toInt

/-- `file_size` (file.cpp:154-166). -/
def fileSize (w : Stat) (u : Url) : Res Int :=
  if !isLocalAndSingle u then .ok (-1)
  else do
    let p ← asLocalPath u
    match w (cname p) with
    | some i => .ok (toInt32 i.size)
    | none => .ok (-1)

/-- `last_modified` (file.cpp:168-180). -/
def lastModified (w : Stat) (u : Url) : Res Int :=
  if !isLocalAndSingle u then .ok (-1)
  else do
    let p ← asLocalPath u
    match w (cname p) with
    | some i => .ok (toInt32 i.mtime)
    | none => .ok (-1)

/-! ## Directories -/

/-- `mkdir`, `rmdir`, `remove` (file.cpp:225-237, 248-260, 325-337): all three do the same with different calls of the
system, `tb_directory_create`, `tb_directory_remove`, `tb_file_remove`. -/
def onEach {S : Type} (act : S → Bytes → S) (s : S) : Url → Res S
  | .none => .ok s
  | .root _ => .ok s
  | .root3 _ _ => .ok s
  | .wild0 => .ok s
  | .wild1 _ => .ok s
  | .or a b => do
    let s ← onEach act s a
    onEach act s b
  | .atom l =>
    if isLocalAndSingle (.atom l) then do
      let p ← asLocalPath (.atom l)
      .ok (act s (cname p))
    else .ok s
  | .concat a b =>
    if isLocalAndSingle (.concat a b) then do
      let p ← asLocalPath (.concat a b)
      .ok (act s (cname p))
    else .ok s

/-- `make_dir` (file.cpp:239-246); `create` is `tb_directory_create`. The recursion need not end. -/
def makeDir (create : Stat → Bytes → Stat) : Nat → Stat → Url → Res Stat
  | 0, _, _ => .hang
  | f + 1, w, u =>
    if isNone u then .ok w
    else do
      let b ← isDirectory w u
      if b then .ok w
      else do
        let h ← head u
        let w ← makeDir create f w h
        onEach create w u

/-- The names that `tb_directory_walk_func` collects (file.cpp:182-191), from the paths that it is given. -/
def entryNames (sys : Bytes → Res Url) : List Bytes → Res (List Bytes)
  | [] => .ok []
  | p :: l => do
    let u ← sys p
    let r ← entryNames sys l
    .ok (asString (tail u) :: r)

/-- `read_directory` (file.cpp:193-208), with `error_flag`; `ls` are the paths that `tb_directory_walk` visits and `sys`
is `url_system`. -/
def readDirectory (w : Stat) (ls : Bytes → List Bytes) (sys : Bytes → Res Url) (u : Url) : Res (List Bytes × Bool) :=
  if !isLocalAndSingle u then .ok ([], false)
  else do
    let p ← asLocalPath u
    let d ← isDirectory w u
    if !d then .ok ([], true)
    else do
      let l ← entryNames sys (ls (cname p))
      .ok (l, false)

/-- The loop of `subdirectories` (file.cpp:217-219) with `sub` for the recursive call. -/
def subLoop (w : Stat) (sys : Bytes → Res Url) (sub : Url → Res Url) (u : Url) : List Bytes → Url → Res Url
  | [], ret => .ok ret
  | n :: l, ret => do
    let hidden ← An.starts n (b!".")
    if hidden then subLoop w sys sub u l ret
    else do
      let v ← sys n
      let x ← mul u v
      let d ← isDirectory w x
      if d then do
        let r ← sub x
        subLoop w sys sub u l (alt ret r)
      else subLoop w sys sub u l ret

/-- `subdirectories` (file.cpp:210-223). A loop of links would not end. -/
def subdirectories (w : Stat) (ls : Bytes → List Bytes) (sys : Bytes → Res Url) : Nat → Url → Res Url
  | 0, _ => .hang
  | f + 1, .or a b => do
    let x ← subdirectories w ls sys f a
    let y ← subdirectories w ls sys f b
    .ok (alt x y)
  | f + 1, u => do
    let d ← isDirectory w u
    if d then do
      let r ← readDirectory w ls sys u
      subLoop w sys (subdirectories w ls sys f) u r.1 u
    else .ok .none

/-- `url_temp` (file.cpp:273-286); `uuids` are the results of the calls of `uuid_make`, `dir` is `url_temp_dir ()`. -/
def urlTemp (w : Stat) (sys : Bytes → Res Url) (dir : Url) (suffix : Bytes) : List Bytes → Res Url
  | [] => .hang
  | id :: ids => do
    let name ← An.replace (id.length + 1) id (b!"-") (b!"_")
    let v ← sys (if suffix = [] then name else name ++ b!"." ++ suffix)
    let u ← mul dir v
    let n ← fileSize w u
    if n = -1 then .ok u else urlTemp w sys dir suffix ids

end Lolly.Dirs
