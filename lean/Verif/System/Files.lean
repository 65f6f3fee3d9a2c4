import Verif.System.Url

set_option autoImplicit false

/-!
# Loading, saving and appending files (System/Files/file.cpp)

The file system is a map from places to what is stored there; names of paths are resolved to places by a fixed map, so
that links, and different names of one file, are covered. All answers of the operating system (opening, locking, how much
was written, sizes, closing) are arguments. Other processes do not interfere. Strings are objects that variables refer
to, because `string` variables share their contents (Kernel/Types/string.hpp, C14).
-/

namespace Lolly.Files

open Lolly.Url

/-- What is stored at a place. `special`: a directory, a device, a pipe. -/
inductive Node where
  | absent
  | regular (c : Bytes)
  | special
  deriving DecidableEq

/-- A file system. `place` resolves the name of a path. -/
structure FS where
  place : Bytes → Nat
  node : Nat → Node

/-- Store `x` at the place `k`. -/
def FS.put (fs : FS) (k : Nat) (x : Node) : FS := { fs with node := fun i => if i = k then x else fs.node i }

/-- `is_local_and_single` (file.cpp:21-27). -/
def isLocalAndSingle (u : Url) : Bool :=
  (match u with
    | .atom _ => true
    | .concat _ _ => true
    | .root _ => true
    | .root3 _ _ => true
    | _ => false) &&
  (decide (protocol u = b!"default") || decide (protocol u = b!"file"))

/-- `as_local_path` (file.cpp:29-35). -/
def asLocalPath (u : Url) : Res Bytes :=
  if isRootedS (b!"file") u then do
    let v ← reroot (b!"default") u
    .ok (asString v)
  else .ok (asString u)

/-- The name that the system gets from a `string`: a C string ends at the first NUL (`as_charp`, `c_string`). -/
def cname (p : Bytes) : Bytes := p.takeWhile (· ≠ 0)

/-- The place of a url. -/
def placeOf (fs : FS) (u : Url) : Res Nat := do
  let p ← asLocalPath u
  .ok (fs.place (cname p))

/-- `is_regular` (file.cpp:56-73). -/
def isRegular (fs : FS) (u : Url) : Res Bool :=
  if !isLocalAndSingle u then .ok false
  else do
    let k ← placeOf fs u
    .ok (match fs.node k with
      | .regular _ => true
      | _ => false)

/-- The loop of `find_the_first_exist` (file.cpp:361-369). -/
def firstLoop (fs : FS) : Url → Res Url
  | .or a b => do
    if ← isRegular fs a then .ok a else firstLoop fs b
  | u => .ok u

/-- `find_the_first_exist` (file.cpp:357-370). `f` bounds the expansion of the url. -/
def findTheFirstExist (f : Nat) (fs : FS) (u : Url) : Res Url := do
  let v ← expand f u
  firstLoop fs v

/-- The answers of the system while a file is written: opening, locking, the number of characters that got to the file,
whether the call returned their number or -1, unlocking, closing. -/
structure Writing where
  opens : Bool
  locks : Bool
  wrote : Nat
  returns : Bool
  leaves : Bool
  exits : Bool

/-- What a call did: whether its status is failed, and the states of the file system that it went through, in order. -/
structure Done where
  failed : Bool
  states : List FS

/-- The last of some states. -/
def Done.final (d : Done) (fs : FS) : FS := d.states.getLast?.getD fs

/-- Write `s` at the end of what is at the place `k`: a state for every part that can have reached the file. Nothing is
stored in a special file. -/
def writing (fs : FS) (k : Nat) (s : Bytes) : List FS :=
  match fs.node k with
  | .regular c => (List.range (s.length + 1)).map fun n => fs.put k (.regular (c ++ s.take n))
  | _ => [fs]

/-- Lock, write, unlock, close (file.cpp:467-486 and 513-539). -/
def writeLocked (a : Writing) (fs : FS) (k : Nat) (s : Bytes) : Done :=
  if !a.locks then ⟨true, []⟩
  else
    let real := s.take a.wrote
    let sameSize := a.returns && decide (real.length = s.length)
    ⟨!(sameSize && a.exits && a.leaves), writing fs k real⟩

/-- `save_string_try` (file.cpp:446-487). Opening creates or truncates a file. -/
def saveStringTry (f : Nat) (a : Writing) (fs : FS) (u : Url) (s : Bytes) : Res Done :=
  if !isLocalAndSingle u then .ok ⟨true, []⟩
  else do
    let t ← findTheFirstExist f fs u
    let k ← placeOf fs t
    if !a.opens then .ok ⟨true, []⟩
    else
      let fs1 := if fs.node k = .special then fs else fs.put k (.regular [])
      let d := writeLocked a fs1 k s
      .ok ⟨d.failed, fs1 :: d.states⟩

/-- `append_string_try` (file.cpp:499-540). Opening creates a file if there is none. -/
def appendStringTry (f : Nat) (a : Writing) (fs : FS) (u : Url) (s : Bytes) : Res Done :=
  if !isLocalAndSingle u then .ok ⟨true, []⟩
  else do
    let t ← findTheFirstExist f fs u
    let k ← placeOf fs t
    if !a.opens then .ok ⟨true, []⟩
    else
      let fs1 := if fs.node k = .absent then fs.put k (.regular []) else fs
      let d := writeLocked a fs1 k s
      .ok ⟨d.failed, fs1 :: d.states⟩

/-- `cleanup_and_return_finally` (file.cpp:372-391) after a call that changed the state to `x`; the message is left out. -/
def finish {A : Type} (fatal failed : Bool) (x : A) : Res (A × Bool) :=
  if !failed then .ok (x, false)
  else if fatal then .thrown
  else .ok (x, true)

/-- `save_string` (file.cpp:489-493). -/
def saveString (f : Nat) (a : Writing) (fs : FS) (u : Url) (s : Bytes) (fatal : Bool) : Res (FS × Bool) := do
  let d ← saveStringTry f a fs u s
  finish fatal d.failed (d.final fs)

/-- `append_string` (file.cpp:542-546). -/
def appendString (f : Nat) (a : Writing) (fs : FS) (u : Url) (s : Bytes) (fatal : Bool) : Res (FS × Bool) := do
  let d ← appendStringTry f a fs u s
  finish fatal d.failed (d.final fs)

/-- The answers of the system while a file is read: access, opening, the size, how much is read (or -1), closing, and
the characters that a special file gives. -/
structure Reading where
  access : Bool
  opens : Bool
  size : Nat
  got : Option Nat
  exits : Bool
  device : Bytes

/-- The strings of the program: objects, and the object that a variable refers to. -/
structure Strs where
  objs : List Bytes
  var : Nat

/-- The contents of the string variable. -/
def Strs.value (x : Strs) : Res Bytes := rd x.objs x.var

/-- What can be read at a place; nothing that is absent can be opened for reading. -/
def readable (r : Reading) : Node → Option Bytes
  | .absent => none
  | .regular c => some c
  | .special => some r.device

/-- `load_string_try` (file.cpp:393-431). An empty file gives the variable a new string, any other file is copied into
the object that it refers to. Sizes from 2^31 on do not fit the `int` that `resize` and `[]` take, and `resize` does not
return for more than 2^30 characters (C172). -/
def loadStringTry (f : Nat) (r : Reading) (fs : FS) (u : Url) (x : Strs) : Res (Strs × Bool) :=
  if !isLocalAndSingle u then .ok (x, true)
  else do
    let t ← findTheFirstExist f fs u
    let k ← placeOf fs t
    if !r.access then .ok (x, true)
    else if !r.opens then .ok (x, true)
    else
      match readable r (fs.node k) with
      | none => .ok (x, true)
      | some c =>
        if r.size = 0 then .ok (⟨x.objs ++ [[]], x.objs.length⟩, false)
        else
          match r.got with
          | none => .ok (x, true)
          | some n =>
            let buffer := (c.take r.size).take n
            if decide (buffer.length = r.size) && r.exits then
              if r.size ≤ 2 ^ 30 then do
                let objs ← wr x.objs x.var buffer
                .ok (⟨objs, x.var⟩, false)
              else if r.size < 2 ^ 31 then .hang
              else .ub
            else .ok (x, true)

/-- `load_string` (file.cpp:433-437). -/
def loadString (f : Nat) (r : Reading) (fs : FS) (u : Url) (x : Strs) (fatal : Bool) : Res (Strs × Bool) := do
  let (y, failed) ← loadStringTry f r fs u x
  finish fatal failed y

/-- `string_load` (file.cpp:439-445). -/
def stringLoad (f : Nat) (r : Reading) (fs : FS) (u : Url) : Res Bytes := do
  let (x, _) ← loadString f r fs u ⟨[[]], 0⟩ false
  x.value

/-- `string_save` (file.cpp:495-498). -/
def stringSave (f : Nat) (a : Writing) (fs : FS) (s : Bytes) (u : Url) : Res FS := do
  let (fs, _) ← saveString f a fs u s false
  .ok fs

/-- `string_append_to_file` (file.cpp:548-551). -/
def stringAppendToFile (f : Nat) (a : Writing) (fs : FS) (s : Bytes) (u : Url) : Res FS := do
  let (fs, _) ← appendString f a fs u s false
  .ok fs

/-- `append_to` (file.cpp:553-558); the message is left out, the result tells whether it is printed. -/
def appendTo (f : Nat) (r : Reading) (a : Writing) (fs : FS) (what to : Url) : Res (FS × Bool) := do
  let (x, failed) ← loadString f r fs what ⟨[[]], 0⟩ false
  if failed then .ok (fs, true)
  else do
    let s ← x.value
    appendString f a fs to s false

end Lolly.Files
