import Verif.Data.Numeral
import Verif.System.Files
import Verif.Loop

/-!
# Digests of files (lolly/hash/md5.cpp, sha.cpp)

The answers of the system are those of Verif/System/Files.lean. `tb_md5_make` and `tb_sha_make` are arguments: the bytes
that they write to the buffer, whose number they return. The result tells what stays behind: files that are open and
blocks of memory that nothing refers to any more.
-/

set_option autoImplicit false

namespace Lolly.Digest

open Lolly.Url Lolly.Files Lolly.Numeral

/-- What a call leaves behind. -/
structure Left where
  files : Nat
  blocks : Nat
  deriving DecidableEq

/-- What the first half of a call finds. -/
inductive Got where
  /-- Not a local file, or it cannot be opened. -/
  | no (left : Left)
  /-- An empty file. -/
  | empty (left : Left)
  /-- Not everything could be read, or closing failed. -/
  | unread (left : Left)
  | data (c : Bytes) (left : Left)

/-- Open the file, read it and close it (md5.cpp:23-44, sha.cpp:25-38, 48-53). The name is that of `as_string`. The copy of
the name (`as_charp`) and the buffer are never deleted, an empty file is not closed. The size becomes an `int` in
`tm_new_array`. -/
def readAll (r : Reading) (fs : FS) (u : Url) : Res Got :=
  if !isLocalAndSingle u then .ok (.no ⟨0, 0⟩)
  else
    let k := fs.place (cname (asString u))
    if !r.access then .ok (.no ⟨0, 1⟩)
    else if !r.opens then .ok (.no ⟨0, 1⟩)
    else
      match readable r (fs.node k) with
      | none => .ok (.no ⟨0, 1⟩)
      | some c =>
        if r.size = 0 then .ok (.empty ⟨1, 1⟩)
        else if r.size < 2 ^ 31 then
          let files := if r.exits then 0 else 1
          match r.got with
          | none => .ok (.unread ⟨files, 2⟩)
          | some n =>
            let buffer := (c.take r.size).take n
            if decide (buffer.length = r.size) && r.exits then .ok (.data buffer ⟨files, 2⟩)
            else .ok (.unread ⟨files, 2⟩)
        else .ub

/-- The digits of the first `n` bytes of the buffer (md5.cpp:51-54, sha.cpp:74-77). -/
def hexLoop (o : Bytes) (n : Nat) : Res Bytes :=
  forUp 0 n [] fun i s => do
    let b ← rd o i
    let h ← toPaddedHex b
    .ok (s ++ h)

/-- `md5_hexdigest` (md5.cpp:21-60). -/
def md5Hexdigest (make : Bytes → Bytes) (r : Reading) (fs : FS) (u : Url) : Res (Bytes × Left) := do
  match ← readAll r fs u with
  | .no left => .ok ([], left)
  | .empty left => .ok (b!"d41d8cd98f00b204e9800998ecf8427e", left)
  | .unread left => .ok ([], left)
  | .data c left =>
    let o := make c
    if o.length ≠ 16 then .ok ([], left)
    else do
      let s ← hexLoop o 16
      .ok (s, left)

/-- `sha_hexdigest` (sha.cpp:23-83). `mode` is any `long`: the type of modes has a fixed underlying type. -/
def shaHexdigest (make : Int → Bytes → Bytes) (r : Reading) (fs : FS) (u : Url) (mode : Int) : Res (Bytes × Left) := do
  match ← readAll r fs u with
  | .no left => .ok ([], left)
  | .empty left =>
    if mode = 224 then .ok (b!"d14a028c2a3a2bc9476102bb288234c415a2b01f828ea62ac5b3e42f", left)
    else if mode = 256 then .ok (b!"e3b0c44298fc1c149afbf4c8996fb92427ae41e4649b934ca495991b7852b855", left)
    else .thrown
  | .unread left => .ok ([], left)
  | .data c left =>
    if mode = 224 then do
      let o := make mode c
      if o.length ≠ 28 then .ok ([], left)
      else do
        let s ← hexLoop o 28
        .ok (s, left)
    else if mode = 256 then do
      let o := make mode c
      if o.length ≠ 32 then .ok ([], left)
      else do
        let s ← hexLoop o 32
        .ok (s, left)
    else .thrown

/-- `sha224_hexdigest` (sha.cpp:85-88). -/
def sha224Hexdigest (make : Int → Bytes → Bytes) (r : Reading) (fs : FS) (u : Url) : Res (Bytes × Left) :=
  shaHexdigest make r fs u 224

/-- `sha256_hexdigest` (sha.cpp:90-93). -/
def sha256Hexdigest (make : Int → Bytes → Bytes) (r : Reading) (fs : FS) (u : Url) : Res (Bytes × Left) :=
  shaHexdigest make r fs u 256

end Lolly.Digest
