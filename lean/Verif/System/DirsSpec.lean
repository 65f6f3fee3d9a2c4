import Verif.System.Dirs
import Verif.System.UrlAltSpec

set_option autoImplicit false

/-!
# Names and texts of directories

A directory is given by the names that lead to it, from the top of the file system or from the current directory.
-/

namespace Lolly.Dirs

open Lolly.Url

/-- The name of an entry of a directory. -/
structure FileName (s : Bytes) : Prop where
  nonempty : s ≠ []
  not_here : s ≠ b!"."
  not_up : s ≠ b!".."
  no_slash : c! '/' ∉ s
  no_star : c! '*' ∉ s
  no_nul : (0 : UInt8) ∉ s

/-- Where paths start: in the current directory, at the top, or at the top with `file://` in front. -/
inductive Start where
  | cwd
  | top
  | file
  deriving DecidableEq

/-- The url of the path with the given names. -/
def dirUrl : Start → List Bytes → Url
  | .cwd, ns => P (ns.map .atom)
  | .top, ns => R (b!"default") (ns.map .atom)
  | .file, ns => R (b!"file") (ns.map .atom)

/-- The text of that path, as the system gets it. -/
def dirText : Start → List Bytes → Bytes
  | .cwd, ns => if ns = [] then b!"." else text ns
  | _, ns => b!"/" ++ text ns

/-- What there is at a path. -/
def kind (w : Stat) (p : Bytes) : Option Kind := (w p).map Info.kind

/-- What exists is in a directory. -/
def Consistent (st : Start) (w : Stat) : Prop := ∀ ns n, (∀ x ∈ ns ++ [n], FileName x) →
  kind w (dirText st (ns ++ [n])) ≠ none → kind w (dirText st ns) = some .dir

/-- What `tb_directory_create` does: it makes a directory if the name is free and the directory above exists; if there
is something already it changes nothing, nor does it if something that is no directory is in the way. (If directories
above are missing it may do anything.) -/
structure Creates (st : Start) (create : Stat → Bytes → Stat) : Prop where
  fresh : ∀ w ns n, Consistent st w → (∀ x ∈ ns ++ [n], FileName x) → kind w (dirText st ns) = some .dir →
    kind w (dirText st (ns ++ [n])) = none →
    ∀ q, kind (create w (dirText st (ns ++ [n]))) q = if q = dirText st (ns ++ [n]) then some .dir else kind w q
  taken : ∀ w p, kind w p ≠ none → ∀ q, kind (create w p) q = kind w q
  blocked : ∀ w ns ms k, Consistent st w → (∀ x ∈ ns ++ ms, FileName x) → kind w (dirText st ns) = some k → k ≠ .dir →
    ∀ q, kind (create w (dirText st (ns ++ ms))) q = kind w q

/-- What alternatives can be: a path of the file system, something on the web, a root, a wildcard. -/
inductive Item where
  | path (st : Start) (ns : List Bytes)
  | web (p : Bytes) (ns : List Bytes)
  | root (p : Bytes)
  | wild (s : Bytes)
  | anything
  deriving DecidableEq

/-- Names where names should be. -/
def Item.Ok : Item → Prop
  | .path _ ns => ns ≠ [] ∧ ∀ x ∈ ns, FileName x
  | .web p ns => p ≠ b!"default" ∧ p ≠ b!"file" ∧ ns ≠ [] ∧ ∀ x ∈ ns, FileName x
  | _ => True

/-- The url. -/
def Item.url : Item → Url
  | .path st ns => dirUrl st ns
  | .web p ns => R p (ns.map .atom)
  | .root p => .root p
  | .wild s => .wild1 s
  | .anything => .wild0

/-- The name that the system gets, if it is a path. -/
def Item.name : Item → Option Bytes
  | .path st ns => some (dirText st ns)
  | _ => none

/-- A name that stands for itself when it is read as a url. -/
structure Plain (s : Bytes) : Prop extends FileName s where
  no_colon : c! ':' ∉ s
  not_home : s ≠ b!"~"
  no_var : s.head? ≠ some (c! '$')
  not_www : ¬ (b!"www.") <+: s
  not_ftp : ¬ (b!"ftp.") <+: s

/-- Directories of the file system, given by the lists of their entries: `ls` lists a directory with full paths, which
start with the names `pre`; there is nothing deeper than `d`. -/
structure Listing (st : Start) (w : Stat) (ls : Bytes → List Bytes) (pre : List Bytes) (d : Nat)
    (entries : List Bytes → List Bytes) : Prop where
  pre_plain : ∀ x ∈ pre, Plain x
  plain : ∀ ns n, n ∈ entries ns → Plain n
  nodup : ∀ ns, (entries ns).Nodup
  listed : ∀ ns, (∀ x ∈ ns, Plain x) → kind w (dirText st ns) = some .dir →
    ls (dirText st ns) = (entries ns).map fun n => b!"/" ++ text (pre ++ ns ++ [n])
  deep : ∀ ns, (∀ x ∈ ns, Plain x) → kind w (dirText st ns) = some .dir → ns.length ≤ d

/-- A directory that one gets to from `ns` through directories whose names do not start with a dot. -/
inductive Reach (st : Start) (w : Stat) (entries : List Bytes → List Bytes) (ns : List Bytes) : List Bytes → Prop
  | self : kind w (dirText st ns) = some .dir → Reach st w entries ns ns
  | sub {ms : List Bytes} {n : Bytes} : Reach st w entries ns ms → n ∈ entries ms → n.head? ≠ some (c! '.') →
      kind w (dirText st (ms ++ [n])) = some .dir → Reach st w entries ns (ms ++ [n])

/-- Those directories, each before the ones in it, in the order of the listings. -/
def preorder (st : Start) (w : Stat) (entries : List Bytes → List Bytes) : Nat → List Bytes → List (List Bytes)
  | 0, ns => [ns]
  | d + 1, ns => ns :: (entries ns).flatMap fun n =>
    if n.head? ≠ some (c! '.') ∧ kind w (dirText st (ns ++ [n])) = some .dir then preorder st w entries d (ns ++ [n]) else []

end Lolly.Dirs
