import Verif.Kernel.Blackbox
import Verif.Containers.HashMap
import Verif.Strings.Chars
import Verif.System.Files

/-!
# Requests over http (lolly/io/http.cpp, http.hpp)

The library `cpr` is a function that gets a request and gives an answer. Values of type `double` belong to a type `D`
that is not examined. Trees are values: the handle that `http_response_init` returns is the only one, so that the changes
made by `http_response_set` to the shared node are the changes of its argument here.
-/

set_option autoImplicit false

namespace Lolly.Http

open Lolly.Url Lolly.Files Lolly.Blackbox Lolly.An

/-- The types that are put into boxes. -/
inductive Ty where
  | long
  | string
  | double
  | map
  deriving DecidableEq

/-- Their values. -/
def Val (D : Type) : Ty → Type
  | .long => Int
  | .string => Bytes
  | .double => D
  | .map => HashMap Bytes Bytes

/-- `http_tree` (http.hpp:22, lolly/data/lolly_tree.hpp:140-148) without atoms, which http never makes. -/
inductive HTree (D : Type) where
  | node (op : Int) (data : Box (Val D)) (kids : List (HTree D))

variable {D : Type}

def HTree.op : HTree D → Int
  | .node op _ _ => op

def HTree.data : HTree D → Box (Val D)
  | .node _ data _ => data

def HTree.kids : HTree D → List (HTree D)
  | .node _ _ kids => kids

/-- `http_label` (http.hpp:24-35). -/
def STATUS_CODE : Int := 1
def TEXT : Int := 2
def URL : Int := 3
def ELAPSED : Int := 4
def HEADER : Int := 5
def PARAMETERS : Int := 6
def PAYLOAD : Int := 7
def MULTIPART : Int := 8
def TUPLE : Int := 9
def ROOT : Int := 10

/-- `blackbox_tree` (http.cpp:27-33). -/
def blackboxTree (label : Int) (t : Ty) (v : Val D t) : HTree D := .node label (closeBox t v) []

/-- `http_response_init` (http.hpp:41-52). `zero` is 0.0; the fourth child has the label of the first one. -/
def responseInit (zero : D) : HTree D :=
  .node ROOT none [
    blackboxTree STATUS_CODE .long (404 : Int),
    blackboxTree TEXT .string ([] : Bytes),
    blackboxTree URL .string ([] : Bytes),
    blackboxTree STATUS_CODE .double zero,
    blackboxTree HEADER .map (HashMap.new ([] : Bytes) : HashMap Bytes Bytes)]

/-- `http_response_ref` (http.hpp:54-57) with the unchecked `[]` of arrays. -/
def responseRef (r : HTree D) (op : Int) : Res (HTree D) := rdI r.kids (op - 1)

/-- `http_response_set` (http.hpp:59-62). -/
def responseSet (r : HTree D) (op : Int) (t : HTree D) : Res (HTree D) :=
  if 0 ≤ op - 1 then do
    let kids ← wr r.kids (op - 1).toNat t
    .ok (.node r.op r.data kids)
  else .ub

/-- `cpr::Response`: what is used of an answer. `std::string`s can contain any characters. -/
structure Response (D : Type) where
  status : Int
  text : Bytes
  elapsed : D
  header : List (Bytes × Bytes)

/-- `string (s.c_str ())`. -/
def cstr (s : Bytes) : Bytes := s.takeWhile (· ≠ 0)

/-- The loop over the header of the answer (http.cpp:69-73). -/
def headerLoop (hash : Bytes → BitVec 32) : List (Bytes × Bytes) → HashMap Bytes Bytes → Res (HashMap Bytes Bytes)
  | [], h => .ok h
  | (k, v) :: l, h => do
    let key ← locaseAll (cstr k)
    let h ← h.set hash key (cstr v)
    headerLoop hash l h

/-- `response_to_tree` (http.cpp:54-78). -/
def responseToTree (hash : Bytes → BitVec 32) (zero : D) (r : Response D) (url : Bytes) : Res (HTree D) := do
  let ret := responseInit zero
  let ret ← responseSet ret STATUS_CODE (blackboxTree STATUS_CODE .long r.status)
  let ret ← responseSet ret TEXT (blackboxTree TEXT .string (cstr r.text))
  let ret ← responseSet ret URL (blackboxTree URL .string url)
  let ret ← responseSet ret ELAPSED (blackboxTree ELAPSED .double r.elapsed)
  let hmap ← headerLoop hash r.header (HashMap.new [])
  responseSet ret HEADER (blackboxTree HEADER .map hmap)

/-- `tolower` of the C locale, which the keys of `cpr::Header` are compared with. -/
def toLower (c : UInt8) : UInt8 := if 65 ≤ c ∧ c ≤ 90 then c + 32 else c

/-- `header[k] = v` for a `std::map` whose keys are compared without regard to case: the spelling that came first stays. -/
def cprSet (k v : Bytes) : List (Bytes × Bytes) → List (Bytes × Bytes)
  | [] => [(k, v)]
  | (k', v') :: l => if k'.map toLower = k.map toLower then (k', v) :: l else (k', v') :: cprSet k v l

/-- The loop of `as_cpr_header` (http.cpp:84-87) over the keys that the iterator gives. -/
def cprLoop (hash : Bytes → BitVec 32) (h : HashMap Bytes Bytes) : List Bytes → List (Bytes × Bytes) →
    Res (List (Bytes × Bytes))
  | [], r => .ok r
  | k :: l, r => do
    let v ← h.get hash k
    cprLoop hash h l (cprSet (cstr k) (cstr v) r)

/-- `as_cpr_header` (http.cpp:80-89); `fuel` bounds the rounds of the loop. -/
def asCprHeader (hash : Bytes → BitVec 32) (fuel : Nat) (h : HashMap Bytes Bytes) : Res (List (Bytes × Bytes)) := do
  let it ← Iter.new h.a
  let es ← it.drain fuel
  cprLoop hash h (es.map (·.key)) []

/-- What a session is told. -/
structure Request where
  url : Bytes
  header : List (Bytes × Bytes)
  agent : Bytes

/-- `HTTP_USER_AGENT` (http.cpp:25). -/
def userAgent : Bytes := b!"User-Agent"

/-- The request that `http_get`, `http_head` and `download` make (http.cpp:93-99, 106-112, 119-128). -/
def request (hash : Bytes → BitVec 32) (fuel : Nat) (u : Url) (headers : HashMap Bytes Bytes) : Res Request := do
  let header ← asCprHeader hash fuel headers
  let agent ← headers.get hash userAgent
  .ok ⟨cstr (asString u), header, cstr agent⟩

/-- `http_get` and `http_head` (http.cpp:91-115), which differ in the method of the session only. -/
def httpGet (hash : Bytes → BitVec 32) (fuel : Nat) (zero : D) (session : Request → Response D) (u : Url)
    (headers : HashMap Bytes Bytes) : Res (HTree D) := do
  let q ← request hash fuel u headers
  responseToTree hash zero (session q) (asString u)

/-- `download` (http.cpp:117-132). `opens`: whether the stream could be opened; opening makes a file or empties it.
`body`: the characters that arrive; they are written to the stream. The file system after the call, and the result. -/
def download (hash : Bytes → BitVec 32) (fuel : Nat) (zero : D) (session : Request → Response D) (opens : Bool)
    (body : Request → Bytes) (fs : FS) (source to : Url) (headers : HashMap Bytes Bytes) : Res (FS × HTree D) := do
  let q ← request hash fuel source headers
  let k := fs.place (cname (asString to))
  let fs1 :=
    if opens then
      match fs.node k with
      | .special => fs
      | _ => fs.put k (.regular (body q))
    else fs
  let r ← responseToTree hash zero (session q) (asString source)
  .ok (fs1, r)

/-- `copy` of a tree that is no atom (lolly/data/lolly_tree.hpp:387-398): the new node has no data. -/
def copy : HTree D → HTree D
  | .node op _ kids => .node op none (kids.attach.map fun ⟨k, _⟩ => copy k)

/-- `operator==` of trees that are no atoms (lolly_tree.hpp:245-251) and of their arrays of children. -/
def eqTree : HTree D → HTree D → Bool
  | .node o1 _ k1, .node o2 _ k2 =>
    decide (o1 = o2) && decide (k1.length = k2.length) && (k1.attach.zip k2).all fun ⟨⟨a, _⟩, b⟩ => eqTree a b

end Lolly.Http
