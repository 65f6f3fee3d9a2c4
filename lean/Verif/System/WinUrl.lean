import Verif.System.Url

set_option autoImplicit false

/-!
# Urls on Windows (System/Classes/url.cpp with `OS_WIN`, and so `WINPATHS`)

What differs from `Verif.System.Url`: names are separated by `\` or `/`, lists by `;`, the letter of a drive is the first
component below the root `default`, and a drive or a computer has no parent.
-/

namespace Lolly.WinUrl

open Url

/-- `is_semi_root` (url.cpp:358-362) with `is_special_root` of Windows (url.cpp:351-352). -/
def isSemiRoot : Url → Bool
  | .concat a b => isRoot a && isAtomic b
  | _ => false

/-- `u1 * u2` (url.cpp:595-631), as `Url.mul`, with `isSemiRoot` of Windows. -/
def mul (u1 u2 : Url) : Res Url :=
  if topRoot u2 then
    if isRootS u1 (b!"file") then
      match u2 with
      | .concat _ y => mul u1 y
      | .root3 _ c => mul u1 (.atom c)
      | _ => .ub
    else
      match u1 with
      | .concat a b =>
        if isRootWeb a && topRootS u2 (b!"default") then
          match u2 with
          | .concat _ y => mul (mulWebRoot a (leftmost b)) y
          | _ => .ok (mulWebRoot a (leftmost b))
        else if isRootWeb a && topRootS u2 (b!"blank") then
          match u2 with
          | .concat _ y => mul (.root (rootName a)) y
          | _ => .ok (.root (rootName a))
        else .ok u2
      | _ => .ok u2
  else if isAtom u1 (b!".") || isAtom u1 [] then .ok u2
  else if isAtom u2 (b!".") then .ok u1
  else if isNone u1 || isNone u2 then .ok .none
  else if isAtom u2 (b!"..") && isRoot u1 then .ok u1
  else if isAtom u2 (b!"..") && isPseudoAtomic u1 && !isAtom u1 (b!"..") then .ok here
  else if isAtom u2 (b!"..") && isSemiRoot u1 then .ok u1
  else if parentFirst u2 && isRoot u1 then mul u1 (second u2)
  else if parentFirst u2 && isPseudoAtomic u1 && !isAtom u1 (b!"..") then .ok (second u2)
  else if parentFirst u2 && isSemiRoot u1 then mul u1 (second u2)
  else
    match u1 with
    | .concat a b => do
      let r ← mul b u2
      mul a r
    | _ => .ok (.concat u1 u2)
termination_by (u1.size, u2.size)
decreasing_by
  all_goals simp only [Prod.lex_def, Url.size, true_and]
  all_goals first
    | omega
    | (have h1 := mulWebRoot_size a (leftmost b)
       have h2 := leftmost_size b
       omega)
    | (have h1 := second_size u2 (by simp_all)
       omega)

/-- `head (u)` (url.cpp:364-367). -/
def head (u : Url) : Res Url := mul u parent

/-- `unblank (u)` (url.cpp:441-447). -/
def unblank : Url → Res Url
  | .concat a b =>
    if isAtom b [] then .ok a
    else do
      let x ← unblank b
      mul a x
  | .or a b => do
    let x ← unblank a
    let y ← unblank b
    .ok (alt x y)
  | u => .ok u

/-- The place of the next separator (url.cpp:196-199): `/`, and with `sys` also `\`. -/
def nextSep (sys : Bool) (s : Bytes) (i : Nat) : Nat :=
  if h : i < s.length then
    if s[i] = c! '/' || sys && s[i] = c! '\\' then i
    else if s[i] = c! '[' then nextSep sys s (skipIpv6 s i)
    else nextSep sys s (i + 1)
  else i
termination_by s.length - i
decreasing_by
  · have := lt_skipIpv6 s i; omega
  · omega

/-- The components that `url_get_name` finds from `i` on (url.cpp:194-210), in order. -/
def components (sys : Bool) (s : Bytes) (i : Nat) : List Bytes :=
  if i < s.length then
    let j := nextSep sys s i
    if i < j then An.sub s i j :: components sys s j
    else if i + 1 = s.length then [[]]
    else components sys s (i + 1)
  else []
termination_by s.length - i

/-- One step of the second loop of `url_get_name` (url.cpp:217-226). -/
def addFront (u ret : Url) : Res Url :=
  if isAtom u (b!".") || isAtom u [] then .ok ret
  else if isAtomic u then .ok (.concat u ret)
  else mul u ret

/-- The second loop of `url_get_name` (url.cpp:212-228). -/
def assemble : List Url → Res Url
  | [] => .ok (.atom [])
  | [u] => .ok u
  | u :: us => do
    let ret ← assemble us
    addFront u ret

/-- `url_get_atom (s, type)` (url.cpp:171-187), with `sys` if the type is `URL_SYSTEM` (otherwise it is `URL_STANDARD`):
the colon after the letter of a drive is removed. `gen` is `url_system`. -/
def getAtom (env : Env) (gen : Bytes → Res Url) (sys : Bool) (s : Bytes) : Res Url := do
  if sys = true ∧ s = (b!"~") then gen (env (b!"HOME"))
  else
    let dollar ← An.starts s (b!"$")
    if sys = true ∧ dollar = true then
      let val := env (An.sub s 1 s.length)
      if val = [] then .ok .none
      else do
        let u ← gen val
        unblank u
    else do
      let star ← An.containsC s (c! '*')
      if star then .ok (.wild1 s)
      else
        .ok (.atom (if s.length = 2 ∧ An.ends s (b!":") = true then s.take 1 else s))

/-- The atoms of the components. -/
def getAtoms (env : Env) (gen : Bytes → Res Url) (sys : Bool) : List Bytes → Res (List Url)
  | [] => .ok []
  | s :: l => do
    let u ← if s = [] then .ok (.atom []) else getAtom env gen sys s
    let us ← getAtoms env gen sys l
    .ok (u :: us)

/-- `url_get_name (s, type)` (url.cpp:189-229). -/
def getName (env : Env) (gen : Bytes → Res Url) (sys : Bool) (s : Bytes) : Res Url := do
  let us ← getAtoms env gen sys (components sys s 0)
  assemble us

/-- `url_get_path (s, URL_SYSTEM, i)` (url.cpp:231-244). -/
def getPath (gen : Bytes → Res Url) (s : Bytes) (i : Nat) : Res Url :=
  if i < s.length then do
    let j := Url.nextSep (c! ';') s i
    let u ← gen (An.sub s i j)
    if s.length ≤ j then .ok u
    else if i = j then getPath gen s (j + 1)
    else do
      let r ← getPath gen s (j + 1)
      .ok (alt u r)
  else .ok .none
termination_by s.length - i
decreasing_by
  all_goals
    have := le_nextSep (c! ';') s i
    omega

/-- `file_url` and the like (file_url.cpp:14-15, ...): the name below a root. -/
def rooted (env : Env) (gen : Bytes → Res Url) (p name : Bytes) (sys : Bool) : Res Url := do
  let u ← getName env gen sys name
  mul (.root p) u

/-- `isalpha` of the C library: undefined for negative characters. -/
def isalpha (c : UInt8) : Res Bool := if c < 128 then .ok (An.isAlpha c) else .ub

/-- `heuristic_is_default (name, URL_SYSTEM)` (url.cpp:134-141). -/
def isDefault (name : Bytes) : Res Bool :=
  match name with
  | a :: b :: r =>
    if a = c! '\\' ∧ b = c! '\\' then .ok true
    else do
      let al ← isalpha a
      .ok (al && b == c! ':' && (r.isEmpty || r.head? == some (c! '\\') || r.head? == some (c! '/')))
  | _ => .ok false

/-- `if (is_concat (u) && (u[2]->t == "")) u= u[1];` (url.cpp:263). -/
def dropEmpty : Url → Url
  | .concat a b => if isAtom b [] then a else .concat a b
  | u => u

/-- `url_default (name, URL_SYSTEM)` (url.cpp:258-265). -/
def urlDefault (env : Env) (gen : Bytes → Res Url) (name : Bytes) : Res Url := do
  let u ← getName env gen true name
  mul (.root (b!"default")) (dropEmpty u)

/-- The branch of `url_general` for names with `://` (url.cpp:274-285). -/
def withProtocol (env : Env) (gen : Bytes → Res Url) (name : Bytes) : Res (Option Url) := do
  let tokens ← An.tokenize (name.length + 1) name (b!"://")
  match tokens with
  | protocol :: path :: rest => do
    let an ← An.allBytes (fun c => An.isAlpha c || An.isDigit c) protocol
    if rest = [] ∧ protocol ≠ [] ∧ an = true ∧ 2 ≤ protocol.length then do
      let sys := !(decide (protocol = (b!"http") ∨ protocol = (b!"https") ∨ protocol = (b!"ftp")))
      let u ← rooted env gen protocol path sys
      .ok (some u)
    else .ok none
  | _ => .ub

/-- The rest of `url_general` (url.cpp:286-303) for `URL_SYSTEM`. -/
def withoutProtocol (env : Env) (gen : Bytes → Res Url) (name : Bytes) : Res Url := do
  let loc ← An.starts name (b!"local:")
  if loc then rooted env gen (b!"file") (An.sub name 6 name.length) true
  else
    let bl ← An.starts name (b!"//")
    if bl then rooted env gen (b!"blank") (An.sub name 2 name.length) false
    else if Url.nextSep (c! ';') name 0 < name.length then getPath gen name 0
    else
      let d ← isDefault name
      if d then urlDefault env gen name
      else
        let www ← An.starts name (b!"www.")
        if www then rooted env gen (b!"http") name false
        else
          let ftp ← An.starts name (b!"ftp.")
          if ftp then rooted env gen (b!"ftp") name false
          else getName env gen true name

/-- `url_system (name)` (url.cpp:305-308, 272-303), with fuel for values of variables and entries of lists. -/
def system (env : Env) : Nat → Bytes → Res Url
  | 0, _ => .hang
  | f + 1, name => do
    let prot ← An.occurs (b!"://") name
    let r ← if prot then withProtocol env (system env f) name else .ok none
    match r with
    | some u => .ok u
    | none => withoutProtocol env (system env f) name

/-- The name of a drive or a computer and what comes below it, as in the branch for Windows of `as_string`
(url.cpp:747-771). -/
def place (file sysSep : Bool) (s1 root remain : Bytes) : Bytes :=
  if file then
    if root.length = 1 then s1 ++ b!"/" ++ root ++ b!":" ++ (if sysSep then b!"\\" else b!"/") ++ remain
    else s1 ++ root ++ b!"/" ++ remain
  else
    if root.length = 1 then root ++ b!":" ++ (if sysSep then b!"\\" else b!"/") ++ remain
    else b!"\\\\" ++ root ++ b!"\\" ++ remain

/-- `as_string (u, type)` on Windows (url.cpp:728-803), with `sys` if the type is `URL_SYSTEM`. -/
def asString (sys : Bool) : Url → Bytes
  | .none => b!"{}"
  | .atom l => l
  | .concat a b =>
    let isDef := isRootS a (b!"default")
    let isFile := isRootS a (b!"file")
    let stype := if isRoot a && !(isDef || isFile) then false else sys
    let s1 := asString sys a
    let s2 := asString stype b
    let s1 := braceLeft a (if isDef then [] else s1)
    let s2 := braceRight b s2
    if (isDef && sys) || isFile then
      match b with
      | .concat c d => place isFile stype s1 (asString sys c) (asString sys d)
      | _ => place isFile stype s1 s2 []
    else s1 ++ (if stype then b!"\\" else b!"/") ++ s2
  | .or a b =>
    let s1 := asString sys a
    let s2 := asString sys b
    let s1 := if !isNameInPath a then (b!"{") ++ s1 ++ (b!"}") else s1
    let s2 := if !isOr b && !isNameInPath b then (b!"{") ++ s2 ++ (b!"}") else s2
    s1 ++ (if sys then b!";" else b!":") ++ s2
  | .root p =>
    if p = (b!"default") then (if sys then [] else b!"/")
    else if p = (b!"blank") then (b!"/")
    else if p = (b!"file") then p ++ (b!"://")
    else p ++ (b!":/")
  | .root3 p _ =>
    if p = (b!"default") then (if sys then [] else b!"/")
    else if p = (b!"blank") then (b!"/")
    else if p = (b!"file") then p ++ (b!"://")
    else p ++ (b!":/")
  | .wild0 => b!"**"
  | .wild1 s => s

end Lolly.WinUrl
