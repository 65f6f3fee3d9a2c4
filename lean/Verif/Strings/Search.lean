import Verif.Loop
import Verif.Bytes

/-!
# Model of searching, replacing and splitting in Kernel/Types/analyze.cpp

Strings are byte lists; `r << x` is list append and `s (b, e)` is `sub` (both justified by the model of
the string buffers, properties C14). `s[i]` is `rd s i`, undefined outside of the string.
A `const char*` argument is the list of bytes before its NUL.
-/

set_option autoImplicit false

namespace Lolly.An

/-- `s (b, e)`: `string::operator()` (string.cpp:117-128), see `C14_sub`. -/
def sub (s : Bytes) (b e : Int) : Bytes := (s.take e.toNat).drop b.toNat

/-- `test` (analyze.cpp:541-551 and 553-563). -/
def test (s : Bytes) : Nat → Bytes → Res Bool
  | _, [] => .ok true
  | i, c :: t =>
    if i ≥ s.length then .ok false
    else do
      let d ← rd s i
      if d ≠ c then .ok false else test s (i + 1) t

/-- `starts` (analyze.cpp:565-573). -/
def starts (s what : Bytes) : Res Bool := test s 0 what

/-- `ends` (analyze.cpp:575-586). -/
def ends (s r : Bytes) : Bool :=
  if r.length > s.length then false else sub s (s.length - r.length) s.length == r

/-- `remove_prefix` (analyze.cpp:167-172). -/
def removePrefix (s p : Bytes) : Res Bytes :=
  if s.length = 0 ∨ p.length = 0 then .ok s
  else do
    let b ← starts s p
    .ok (if b then sub s p.length s.length else s)

/-- `remove_suffix` (analyze.cpp:174-179). -/
def removeSuffix (s p : Bytes) : Bytes :=
  if s.length = 0 ∨ p.length = 0 then s
  else if ends s p then sub s 0 (s.length - p.length) else s

/-- `index_of` (analyze.cpp:799-808). -/
def indexOf (s : Bytes) (c : UInt8) : Res Int := do
  let r ← forRet 0 s.length fun i => do
    let d ← rd s i
    .ok (if d = c then some (i : Int) else none)
  .ok (r.getD (-1))

/-- `contains (string, char)` (analyze.cpp:849-858). -/
def containsC (s : Bytes) (c : UInt8) : Res Bool := do
  let r ← forRet 0 s.length fun i => do
    let d ← rd s i
    .ok (if d = c then some true else none)
  .ok (r.getD false)

/-- `in[pos] == c && test (in, pos, s)` (analyze.cpp:815, 828); `get` reads `in`. -/
def testHead (get : Nat → Res UInt8) (inn : Bytes) (pos : Nat) (c : UInt8) (s : Bytes) : Res Bool := do
  let d ← get pos
  if d = c then test inn pos s else .ok false

/-- One round of `search_forwards (array)` (analyze.cpp:814-816): does some pattern match at `pos`?
`get` reads `in`. -/
def anyAt (get : Nat → Res UInt8) (inn : Bytes) (pos : Nat) : List Bytes → Res Bool
  | [] => .ok false
  | p :: ps =>
    match p with
    | [] => anyAt get inn pos ps
    | c :: _ => do
      let t ← testHead get inn pos c p
      if t then .ok true else anyAt get inn pos ps

/-- `search_forwards (array<string>, int, string)` (analyze.cpp:810-820). -/
def forwardsAny (get : Nat → Res UInt8) (a : List Bytes) (pos : Nat) (inn : Bytes) : Res Int :=
  if pos ≤ inn.length then do
    let t ← anyAt get inn pos a
    if t then .ok pos else forwardsAny get a (pos + 1) inn
  else .ok (-1)
termination_by inn.length + 1 - pos

/-- The loop of `search_forwards (string, int, string)` (analyze.cpp:827-830). -/
def forwardsLoop (s : Bytes) (c : UInt8) (inn : Bytes) (pos : Nat) : Res Int :=
  if pos + s.length ≤ inn.length then do
    let t ← testHead (rd inn) inn pos c s
    if t then .ok pos else forwardsLoop s c inn (pos + 1)
  else .ok (-1)
termination_by inn.length + 1 - pos

/-- `search_forwards (string, int, string)` (analyze.cpp:822-832). A negative position is read in the
first iteration, if there is one. -/
def forwards (s : Bytes) (pos : Int) (inn : Bytes) : Res Int :=
  if s.length = 0 then .ok pos
  else do
    let c ← rd s 0
    if pos < 0 then
      if pos + s.length ≤ inn.length then .ub else .ok (-1)
    else forwardsLoop s c inn pos.toNat

/-- `occurs` (analyze.cpp:839-842), `contains (string, string)` (analyze.cpp:844-847). -/
def occurs (what inn : Bytes) : Res Bool := do
  let p ← forwards what 0 inn
  .ok (decide (p ≥ 0))

/-- `search_backwards (string, int, string)` (analyze.cpp:860-867), counting `pos + 1` down. -/
def backwardsLoop (s inn : Bytes) : Nat → Res Int
  | 0 => .ok (-1)
  | k + 1 => do
    let t ← test inn k s
    if t then .ok k else backwardsLoop s inn k

def backwards (s : Bytes) (pos : Int) (inn : Bytes) : Res Int := backwardsLoop s inn (pos + 1).toNat

/-- `search_backwards (string, string)` (analyze.cpp:869-872). -/
def backwardsEnd (s inn : Bytes) : Res Int := backwards s (inn.length - s.length) inn

/-- `count_occurrences` (analyze.cpp:874-885), with fuel. -/
def countLoop (s inn : Bytes) : Nat → Int → Nat → Res Nat
  | 0, _, _ => .hang
  | f + 1, i, count =>
    if i < inn.length then do
      let next ← forwards s i inn
      if next = -1 then .ok count else countLoop s inn f (next + 1) (count + 1)
    else .ok count

def countOccurrences (fuel : Nat) (s inn : Bytes) : Res Nat := countLoop s inn fuel 0 0

/-- `overlapping` (analyze.cpp:887-896). -/
def overlapLoop (s1 s2 : Bytes) : Nat → Nat
  | 0 => 0
  | i + 1 =>
    if sub s1 (s1.length - (i + 1 : Nat)) s1.length == sub s2 0 (i + 1 : Nat) then i + 1
    else overlapLoop s1 s2 i

def overlapping (s1 s2 : Bytes) : Nat := overlapLoop s1 s2 (min s1.length s2.length)

/-- `replace` (analyze.cpp:898-912), with fuel. -/
def replaceLoop (s what by_ : Bytes) : Nat → Nat → Bytes → Res Bytes
  | 0, _, _ => .hang
  | f + 1, i, r =>
    if i < s.length then do
      let t ← test s i what
      if t then replaceLoop s what by_ f (i + what.length) (r ++ by_)
      else do
        let c ← rd s i
        replaceLoop s what by_ f (i + 1) (r ++ [c])
    else .ok r

def replace (fuel : Nat) (s what by_ : Bytes) : Res Bytes := replaceLoop s what by_ fuel 0 []

/-- `while ((wpos < N (w)) && (w[wpos] == '*')) wpos++;` (analyze.cpp:921-922). -/
def skipStars (w : Bytes) (wpos : Nat) : Res Nat :=
  if wpos < w.length then do
    let c ← rd w wpos
    if c = c! '*' then skipStars w (wpos + 1) else .ok wpos
  else .ok wpos
termination_by w.length - wpos

/-- `while (spos <= N (s)) { if (rec (spos)) return true; spos++; } return false;`
(analyze.cpp:923-927). -/
def starLoop (n : Nat) (rec : Nat → Res Bool) (spos : Nat) : Res Bool :=
  if spos ≤ n then do
    let b ← rec spos
    if b then .ok true else starLoop n rec (spos + 1)
  else .ok false
termination_by n + 1 - spos

/-- `match_wildcard` (analyze.cpp:914-927). The fuel bounds the depth of the recursion. -/
def matchWild (s w : Bytes) : Nat → Nat → Nat → Res Bool
  | 0, _, _ => .hang
  | f + 1, spos, wpos =>
    if wpos = w.length then .ok (decide (spos = s.length))
    else do
      let c ← rd w wpos
      if c ≠ c! '*' then
        if spos < s.length then do
          let d ← rd s spos
          if d = c then matchWild s w f (spos + 1) (wpos + 1) else .ok false
        else .ok false
      else do
        let wpos' ← skipStars w wpos
        starLoop s.length (fun spos => matchWild s w f spos wpos') spos

/-- `match_wildcard (string, string)` (analyze.cpp:929-932). -/
def matchWildcard (fuel : Nat) (s w : Bytes) : Res Bool := matchWild s w fuel 0 0

/-- `tokenize` (analyze.cpp:947-960), with fuel. -/
def tokenLoop (s sep : Bytes) : Nat → Nat → Nat → List Bytes → Res (List Bytes)
  | 0, _, _, _ => .hang
  | f + 1, i, start, a =>
    if i < s.length then do
      let t ← test s i sep
      if t then tokenLoop s sep f (i + sep.length) (i + sep.length) (a ++ [sub s start i])
      else tokenLoop s sep f (i + 1) start a
    else .ok (a ++ [sub s start s.length])

def tokenize (fuel : Nat) (s sep : Bytes) : Res (List Bytes) := tokenLoop s sep fuel 0 0 []

/-- `recompose` (analyze.cpp:962-970). -/
def recompose (a : List Bytes) (sep : Bytes) : Res Bytes :=
  forUp 0 a.length [] fun i r => do
    let x ← rd a i
    .ok ((if i ≠ 0 then r ++ sep else r) ++ x)

/-- `is_space` (analyze.hpp:62-65). -/
def isSpace (c : UInt8) : Bool := c == c! ' ' || c == 9 || c == 10 || c == 13

/-- `for (start= 0; start < N (s) && is_space (s[start]); start++);`, position `i` on. -/
def spaceEnd (s : Bytes) (i : Nat) : Res Nat :=
  if i < s.length then do
    let c ← rd s i
    if isSpace c then spaceEnd s (i + 1) else .ok i
  else .ok i
termination_by s.length - i

/-- `trim_spaces_left` (analyze.cpp:972-978). -/
def trimLeft (s : Bytes) : Res Bytes := do
  let start ← spaceEnd s 0
  .ok (sub s start s.length)

/-- `for (end= N (s) - 1; end >= 0 && is_space (s[end]); end--);`, giving `end + 1`. -/
def spaceStart (s : Bytes) : Nat → Res Nat
  | 0 => .ok 0
  | k + 1 => do
    let c ← rd s k
    if isSpace c then spaceStart s k else .ok (k + 1)

/-- `trim_spaces_right` (analyze.cpp:980-986). -/
def trimRight (s : Bytes) : Res Bytes := do
  let e ← spaceStart s s.length
  .ok (sub s 0 e)

/-- `trim_spaces` (analyze.cpp:988-991). -/
def trim (s : Bytes) : Res Bytes := do
  let r ← trimRight s
  trimLeft r

/-- `trim_spaces (array<string>)` (analyze.cpp:993-999). -/
def trimAll (a : List Bytes) : Res (List Bytes) :=
  forUp 0 a.length (List.replicate a.length []) fun i b => do
    let x ← rd a i
    let y ← trim x
    wr b i y

/-- `convert_tabs_to_spaces` (analyze.cpp:731-749). `tw = 0` divides by zero at a tab; a negative `tw`
would ask for a string of negative length, which is also taken as undefined. -/
def tabsToSpaces (s : Bytes) (tw : Int) : Res Bytes := do
  let (_, r) ← forUp 0 s.length ((0 : Nat), ([] : Bytes)) fun i (ts, r) => do
    let c ← rd s i
    if c = 9 then
      if tw ≤ 0 then .ub
      else .ok (i + 1, r ++ List.replicate (tw - ((i - ts : Nat) : Int).tmod tw).toNat (c! ' '))
    else if c = 10 then .ok (i + 1, r ++ [c])
    else .ok (ts, r ++ [c])
  .ok r

/-- `find_non_alpha` (analyze.cpp:934-945); `is_alpha` (analyze.hpp:24-27). -/
def isAlpha (c : UInt8) : Bool :=
  (decide (schar c ≥ 97) && decide (schar c ≤ 122)) || (decide (schar c ≥ 65) && decide (schar c ≤ 90))

def nonAlphaForward (s : Bytes) (pos : Nat) : Res Int :=
  if pos < s.length then do
    let c ← rd s pos
    if isAlpha c then nonAlphaForward s (pos + 1) else .ok pos
  else .ok (-1)
termination_by s.length - pos

def nonAlphaBackward (s : Bytes) : Nat → Res Int
  | 0 => .ok (-1)
  | k + 1 => do
    let c ← rd s k
    if isAlpha c then nonAlphaBackward s k else .ok k

end Lolly.An
