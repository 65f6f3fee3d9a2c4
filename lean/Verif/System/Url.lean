import Verif.Strings.Search
import Verif.Strings.Chars

set_option autoImplicit false

/-!
# Model of urls (System/Classes/url.hpp, url.cpp, file_url.cpp, blank_url.cpp, http_url.cpp, ...)

A url is a tree whose tuples carry one of the labels none, root, concat, or, wildcard. `u[i]` with a missing
component is undefined. Only the Unix variants are modelled: the separators are `/` and `:`, `os_win ()` and
`os_mingw ()` are false. The environment is a function from names to values.
Simplifications: urls are values (they are not changed in place), and a tree that none of the constructors
makes does not occur.
-/

namespace Lolly.Url

/-- The trees behind urls (url.hpp:107-118, url.cpp:22-41). `root3` is the ramdisc root with its contents
(url.cpp:340-343). -/
inductive Url where
  | atom (s : Bytes)
  | none
  | root (p : Bytes)
  | root3 (p c : Bytes)
  | concat (a b : Url)
  | or (a b : Url)
  | wild0
  | wild1 (s : Bytes)
  deriving DecidableEq

/-- Number of nodes. -/
def Url.size : Url → Nat
  | .concat a b => a.size + b.size + 1
  | .or a b => a.size + b.size + 1
  | .root3 _ _ => 2
  | _ => 1

/-- `url_here` (url.hpp:121-124). -/
def here : Url := .atom (b!".")
/-- `url_parent` (url.hpp:126-129). -/
def parent : Url := .atom (b!"..")
/-- `url_ancestor` (url.hpp:131-134). -/
def ancestor : Url := .atom (b!"...")

/-- `is_root (u)` (url.hpp:169-172). -/
def isRoot : Url → Bool
  | .root _ => true
  | .root3 _ _ => true
  | _ => false

/-- `is_root (u, s)` (url.cpp:667-670). -/
def isRootS (u : Url) (s : Bytes) : Bool :=
  match u with
  | .root p => decide (p = s)
  | .root3 p _ => decide (p = s)
  | _ => false

/-- `is_root_web` (url.cpp:671-675). -/
def isRootWeb (u : Url) : Bool :=
  isRootS u (b!"http") || isRootS u (b!"https") || isRootS u (b!"ftp") || isRootS u (b!"blank")

/-- `is_concat` (url.hpp:173-176). -/
def isConcat : Url → Bool
  | .concat _ _ => true
  | _ => false

/-- `is_or` (url.hpp:177-180). -/
def isOr : Url → Bool
  | .or _ _ => true
  | _ => false

/-- `is_none` (url.hpp:165-168). -/
def isNone : Url → Bool
  | .none => true
  | _ => false

/-- `is_atomic (url)` (url.cpp:663-666). -/
def isAtomic : Url → Bool
  | .atom _ => true
  | _ => false

/-- `is_here`, `is_parent`, `is_ancestor` (url.hpp:153-164), and `u->t == s`. -/
def isAtom (u : Url) (s : Bytes) : Bool := decide (u = .atom s)

/-- `is_pseudo_atomic` (url.cpp:680-683). -/
def isPseudoAtomic : Url → Bool
  | .atom _ => true
  | .wild1 _ => true
  | _ => false

/-- `is_special_root` (url.cpp:349-356). -/
def isSpecialRoot (u : Url) : Bool := isRootWeb u

/-- `is_semi_root` (url.cpp:358-362). -/
def isSemiRoot : Url → Bool
  | .concat a b => isSpecialRoot a && isAtomic b
  | _ => false

/-- `is_rooted (u)` (url.cpp:685-689). -/
def isRooted : Url → Bool
  | .concat a _ => isRooted a
  | .or a b => isRooted a && isRooted b
  | u => isRoot u

/-- `is_rooted (u, protocol)` (url.cpp:691-697). -/
def isRootedS (p : Bytes) : Url → Bool
  | .concat a _ => isRootedS p a
  | .or a b => isRootedS p a && isRootedS p b
  | u => isRootS u p

/-- `is_root (u) || (is_concat (u) && is_root (u[1]))` (url.cpp:597). -/
def topRoot : Url → Bool
  | .concat a _ => isRoot a
  | u => isRoot u

/-- `is_root (u, s) || (is_concat (u) && is_root (u[1], s))` (url.cpp:599-600, 607). -/
def topRootS (u : Url) (s : Bytes) : Bool :=
  match u with
  | .concat a _ => isRootS a s
  | u => isRootS u s

/-- `while (is_concat (v)) v= v[1]` (url.cpp:602-603). -/
def leftmost : Url → Url
  | .concat a _ => leftmost a
  | u => u

theorem leftmost_size : ∀ u : Url, (leftmost u).size ≤ u.size
  | .concat a b => by
    have := leftmost_size a
    rw [leftmost]; simp only [Url.size]; omega
  | .atom _ => by simp [leftmost]
  | .none => by simp [leftmost]
  | .root _ => by simp [leftmost]
  | .root3 _ _ => by simp [leftmost]
  | .or _ _ => by simp [leftmost]
  | .wild0 => by simp [leftmost]
  | .wild1 _ => by simp [leftmost]

/-- `r * v` for a web root `r` and a url `v` that is no concatenation: what url.cpp:596-631 comes to in this
case. It stands for the inner product of url.cpp:604-605, so that the recursion of `mul` is well-founded;
`mul_webRoot` proves that it is that product. -/
def mulWebRoot (r v : Url) : Url :=
  if isRoot v then v
  else if v = here then r
  else if v = .none then .none
  else if v = parent then r
  else .concat r v

theorem mulWebRoot_size (r v : Url) : (mulWebRoot r v).size ≤ r.size + v.size + 1 := by
  unfold mulWebRoot
  have h1 : (.none : Url).size = 1 := rfl
  split
  · omega
  · split
    · omega
    · split
      · have : 1 ≤ v.size := by cases v <;> simp [Url.size]
        omega
      · split
        · omega
        · exact Nat.le_refl _

/-- The first component of a root, `u[1]->t->label`. -/
def rootName : Url → Bytes
  | .root p => p
  | .root3 p _ => p
  | _ => []

/-- `is_concat (u) && (u[1] == url_parent ())` (url.cpp:624). -/
def parentFirst : Url → Bool
  | .concat a _ => isAtom a (b!"..")
  | _ => false

/-- `u[2]` of a concatenation. -/
def second : Url → Url
  | .concat _ b => b
  | u => u

theorem second_size (u : Url) (h : parentFirst u = true) : (second u).size < u.size := by
  cases u <;> simp_all [parentFirst, second, Url.size] <;> omega

/-- `u1 * u2` (url.cpp:595-631). `reroot (u2, p)` (url.cpp:608) with `u2` a root or a concatenation starting
with a root is written out. -/
def mul (u1 u2 : Url) : Res Url :=
  if topRoot u2 then
    if isRootS u1 (b!"file") then
      match u2 with
      | .concat _ y => mul u1 y
      | .root3 _ c => mul u1 (.atom c)
      | _ => .ub
    else
      match u1 with
      | .concat a b =>
        if isRootWeb a && topRootS u2 (b!"default") then
          match u2 with
          | .concat _ y => mul (mulWebRoot a (leftmost b)) y
          | _ => .ok (mulWebRoot a (leftmost b))
        else if isRootWeb a && topRootS u2 (b!"blank") then
          match u2 with
          | .concat _ y => mul (.root (rootName a)) y
          | _ => .ok (.root (rootName a))
        else .ok u2
      | _ => .ok u2
  else if isAtom u1 (b!".") || isAtom u1 [] then .ok u2
  else if isAtom u2 (b!".") then .ok u1
  else if isNone u1 || isNone u2 then .ok .none
  else if isAtom u2 (b!"..") && isRoot u1 then .ok u1
  else if isAtom u2 (b!"..") && isPseudoAtomic u1 && !isAtom u1 (b!"..") then .ok here
  else if isAtom u2 (b!"..") && isSemiRoot u1 then .ok u1
  else if parentFirst u2 && isRoot u1 then mul u1 (second u2)
  else if parentFirst u2 && isPseudoAtomic u1 && !isAtom u1 (b!"..") then .ok (second u2)
  else if parentFirst u2 && isSemiRoot u1 then mul u1 (second u2)
  else
    match u1 with
    | .concat a b => do
      let r ← mul b u2
      mul a r
    | _ => .ok (.concat u1 u2)
termination_by (u1.size, u2.size)
decreasing_by
  all_goals simp only [Prod.lex_def, Url.size, true_and]
  all_goals first
    | omega
    | (have h1 := mulWebRoot_size a (leftmost b)
       have h2 := leftmost_size b
       omega)
    | (have h1 := second_size u2 (by simp_all)
       omega)

/-- `u1 | u2` (url.cpp:648-656). -/
def alt (u1 u2 : Url) : Url :=
  if u1 = .none then u2
  else if u2 = .none then u1
  else
    match u1 with
    | .or a b => alt a (alt b u2)
    | _ =>
      if u1 = u2 then u2
      else
        match u2 with
        | .or c _ => if u1 = c then u2 else .or u1 u2
        | _ => .or u1 u2
termination_by u1.size
decreasing_by
  all_goals simp only [Url.size]
  all_goals omega

/-- `head (u)` (url.cpp:364-367). -/
def head (u : Url) : Res Url := mul u parent

/-- `tail (u)` (url.cpp:369-378). -/
def tail : Url → Url
  | .concat a b => if isRootWeb a && isAtomic b then here else tail b
  | .or a b => alt (tail a) (tail b)
  | .root _ => here
  | .root3 _ _ => here
  | u => u

/-- `reroot (u, protocol)` (url.cpp:489-495). -/
def reroot (p : Bytes) : Url → Res Url
  | .concat a b => do
    let x ← reroot p a
    mul x b
  | .or a b => do
    let x ← reroot p a
    let y ← reroot p b
    .ok (alt x y)
  | .root _ => .ok (.root p)
  | .root3 _ _ => .ok (.root p)
  | u => .ok u

/-- `unroot (u)` (url.cpp:481-487). -/
def unroot : Url → Res Url
  | .concat a b => do
    let x ← unroot a
    mul x b
  | .or a b => do
    let x ← unroot a
    let y ← unroot b
    .ok (alt x y)
  | .root _ => .ok here
  | .root3 _ _ => .ok here
  | u => .ok u

/-- `url::protocol` (url.cpp:65-88), `get_root` (url.cpp:476-479). -/
def protocol : Url → Bytes
  | .root p => p
  | .root3 p _ => p
  | .concat a _ => protocol a
  | .or a b => if protocol a = [] then [] else if protocol a = protocol b then protocol a else []
  | _ => (b!"default")

/-- `glue (u, s)` (url.cpp:420-428). -/
def glue (s : Bytes) : Url → Res Url
  | .atom l => .ok (.atom (l ++ s))
  | .concat a b => do
    let x ← glue s b
    mul a x
  | .or a b => do
    let x ← glue s a
    let y ← glue s b
    .ok (alt x y)
  | .none => .ok .none
  | _ => .thrown

/-- `unglue (u, nr)` (url.cpp:430-439). -/
def unglue (nr : Int) : Url → Res Url
  | .atom l => .ok (.atom (An.sub l 0 (max ((l.length : Int) - nr) 0)))
  | .concat a b => do
    let x ← unglue nr b
    mul a x
  | .or a b => do
    let x ← unglue nr a
    let y ← unglue nr b
    .ok (alt x y)
  | .none => .ok .none
  | _ => .thrown

/-- `unblank (u)` (url.cpp:441-447). -/
def unblank : Url → Res Url
  | .concat a b =>
    if isAtom b [] then .ok a
    else do
      let x ← unblank b
      mul a x
  | .or a b => do
    let x ← unblank a
    let y ← unblank b
    .ok (alt x y)
  | u => .ok u

/-- `relative (base, u)` (url.cpp:449-452). -/
def relative (base u : Url) : Res Url := do
  let h ← head base
  mul h u

/-- `delta_sub (base, u)` (url.cpp:454-466); the recursion need not end. -/
def deltaSub : Nat → Url → Url → Res Url
  | 0, _, _ => .hang
  | f + 1, base, u =>
    match base with
    | .atom _ => .ok u
    | .concat a b =>
      let up : Res Url :=
        if !isSemiRoot (.concat a b) then do
          let h ← head (.concat a b)
          let d ← deltaSub f h u
          mul parent d
        else .ok .none
      match u with
      | .concat c d =>
        if a = c then
          match b, d with
          | .concat b1 _, .concat d1 _ =>
            if isSpecialRoot a && decide (b1 ≠ d1) then .ok .none else deltaSub f b d
          | _, _ => deltaSub f b d
        else up
      | _ => up
    | _ => .ok .none

/-- `delta (base, u)` (url.cpp:468-474). -/
def delta (f : Nat) (base : Url) : Url → Res Url
  | .or a b => do
    let x ← delta f base a
    let y ← delta f base b
    .ok (alt x y)
  | u => do
    let r ← deltaSub f base u
    .ok (if isNone r then u else r)

/-- `is_name (u)` (url.cpp:705-710). -/
def isName : Url → Bool
  | .atom _ => true
  | .concat a b => isName a && isName b
  | _ => false

/-- `is_name_in_path (u)` (url.cpp:717-721). -/
def isNameInPath (u : Url) : Bool :=
  isName u ||
  match u with
  | .concat a b => isRootS a (b!"default") && isName b
  | _ => false

/-- `is_wildcard (u, 1)` (url.cpp:676-679). -/
def isWild1 : Url → Bool
  | .wild1 _ => true
  | _ => false

/-- The braces of url.cpp:743. -/
def braceLeft (u : Url) (s : Bytes) : Bytes := if !isName u && !isRoot u then (b!"{") ++ s ++ (b!"}") else s

/-- The braces of url.cpp:744-745. -/
def braceRight (u : Url) (s : Bytes) : Bytes :=
  if !isConcat u && !isAtomic u && !isWild1 u then (b!"{") ++ s ++ (b!"}") else s

/-- `as_string (u, type)` on Unix (url.cpp:728-803); there the type makes no difference. The concatenation of
a bad url (no constructor makes one) would be an error. -/
def asString : Url → Bytes
  | .none => (b!"{}")
  | .atom l => l
  | .concat a b =>
    let s1 := asString a
    let s2 := asString b
    let s1 := if isRootS a (b!"default") then [] else s1
    braceLeft a s1 ++ (b!"/") ++ braceRight b s2
  | .or a b =>
    let s1 := asString a
    let s2 := asString b
    let s1 := if !isNameInPath a then (b!"{") ++ s1 ++ (b!"}") else s1
    let s2 := if !isOr b && !isNameInPath b then (b!"{") ++ s2 ++ (b!"}") else s2
    s1 ++ (b!":") ++ s2
  | .root p =>
    if p = (b!"default") then (b!"/")
    else if p = (b!"blank") then (b!"/")
    else if p = (b!"file") then p ++ (b!"://")
    else p ++ (b!":/")
  | .root3 p _ =>
    if p = (b!"default") then (b!"/")
    else if p = (b!"blank") then (b!"/")
    else if p = (b!"file") then p ++ (b!"://")
    else p ++ (b!":/")
  | .wild0 => (b!"**")
  | .wild1 s => s

/-- The loop `for (i= n - 1; i >= 0; i--) if (s[i] == '.') break` (url.cpp:386-387) from `i = k - 1`; the
result is `i + 1`. -/
def lastDot (s : Bytes) : Nat → Res Nat
  | 0 => .ok 0
  | k + 1 => do
    let c ← rd s k
    if c = c! '.' then .ok (k + 1) else lastDot s k

/-- `while ((N (r) > 0) && (r[N (r) - 1] == '~' || ...)) r= r (0, N (r) - 1)` (url.cpp:390-391). -/
def stripMarks (r : Bytes) : Bytes :=
  if 0 < r.length ∧ (r.getLast? = some (c! '~') ∨ r.getLast? = some (c! '#')) then stripMarks r.dropLast else r
termination_by r.length
decreasing_by simp only [List.length_dropLast]; omega

/-- `if (found != -1) r= r (0, found)` (url.cpp:392-393, 408-409). -/
def cutAt (r : Bytes) (found : Int) : Bytes := if found ≠ -1 then An.sub r 0 found else r

/-- `suffix (u, use_locase)` (url.cpp:380-398). -/
def suffix (u : Url) (locase : Bool) : Res Bytes :=
  match tail u with
  | .atom s => do
    let k ← lastDot s s.length
    if 1 < k ∧ k < s.length then do
      let r := stripMarks (An.sub s k s.length)
      let found ← An.indexOf r (c! '?')
      let r := cutAt r found
      if locase then An.locaseAll r else .ok r
    else .ok []
  | _ => .ok []

/-- `basename (u, suf)` (url.cpp:405-411). -/
def basenameS (u : Url) (suf : Bytes) : Res Bytes := do
  let s := asString (tail u)
  let found ← An.indexOf s (c! '?')
  .ok (An.removeSuffix (cutAt s found) suf)

/-- `basename (u)` (url.cpp:413-418). -/
def basename (u : Url) : Res Bytes := do
  let s ← suffix u false
  basenameS u (if s.length ≠ 0 then (b!".") ++ s else s)

/-- `expand (u1, u2)` (url.cpp:497-509). The recursion is bounded by fuel. -/
def expand2 : Nat → Url → Url → Res Url
  | 0, _, _ => .hang
  | f + 1, u1, u2 =>
    match u1 with
    | .or a b => do
      let x ← expand2 f a u2
      let y ← expand2 f b u2
      .ok (alt x y)
    | _ =>
      match u2 with
      | .or a b => do
        let x ← expand2 f u1 a
        let y ← expand2 f u1 b
        .ok (alt x y)
      | _ =>
        if u2 = ancestor then
          match u1 with
          | .concat a _ => do
            let x ← expand2 f a u2
            .ok (alt u1 x)
          | _ => if isSpecialRoot u1 then .ok u2 else .ok (alt u1 u2)
        else
          match u2 with
          | .concat c d =>
            if c = ancestor then do
              let x ← expand2 f u1 c
              expand2 f x d
            else mul u1 u2
          | _ => mul u1 u2

/-- `expand (u)` (url.cpp:511-516). -/
def expand (f : Nat) : Url → Res Url
  | .or a b => do
    let x ← expand f a
    let y ← expand f b
    .ok (alt x y)
  | .concat a b => do
    let x ← expand f a
    let y ← expand f b
    expand2 f x y
  | u => .ok u

/-- `s1 <= s2` on strings (Kernel/Types/string.cpp:226-238), as a function of the bytes: signed characters,
a prefix comes first. -/
def strLe : Bytes → Bytes → Bool
  | [], _ => true
  | _ :: _, [] => false
  | x :: l, y :: m => if schar x < schar y then true else if schar x > schar y then false else strLe l m

/-- `u1 <= u2` (url.cpp:518-530). -/
def le : Url → Url → Bool
  | .atom s, .atom t => strLe s t
  | .atom _, _ => true
  | _, .atom _ => false
  | .concat a b, .concat c d => if a = c then le b d else le a c
  | .concat _ _, _ => true
  | _, .concat _ _ => false
  | _, _ => true

/-- `sort_sub (add, to)` (url.cpp:532-540). -/
def sortSub (add : Url) : Url → Url
  | .or a b => if le add a then alt add (.or a b) else alt a (sortSub add b)
  | u => if le add u then alt add u else alt u add

/-- `sort (u)` (url.cpp:542-546). -/
def sort : Url → Url
  | .or a b => sortSub a (sort b)
  | u => u

/-- `factor_sorted (u)` (url.cpp:548-558). -/
def factorSorted : Url → Res Url
  | .or a b => do
    let v ← factorSorted b
    match a, v with
    | .concat a1 a2, .concat v1 v2 => if a1 = v1 then mul a1 (alt a2 v2) else .ok (alt a v)
    | .concat a1 a2, .or (.concat v1 v2) w =>
      if a1 = v1 then do
        let x ← mul a1 (alt a2 v2)
        .ok (alt x w)
      else .ok (alt a v)
    | _, _ => .ok (alt a v)
  | u => .ok u

/-- `factor_sub (u)` (url.cpp:560-565) with `factor` for the tails. -/
def factorSub (fac : Url → Res Url) : Url → Res Url
  | .concat a b => do
    let x ← fac b
    mul a x
  | .or a b => do
    let x ← factorSub fac a
    let y ← factorSub fac b
    .ok (alt x y)
  | u => .ok u

/-- `factor (u)` (url.cpp:567-570); the recursion is bounded by fuel. -/
def factor : Nat → Url → Res Url
  | 0, _ => .hang
  | f + 1, u => do
    let v ← factorSorted (sort u)
    factorSub (factor f) v

/-- `descends (u, base)` (url.cpp:572-593). With `inLoop` it is at line 579, in the loop over two concatenations,
where the tests of lines 574 and 575 are not made. -/
def descendsAux (inLoop : Bool) (u base : Url) : Bool :=
  if !inLoop && decide (u = base) then true
  else
    match u, base with
    | .concat a _, .atom s => decide (a = .atom s)
    | .concat a b, .concat c d =>
      if a = c then descendsAux (isConcat b && isConcat d) b d else false
    | .or a b, base => descendsAux false a base && descendsAux false b base
    | u, .or c d => descendsAux false u c || descendsAux false u d
    | _, _ => false
termination_by u.size + base.size
decreasing_by
  all_goals simp only [Url.size]
  all_goals omega

/-- `descends (u, base)` (url.cpp:572-593). -/
def descends (u base : Url) : Bool := descendsAux false u base

/-! ## Reading a url -/

/-- The loop of `skip_ipv6` (url.cpp:116-119). -/
def skipHex (s : Bytes) (i : Nat) : Nat :=
  if h : i < s.length then
    if s[i] = c! ':' || An.isHexDigit s[i] then skipHex s (i + 1) else i
  else i
termination_by s.length - i

theorem le_skipHex (s : Bytes) (i : Nat) : i ≤ skipHex s i := by
  fun_induction skipHex s i <;> omega

/-- `skip_ipv6 (s, i)` (url.cpp:113-121). -/
def skipIpv6 (s : Bytes) (i : Nat) : Nat :=
  let j := skipHex s (i + 1)
  if s[j]? = some (c! ']') then j + 1 else j

theorem lt_skipIpv6 (s : Bytes) (i : Nat) : i < skipIpv6 s i := by
  have := le_skipHex s (i + 1)
  unfold skipIpv6
  dsimp only
  split <;> omega

/-- The loop `while ((i < n) && (s[i] != sep)) ...` (url.cpp:196-199, 236-239) and, on failure, that of
`heuristic_is_path` (url.cpp:127-130): the first place from `i` on with the separator outside brackets, or
the end. -/
def nextSep (sep : UInt8) (s : Bytes) (i : Nat) : Nat :=
  if h : i < s.length then
    if s[i] = sep then i
    else if s[i] = c! '[' then nextSep sep s (skipIpv6 s i)
    else nextSep sep s (i + 1)
  else i
termination_by s.length - i
decreasing_by
  · have := lt_skipIpv6 s i; omega
  · omega

theorem le_nextSep (sep : UInt8) (s : Bytes) (i : Nat) : i ≤ nextSep sep s i := by
  fun_induction nextSep sep s i with
  | case1 => omega
  | case2 i _ _ _ ih => have := lt_skipIpv6 s i; omega
  | case3 => omega
  | case4 => omega

/-- `heuristic_is_path (name, type)` (url.cpp:123-132). -/
def isPath (s : Bytes) : Bool := decide (nextSep (c! ':') s 0 < s.length)

/-- The components that `url_get_name` finds from `i` on (url.cpp:194-210), in order. -/
def components (s : Bytes) (i : Nat) : List Bytes :=
  if i < s.length then
    let j := nextSep (c! '/') s i
    if i < j then An.sub s i j :: components s j
    else if i + 1 = s.length then [[]]
    else components s (i + 1)
  else []
termination_by s.length - i

/-- One step of the second loop of `url_get_name` (url.cpp:217-226). -/
def addFront (u ret : Url) : Res Url :=
  if isAtom u (b!".") || isAtom u [] then .ok ret
  else if isAtomic u then .ok (.concat u ret)
  else mul u ret

/-- The second loop of `url_get_name` (url.cpp:212-228): `us` are the components in order. -/
def assemble : List Url → Res Url
  | [] => .ok (.atom [])
  | [u] => .ok u
  | u :: us => do
    let ret ← assemble us
    addFront u ret

/-- The environment of the process: `get_env (var)`, empty if the variable is not set. -/
abbrev Env := Bytes → Bytes

/-- `url_get_atom (s, type)` (url.cpp:171-187); `gen` is `url_system`. -/
def getAtom (env : Env) (gen : Bytes → Res Url) (type : Nat) (s : Bytes) : Res Url := do
  if type < 2 ∧ s = (b!"~") then gen (env (b!"HOME"))
  else
    let dollar ← An.starts s (b!"$")
    if type < 2 ∧ dollar = true then
      let val := env (An.sub s 1 s.length)
      if val = [] then .ok .none
      else do
        let u ← gen val
        unblank u
    else do
      let star ← An.containsC s (c! '*')
      .ok (if star then .wild1 s else .atom s)

/-- The atoms of the components. -/
def getAtoms (env : Env) (gen : Bytes → Res Url) (type : Nat) : List Bytes → Res (List Url)
  | [] => .ok []
  | s :: l => do
    let u ← if s = [] then .ok (.atom []) else getAtom env gen type s
    let us ← getAtoms env gen type l
    .ok (u :: us)

/-- `url_get_name (s, type, 0)` (url.cpp:189-229). -/
def getName (env : Env) (gen : Bytes → Res Url) (s : Bytes) (type : Nat) : Res Url := do
  let us ← getAtoms env gen type (components s 0)
  assemble us

/-- `url_get_path (s, type, i)` (url.cpp:231-244); `gen` is `url_general (_, type)`. -/
def getPath (gen : Bytes → Res Url) (s : Bytes) (i : Nat) : Res Url :=
  if i < s.length then do
    let j := nextSep (c! ':') s i
    let u ← gen (An.sub s i j)
    if s.length ≤ j then .ok u
    else if i = j then getPath gen s (j + 1)
    else do
      let r ← getPath gen s (j + 1)
      .ok (alt u r)
  else .ok .none
termination_by s.length - i
decreasing_by
  all_goals
    have := le_nextSep (c! ':') s i
    omega

/-- `file_url`, `http_url`, `https_url`, `ftp_url`, `blank_url` (file_url.cpp:14-15, http_url.cpp:14-15, ...). -/
def rooted (env : Env) (gen : Bytes → Res Url) (p name : Bytes) (type : Nat) : Res Url := do
  let u ← getName env gen name type
  mul (.root p) u

/-- `url_default (name, type)` on Unix (url.cpp:258-270). -/
def urlDefault (env : Env) (gen : Bytes → Res Url) (name : Bytes) (type : Nat) : Res Url := do
  let u ← getName env gen name type
  if isAtom u [] then .ok (.root (b!"default")) else mul (.root (b!"default")) u

/-- The branch of `url_general` for names with `://` (url.cpp:274-285); `none` if the name is not of the form
protocol, `://`, path. -/
def withProtocol (env : Env) (gen : Bytes → Res Url) (name : Bytes) (type : Nat) : Res (Option Url) := do
  let tokens ← An.tokenize (name.length + 1) name (b!"://")
  match tokens with
  | protocol :: path :: rest => do
    let an ← An.allBytes (fun c => An.isAlpha c || An.isDigit c) protocol
    if rest = [] ∧ protocol ≠ [] ∧ an = true ∧ 2 ≤ protocol.length then do
      let t := if protocol = (b!"file") then 0
        else if protocol = (b!"http") ∨ protocol = (b!"https") ∨ protocol = (b!"ftp") then 2
        else type
      let u ← rooted env gen protocol path t
      .ok (some u)
    else .ok none
  | _ => .ub

/-- The rest of `url_general` (url.cpp:286-303). -/
def withoutProtocol (env : Env) (gen : Nat → Bytes → Res Url) (name : Bytes) (type : Nat) : Res Url := do
  let loc ← An.starts name (b!"local:")
  if loc then rooted env (gen 0) (b!"file") (An.sub name 6 name.length) 0
  else
    let bl ← An.starts name (b!"//")
    if bl then rooted env (gen 0) (b!"blank") (An.sub name 2 name.length) 2
    else if isPath name then getPath (gen type) name 0
    else if name.head? = some (c! '/') then urlDefault env (gen 0) name type
    else
      let www ← An.starts name (b!"www.")
      if type ≠ 3 ∧ www = true then rooted env (gen 0) (b!"http") name 2
      else
        let ftp ← An.starts name (b!"ftp.")
        if type ≠ 3 ∧ ftp = true then rooted env (gen 0) (b!"ftp") name 2
        else getName env (gen 0) name type

/-- `url_general (name, type)` on Unix (url.cpp:272-303). The recursion through environment variables and paths
is bounded by fuel: it need not end (`HOME=~`). -/
def general (env : Env) : Nat → Nat → Bytes → Res Url
  | 0, _, _ => .hang
  | f + 1, type, name => do
    let prot ← An.occurs (b!"://") name
    let r ← if prot then withProtocol env (general env f 0) name type else .ok none
    match r with
    | some u => .ok u
    | none => withoutProtocol env (general env f) name type

end Lolly.Url
