import Verif.Loop
import Verif.Containers.HashMap
import Verif.Strings.Search

/-!
# Model of the indexed search (Data/String/fast_search.cpp)

Strings are byte lists. The index uses the model of `hashmap<int, array<int>>`, so that its order of
enumeration is the real one. The arrays of positions are lists: `h (c)= array<int> ()` puts a fresh
array in the entry before anything is appended to it, hence no two entries share an array. Texts are
shorter than 2^28 bytes, so that `9 * l` and `2 * l` do not overflow.
-/

set_option autoImplicit false

namespace Lolly.FastSearch

/-- `hash (int)` is the integer itself (basic.hpp:151). -/
def hashInt (c : BitVec 32) : BitVec 32 := c

/-- `hash_combine` (fast_search.cpp:20-31). -/
def hashCombine (c1 c2 : BitVec 32) (l : Nat) : BitVec 32 :=
  let rot := (9 * l) &&& 31
  if rot = 0 then c1 ^^^ c2
  else c1 ^^^ ((c2 <<< rot) ^^^ (c2 >>> (32 - rot)))

/-- `(int) (unsigned int) (unsigned char) s[i]` (fast_search.cpp:38, 53). -/
def byteCode (c : UInt8) : BitVec 32 := c.toBitVec.setWidth 32

/-- `fast_hash` (fast_search.cpp:33-41): the loop runs from the last character to the first. -/
def fastHash : Bytes → BitVec 32
  | [] => 0
  | c :: s =>
    let h := fastHash s
    ((h <<< 9) ^^^ (h >>> 23)) ^^^ byteCode c

/-- A level of the index: `hashmap<int, array<int>>`. -/
abbrev Index := HashMap (BitVec 32) (List Nat)

/-- `if (!h->contains (c)) h (c)= array<int> ()` (fast_search.cpp:59). -/
def fresh (h : Index) (c : BitVec 32) : Res Index := do
  let b ← h.contains hashInt c
  if b then .ok h else h.set hashInt c []

/-- The body of the loop that enters position `i` with code `c` (fast_search.cpp:58-60). -/
def enter (h : Index) (c : BitVec 32) (i : Nat) : Res Index := do
  let h ← fresh h c
  let h ← h.touch hashInt c
  let v ← h.get hashInt c
  h.assign hashInt c (v ++ [i])

/-- One level (fast_search.cpp:56-61); `i + l <= n` with `l <= n`. -/
def buildLevel (codes : List (BitVec 32)) (n l : Nat) : Res Index :=
  forUp 0 (n + 1 - l) (HashMap.new []) fun i h => do
    let c ← rd codes i
    enter h c i

/-- The codes of the next level (fast_search.cpp:63-65), computed in place. -/
def nextCodes (codes : List (BitVec 32)) (n l : Nat) : Res (List (BitVec 32)) :=
  forUp 0 (n + 1 - 2 * l) codes fun i cs => do
    let c ← rd cs i
    let d ← rd cs (i + l)
    wr cs i (hashCombine c d l)

/-- The loop `while (l <= n)` (fast_search.cpp:55-67), with fuel. -/
def buildLoop (n : Nat) : Nat → Nat → List (BitVec 32) → List Index → Res (List Index)
  | 0, _, _, _ => .hang
  | fuel + 1, l, codes, a =>
    if l ≤ n then do
      let h ← buildLevel codes n l
      let codes ← nextCodes codes n l
      buildLoop n fuel (2 * l) codes (a ++ [h])
    else .ok a

/-- `string_searcher_rep` (fast_search.hpp:20-25). -/
structure Searcher where
  s : Bytes
  a : List Index

/-- The constructor (fast_search.cpp:46-68). -/
def build (s : Bytes) : Res Searcher := do
  let a ← buildLoop s.length (s.length + 1) 1 (s.map byteCode) []
  .ok ⟨s, a⟩

/-- `while ((k << 1) <= N (what))` (fast_search.cpp:87-91): the final `k` and `l`. -/
def levelOf (n : Nat) : Nat → Nat → Nat → Nat × Nat
  | 0, k, l => (k, l)
  | fuel + 1, k, l => if k * 2 ≤ n then levelOf n fuel (k * 2) (l + 1) else (k, l)

/-- `search_sub` (fast_search.cpp:79-95). The fuel of `levelOf` is always enough. -/
def searchSub (S : Searcher) (what : Bytes) : Res (List Nat) :=
  if what.length = 0 then .ok (List.range (S.s.length + 1))
  else do
    let kl := levelOf what.length what.length 1 0
    let code := fastHash (An.sub what 0 kl.1)
    let h ← rd S.a kl.2
    let b ← h.contains hashInt code
    if b then h.get hashInt code else .ok []

/-- The loop of `search_next` (fast_search.cpp:100-104). -/
def nextLoop (s what : Bytes) (pos : Int) : List Nat → Res Int
  | [] => .ok (-1)
  | p :: ps =>
    if (p : Int) ≥ pos then do
      let t ← An.test s p what
      if t then .ok p else nextLoop s what pos ps
    else nextLoop s what pos ps

/-- `search_next` (fast_search.cpp:97-105). -/
def searchNext (S : Searcher) (what : Bytes) (pos : Int) : Res Int := do
  let ps ← searchSub S what
  nextLoop S.s what pos ps

/-- The loop of `search_all` (fast_search.cpp:113-116). -/
def allLoop (s what : Bytes) : List Nat → Res (List Nat)
  | [] => .ok []
  | p :: ps => do
    let t ← An.test s p what
    let r ← allLoop s what ps
    .ok (if t then p :: r else r)

/-- `search_all` (fast_search.cpp:107-118). -/
def searchAll (S : Searcher) (what : Bytes) : Res (List Nat) := do
  let ps ← searchSub S what
  allLoop S.s what ps

/-! ## Longest common substring -/

/-- `b1, e1, b2, e2` of `get_longest_common`; `bestl` is always `e1 - b1`. -/
structure Best where
  b1 : Nat
  e1 : Nat
  b2 : Nat
  e2 : Nat
  deriving DecidableEq, Repr

/-- The first extension loop (fast_search.cpp:146-149). -/
def extendLeft (s1 s2 : Bytes) : Nat → Nat → Res (Nat × Nat)
  | b1 + 1, b2 + 1 => do
    let x ← rd s1 b1
    let y ← rd s2 b2
    if x = y then extendLeft s1 s2 b1 b2 else .ok (b1 + 1, b2 + 1)
  | b1, b2 => .ok (b1, b2)

/-- The second extension loop (fast_search.cpp:150-153). -/
def extendRight (s1 s2 : Bytes) (e1 e2 : Nat) : Res (Nat × Nat) :=
  if e1 < s1.length ∧ e2 < s2.length then do
    let x ← rd s1 e1
    let y ← rd s2 e2
    if x = y then extendRight s1 s2 (e1 + 1) (e2 + 1) else .ok (e1, e2)
  else .ok (e1, e2)
termination_by s1.length - e1

/-- `ee1 - bb1 > bestl || ...` (fast_search.cpp:154-155). -/
def better (b c : Best) : Bool :=
  decide (c.e1 - c.b1 > b.e1 - b.b1) ||
    (decide (c.e1 - c.b1 = b.e1 - b.b1) &&
      (decide (c.b1 < b.b1) || (decide (c.b1 = b.b1) && decide (c.b2 < b.b2))))

/-- The loop over `j2` (fast_search.cpp:143-162). -/
def loop2 (s1 s2 : Bytes) (pos1 : Nat) : List Nat → Best → Res Best
  | [], b => .ok b
  | pos2 :: ps, b => do
    let l ← extendLeft s1 s2 pos1 pos2
    let r ← extendRight s1 s2 pos1 pos2
    let c : Best := ⟨l.1, r.1, l.2, r.2⟩
    loop2 s1 s2 pos1 ps (if better b c then c else b)

/-- The loop over `j1` (fast_search.cpp:140-163). -/
def loop1 (s1 s2 : Bytes) (ps2 : List Nat) : List Nat → Best → Res Best
  | [], b => .ok b
  | pos1 :: ps, b =>
    if b.b1 ≤ pos1 ∧ pos1 < b.e1 then loop1 s1 s2 ps2 ps b
    else do
      let b ← loop2 s1 s2 pos1 ps2 b
      loop1 s1 s2 ps2 ps b

/-- The loop over the keys of one level (fast_search.cpp:135-164); the keys are those produced by the
iterator. -/
def keyLoop (s1 s2 : Bytes) (a1 a2 : Index) : List (BitVec 32) → Best → Res Best
  | [], b => .ok b
  | h :: hs, b => do
    let ps1 ← a1.get hashInt h
    let ps2 ← a2.get hashInt h
    if ps1.length = 0 ∨ ps2.length = 0 then keyLoop s1 s2 a1 a2 hs b
    else do
      let b ← loop1 s1 s2 ps2 ps1 b
      keyLoop s1 s2 a1 a2 hs b

/-- One level (fast_search.cpp:132-164), the iterator included. -/
def commonLevel (s1 s2 : Bytes) (a1 a2 : Index) (b : Best) : Res Best := do
  let it ← Iter.new a1.a
  let es ← it.drain (a1.a.flatten.length + 1)
  keyLoop s1 s2 a1 a2 (es.map (·.key)) b

/-- The loop over the levels, from the highest to the lowest (fast_search.cpp:131). -/
def levelLoop (S1 S2 : Searcher) : Nat → Best → Res Best
  | 0, b => .ok b
  | i + 1, b => do
    let a1 ← rd S1.a i
    let a2 ← rd S2.a i
    let b ← commonLevel S1.s S2.s a1 a2 b
    levelLoop S1 S2 i b

/-- `get_longest_common` (fast_search.cpp:124-166). -/
def longestCommon (s1 s2 : Bytes) : Res Best := do
  let S1 ← build s1
  let S2 ← build s2
  levelLoop S1 S2 (min S1.a.length S2.a.length) ⟨0, 0, 0, 0⟩

end Lolly.FastSearch
