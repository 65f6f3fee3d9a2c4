import Verif.Data.FastSearch
import Verif.Strings.SearchCost

set_option autoImplicit false

/-!
# How much work a searcher does

The functions of `Data/FastSearch.lean` (Data/String/fast_search.cpp:33-41, 46-118, 124-166) once more, with the number
of rounds of their loops and of comparisons of two characters. Looking up a code in a table is C159, appending to an
array C149.
-/

namespace Lolly.SearcherCost

open Lolly.FastSearch Lolly.SearchCost

/-- One level (fast_search.cpp:56-61), with the number of positions that are entered. -/
def buildLevelC (codes : List (BitVec 32)) (n l : Nat) : Res (Index × Nat) :=
  forUp 0 (n + 1 - l) (HashMap.new [], 0) fun i hk => do
    let c ← rd codes i
    let h ← enter hk.1 c i
    .ok (h, hk.2 + 1)

/-- The codes of the next level (fast_search.cpp:63-65), with the number of rounds. -/
def nextCodesC (codes : List (BitVec 32)) (n l : Nat) : Res (List (BitVec 32) × Nat) :=
  forUp 0 (n + 1 - 2 * l) (codes, 0) fun i ck => do
    let c ← rd ck.1 i
    let d ← rd ck.1 (i + l)
    let cs ← wr ck.1 i (hashCombine c d l)
    .ok (cs, ck.2 + 1)

/-- The loop `while (l <= n)` (fast_search.cpp:55-67). -/
def buildLoopC (n : Nat) : Nat → Nat → List (BitVec 32) → List Index → Res (List Index × Nat)
  | 0, _, _, _ => .hang
  | fuel + 1, l, codes, a =>
    if l ≤ n then do
      let (h, x) ← buildLevelC codes n l
      let (codes, y) ← nextCodesC codes n l
      plus (x + y) (buildLoopC n fuel (2 * l) codes (a ++ [h]))
    else .ok (a, 0)

/-- The constructor (fast_search.cpp:46-68); the first loop (52-53) has one round per character. -/
def buildC (s : Bytes) : Res (Searcher × Nat) := do
  let (a, x) ← buildLoopC s.length (s.length + 1) 1 (s.map byteCode) []
  .ok (⟨s, a⟩, s.length + x)

/-- `fast_hash` (fast_search.cpp:33-41), with the number of rounds. -/
def fastHashC : Bytes → BitVec 32 × Nat
  | [] => (0, 0)
  | c :: s =>
    let (h, x) := fastHashC s
    (((h <<< 9) ^^^ (h >>> 23)) ^^^ byteCode c, x + 1)

/-- `search_sub` (fast_search.cpp:79-95), with the number of positions listed for an empty pattern and of rounds of
`fast_hash` otherwise. -/
def searchSubC (S : Searcher) (what : Bytes) : Res (List Nat × Nat) :=
  if what.length = 0 then .ok (List.range (S.s.length + 1), S.s.length + 1)
  else do
    let kl := levelOf what.length what.length 1 0
    let (code, x) := fastHashC (An.sub what 0 kl.1)
    let h ← rd S.a kl.2
    let b ← h.contains hashInt code
    if b then do
      let ps ← h.get hashInt code
      .ok (ps, x)
    else .ok ([], x)

/-- The loop of `search_next` (fast_search.cpp:100-104): one for each round, and the comparisons of `test`. -/
def nextLoopC (s what : Bytes) (pos : Int) : List Nat → Res (Int × Nat)
  | [] => .ok (-1, 0)
  | p :: ps =>
    if (p : Int) ≥ pos then do
      let (t, x) ← testC s p what
      if t then .ok (p, x + 1) else plus (x + 1) (nextLoopC s what pos ps)
    else plus 1 (nextLoopC s what pos ps)

/-- `search_next` (fast_search.cpp:97-105). -/
def searchNextC (S : Searcher) (what : Bytes) (pos : Int) : Res (Int × Nat) := do
  let (ps, x) ← searchSubC S what
  plus x (nextLoopC S.s what pos ps)

/-- The loop of `search_all` (fast_search.cpp:113-116): one for each round, and the comparisons of `test`. -/
def allLoopC (s what : Bytes) : List Nat → Res (List Nat × Nat)
  | [] => .ok ([], 0)
  | p :: ps => do
    let (t, x) ← testC s p what
    let (r, y) ← allLoopC s what ps
    .ok (if t then p :: r else r, x + 1 + y)

/-- `search_all` (fast_search.cpp:107-118). -/
def searchAllC (S : Searcher) (what : Bytes) : Res (List Nat × Nat) := do
  let (ps, x) ← searchSubC S what
  plus x (allLoopC S.s what ps)

/-- The first extension loop of `get_longest_common` (fast_search.cpp:146-149), with the number of comparisons. -/
def extendLeftC (s1 s2 : Bytes) : Nat → Nat → Res ((Nat × Nat) × Nat)
  | b1 + 1, b2 + 1 => do
    let x ← rd s1 b1
    let y ← rd s2 b2
    if x = y then plus 1 (extendLeftC s1 s2 b1 b2) else .ok ((b1 + 1, b2 + 1), 1)
  | b1, b2 => .ok ((b1, b2), 0)

/-- The second extension loop (fast_search.cpp:150-153). -/
def extendRightC (s1 s2 : Bytes) (e1 e2 : Nat) : Res ((Nat × Nat) × Nat) :=
  if e1 < s1.length ∧ e2 < s2.length then do
    let x ← rd s1 e1
    let y ← rd s2 e2
    if x = y then plus 1 (extendRightC s1 s2 (e1 + 1) (e2 + 1)) else .ok ((e1, e2), 1)
  else .ok ((e1, e2), 0)
termination_by s1.length - e1

/-- The loop over `j2` (fast_search.cpp:143-162). -/
def loop2C (s1 s2 : Bytes) (pos1 : Nat) : List Nat → Best → Res (Best × Nat)
  | [], b => .ok (b, 0)
  | pos2 :: ps, b => do
    let (l, x) ← extendLeftC s1 s2 pos1 pos2
    let (r, y) ← extendRightC s1 s2 pos1 pos2
    let c : Best := ⟨l.1, r.1, l.2, r.2⟩
    plus (x + y) (loop2C s1 s2 pos1 ps (if better b c then c else b))

/-- The loop over `j1` (fast_search.cpp:140-163). -/
def loop1C (s1 s2 : Bytes) (ps2 : List Nat) : List Nat → Best → Res (Best × Nat)
  | [], b => .ok (b, 0)
  | pos1 :: ps, b =>
    if b.b1 ≤ pos1 ∧ pos1 < b.e1 then loop1C s1 s2 ps2 ps b
    else do
      let (b, x) ← loop2C s1 s2 pos1 ps2 b
      plus x (loop1C s1 s2 ps2 ps b)

/-- The loop over the keys of one level (fast_search.cpp:135-164). -/
def keyLoopC (s1 s2 : Bytes) (a1 a2 : Index) : List (BitVec 32) → Best → Res (Best × Nat)
  | [], b => .ok (b, 0)
  | h :: hs, b => do
    let ps1 ← a1.get hashInt h
    let ps2 ← a2.get hashInt h
    if ps1.length = 0 ∨ ps2.length = 0 then keyLoopC s1 s2 a1 a2 hs b
    else do
      let (b, x) ← loop1C s1 s2 ps2 ps1 b
      plus x (keyLoopC s1 s2 a1 a2 hs b)

/-- One level (fast_search.cpp:132-164). -/
def commonLevelC (s1 s2 : Bytes) (a1 a2 : Index) (b : Best) : Res (Best × Nat) := do
  let it ← Iter.new a1.a
  let es ← it.drain (a1.a.flatten.length + 1)
  keyLoopC s1 s2 a1 a2 (es.map (·.key)) b

/-- The loop over the levels (fast_search.cpp:131). -/
def levelLoopC (S1 S2 : Searcher) : Nat → Best → Res (Best × Nat)
  | 0, b => .ok (b, 0)
  | i + 1, b => do
    let a1 ← rd S1.a i
    let a2 ← rd S2.a i
    let (b, x) ← commonLevelC S1.s S2.s a1 a2 b
    plus x (levelLoopC S1 S2 i b)

/-- `get_longest_common` (fast_search.cpp:124-166), with the number of comparisons; the two searchers are built as by
`buildC`. -/
def longestCommonC (s1 s2 : Bytes) : Res (Best × Nat) := do
  let S1 ← build s1
  let S2 ← build s2
  levelLoopC S1 S2 (min S1.a.length S2.a.length) ⟨0, 0, 0, 0⟩

end Lolly.SearcherCost
