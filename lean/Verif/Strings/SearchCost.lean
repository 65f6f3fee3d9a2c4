import Verif.Strings.Search

set_option autoImplicit false

/-!
# How many characters are compared by searching and matching

The functions of `Strings/Search.lean` (Kernel/Types/analyze.cpp:541-563, 810-912, 914-932, 947-960) once more, with the
number of comparisons of two characters; `match_wildcard` with the number of its calls. Every comparison and call takes
bounded time; appending to strings and arrays is C149.
-/

namespace Lolly.SearchCost

open Lolly.An

/-- Count `n` more. -/
def plus {α : Type} (n : Nat) (x : Res (α × Nat)) : Res (α × Nat) := do
  let (a, m) ← x
  .ok (a, n + m)

/-- `test` (analyze.cpp:541-551). -/
def testC (s : Bytes) : Nat → Bytes → Res (Bool × Nat)
  | _, [] => .ok (true, 0)
  | i, c :: t =>
    if i ≥ s.length then .ok (false, 0)
    else do
      let d ← rd s i
      if d ≠ c then .ok (false, 1) else plus 1 (testC s (i + 1) t)

/-- `in[pos] == c && test (in, pos, s)` (analyze.cpp:815, 828). -/
def testHeadC (get : Nat → Res UInt8) (inn : Bytes) (pos : Nat) (c : UInt8) (s : Bytes) : Res (Bool × Nat) := do
  let d ← get pos
  if d = c then plus 1 (testC inn pos s) else .ok (false, 1)

/-- One round of `search_forwards (array)` (analyze.cpp:814-816). -/
def anyAtC (get : Nat → Res UInt8) (inn : Bytes) (pos : Nat) : List Bytes → Res (Bool × Nat)
  | [] => .ok (false, 0)
  | p :: ps =>
    match p with
    | [] => anyAtC get inn pos ps
    | c :: _ => do
      let (t, n) ← testHeadC get inn pos c p
      if t then .ok (true, n) else plus n (anyAtC get inn pos ps)

/-- `search_forwards (array<string>, int, string)` (analyze.cpp:810-820). -/
def forwardsAnyC (get : Nat → Res UInt8) (a : List Bytes) (pos : Nat) (inn : Bytes) : Res (Int × Nat) :=
  if pos ≤ inn.length then do
    let (t, n) ← anyAtC get inn pos a
    if t then .ok (pos, n) else plus n (forwardsAnyC get a (pos + 1) inn)
  else .ok (-1, 0)
termination_by inn.length + 1 - pos

/-- The loop of `search_forwards (string, int, string)` (analyze.cpp:827-830). -/
def forwardsLoopC (s : Bytes) (c : UInt8) (inn : Bytes) (pos : Nat) : Res (Int × Nat) :=
  if pos + s.length ≤ inn.length then do
    let (t, n) ← testHeadC (rd inn) inn pos c s
    if t then .ok (pos, n) else plus n (forwardsLoopC s c inn (pos + 1))
  else .ok (-1, 0)
termination_by inn.length + 1 - pos

/-- `search_forwards (string, int, string)` (analyze.cpp:822-832). -/
def forwardsC (s : Bytes) (pos : Int) (inn : Bytes) : Res (Int × Nat) :=
  if s.length = 0 then .ok (pos, 0)
  else do
    let c ← rd s 0
    if pos < 0 then
      if pos + s.length ≤ inn.length then .ub else .ok (-1, 0)
    else forwardsLoopC s c inn pos.toNat

/-- `search_backwards (string, int, string)` (analyze.cpp:860-867), counting `pos + 1` down. -/
def backwardsLoopC (s inn : Bytes) : Nat → Res (Int × Nat)
  | 0 => .ok (-1, 0)
  | k + 1 => do
    let (t, n) ← testC inn k s
    if t then .ok (k, n) else plus n (backwardsLoopC s inn k)

/-- `count_occurrences` (analyze.cpp:874-885). -/
def countLoopC (s inn : Bytes) : Nat → Int → Nat → Res (Nat × Nat)
  | 0, _, _ => .hang
  | f + 1, i, count =>
    if i < inn.length then do
      let (next, n) ← forwardsC s i inn
      if next = -1 then .ok (count, n) else plus n (countLoopC s inn f (next + 1) (count + 1))
    else .ok (count, 0)

/-- `replace` (analyze.cpp:898-912). -/
def replaceLoopC (s what by_ : Bytes) : Nat → Nat → Bytes → Res (Bytes × Nat)
  | 0, _, _ => .hang
  | f + 1, i, r =>
    if i < s.length then do
      let (t, n) ← testC s i what
      if t then plus n (replaceLoopC s what by_ f (i + what.length) (r ++ by_))
      else do
        let c ← rd s i
        plus n (replaceLoopC s what by_ f (i + 1) (r ++ [c]))
    else .ok (r, 0)

/-- `tokenize` (analyze.cpp:947-960). -/
def tokenLoopC (s sep : Bytes) : Nat → Nat → Nat → List Bytes → Res (List Bytes × Nat)
  | 0, _, _, _ => .hang
  | f + 1, i, start, a =>
    if i < s.length then do
      let (t, n) ← testC s i sep
      if t then plus n (tokenLoopC s sep f (i + sep.length) (i + sep.length) (a ++ [sub s start i]))
      else plus n (tokenLoopC s sep f (i + 1) start a)
    else .ok (a ++ [sub s start s.length], 0)

/-- `while (spos <= N (s)) { if (rec (spos)) return true; spos++; } return false;` (analyze.cpp:922-926). -/
def starLoopC (n : Nat) (rec : Nat → Res (Bool × Nat)) (spos : Nat) : Res (Bool × Nat) :=
  if spos ≤ n then do
    let (b, m) ← rec spos
    if b then .ok (true, m) else plus m (starLoopC n rec (spos + 1))
  else .ok (false, 0)
termination_by n + 1 - spos

/-- `match_wildcard` (analyze.cpp:914-927), with the number of calls. -/
def matchWildC (s w : Bytes) : Nat → Nat → Nat → Res (Bool × Nat)
  | 0, _, _ => .hang
  | f + 1, spos, wpos =>
    if wpos = w.length then .ok (decide (spos = s.length), 1)
    else do
      let c ← rd w wpos
      if c ≠ c! '*' then
        if spos < s.length then do
          let d ← rd s spos
          if d = c then plus 1 (matchWildC s w f (spos + 1) (wpos + 1)) else .ok (false, 1)
        else .ok (false, 1)
      else do
        let wpos' ← skipStars w wpos
        plus 1 (starLoopC s.length (fun spos => matchWildC s w f spos wpos') spos)

end Lolly.SearchCost
