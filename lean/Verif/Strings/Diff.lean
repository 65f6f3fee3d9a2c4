import Verif.Strings.Search

/-!
# Model of `differences` and `distance` (Kernel/Types/analyze.cpp:1005-1099)

The result array is filled and read in groups of four, modelled as a list of quadruples. The products
`k * n1` with `k < 6` are assumed not to overflow.
-/

set_option autoImplicit false

namespace Lolly.Diff

open Lolly.An

/-- A group of four entries: `[a, b)` in the first string, `[c, d)` in the second. -/
structure Seg where
  a : Nat
  b : Nat
  c : Nat
  d : Nat
  deriving Repr, DecidableEq

/-- `while (c1 + r < n1 && c2 + r < n2 && s1[c1 + r] == s2[c2 + r]) r++;` (analyze.cpp:1011-1012). -/
def goRight (s1 s2 : Bytes) (c1 c2 r : Nat) : Res Nat :=
  if c1 + r < s1.length ∧ c2 + r < s2.length then do
    let x ← rd s1 (c1 + r)
    let y ← rd s2 (c2 + r)
    if x = y then goRight s1 s2 c1 c2 (r + 1) else .ok r
  else .ok r
termination_by s1.length - (c1 + r)

/-- `while (l < c1 && l < c2 && s1[c1 - l - 1] == s2[c2 - l - 1]) l++;` (analyze.cpp:1013-1014). -/
def goLeft (s1 s2 : Bytes) (c1 c2 l : Nat) : Res Nat :=
  if l < c1 ∧ l < c2 then do
    let x ← rd s1 (c1 - l - 1)
    let y ← rd s2 (c2 - l - 1)
    if x = y then goLeft s1 s2 c1 c2 (l + 1) else .ok l
  else .ok l
termination_by c1 - l

/-- `bc`, `bl`, `br` of `find_longest`. -/
structure Best where
  c : Nat
  l : Nat
  r : Nat

/-- The body of the loop of `find_longest`. -/
def longestBody (s1 s2 : Bytes) (c1 : Nat) (c2 : Nat) (b : Best) : Res Best := do
  let x ← rd s1 c1
  let y ← rd s2 c2
  if x = y then do
    let r ← goRight s1 s2 c1 c2 0
    let l ← goLeft s1 s2 c1 c2 0
    .ok (if l + r > b.l + b.r then ⟨c2, l, r⟩ else b)
  else .ok b

/-- `find_longest` (analyze.cpp:1005-1027): the returned length and the new values of `c1`, `c2`. -/
def findLongest (s1 s2 : Bytes) (c1 : Nat) : Res (Nat × Nat × Nat) := do
  let b ← forUp 0 s2.length ⟨0, 0, 0⟩ (longestBody s1 s2 c1)
  .ok (if b.l + b.r > 0 then (b.l + b.r, c1 - b.l, b.c - b.l) else (b.l + b.r, c1, s2.length))

/-- The body of the loop of `find_common`; the state is `best_len, c1, c2`. -/
def commonBody (s1 s2 : Bytes) (t : Nat) (k : Nat) (st : Nat × Nat × Nat) : Res (Nat × Nat × Nat) := do
  let r ← findLongest s1 s2 (k * s1.length / t)
  .ok (if r.1 > st.1 then r else st)

/-- `find_common` (analyze.cpp:1028-1044): the values of `c1`, `c2`. -/
def findCommon (s1 s2 : Bytes) : Res (Nat × Nat) :=
  if s1.length = 0 ∨ s2.length = 0 then .ok (0, 0)
  else do
    let t := min (min s1.length s2.length) 6
    let st ← forUp 1 t (0, 0, 0) (commonBody s1 s2 t)
    .ok (st.2.1, st.2.2)

/-- `while (i1 < j1 && i2 < j2 && s1[i1] == s2[i2]) { i1++; i2++; }` (analyze.cpp:1049-1052). -/
def skipLeft (s1 s2 : Bytes) (i1 i2 j1 j2 : Nat) : Res (Nat × Nat) :=
  if i1 < j1 ∧ i2 < j2 then do
    let x ← rd s1 i1
    let y ← rd s2 i2
    if x = y then skipLeft s1 s2 (i1 + 1) (i2 + 1) j1 j2 else .ok (i1, i2)
  else .ok (i1, i2)
termination_by j1 - i1

/-- `while (i1 < j1 && i2 < j2 && s1[j1 - 1] == s2[j2 - 1]) { j1--; j2--; }` (analyze.cpp:1053-1056). -/
def skipRight (s1 s2 : Bytes) (i1 i2 j1 j2 : Nat) : Res (Nat × Nat) :=
  if i1 < j1 ∧ i2 < j2 then do
    let x ← rd s1 (j1 - 1)
    let y ← rd s2 (j2 - 1)
    if x = y then skipRight s1 s2 i1 i2 (j1 - 1) (j2 - 1) else .ok (j1, j2)
  else .ok (j1, j2)
termination_by j1 - i1

/-- The loops that add offsets to all groups (analyze.cpp:1061-1066, 1080-1085). -/
def shift (x y : Nat) (r : List Seg) : List Seg := r.map fun s => ⟨s.a + x, s.b + x, s.c + y, s.d + y⟩

/-- `differences` (analyze.cpp:1046-1090); `fuel` bounds the depth of the recursion. -/
def differencesN : Nat → Bytes → Bytes → Res (List Seg)
  | 0, _, _ => .hang
  | fuel + 1, s1, s2 => do
    let n1 := s1.length
    let n2 := s2.length
    let (i1, i2) ← skipLeft s1 s2 0 0 n1 n2
    let (j1, j2) ← skipRight s1 s2 i1 i2 n1 n2
    if i1 = i2 ∧ j1 = j2 then .ok []
    else if i1 > 0 ∨ i2 > 0 ∨ j1 < n1 ∨ j2 < n2 then do
      let r ← differencesN fuel (sub s1 i1 j1) (sub s2 i2 j2)
      .ok (shift i1 i2 r)
    else do
      let (c1, c2) ← findCommon s1 s2
      if c1 = 0 ∧ c2 = 0 then .ok [⟨i1, j1, i2, j2⟩]
      else do
        let r1 ← differencesN fuel (sub s1 0 c1) (sub s2 0 c2)
        let r2 ← differencesN fuel (sub s1 c1 n1) (sub s2 c2 n2)
        .ok (r1 ++ shift c1 c2 r2)

/-- `distance` (analyze.cpp:1092-1099). -/
def distanceN (fuel : Nat) (s1 s2 : Bytes) : Res Nat := do
  let r ← differencesN fuel s1 s2
  .ok (r.foldl (fun d s => d + max (s.b - s.a) (s.d - s.c)) 0)

end Lolly.Diff
