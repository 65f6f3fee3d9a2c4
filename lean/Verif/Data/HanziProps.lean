import Verif.Data.Numeral

/-!
# C31: Chinese numerals
-/

set_option autoImplicit false
set_option linter.unusedSimpArgs false

namespace Lolly.HanziProps

open Lolly.An Lolly.Numeral

/-! ## Chinese numerals -/

/-- The values of the digits. -/
def hanDigit (c : Char) : Option Nat :=
  if c = '一' then some 1 else if c = '二' then some 2 else if c = '三' then some 3
  else if c = '四' then some 4 else if c = '五' then some 5 else if c = '六' then some 6
  else if c = '七' then some 7 else if c = '八' then some 8 else if c = '九' then some 9 else none

/-- The unit written after the digit of the place `10 ^ k`: nothing, 十, 百, 千. -/
def hanUnit : Nat → List Char
  | 0 => []
  | 1 => ['十']
  | 2 => ['百']
  | _ => ['千']

/-- A digit followed by the unit of the place `10 ^ k`: the digit and the rest. -/
def digitAt (k : Nat) (cs : List Char) : Option (Nat × List Char) :=
  match cs with
  | [] => none
  | c :: r => do
    let d ← hanDigit c
    if (hanUnit k).isPrefixOf r then some (d, r.drop (hanUnit k).length) else none

/-- Read the places `10 ^ (k - 1)`, ..., 1 of a block of four digits. A place that is 0 is not
written; 零 is required before a digit if places were skipped (`gap`) after a written digit
(`started`), and forbidden otherwise. A leading ten may be written without its digit. -/
def readPlaces : Nat → (gap started : Bool) → List Char → Option Nat
  | 0, _, _, cs => if cs = [] then some 0 else none
  | k + 1, gap, started, cs =>
    let body := if gap && started then (if cs.head? = some '零' then some (cs.drop 1) else none) else some cs
    match body.bind (digitAt k) with
    | some (d, r) => (readPlaces k false true r).map (d * 10 ^ k + ·)
    | none =>
      if k = 1 ∧ started = false ∧ cs.head? = some '十' then
        (readPlaces 1 false true (cs.drop 1)).map (10 + ·)
      else readPlaces k true started cs

/-- The parts before and after the first `c`. -/
def splitOn (c : Char) : List Char → Option (List Char × List Char)
  | [] => none
  | d :: r => if d = c then some ([], r) else (splitOn c r).map fun (a, b) => (d :: a, b)

/-- Below 10^8: an optional number of 万 (10^4), which must not be empty, and a last block. `high` says
that something was written before. -/
def readWan (high : Bool) (cs : List Char) : Option Nat :=
  match splitOn '万' cs with
  | some (h, l) => do
    let a ← readPlaces 4 false high h
    let b ← readPlaces 4 false true l
    if a = 0 then none else some (a * 10000 + b)
  | none => readPlaces 4 high high cs

/-- Positive numbers: an optional number of 亿 (10^8), which must not be empty, and the rest. -/
def readPos (cs : List Char) : Option Nat :=
  match splitOn '亿' cs with
  | some (h, l) => do
    let a ← readPlaces 4 false false h
    let b ← readWan true l
    if a = 0 then none else some (a * 100000000 + b)
  | none => readWan false cs

/-- A chinese numeral. -/
def readHanzi (cs : List Char) : Option Int :=
  if cs = ['零'] then some 0
  else if cs.head? = some '负' then (readPos (cs.drop 1)).map fun (n : Nat) => -(n : Int)
  else (readPos cs).map fun (n : Nat) => (n : Int)

/-- Is this character a digit, 零, 十, 百 or 千? -/
def smallHan (c : Char) : Bool := c != '万' && c != '亿' && c != '负'

theorem charsHan_digit (d : Nat) (h : d < 10) : ∃ c, rd charsHan d = .ok c ∧
    (d ≠ 0 → hanDigit c = some d) ∧ c ≠ '零' ∧ c ≠ '十' ∧ smallHan c = true := by
  have : ∀ d : Nat, d < 10 → (match rd charsHan d with
      | .ok c => decide ((d ≠ 0 → hanDigit c = some d) ∧ c ≠ '零' ∧ c ≠ '十' ∧ smallHan c = true)
      | _ => false) = true := by decide +kernel
  have := this d h
  split at this
  · rename_i c e
    exact ⟨c, e, of_decide_eq_true this⟩
  · cases this

/-- A block is read back. -/
theorem hanziSub_block (n : Nat) (hn : n < 10000) (b : Bool) : ∃ cs, hanziSub n b = .ok cs ∧
    readPlaces 4 false b cs = some n ∧ (∀ c ∈ cs, smallHan c = true) ∧ cs ≠ ['零'] ∧ (n = 0 ↔ cs = []) := by
  obtain ⟨t, et, ht, t1, t2, t3⟩ := charsHan_digit (n % 10000 / 1000) (by omega)
  obtain ⟨h, eh, hh, h1, h2, h3⟩ := charsHan_digit (n % 1000 / 100) (by omega)
  obtain ⟨d, ed, hd, d1, d2, d3⟩ := charsHan_digit (n % 100 / 10) (by omega)
  obtain ⟨o, eo, ho, o1, o2, o3⟩ := charsHan_digit (n % 10) (by omega)
  unfold hanziSub
  dsimp only
  rw [et, eh, ed, eo]
  simp only [Res.ok_bind]
  have hsum : n = n % 10000 / 1000 * 1000 + n % 1000 / 100 * 100 + n % 100 / 10 * 10 + n % 10 := by omega
  have hz0 : hanDigit '零' = none := by decide
  have hz1 : hanDigit '十' = none := by decide
  have sm : smallHan '零' = true ∧ smallHan '十' = true ∧ smallHan '百' = true ∧ smallHan '千' = true := by decide
  obtain ⟨sm1, sm2, sm3, sm4⟩ := sm
  generalize n % 10000 / 1000 = a at *
  generalize n % 1000 / 100 = b' at *
  generalize n % 100 / 10 = c' at *
  generalize n % 10 = d' at *
  subst hsum
  have ba : (a == 0) = decide (a = 0) := rfl
  have bb : (b' == 0) = decide (b' = 0) := rfl
  have bc : (c' == 0) = decide (c' = 0) := rfl
  have bd : (d' == 0) = decide (d' = 0) := rfl
  rw [ba, bb, bc, bd]
  by_cases za : a = 0 <;> by_cases zb : b' = 0 <;> by_cases zc : c' = 0 <;> by_cases zd : d' = 0 <;>
    cases b <;>
    simp only [za, zb, zc, zd, decide_true, decide_false, if_true, Bool.false_eq_true, if_false] <;>
    first
    | (by_cases z1 : c' = 1
       · simp only [z1, if_true]
         simp [readPlaces, digitAt, hanUnit, ht, hh, hd, ho, za, zb, zc, zd, hz0, hz1, t1, t2, h1, h2, d1, d2,
           o1, o2, t3, h3, d3, o3, sm1, sm2, sm3, sm4, z1]
         try omega
       · simp only [z1, if_false]
         simp [readPlaces, digitAt, hanUnit, ht, hh, hd, ho, za, zb, zc, zd, hz0, hz1, t1, t2, h1, h2, d1, d2,
           o1, o2, t3, h3, d3, o3, sm1, sm2, sm3, sm4, z1]
         try omega)
    | (simp [readPlaces, digitAt, hanUnit, ht, hh, hd, ho, za, zb, zc, zd, hz0, hz1, t1, t2, h1, h2, d1, d2,
        o1, o2, t3, h3, d3, o3, sm1, sm2, sm3, sm4]
       try omega)

theorem splitOn_append (c : Char) (a r : List Char) (h : ∀ d ∈ a, d ≠ c) :
    splitOn c (a ++ c :: r) = some (a, r) := by
  induction a with
  | nil => simp [splitOn]
  | cons d a ih =>
    rw [List.cons_append, splitOn, if_neg (h d (by simp)), ih fun e he => h e (by simp [he])]; rfl

theorem splitOn_none (c : Char) (a : List Char) (h : ∀ d ∈ a, d ≠ c) : splitOn c a = none := by
  induction a with
  | nil => rfl
  | cons d a ih => rw [splitOn, if_neg (h d (by simp)), ih fun e he => h e (by simp [he])]; rfl

theorem small_ne {c : Char} (h : smallHan c = true) : c ≠ '万' ∧ c ≠ '亿' ∧ c ≠ '负' := by
  simpa [smallHan, and_assoc] using h

/-- An empty middle block cannot be read. -/
theorem readWan_empty (l : List Char) : readWan true ('万' :: l) = none := by
  have : splitOn '万' ('万' :: l) = some ([], l) := by simp [splitOn]
  unfold readWan
  rw [this]
  have e : readPlaces 4 false true [] = some 0 := by simp [readPlaces, digitAt]
  simp only [e]
  cases readPlaces 4 false true l <;> rfl

theorem hanziNat_read (n : Nat) (hn : 1 ≤ n) (hm : n < 1000000000000) : ∃ cs, hanziNat n = .ok cs ∧
    cs ≠ ['零'] ∧ cs.head? ≠ some '负' ∧
    readPos cs = if n ≥ 100000000 ∧ n / 10000 % 10000 = 0 then none else some n := by
  have head : ∀ a r : List Char, a ≠ [] → (∀ c ∈ a, smallHan c = true) → (a ++ r).head? ≠ some '负' := by
    intro a r h1 h2 e
    cases a with
    | nil => exact h1 rfl
    | cons c a => simp at e; exact (small_ne (h2 c (by simp))).2.2 e
  unfold hanziNat
  by_cases h8 : n ≥ 100000000
  · obtain ⟨a, ea, ra, sa, _, za⟩ := hanziSub_block (n / 100000000) (by omega) false
    obtain ⟨b, eb, rb, sb, _, zb⟩ := hanziSub_block ((n / 10000) % 10000) (by omega) true
    obtain ⟨c, ec, rc, sc, _, zc⟩ := hanziSub_block (n % 10000) (by omega) true
    rw [if_pos h8, ea, eb, ec]
    have ha : a ≠ [] := fun e => by have := za.2 e; omega
    have e1 : a ++ ['亿'] ++ b ++ ['万'] ++ c = a ++ '亿' :: (b ++ '万' :: c) := by simp
    refine ⟨_, rfl, ?_, ?_, ?_⟩
    · intro e
      have : '万' ∈ a ++ ['亿'] ++ b ++ ['万'] ++ c := by simp
      rw [e] at this; simp at this
    · rw [e1]; exact head a _ ha sa
    · rw [e1]
      unfold readPos
      rw [splitOn_append '亿' a _ fun d hd => (small_ne (sa d hd)).2.1]
      dsimp only
      rw [ra]
      by_cases h0 : n / 10000 % 10000 = 0
      · rw [if_pos ⟨h8, h0⟩, zb.1 h0, List.nil_append, readWan_empty]; rfl
      · rw [if_neg (fun e => h0 e.2)]
        have hw : readWan true (b ++ '万' :: c) = some (n / 10000 % 10000 * 10000 + n % 10000) := by
          unfold readWan
          rw [splitOn_append '万' b _ fun d hd => (small_ne (sb d hd)).1]
          dsimp only
          rw [rb, rc]
          show (if n / 10000 % 10000 = 0 then none else _) = _
          rw [if_neg h0]
        rw [hw]
        show (if n / 100000000 = 0 then none else _) = _
        rw [if_neg (by omega)]
        congr 1; omega
  · rw [if_neg h8, if_neg (c := n ≥ 100000000 ∧ n / 10000 % 10000 = 0) (fun e => h8 e.1)]
    by_cases h4 : n ≥ 10000
    · obtain ⟨b, eb, rb, sb, _, zb⟩ := hanziSub_block (n / 10000) (by omega) false
      obtain ⟨c, ec, rc, sc, _, zc⟩ := hanziSub_block (n % 10000) (by omega) true
      rw [if_pos h4, eb, ec]
      have hb : b ≠ [] := fun e => by have := zb.2 e; omega
      have e1 : b ++ ['万'] ++ c = b ++ '万' :: c := by simp
      refine ⟨_, rfl, ?_, ?_, ?_⟩
      · intro e
        have : '万' ∈ b ++ ['万'] ++ c := by simp
        rw [e] at this; simp at this
      · rw [e1]; exact head b _ hb sb
      · rw [e1]
        unfold readPos
        rw [splitOn_none '亿' _ fun d hd => by
          rcases List.mem_append.1 hd with h | h
          · exact (small_ne (sb d h)).2.1
          · rcases List.mem_cons.1 h with rfl | h
            · decide
            · exact (small_ne (sc d h)).2.1]
        dsimp only
        unfold readWan
        rw [splitOn_append '万' b _ fun d hd => (small_ne (sb d hd)).1]
        dsimp only
        rw [rb, rc]
        show (if n / 10000 = 0 then none else _) = _
        rw [if_neg (by omega)]
        congr 1; omega
    · obtain ⟨c, ec, rc, sc, nc, zc⟩ := hanziSub_block n (by omega) false
      rw [if_neg h4]
      have hc : c ≠ [] := fun e => by have := zc.2 e; omega
      refine ⟨c, ec, nc, ?_, ?_⟩
      · have := head c [] hc sc; simpa using this
      · unfold readPos
        rw [splitOn_none '亿' c fun d hd => (small_ne (sc d hd)).2.1]
        dsimp only
        unfold readWan
        rw [splitOn_none '万' c fun d hd => (small_ne (sc d hd)).1]
        exact rc

/-! ## C31 -/

/-- `to_hanzi (n)` is a well-formed numeral that denotes `n`, unless `|n| >= 10^8` and the block of
the digits of 10^4, ..., 10^7 is 0. Missing: these numbers, for which it is false. -/
theorem C31_partial (n : Int) (hn : -2 ^ 31 ≤ n ∧ n < 2 ^ 31)
    (h : n.natAbs < 100000000 ∨ n.natAbs / 10000 % 10000 ≠ 0) :
    ∃ cs, toHanzi n = .ok cs ∧ readHanzi cs = some n := by
  unfold toHanzi
  by_cases h0 : n = 0
  · subst h0; exact ⟨_, rfl, by decide⟩
  rw [if_neg h0]
  by_cases hmin : n = -2 ^ 31
  · rw [if_pos hmin]; subst hmin; exact ⟨_, rfl, by decide +kernel⟩
  rw [if_neg hmin]
  by_cases hneg : n < 0
  · rw [if_pos hneg]
    obtain ⟨cs, e, h1, h2, h3⟩ := hanziNat_read (-n).toNat (by omega) (by omega)
    rw [if_neg (by omega)] at h3
    refine ⟨'负' :: cs, by rw [e]; rfl, ?_⟩
    unfold readHanzi
    rw [if_neg (fun e => absurd (List.cons.inj e).1 (by decide)), if_pos (by rfl), List.drop_one, List.tail_cons, h3]
    simp; omega
  · rw [if_neg hneg]
    obtain ⟨cs, e, h1, h2, h3⟩ := hanziNat_read n.toNat (by omega) (by omega)
    rw [if_neg (by omega)] at h3
    refine ⟨cs, e, ?_⟩
    unfold readHanzi
    rw [if_neg h1, if_neg h2, h3]
    simp; omega

example : (-2 ^ 31 : Int) ≤ 120030405 ∧ (120030405 : Int).natAbs / 10000 % 10000 ≠ 0 ∧
    toHanzi 120030405 = .ok ("一亿二千零三万零四百零五".toList) := by decide

/-- In the remaining cases, for both signs, the result is not a numeral: a 万 stands without digits before it. -/
theorem C31_violated (n : Int) (hn : -2 ^ 31 ≤ n ∧ n < 2 ^ 31) (h : 100000000 ≤ n.natAbs ∧ n.natAbs / 10000 % 10000 = 0) :
    ∃ cs, toHanzi n = .ok cs ∧ readHanzi cs = none := by
  obtain ⟨cs, e, h1, h2, h3⟩ := hanziNat_read n.natAbs (by omega) (by omega)
  rw [if_pos h] at h3
  unfold toHanzi
  rw [if_neg (by omega), if_neg (by omega)]
  by_cases hs : n < 0
  · rw [if_pos hs, show (-n).toNat = n.natAbs by omega, e, Res.ok_bind]
    refine ⟨_, rfl, ?_⟩
    unfold readHanzi
    rw [if_neg (by simp), if_pos List.head?_cons, List.drop_succ_cons, List.drop_zero, h3]; rfl
  · rw [if_neg hs, show n.toNat = n.natAbs by omega]
    refine ⟨cs, e, ?_⟩
    unfold readHanzi
    rw [if_neg h1, if_neg h2, h3]; rfl

example : toHanzi 100000000 = .ok ("一亿万".toList) := by decide

end Lolly.HanziProps
