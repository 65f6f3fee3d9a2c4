import Verif.Strings.DecimalText

/-!
# Property C129: reading doubles from decimal text
-/

set_option autoImplicit false
set_option exponentiation.threshold 3000

namespace Lolly.DecimalProps

open Lolly.Rounding Lolly.Conv Lolly.ConvProps
open Lolly.RoundingProps hiding one_pos
open Lolly.Decimal hiding asString

/-! ## Specification

As in `RoundingProps`, the integer `n` stands for the double `n * 2 ^ -1074`. -/

/-- The text `s` is a decimal literal, possibly with a sign, and stands for the number `m * 10 ^ e`. -/
def Literal (s : Bytes) (m e : Int) : Prop :=
  ∃ t k, Stands t k e ∧ (((s = t ∨ s = c! '+' :: t) ∧ m = k) ∨ (s = c! '-' :: t ∧ m = -(k : Int)))

/-- The distance between `m * 10 ^ e` and `n * 2 ^ -1074`, times `2 ^ 1074` and times the denominator of `10 ^ e`. -/
def gap (m e n : Int) : Nat := (m * (10 ^ e.toNat : Nat) * one - n * (10 ^ (-e).toNat : Nat)).natAbs

/-- A text stands for one number only. -/
theorem literal_unique {s : Bytes} {m e m' e' : Int} (h : Literal s m e) (h' : Literal s m' e') : m = m' ∧ e = e' := by
  obtain ⟨t, k, ht, hs⟩ := h
  obtain ⟨t', k', ht', hs'⟩ := h'
  obtain ⟨⟨c, u, hc, -, c1, c2⟩, -⟩ := stands_chars ht
  obtain ⟨⟨c', u', hc', -, c1', c2'⟩, -⟩ := stands_chars ht'
  have key : t = t' → k = k' ∧ e = e' := by
    intro et
    rw [← et] at ht'
    have := (scanNum_stands ht).symm.trans (scanNum_stands ht')
    injection this with this
    injection this with a b
    exact ⟨a, b⟩
  have hn : ∀ d : UInt8, c ≠ d → t ≠ d :: t' := by
    intro d hd e
    rw [hc] at e
    injection e with e _
    exact hd e
  have hn' : ∀ d : UInt8, c' ≠ d → t' ≠ d :: t := by
    intro d hd e
    rw [hc'] at e
    injection e with e _
    exact hd e
  rcases hs with ⟨rfl | rfl, rfl⟩ | ⟨rfl, rfl⟩
  · rcases hs' with ⟨h | h, rfl⟩ | ⟨h, rfl⟩
    · obtain ⟨rfl, rfl⟩ := key h
      exact ⟨rfl, rfl⟩
    · exact absurd h (hn _ c2)
    · exact absurd h (hn _ c1)
  · rcases hs' with ⟨h | h, rfl⟩ | ⟨h, rfl⟩
    · exact absurd h.symm (hn' _ c2')
    · injection h with _ h
      obtain ⟨rfl, rfl⟩ := key h
      exact ⟨rfl, rfl⟩
    · injection h with h _
      exact absurd h (by decide)
  · rcases hs' with ⟨h | h, rfl⟩ | ⟨h, rfl⟩
    · exact absurd h.symm (hn' _ c1')
    · injection h with h _
      exact absurd h (by decide)
    · injection h with _ h
      obtain ⟨rfl, rfl⟩ := key h
      exact ⟨rfl, rfl⟩

/-! ## Rounding to doubles -/

theorem round_rep {a b : Nat} (hb : 0 < b) : Rep (round a b) := by
  apply rep_of_dvd (k := shift a b)
  · exact Nat.dvd_mul_left _ _
  · apply round_le hb
    · exact Nat.pow_dvd_pow 2 (by omega)
    · exact Nat.le_of_lt (lt_shift hb)

theorem round_dist {a b : Nat} (hb : 0 < b) {d : Nat} (hd : Rep d) :
    ((round a b * b : Nat) - (a : Int)).natAbs ≤ ((d * b : Nat) - (a : Int)).natAbs := by
  have hp : 0 < b * 2 ^ shift a b := Nat.mul_pos hb (Nat.pow_pos (by decide))
  have e : round a b * b = rhe a (b * 2 ^ shift a b) * (b * 2 ^ shift a b) := by
    unfold round
    rw [Nat.mul_assoc, Nat.mul_comm (2 ^ shift a b) b]
  have hmul : ∀ c, 2 ^ shift a b * c * b = c * (b * 2 ^ shift a b) := by
    intro c
    rw [Nat.mul_comm _ c, Nat.mul_assoc, Nat.mul_comm (2 ^ shift a b) b]
  rw [e]
  by_cases hlt : 2 ^ (52 + shift a b) ≤ d
  · obtain ⟨c, rfl⟩ := hd.dvd hlt
    rw [hmul]
    exact rhe_dist a hp c
  · by_cases h0 : shift a b = 0
    · rw [h0, Nat.pow_zero, Nat.mul_one]
      exact rhe_dist a hb d
    · have h1 := shift_le hb h0
      rw [Nat.pow_add, Nat.mul_assoc, Nat.mul_comm (2 ^ shift a b) b] at h1
      apply rhe_dist_below a hp h1
      rw [Nat.mul_comm b, ← Nat.mul_assoc, ← Nat.pow_add]
      exact Nat.mul_le_mul_right b (by omega)

/-- No overflow up to the largest double. -/
theorem round_finite {a b d : Nat} (hb : 0 < b) (hd : Rep d) (hd2 : d < 2 ^ 2098) (h : a ≤ d * b) : round a b < 2 ^ 2098 := by
  by_cases hlt : 2 ^ (52 + shift a b) ≤ d
  · exact Nat.lt_of_le_of_lt (round_le hb (hd.dvd hlt) h) hd2
  · by_cases h0 : shift a b = 0
    · exact Nat.lt_of_le_of_lt (round_le hb (by rw [h0]; exact Nat.one_dvd d) h) hd2
    · have h1 := shift_le hb h0
      have h2 : (d + 1) * b ≤ 2 ^ (52 + shift a b) * b := Nat.mul_le_mul_right b (by omega)
      rw [Nat.add_mul] at h2
      omega

theorem nearest_eq (m : Nat) (e : Int) : nearest m e = nearestQ (m * one * 10 ^ e.toNat) (10 ^ (-e).toNat) := rfl

/-- What is read for a literal. -/
theorem read_eq {s : Bytes} {m e : Int} (h : Literal s m e) :
    asDouble s = if 0 ≤ m then nearest m.natAbs e else negate (nearest m.natAbs e) := by
  obtain ⟨t, k, ht, ⟨hs, rfl⟩ | ⟨rfl, rfl⟩⟩ := h
  · rw [if_pos (by omega), Int.natAbs_natCast]
    rcases hs with rfl | rfl
    · exact (asDouble_stands ht).1
    · exact (asDouble_stands ht).2.2
  · rw [(asDouble_stands ht).2.1, Int.natAbs_neg, Int.natAbs_natCast]
    by_cases hk : k = 0
    · subst hk
      rw [if_pos (by decide)]
      have : nearest 0 e = .fin 0 := by
        rw [nearest_eq, nearestQ_eq]
        have : round (0 * one * 10 ^ e.toNat) (10 ^ (-e).toNat) = 0 := by
          rw [Nat.zero_mul, Nat.zero_mul]
          exact Nat.le_zero.1 (round_le (pow10_pos _) (Nat.dvd_zero _) (Nat.zero_le _))
        rw [this]
        rfl
      rw [this]
      rfl
    · rw [if_neg (by omega)]

theorem gap_natAbs {m e n : Int} (h : (0 ≤ m ∧ 0 ≤ n) ∨ (m ≤ 0 ∧ n ≤ 0)) :
    gap m e n = ((n.natAbs * 10 ^ (-e).toNat : Nat) - ((m.natAbs * one * 10 ^ e.toNat : Nat) : Int)).natAbs := by
  unfold gap
  rw [Nat.mul_right_comm, Int.mul_assoc, ← Int.natCast_mul, Nat.mul_assoc]
  generalize 10 ^ (-e).toNat = A
  generalize 10 ^ e.toNat * one = B
  rw [Int.natCast_mul, Int.natCast_mul]
  rcases h with ⟨h1, h2⟩ | ⟨h1, h2⟩
  · rw [show ((m.natAbs : Nat) : Int) = m by omega, show ((n.natAbs : Nat) : Int) = n by omega]
    omega
  · rw [show ((m.natAbs : Nat) : Int) = -m by omega, show ((n.natAbs : Nat) : Int) = -n by omega, Int.neg_mul, Int.neg_mul]
    omega

/-- A number of the other sign is no nearer than its magnitude. -/
theorem gap_ge (m e n : Int) :
    ((n.natAbs * 10 ^ (-e).toNat : Nat) - ((m.natAbs * one * 10 ^ e.toNat : Nat) : Int)).natAbs ≤ gap m e n := by
  by_cases h : (0 ≤ m ∧ 0 ≤ n) ∨ (m ≤ 0 ∧ n ≤ 0)
  · rw [gap_natAbs h]; exact Nat.le_refl _
  · unfold gap
    rw [Nat.mul_right_comm, Int.mul_assoc, ← Int.natCast_mul, Nat.mul_assoc]
    generalize 10 ^ (-e).toNat = A
    generalize 10 ^ e.toNat * one = B
    rw [Int.natCast_mul, Int.natCast_mul]
    have e1 : (m.natAbs * B : Int) = (m * (B : Int)).natAbs := by rw [Int.natAbs_mul, Int.natAbs_natCast, Int.natCast_mul]
    have e2 : (n.natAbs * A : Int) = (n * (A : Int)).natAbs := by rw [Int.natAbs_mul, Int.natAbs_natCast, Int.natCast_mul]
    rw [e1, e2]
    omega

/-! ## Reading -/

theorem read_fin {s : Bytes} {m e : Int} (h : Literal s m e)
    (hf : round (m.natAbs * one * 10 ^ e.toNat) (10 ^ (-e).toNat) < 2 ^ 2098) :
    asDouble s = .fin (if 0 ≤ m then (round (m.natAbs * one * 10 ^ e.toNat) (10 ^ (-e).toNat) : Nat)
      else -((round (m.natAbs * one * 10 ^ e.toNat) (10 ^ (-e).toNat) : Nat) : Int)) := by
  rw [read_eq h, nearest_eq, nearestQ_eq, if_pos hf]
  split
  · rfl
  · rfl

theorem read_inf {s : Bytes} {m e : Int} (h : Literal s m e)
    (hf : ¬ round (m.natAbs * one * 10 ^ e.toNat) (10 ^ (-e).toNat) < 2 ^ 2098) : ∃ b, asDouble s = .inf b := by
  rw [read_eq h, nearest_eq, nearestQ_eq, if_neg hf]
  split
  · exact ⟨_, rfl⟩
  · exact ⟨_, rfl⟩

/-- C129: `as_double` of a decimal literal is a double, and no double is nearer to the number it stands for. A number
which is not beyond all doubles is not read as infinite. -/
theorem C129_read {s : Bytes} {m e : Int} (h : Literal s m e) :
    (∀ d, asDouble s = .fin d → IsDouble d ∧ ∀ d', IsDouble d' → gap m e d ≤ gap m e d') ∧
    (∀ d', IsDouble d' → m.natAbs * 10 ^ e.toNat * one ≤ d'.natAbs * 10 ^ (-e).toNat → ∃ d, asDouble s = .fin d) ∧
    asDouble s ≠ .nan := by
  have hb := pow10_pos (-e).toNat
  refine ⟨?_, ?_, ?_⟩
  · intro d hd
    by_cases hf : round (m.natAbs * one * 10 ^ e.toNat) (10 ^ (-e).toNat) < 2 ^ 2098
    · rw [read_fin h hf] at hd
      injection hd with hd
      have hda : d.natAbs = round (m.natAbs * one * 10 ^ e.toNat) (10 ^ (-e).toNat) := by
        rw [← hd]
        split
        · rw [Int.natAbs_natCast]
        · rw [Int.natAbs_neg, Int.natAbs_natCast]
      refine ⟨isDouble_of_rep (by rw [hda]; exact round_rep hb) (by rw [hda]; exact hf), ?_⟩
      intro d' hd'
      refine Nat.le_trans ?_ (gap_ge m e d')
      rw [gap_natAbs, hda]
      · exact round_dist hb hd'.rep
      · rw [← hd]
        split
        · exact .inl ⟨by assumption, by omega⟩
        · exact .inr ⟨by omega, by omega⟩
    · obtain ⟨b, hb⟩ := read_inf h hf
      rw [hb] at hd
      cases hd
  · intro d' hd' hle
    rw [Nat.mul_right_comm] at hle
    exact ⟨_, read_fin h (round_finite hb hd'.rep hd'.2 hle)⟩
  · by_cases hf : round (m.natAbs * one * 10 ^ e.toNat) (10 ^ (-e).toNat) < 2 ^ 2098
    · rw [read_fin h hf]
      intro e; cases e
    · obtain ⟨b, hb⟩ := read_inf h hf
      rw [hb]
      intro e; cases e

example : Literal (b!"-12.5e+07") (-125) 6 :=
  ⟨b!"12.5e+07", 125, ⟨b!"12", b!".5", b!"5", b!"e+07", 7, by unfold Digits Digit; decide, by unfold Digits Digit; decide,
    .inr ⟨rfl, by simp⟩, .inr ⟨c! 'e', b!"+", b!"07", .inl rfl, rfl, by simp, by unfold Digits Digit; decide, .inl ⟨.inr rfl, rfl⟩⟩, rfl, rfl, rfl⟩,
    .inr ⟨rfl, rfl⟩⟩

example : Literal (b!"3E2") 3 2 :=
  ⟨b!"3E2", 3, ⟨b!"3", [], [], b!"E2", 2, by unfold Digits Digit; decide, by unfold Digits Digit; decide,
    .inl ⟨rfl, rfl, by simp⟩, .inr ⟨c! 'E', [], b!"2", .inr rfl, rfl, by simp, by unfold Digits Digit; decide, .inl ⟨.inl rfl, rfl⟩⟩,
      rfl, rfl, rfl⟩, .inl ⟨.inl rfl, rfl⟩⟩

/-- C129: a literal which stands for a double is read as this double. -/
theorem C129_exact {s : Bytes} {m e d : Int} (h : Literal s m e) (hd : IsDouble d)
    (he : m * (10 ^ e.toNat : Nat) * one = d * (10 ^ (-e).toNat : Nat)) : asDouble s = .fin d := by
  obtain ⟨h1, h2, -⟩ := C129_read h
  have hle : m.natAbs * 10 ^ e.toNat * one ≤ d.natAbs * 10 ^ (-e).toNat := by
    have := congrArg Int.natAbs he
    rw [Int.natAbs_mul, Int.natAbs_mul, Int.natAbs_mul, Int.natAbs_natCast, Int.natAbs_natCast, Int.natAbs_natCast] at this
    exact Nat.le_of_eq this
  obtain ⟨x, hx⟩ := h2 d hd hle
  have hg := (h1 x hx).2 d hd
  have hz : gap m e d = 0 := by
    unfold gap
    rw [he]
    omega
  rw [hz] at hg
  have : x * (10 ^ (-e).toNat : Nat) = d * (10 ^ (-e).toNat : Nat) := by
    unfold gap at hg
    rw [he] at hg
    omega
  have hp := pow10_pos (-e).toNat
  have : x = d := Int.eq_of_mul_eq_mul_right (by omega) this
  rw [hx, this]

theorem literal_int (z : Int) : Literal (Conv.asString z) z 0 := by
  have hst : ∀ k, Stands (natDec k) k 0 := fun k =>
    ⟨natDec k, [], [], [], 0, natDec_digits k, (by intro c hc; cases hc), .inl ⟨rfl, rfl, (natDec_spec k).2.1⟩, .inl ⟨rfl, rfl⟩,
      (by simp), (by rw [List.append_nil, numeral_natDec]), rfl⟩
  unfold Conv.asString
  split
  · exact ⟨_, _, hst _, .inr ⟨rfl, by omega⟩⟩
  · exact ⟨_, _, hst _, .inl ⟨.inl rfl, by omega⟩⟩

theorem isDouble_int {z : Int} (h : z.natAbs ≤ 2 ^ 53) : IsDouble (z * one) := by
  apply isDouble_of_rep (rep_int h)
  rw [Int.natAbs_mul, Int.natAbs_natCast]
  have h1 : z.natAbs * one ≤ 2 ^ 53 * one := Nat.mul_le_mul_right _ h
  have h2 : 2 ^ 53 * one < 2 ^ 2098 := by unfold one; decide +kernel
  omega

/-- C129: the decimal text of an integer of at most 53 bits, hence of every `int`, is read as this integer. -/
theorem C129_read_int {z : Int} (h : z.natAbs ≤ 2 ^ 53) : asDouble (Conv.asString z) = .fin (z * one) := by
  apply C129_exact (literal_int z) (isDouble_int h)
  show z * ((1 : Nat) : Int) * one = z * one * ((1 : Nat) : Int)
  rw [Int.mul_right_comm]

/-- C129: a text without digits and without the letters `n` and `N` of `inf` and `NaN` is read as zero. -/
theorem C129_no_number {s : Bytes} (h : ∀ c ∈ s, ¬ Digit c ∧ c ≠ c! 'n' ∧ c ≠ c! 'N') : asDouble s = .fin 0 := by
  have key : ∀ t : Bytes, (∀ c ∈ t, c ∈ s) → scanAbs t = none := by
    intro t ht
    have hd : ∀ c ∈ t, isDig c = false := by
      intro c hc
      have := (h c (ht c hc)).1
      unfold Digit at this
      simp only [isDig, decide_eq_false_iff_not]
      exact this
    have htw : ∀ l : Bytes, (∀ c ∈ l, isDig c = false) → l.takeWhile isDig = [] ∧ l.dropWhile isDig = l := by
      intro l hl
      cases l with
      | nil => exact ⟨rfl, rfl⟩
      | cons c l => simp [hl c List.mem_cons_self]
    have hn : scanNum t = none := by
      unfold scanNum
      rw [(htw t hd).1, (htw t hd).2]
      have : (scanFrac t).1 = [] := by
        unfold scanFrac
        cases t with
        | nil => rfl
        | cons c t =>
          dsimp only
          split
          · exact (htw t (fun d h' => hd d (List.mem_cons_of_mem _ h'))).1
          · rfl
      dsimp only
      rw [this]
      rfl
    have hlow : ∀ c : UInt8, lower c = c! 'n' → c = c! 'n' ∨ c = c! 'N' := forall_byte (by decide +kernel)
    have hp : ∀ w : Bytes, c! 'n' ∈ w → w.isPrefixOf (t.map lower) = false := by
      intro w hw
      apply Classical.byContradiction
      intro hc
      obtain ⟨r, hr⟩ := (show w <+: t.map lower by simpa using hc)
      obtain ⟨c, hc, he⟩ := List.mem_map.mp
        (show c! 'n' ∈ t.map lower by rw [← hr]; exact List.mem_append_left _ hw)
      rcases hlow c he with he | he
      · exact (h c (ht c hc)).2.1 he
      · exact (h c (ht c hc)).2.2 he
    unfold scanAbs
    rw [hn, hp (b!"inf") (by decide), hp (b!"nan") (by decide)]
    rfl
  unfold asDouble scanDouble
  have hmem : ∀ c ∈ (s.takeWhile (· ≠ 0)).dropWhile isSpace, c ∈ s := fun c hc =>
    (List.takeWhile_sublist _).subset ((List.dropWhile_sublist _).subset hc)
  cases hl : (s.takeWhile (· ≠ 0)).dropWhile isSpace with
  | nil => rfl
  | cons c t =>
    rw [hl] at hmem
    have h1 := key t (fun d hd => hmem d (List.mem_cons_of_mem _ hd))
    have h2 := key (c :: t) hmem
    dsimp only
    rw [h1, h2]
    split
    · rfl
    · split
      · rfl
      · rfl

/-- White space of the locale "C": tab, line feed, vertical tab, form feed, carriage return and space. -/
def White (c : UInt8) : Prop := c ∈ [9, 10, 11, 12, 13, (32 : UInt8)]

theorem isSpace_iff : ∀ c : UInt8, isSpace c = true ↔ White c := by
  unfold White
  exact forall_byte (by decide +kernel)

/-- C129: white space before a number does not matter, whatever follows it. -/
theorem C129_white {w : Bytes} (h : ∀ c ∈ w, White c) (s : Bytes) : asDouble (w ++ s) = asDouble s := by
  unfold asDouble scanDouble
  congr 1
  have : ((w ++ s).takeWhile (· ≠ 0)).dropWhile isSpace = (s.takeWhile (· ≠ 0)).dropWhile isSpace := by
    induction w with
    | nil => rfl
    | cons c w ih =>
      have hc := h c List.mem_cons_self
      have h0 : c ≠ 0 := by
        intro e
        rw [e] at hc
        unfold White at hc
        revert hc
        decide
      have hs := (isSpace_iff c).mpr hc
      rw [List.cons_append, List.takeWhile_cons, if_pos (by simpa using h0), List.dropWhile_cons, if_pos hs]
      exact ih (fun c hc => h c (List.mem_cons_of_mem _ hc))
  rw [this]

example : ∀ c ∈ [(9 : UInt8), 10, 11, 12, 13, 32], White c := by unfold White; decide

/-- C129: any other character before a number is not passed over: the text is then not read as a number. -/
theorem C129_other {c : UInt8} {s : Bytes} (hw : ¬ White c) (hd : ¬ Digit c)
    (hc : c ∉ [c! '+', c! '-', c! '.', c! 'i', c! 'I', c! 'n', c! 'N']) : asDouble (c :: s) = .fin 0 := by
  by_cases h0 : c = 0
  · subst h0
    rfl
  have hs : isSpace c = false := by
    cases e : isSpace c
    · rfl
    · exact absurd ((isSpace_iff c).mp e) hw
  have hdg : isDig c = false := by
    unfold Digit at hd
    simp only [isDig, decide_eq_false_iff_not]
    exact hd
  simp only [List.mem_cons, List.not_mem_nil, or_false, not_or] at hc
  obtain ⟨h1, h2, h3, h4, h5, h6, h7⟩ := hc
  have hli : lower c ≠ c! 'i' := fun e => by
    rcases (show ∀ c : UInt8, lower c = c! 'i' → c = c! 'i' ∨ c = c! 'I' from forall_byte (by decide +kernel)) c e with e | e
    · exact h4 e
    · exact h5 e
  have hln : lower c ≠ c! 'n' := fun e => by
    rcases (show ∀ c : UInt8, lower c = c! 'n' → c = c! 'n' ∨ c = c! 'N' from forall_byte (by decide +kernel)) c e with e | e
    · exact h6 e
    · exact h7 e
  have hpre : ∀ (d : UInt8) (w t : Bytes), d ≠ lower c → (d :: w).isPrefixOf ((c :: t).map lower) = false := by
    intro d w t hne
    rw [List.map_cons, List.isPrefixOf_cons_cons]
    simp [hne]
  unfold asDouble scanDouble
  rw [List.takeWhile_cons, if_pos (by simpa using h0), List.dropWhile_cons, if_neg (by simp [hs])]
  dsimp only
  rw [if_neg h2, if_neg h1]
  generalize s.takeWhile (· ≠ 0) = t
  have hn : scanNum (c :: t) = none := by
    unfold scanNum
    rw [List.takeWhile_cons, List.dropWhile_cons, hdg]
    simp only [Bool.false_eq_true, if_false]
    have hf : scanFrac (c :: t) = ([], c :: t) := by
      unfold scanFrac
      dsimp only
      rw [if_neg h3]
    rw [hf]
    rfl
  unfold scanAbs
  rw [hn]
  dsimp only
  rw [hpre (c! 'i') _ t (Ne.symm hli), hpre (c! 'n') _ t (Ne.symm hln)]
  rfl

example : ¬ White (c! 'x') ∧ ¬ Digit (c! 'x') := by unfold White Digit; decide

end Lolly.DecimalProps
