import Verif.Strings.DecimalProps

/-!
# Property C129: doubles read from the text which was written for them
-/

set_option autoImplicit false
set_option exponentiation.threshold 3000

namespace Lolly.DecimalProps

open Lolly.Rounding Lolly.Conv Lolly.ConvProps
open Lolly.RoundingProps hiding one_pos
open Lolly.Decimal hiding asString

theorem low_of {P N u L : Nat} (b : 2 * N ≤ 2 * P + u) (c : 10 ^ 5 * u ≤ N) (h : 2 ^ 24 * L ≤ N) (hL : 0 < L) : 10 ^ 7 * L < P := by
  omega

theorem six_top : six (2 ^ 2098) = (179769, 638) :=
  six_unique (by decide) (by decide) (by decide) (by unfold one; decide +kernel) (by unfold one; decide +kernel)

theorem six_inRange {n : Nat} (h1 : 2 ^ 24 ≤ n) (h2 : n < 2 ^ 2098) : InRange (six n).1 (six n).2 := by
  have hn : n ≠ 0 := by
    intro e
    rw [e] at h1
    exact absurd h1 (by decide)
  obtain ⟨a1, a2, a3, -⟩ := six_ranges hn h2
  refine ⟨a1, a2, a3, ?_, ?_⟩
  · obtain ⟨-, b⟩ := six_error hn
    obtain ⟨h6, c, -⟩ := expo_spec hn
    have e : 10 ^ expo n * one = 10 ^ 5 * (10 ^ (expo n - 5) * one) := by
      rw [← Nat.mul_assoc, ← pow10_split (show 5 + (expo n - 5) = expo n by omega)]
    rw [e] at c
    exact low_of b c (Nat.mul_le_mul_right _ h1) (pow10_pos _)
  · have := six_mono hn (Nat.le_of_lt h2)
    rw [six_top] at this
    exact this

theorem exp_ge {y j : Nat} (h : 6 ≤ y) : -330 ≤ (y : Int) - 335 + j := by omega

theorem signed_neg (n : Int) {m : Nat} (hm : m ≠ 0) : (if n < 0 then -(m : Int) else m) < 0 ↔ n < 0 := by
  by_cases hs : n < 0
  · rw [if_pos hs]
    exact ⟨fun _ => hs, fun _ => by omega⟩
  · rw [if_neg hs]
    exact ⟨fun h => by omega, fun h => absurd h hs⟩

theorem asString_zero : Conv.asString 0 = b!"0" := by
  unfold Conv.asString natDec
  rfl

theorem asDouble_zero : asDouble (fmtG (.fin 0)) = .fin 0 := by
  have := C129_read_int (z := 0) (by decide)
  rw [Int.zero_mul, asString_zero] at this
  rw [fmtG_eq, if_pos rfl]
  exact this

theorem fmtG_six {n : Int} {q y : Nat} (hn : n ≠ 0) (h : six n.natAbs = (q, y)) :
    fmtG (.fin n) = (if n < 0 then b!"-" else []) ++ layout q y := by
  rw [fmtG_eq, if_neg hn, h]

theorem sign_congr {n d : Int} (h : d < 0 ↔ n < 0) : (if d < 0 then b!"-" else []) = if n < 0 then b!"-" else [] := by
  by_cases hs : n < 0
  · rw [if_pos hs, if_pos (h.2 hs)]
  · rw [if_neg hs, if_neg (fun e => hs (h.1 e))]

/-- C129, positive part: what is read from the text of a double is written as the same text. Missing for the full
statement: the doubles below `2 ^ -1050`, which have fewer than seven digits of precision; there it does not hold, see
`C129_stable_violated`. -/
theorem C129_stable_partial {n : Int} (h : IsDouble n) (hs : n = 0 ∨ 2 ^ 24 ≤ n.natAbs) :
    ∃ s, Decimal.asString (.fin n) = .ok s ∧ Decimal.asString (asDouble s) = .ok s := by
  refine ⟨_, (print_ok (fmtG_length h)).1, ?_⟩
  by_cases hn : n = 0
  · subst hn
    rw [asDouble_zero]
    exact (print_ok (fmtG_length h)).1
  · have hs : 2 ^ 24 ≤ n.natAbs := hs.resolve_left hn
    obtain ⟨m, j, a, b, -⟩ := fmtG_fin hn h.2
    have hr := six_inRange hs h.2
    obtain ⟨T, -, t2, t3⟩ := common (exp_ge (j := j) hr.2.2.1)
    have key := scaled hr.2.2.1 b t3
    have hma : (if n < 0 then -(m : Int) else m).natAbs = m := by
      by_cases hs : n < 0
      · rw [if_pos hs, Int.natAbs_neg, Int.natAbs_natCast]
      · rw [if_neg hs, Int.natAbs_natCast]
    have hm0 : m ≠ 0 := by
      intro e
      rw [e, Nat.zero_mul] at b
      have := hr.1
      rw [← b] at this
      exact absurd this (by decide)
    obtain ⟨d, d1, d2, d3, d4, d5⟩ := read_write a hr t2 rfl (by rw [hma, ← Nat.mul_assoc]; exact key)
    have hsg : d < 0 ↔ n < 0 := d5.trans (signed_neg n hm0)
    have hf : fmtG (.fin d) = fmtG (.fin n) := by
      rw [fmtG_six d2 d4, fmtG_eq n, if_neg hn, sign_congr hsg]
    rw [d1, ← hf]
    refine (print_ok ?_).1
    rw [hf]
    exact fmtG_length h

/-- C129: a decimal with at most six digits is still the same number after it was read and written. -/
theorem C129_short {s : Bytes} {m e : Int} (h : Literal s m e) (hm : m.natAbs < 10 ^ 6) (he : -316 ≤ e ∧ e ≤ 302) :
    ∃ d t m' e', asDouble s = .fin d ∧ Decimal.asString (.fin d) = .ok t ∧ Literal t m' e' ∧
      m * (10 ^ e.toNat * 10 ^ (-e').toNat : Nat) = m' * (10 ^ e'.toNat * 10 ^ (-e).toNat : Nat) := by
  by_cases hm0 : m = 0
  · subst hm0
    have hd : asDouble s = .fin 0 := C129_exact h ⟨⟨0, 0, by decide, rfl⟩, by decide⟩ (by rw [Int.zero_mul, Int.zero_mul, Int.zero_mul])
    refine ⟨0, b!"0", 0, 0, hd, rfl, ?_, ?_⟩
    · have := literal_int 0
      unfold Conv.asString natDec at this
      exact this
    · rw [Int.zero_mul, Int.zero_mul]
  · -- six digits
    have hl0 : m.natAbs ≠ 0 := by omega
    have l1 := log10_le hl0
    have l2 := lt_log10 m.natAbs
    have hlog : log10 m.natAbs ≤ 5 := by
      have : 10 ^ log10 m.natAbs < 10 ^ 6 := Nat.lt_of_le_of_lt l1 hm
      have := (Nat.pow_lt_pow_iff_right (by decide)).1 this
      omega
    obtain ⟨t, ht⟩ : ∃ t, log10 m.natAbs + t = 5 := ⟨5 - log10 m.natAbs, by omega⟩
    obtain ⟨y, hy⟩ : ∃ y : Nat, (y : Int) = e - t + 335 := ⟨(e - t + 335).toNat, by omega⟩
    have q1 : 10 ^ 5 ≤ m.natAbs * 10 ^ t := by
      rw [← ht, Nat.pow_add]
      exact Nat.mul_le_mul_right _ l1
    have q2 : m.natAbs * 10 ^ t < 10 ^ 6 := by
      rw [show 6 = log10 m.natAbs + 1 + t by omega, Nat.pow_add]
      exact Nat.mul_lt_mul_of_pos_right l2 (pow10_pos t)
    obtain ⟨T, t1, t2, t3⟩ := common (e := e) (by omega)
    have hz : (e + 330).toNat = t + (y - 5) := by omega
    have key : m.natAbs * 10 ^ (e + 330).toNat = m.natAbs * 10 ^ t * 10 ^ (y - 5) := by
      rw [hz, Nat.pow_add, Nat.mul_assoc]
    have hr : InRange (m.natAbs * 10 ^ t) y := by
      refine ⟨q1, q2, by omega, ?_, ?_⟩
      · rw [← key]
        have w1 : 10 ^ 7 * 10 ^ 330 < 10 ^ 14 * one := by unfold one; decide +kernel
        have w2 : 10 ^ 14 ≤ m.natAbs * 10 ^ (e + 330).toNat :=
          Nat.le_trans (Nat.pow_le_pow_right (by decide) (by omega)) (Nat.le_mul_of_pos_left _ (by omega))
        exact Nat.lt_of_lt_of_le w1 (Nat.mul_le_mul_right one w2)
      · rw [← key]
        have w1 : m.natAbs * 10 ^ (e + 330).toNat ≤ 10 ^ 6 * 10 ^ 632 :=
          Nat.mul_le_mul (Nat.le_of_lt hm) (Nat.pow_le_pow_right (by decide) (by omega))
        exact Nat.le_trans w1 (by decide +kernel)
    obtain ⟨d, d1, d2, d3, d4, d5⟩ := read_write h hr t2 t3 key
    have hdd : IsDouble d := ((C129_read h).1 d d1).1
    obtain ⟨m', e', hl', -, T', s1, s2, s3⟩ := printed_literal hdd
    refine ⟨d, _, m', e', d1, (print_ok (fmtG_length hdd)).1, hl', ?_⟩
    have hV : m * (10 ^ e.toNat * T : Nat) = printed d := by
      unfold printed
      rw [if_neg d2, d4, t3]
      dsimp only
      rw [← key]
      by_cases hs : m < 0
      · rw [if_pos (d5.2 hs), Int.natCast_mul, ← Int.neg_mul, show -((m.natAbs : Nat) : Int) = m by omega]
      · rw [if_neg (fun h => hs (d5.1 h)), Int.natCast_mul, show ((m.natAbs : Nat) : Int) = m by omega]
    exact Int.le_antisymm (cross_le t1 s1 t2 s2 hV s3 (Int.le_refl _)) (cross_le s1 t1 s2 t2 s3 hV (Int.le_refl _))

example : Literal (b!"0.1") 1 (-1) ∧ Literal (b!"-2.5e300") (-25) 299 := by
  constructor
  · exact ⟨b!"0.1", 1, ⟨b!"0", b!".1", b!"1", [], 0, by unfold Digits Digit; decide, by unfold Digits Digit; decide,
      .inr ⟨rfl, by simp⟩, .inl ⟨rfl, rfl⟩, rfl, rfl, rfl⟩, .inl ⟨.inl rfl, rfl⟩⟩
  · exact ⟨b!"2.5e300", 25, ⟨b!"2", b!".5", b!"5", b!"e300", 300, by unfold Digits Digit; decide, by unfold Digits Digit; decide,
      .inr ⟨rfl, by simp⟩, .inr ⟨c! 'e', [], b!"300", .inl rfl, rfl, by simp, by unfold Digits Digit; decide, .inl ⟨.inl rfl, rfl⟩⟩, rfl, rfl, rfl⟩,
      .inr ⟨rfl, rfl⟩⟩

/-! ## Integers -/

theorem six_int {z l t : Nat} (h1 : 10 ^ l ≤ z) (h2 : z < 10 ^ (l + 1)) (ht : l + t = 5) :
    six (z * one) = (z * 10 ^ t, 330 + l) := by
  have q1 : 10 ^ 5 ≤ z * 10 ^ t := by
    rw [← ht, Nat.pow_add]
    exact Nat.mul_le_mul_right _ h1
  have q2 : z * 10 ^ t < 10 ^ 6 := by
    rw [show 6 = l + 1 + t by omega, Nat.pow_add]
    exact Nat.mul_lt_mul_of_pos_right h2 (pow10_pos t)
  have e : z * 10 ^ t * 10 ^ (330 + l - 5) * one = z * one * 10 ^ 330 := by
    rw [Nat.mul_assoc z, ← Nat.pow_add, show t + (330 + l - 5) = 330 by omega, Nat.mul_right_comm]
  apply six_unique q1 q2 (by omega)
  · rw [e]
    exact Nat.lt_add_of_pos_right (Nat.mul_pos (pow10_pos _) one_pos)
  · rw [e]
    exact Nat.lt_add_of_pos_right (Nat.mul_pos (pow10_pos _) one_pos)

theorem layout_int {z l t : Nat} (h1 : 10 ^ l ≤ z) (h2 : z < 10 ^ (l + 1)) (ht : l + t = 5) :
    layout (z * 10 ^ t) (330 + l) = natDec z := by
  have hz : z ≠ 0 := by
    have := pow10_pos l
    omega
  have hl := natDec_length h1 h2
  unfold layout
  rw [if_neg (by omega), if_neg (by omega), natDec_zeros hz, show 330 + l - 329 = l + 1 by omega]
  rw [← hl, List.take_left, List.drop_left]
  unfold fraction
  rw [strip_zeros, if_pos rfl, List.append_nil]

/-- C129: an integer of at most six digits is written like an `int`, and read back exactly. -/
theorem C129_integer {z : Int} (h : z.natAbs < 10 ^ 6) :
    Decimal.asString (.fin (z * one)) = .ok (Conv.asString z) ∧ asDouble (Conv.asString z) = .fin (z * one) := by
  have h53 : z.natAbs ≤ 2 ^ 53 := Nat.le_trans (Nat.le_of_lt h) (by decide)
  refine ⟨?_, C129_read_int h53⟩
  have hl := fmtG_length (isDouble_int h53)
  rw [(print_ok hl).1]
  congr 1
  clear hl
  by_cases h0 : z = 0
  · subst h0
    rw [Int.zero_mul, asString_zero, fmtG_eq, if_pos rfl]
  · have hz : z.natAbs ≠ 0 := by omega
    have l1 := log10_le hz
    have l2 := lt_log10 z.natAbs
    have hlog : log10 z.natAbs ≤ 5 := by
      have : 10 ^ log10 z.natAbs < 10 ^ 6 := Nat.lt_of_le_of_lt l1 h
      have := (Nat.pow_lt_pow_iff_right (by decide)).1 this
      omega
    obtain ⟨t, ht⟩ : ∃ t, log10 z.natAbs + t = 5 := ⟨5 - log10 z.natAbs, by omega⟩
    have hp : (0 : Int) < one := Int.natCast_pos.2 one_pos
    have hne : z * one ≠ 0 := Int.mul_ne_zero h0 (by omega)
    have h6 : six (z * one).natAbs = (z.natAbs * 10 ^ t, 330 + log10 z.natAbs) := by
      rw [Int.natAbs_mul, Int.natAbs_natCast]
      exact six_int l1 l2 ht
    rw [fmtG_six hne h6, layout_int l1 l2 ht]
    have hs : z * one < 0 ↔ z < 0 := by
      constructor
      · intro hc
        apply Classical.byContradiction
        intro hz
        have := Int.mul_nonneg (show 0 ≤ z by omega) (Int.le_of_lt hp)
        omega
      · intro hz
        exact Int.mul_neg_of_neg_of_pos hz hp
    rw [sign_congr hs]
    unfold Conv.asString
    by_cases hz : z < 0
    · rw [if_pos hz, if_pos hz, show (-z).toNat = z.natAbs by omega]
      rfl
    · rw [if_neg hz, if_neg hz, show z.toNat = z.natAbs by omega]
      rfl

/-! ## Special values and what is lost -/

/-- C129: infinities and NaN are written and read back; `is_double` does not accept their texts. -/
theorem C129_special : Decimal.asString (.inf false) = .ok (b!"inf") ∧ Decimal.asString (.inf true) = .ok (b!"-inf") ∧
    Decimal.asString .nan = .ok (b!"nan") ∧ asDouble (b!"inf") = .inf false ∧ asDouble (b!"-inf") = .inf true ∧
    asDouble (b!"nan") = .nan ∧ isDouble (rd (b!"inf")) 3 = .ok false ∧ isDouble (rd (b!"-inf")) 4 = .ok false ∧
    isDouble (rd (b!"nan")) 3 = .ok false := by
  refine ⟨rfl, rfl, rfl, ?_, ?_, ?_, by decide, by decide, by decide⟩
  · decide
  · decide
  · decide

theorem text_million : layout 123457 336 = b!"1.23457e+06" := by
  simp [layout, natDec, fraction, strip, exponent]

theorem text_small : layout 100000 12 = b!"1e-318" := by
  simp [layout, natDec, fraction, strip, exponent]

theorem text_smaller : layout 999999 11 = b!"9.99999e-319" := by
  simp [layout, natDec, fraction, strip, exponent]

theorem print_six {n : Int} {q y : Nat} {s : Bytes} (h : IsDouble n) (hn : 0 < n) (h6 : six n.natAbs = (q, y)) (hs : layout q y = s) :
    Decimal.asString (.fin n) = .ok s := by
  rw [(print_ok (fmtG_length h)).1, fmtG_six (by omega) h6, if_neg (by omega), hs]
  rfl

/-- A double is in general not the one which is read from its text: 1234567 is written as "1.23457e+06", which is read
as 1234570. -/
theorem C129_round_trip_violated : IsDouble (1234567 * one) ∧
    Decimal.asString (.fin (1234567 * one)) = .ok (b!"1.23457e+06") ∧
    asDouble (b!"1.23457e+06") = .fin (1234570 * one) ∧ (1234570 * one : Int) ≠ 1234567 * one := by
  have h := isDouble_int (z := 1234567) (by decide)
  refine ⟨h, ?_, ?_, ?_⟩
  · apply print_six h (Int.mul_pos (by decide) (Int.natCast_pos.2 one_pos)) _ text_million
    rw [Int.natAbs_mul, Int.natAbs_natCast]
    exact six_unique_ge (by decide) (by decide) (by unfold one; decide +kernel) (by unfold one; decide +kernel)
      (by unfold one; decide +kernel)
  · apply C129_exact (m := 123457) (e := 1) _ (isDouble_int (z := 1234570) (by decide))
    · rfl
    · exact ⟨b!"1.23457e+06", 123457, ⟨b!"1", b!".23457", b!"23457", b!"e+06", 6, by unfold Digits Digit; decide,
        by unfold Digits Digit; decide, .inr ⟨rfl, by simp⟩,
        .inr ⟨c! 'e', b!"+", b!"06", .inl rfl, rfl, by simp, by unfold Digits Digit; decide, .inl ⟨.inr rfl, rfl⟩⟩, rfl, rfl, rfl⟩, .inl ⟨.inl rfl, rfl⟩⟩
  · intro e
    have := Int.eq_of_mul_eq_mul_right (Int.ne_of_gt (Int.natCast_pos.2 one_pos)) e
    exact absurd this (by decide)

/-- For the smallest doubles even the text changes: `202403 * 2 ^ -1074` is written as "1e-318", and what is read from
that is written as "9.99999e-319". -/
theorem C129_stable_violated : IsDouble 202403 ∧ Decimal.asString (.fin 202403) = .ok (b!"1e-318") ∧
    asDouble (b!"1e-318") = .fin 202402 ∧ Decimal.asString (.fin 202402) = .ok (b!"9.99999e-319") := by
  have h1 : IsDouble 202403 := ⟨⟨202403, 0, by decide, rfl⟩, by decide +kernel⟩
  have h2 : IsDouble 202402 := ⟨⟨202402, 0, by decide, rfl⟩, by decide +kernel⟩
  refine ⟨h1, ?_, ?_, ?_⟩
  · exact print_six h1 (by decide)
      (six_unique (by decide) (by decide) (by decide) (by unfold one; decide +kernel) (by unfold one; decide +kernel)) text_small
  · have hl : Literal (b!"1e-318") 1 (-318) :=
      ⟨b!"1e-318", 1, ⟨b!"1", [], [], b!"e-318", -318, (by unfold Digits Digit; decide), (by intro c hc; cases hc),
        .inl ⟨rfl, rfl, by simp⟩, .inr ⟨c! 'e', b!"-", b!"318", .inl rfl, rfl, by simp, by unfold Digits Digit; decide, .inr ⟨rfl, rfl⟩⟩, rfl, rfl, rfl⟩,
        .inl ⟨.inl rfl, rfl⟩⟩
    have hr : round ((1 : Int).natAbs * one * 10 ^ (-318 : Int).toNat) (10 ^ (-(-318) : Int).toNat) = 202402 := by
      decide +kernel
    rw [read_fin hl (by rw [hr]; decide +kernel), hr]
    rfl
  · exact print_six h2 (by decide)
      (six_unique_ge (by decide) (by decide) (by unfold one; decide +kernel) (by unfold one; decide +kernel)
        (by unfold one; decide +kernel)) text_smaller

example : IsDouble (3 * one) ∧ IsDouble (-(2 ^ 1073 : Nat)) ∧ 2 ^ 24 ≤ (-(2 ^ 1073 : Nat) : Int).natAbs :=
  ⟨isDouble_int (z := 3) (by decide), ⟨⟨-1, 1073, by decide, by rfl⟩, by decide +kernel⟩, by decide +kernel⟩

end Lolly.DecimalProps
