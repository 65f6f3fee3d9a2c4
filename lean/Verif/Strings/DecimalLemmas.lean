import Verif.Strings.Decimal

/-!
# Lemmas on rounding to six digits and to doubles
-/

set_option autoImplicit false
set_option exponentiation.threshold 3000

namespace Lolly.Decimal

open Lolly.Rounding Lolly.Conv

/-! ## The nearest integer -/

theorem rhe_bounds (a : Nat) {b : Nat} (hb : 0 < b) : 2 * (rhe a b * b) ≤ 2 * a + b ∧ 2 * a ≤ 2 * (rhe a b * b) + b := by
  have h := Nat.div_add_mod a b
  have hm := Nat.mod_lt a hb
  rw [Nat.mul_comm] at h
  unfold rhe
  split
  · omega
  · rw [Nat.add_mul]
    omega

theorem rhe_unique {a b q : Nat} (h1 : 2 * a < 2 * (q * b) + b) (h2 : 2 * (q * b) < 2 * a + b) : rhe a b = q := by
  have hb : 0 < b := by omega
  obtain ⟨g1, g2⟩ := rhe_bounds a hb
  rcases Nat.lt_trichotomy (rhe a b) q with h | h | h
  · have : (rhe a b + 1) * b ≤ q * b := Nat.mul_le_mul_right b h
    rw [Nat.add_mul] at this
    omega
  · exact h
  · have : (q + 1) * b ≤ rhe a b * b := Nat.mul_le_mul_right b h
    rw [Nat.add_mul] at this
    omega

theorem rhe_mul (q : Nat) {b : Nat} (hb : 0 < b) : rhe (q * b) b = q := rhe_unique (by omega) (by omega)

theorem rhe_scale (a b : Nat) {c : Nat} (hc : 0 < c) : rhe (a * c) (b * c) = rhe a b := by
  unfold rhe
  rw [Nat.mul_div_mul_right a b hc, Nat.mul_mod_mul_right]
  have e1 : 2 * (a % b * c) < b * c ↔ 2 * (a % b) < b := by
    rw [← Nat.mul_assoc]; exact Nat.mul_lt_mul_right hc
  have e2 : 2 * (a % b * c) = b * c ↔ 2 * (a % b) = b := by
    rw [← Nat.mul_assoc]; exact Nat.mul_left_inj (by omega)
  simp only [e1, e2]

theorem rhe_mono {a a' b : Nat} (hb : 0 < b) (h : a ≤ a') : rhe a b ≤ rhe a' b := by
  obtain ⟨g1, g2⟩ := rhe_bounds a hb
  obtain ⟨g3, g4⟩ := rhe_bounds a' hb
  apply Classical.byContradiction
  intro hc
  have hlt : rhe a' b + 1 ≤ rhe a b := by omega
  have := Nat.mul_le_mul_right b hlt
  rw [Nat.add_mul] at this
  -- both are at the same distance from `a = a'`
  have e : a = a' := by omega
  subst e
  omega

/-- An integer bound on `a / b` is one on the nearest integer. -/
theorem le_rhe {a b q : Nat} (hb : 0 < b) (h : q * b ≤ a) : q ≤ rhe a b := by
  have := rhe_mono hb h
  rwa [rhe_mul q hb] at this

theorem rhe_le {a b q : Nat} (hb : 0 < b) (h : a ≤ q * b) : rhe a b ≤ q := by
  have := rhe_mono hb h
  rwa [rhe_mul q hb] at this

/-! ## Decimal logarithms -/

theorem log10_le {n : Nat} (hn : n ≠ 0) : 10 ^ log10 n ≤ n := by
  induction n using Nat.strongRecOn with
  | ind n ih =>
    rw [log10]
    split
    · simp; omega
    · have := ih (n / 10) (by omega) (by omega)
      rw [Nat.pow_succ]
      omega

theorem lt_log10 (n : Nat) : n < 10 ^ (log10 n + 1) := by
  induction n using Nat.strongRecOn with
  | ind n ih =>
    rw [log10]
    split
    · simpa using ‹n < 10›
    · have := ih (n / 10) (by omega)
      rw [Nat.pow_succ]
      omega

theorem log10_unique {n y : Nat} (h1 : 10 ^ y ≤ n) (h2 : n < 10 ^ (y + 1)) : log10 n = y := by
  have h0 : n ≠ 0 := by
    have := Nat.pow_pos (n := y) (show 0 < 10 by decide)
    omega
  have a := log10_le h0
  have b := lt_log10 n
  have c : log10 n < y + 1 := (Nat.pow_lt_pow_iff_right (by decide)).1 (Nat.lt_of_le_of_lt a h2)
  have d : y < log10 n + 1 := (Nat.pow_lt_pow_iff_right (by decide)).1 (Nat.lt_of_le_of_lt h1 b)
  omega

/-! ## Six digits -/

theorem one_pos : 0 < one := Nat.pow_pos (by decide)

/-- The exponent before the digits are rounded. -/
def expo (n : Nat) : Nat := log10 (n * 10 ^ 330 / one)

theorem expo_spec {n : Nat} (hn : n ≠ 0) : 6 ≤ expo n ∧ 10 ^ expo n * one ≤ n * 10 ^ 330 ∧
    n * 10 ^ 330 < 10 ^ (expo n + 1) * one := by
  have h6 : 10 ^ 6 * one ≤ n * 10 ^ 330 := by
    have h1 : 10 ^ 6 * one ≤ 10 ^ 330 := by unfold one; decide +kernel
    have h2 : 1 * 10 ^ 330 ≤ n * 10 ^ 330 := Nat.mul_le_mul_right _ (by omega)
    rw [Nat.one_mul] at h2
    exact Nat.le_trans h1 h2
  have hd : 10 ^ 6 ≤ n * 10 ^ 330 / one := (Nat.le_div_iff_mul_le one_pos).2 h6
  have h0 : n * 10 ^ 330 / one ≠ 0 := by omega
  have a := log10_le h0
  have b := lt_log10 (n * 10 ^ 330 / one)
  refine ⟨?_, (Nat.le_div_iff_mul_le one_pos).1 a, (Nat.div_lt_iff_lt_mul one_pos).1 b⟩
  have : 6 < expo n + 1 := (Nat.pow_lt_pow_iff_right (by decide)).1 (Nat.lt_of_le_of_lt hd b)
  omega

theorem pow10_pos (n : Nat) : 0 < 10 ^ n := Nat.pow_pos (by decide)

theorem pow10_split {a b c : Nat} (h : a + b = c) : 10 ^ c = 10 ^ a * 10 ^ b := by rw [← h, Nat.pow_add]

/-- The digits before a carry. -/
def digits (n : Nat) : Nat := rhe (n * 10 ^ 330) (one * 10 ^ (expo n - 5))

theorem digits_bounds {n : Nat} (hn : n ≠ 0) : 10 ^ 5 ≤ digits n ∧ digits n ≤ 10 ^ 6 := by
  obtain ⟨h6, h1, h2⟩ := expo_spec hn
  have hb : 0 < one * 10 ^ (expo n - 5) := Nat.mul_pos one_pos (pow10_pos _)
  constructor
  · apply le_rhe hb
    rw [Nat.mul_comm one, ← Nat.mul_assoc, ← pow10_split (show 5 + (expo n - 5) = expo n by omega)]
    exact h1
  · apply rhe_le hb
    rw [Nat.mul_comm one, ← Nat.mul_assoc, ← pow10_split (show 6 + (expo n - 5) = expo n + 1 by omega)]
    omega

theorem six_eq (n : Nat) : six n = if digits n < 10 ^ 6 then (digits n, expo n) else (10 ^ 5, expo n + 1) := rfl

/-- The digits, the exponent, and what they stand for. -/
theorem six_spec {n : Nat} (hn : n ≠ 0) : 10 ^ 5 ≤ (six n).1 ∧ (six n).1 < 10 ^ 6 ∧ 6 ≤ (six n).2 ∧
    (six n).1 * 10 ^ ((six n).2 - 5) = digits n * 10 ^ (expo n - 5) ∧
    expo n ≤ (six n).2 ∧ (six n).2 ≤ expo n + 1 := by
  obtain ⟨h1, h2⟩ := digits_bounds hn
  have h6 := (expo_spec hn).1
  rw [six_eq]
  split
  · exact ⟨h1, by assumption, h6, rfl, Nat.le_refl _, Nat.le_succ _⟩
  · have e : digits n = 10 ^ 6 := by omega
    refine ⟨Nat.le_refl _, (by simp), by dsimp only; omega, ?_, Nat.le_succ _, Nat.le_refl _⟩
    dsimp only
    rw [e, ← pow10_split (show 5 + (expo n + 1 - 5) = expo n + 1 by omega),
      ← pow10_split (show 6 + (expo n - 5) = expo n + 1 by omega)]

/-- The error is at most half a unit of the sixth digit. -/
theorem six_error {n : Nat} (hn : n ≠ 0) :
    2 * ((six n).1 * 10 ^ ((six n).2 - 5) * one) ≤ 2 * (n * 10 ^ 330) + 10 ^ (expo n - 5) * one ∧
    2 * (n * 10 ^ 330) ≤ 2 * ((six n).1 * 10 ^ ((six n).2 - 5) * one) + 10 ^ (expo n - 5) * one := by
  obtain ⟨-, -, -, e, -, -⟩ := six_spec hn
  have hb : 0 < one * 10 ^ (expo n - 5) := Nat.mul_pos one_pos (pow10_pos _)
  have := rhe_bounds (n * 10 ^ 330) hb
  rw [e, Nat.mul_assoc, Nat.mul_comm (10 ^ (expo n - 5)) one]
  exact this

/-- What a number next to `q * 10 ^ (y - 335)` is printed as. -/
theorem six_unique {n q y : Nat} (hq1 : 10 ^ 5 ≤ q) (hq2 : q < 10 ^ 6) (hy : 6 ≤ y)
    (h1 : 2 * (n * 10 ^ 330) < 2 * (q * 10 ^ (y - 5) * one) + 10 ^ (y - 5) * one)
    (h2 : 2 * (q * 10 ^ (y - 5) * one) < 2 * (n * 10 ^ 330) + 10 ^ (y - 6) * one) : six n = (q, y) := by
  have hD := one_pos
  have e5 : 10 ^ (y - 5) * one = 10 * (10 ^ (y - 6) * one) := by
    rw [pow10_split (show 1 + (y - 6) = y - 5 by omega), Nat.mul_assoc]
  have ey : 10 ^ y * one = 10 ^ 5 * (10 ^ (y - 5) * one) := by
    rw [pow10_split (show 5 + (y - 5) = y by omega), Nat.mul_assoc]
  have ey1 : 10 ^ (y + 1) * one = 10 ^ 6 * (10 ^ (y - 5) * one) := by
    rw [pow10_split (show 6 + (y - 5) = y + 1 by omega), Nat.mul_assoc]
  have hu : 0 < 10 ^ (y - 6) * one := Nat.mul_pos (pow10_pos _) hD
  rw [Nat.mul_assoc] at h1 h2
  generalize hU : 10 ^ (y - 6) * one = u at *
  generalize hV : 10 ^ (y - 5) * one = v at *
  have b1 : 10 ^ 5 * v ≤ q * v := Nat.mul_le_mul_right v hq1
  have b2 : (q + 1) * v ≤ 10 ^ 6 * v := Nat.mul_le_mul_right v hq2
  rw [Nat.add_mul] at b2
  by_cases hc : 10 ^ y * one ≤ n * 10 ^ 330
  · have he : expo n = y := by
      apply log10_unique
      · exact (Nat.le_div_iff_mul_le hD).2 hc
      · apply (Nat.div_lt_iff_lt_mul hD).2
        rw [ey1]
        omega
    have hd : digits n = q := by
      unfold digits
      rw [he, Nat.mul_comm one]
      rw [hV]
      exact rhe_unique (by omega) (by omega)
    rw [six_eq, hd, if_pos hq2, he]
  · have hq : q = 10 ^ 5 := by
      apply Classical.byContradiction
      intro hne
      have : (10 ^ 5 + 1) * v ≤ q * v := Nat.mul_le_mul_right v (by omega)
      rw [Nat.add_mul] at this
      omega
    subst hq
    have ey' : 10 ^ (y - 1) * one = 10 ^ 5 * u := by
      rw [pow10_split (show 5 + (y - 6) = y - 1 by omega), Nat.mul_assoc, hU]
    have he : expo n = y - 1 := by
      apply log10_unique
      · apply (Nat.le_div_iff_mul_le hD).2
        rw [ey']
        omega
      · apply (Nat.div_lt_iff_lt_mul hD).2
        rw [show y - 1 + 1 = y by omega]
        omega
    have hd : digits n = 10 ^ 6 := by
      unfold digits
      rw [he, Nat.mul_comm one, show y - 1 - 5 = y - 6 by omega, hU]
      exact rhe_unique (by omega) (by omega)
    rw [six_eq, hd, if_neg (by decide), he, show y - 1 + 1 = y by omega]

/-- The same for a number which is not below the power of ten. -/
theorem six_unique_ge {n q y : Nat} (hq2 : q < 10 ^ 6) (hy : 6 ≤ y) (h0 : 10 ^ y * one ≤ n * 10 ^ 330)
    (h1 : 2 * (n * 10 ^ 330) < 2 * (q * 10 ^ (y - 5) * one) + 10 ^ (y - 5) * one)
    (h2 : 2 * (q * 10 ^ (y - 5) * one) < 2 * (n * 10 ^ 330) + 10 ^ (y - 5) * one) : six n = (q, y) := by
  have hD := one_pos
  have ey1 : 10 ^ (y + 1) * one = 10 ^ 6 * (10 ^ (y - 5) * one) := by
    rw [pow10_split (show 6 + (y - 5) = y + 1 by omega), Nat.mul_assoc]
  rw [Nat.mul_assoc] at h1 h2
  have b2 : (q + 1) * (10 ^ (y - 5) * one) ≤ 10 ^ 6 * (10 ^ (y - 5) * one) := Nat.mul_le_mul_right _ hq2
  rw [Nat.add_mul] at b2
  have he : expo n = y := by
    apply log10_unique
    · exact (Nat.le_div_iff_mul_le hD).2 h0
    · apply (Nat.div_lt_iff_lt_mul hD).2
      rw [ey1]
      omega
  have hd : digits n = q := by
    unfold digits
    rw [he, Nat.mul_comm one]
    exact rhe_unique (by omega) (by omega)
  rw [six_eq, hd, if_pos hq2, he]

/-! ## The nearest double -/

theorem nearestQ_scale (a b : Nat) {c : Nat} (hc : 0 < c) : nearestQ (a * c) (b * c) = nearestQ a b := by
  unfold nearestQ
  rw [Nat.mul_div_mul_right a b hc]
  have e : ∀ k, rhe (a * c) (b * c * 2 ^ k) = rhe a (b * 2 ^ k) := by
    intro k
    rw [show b * c * 2 ^ k = b * 2 ^ k * c by rw [Nat.mul_assoc, Nat.mul_comm c, ← Nat.mul_assoc]]
    exact rhe_scale a _ hc
  simp only [e]

/-- Equal fractions have the same nearest double. -/
theorem nearestQ_congr {a b c d : Nat} (hb : 0 < b) (hd : 0 < d) (h : a * d = c * b) : nearestQ a b = nearestQ c d := by
  rw [← nearestQ_scale a b hd, ← nearestQ_scale c d hb, h, Nat.mul_comm b d]

/-- The exponent of two used for rounding, and the result before overflow. -/
def shift (a b : Nat) : Nat := (a / b).log2 - 52

def round (a b : Nat) : Nat := rhe a (b * 2 ^ shift a b) * 2 ^ shift a b

theorem nearestQ_eq (a b : Nat) : nearestQ a b = if round a b < 2 ^ 2098 then .fin (round a b : Nat) else .inf false := rfl

theorem shift_le {a b : Nat} (hb : 0 < b) (h : shift a b ≠ 0) : 2 ^ (52 + shift a b) * b ≤ a := by
  have h0 : a / b ≠ 0 := by
    intro e
    apply h
    unfold shift
    rw [e]
    rfl
  have := Nat.log2_self_le h0
  have e : 52 + shift a b = (a / b).log2 := by
    unfold shift at h ⊢
    omega
  rw [e]
  exact (Nat.le_div_iff_mul_le hb).1 this

theorem lt_shift {a b : Nat} (hb : 0 < b) : a < 2 ^ (53 + shift a b) * b := by
  apply (Nat.div_lt_iff_lt_mul hb).1
  have := Nat.lt_log2_self (n := a / b)
  refine Nat.lt_of_lt_of_le this (Nat.pow_le_pow_right (by decide) ?_)
  unfold shift
  omega

/-- Rounding to a double is off by at most half a unit in the last place. -/
theorem round_error {a b : Nat} (hb : 0 < b) : 2 * (round a b * b) ≤ 2 * a + b * 2 ^ shift a b ∧
    2 * a ≤ 2 * (round a b * b) + b * 2 ^ shift a b := by
  have := rhe_bounds a (b := b * 2 ^ shift a b) (Nat.mul_pos hb (Nat.pow_pos (by decide)))
  have e : round a b * b = rhe a (b * 2 ^ shift a b) * (b * 2 ^ shift a b) := by
    unfold round
    rw [Nat.mul_assoc, Nat.mul_comm (2 ^ shift a b) b]
  rw [e]
  exact this

/-- The unit is one, or at most `2 ^ -52` of the number. -/
theorem unit_le {a b : Nat} (hb : 0 < b) : b * 2 ^ shift a b ≤ b ∨ 2 ^ 52 * (b * 2 ^ shift a b) ≤ a := by
  by_cases h : shift a b = 0
  · rw [h]; left; simp
  · right
    have := shift_le hb h
    rw [Nat.pow_add] at this
    rw [Nat.mul_comm b, ← Nat.mul_assoc]
    exact this

/-- A number between two multiples of the unit is rounded to one between them. -/
theorem le_round {a b d : Nat} (hb : 0 < b) (hd : 2 ^ shift a b ∣ d) (h : d * b ≤ a) : d ≤ round a b := by
  obtain ⟨c, rfl⟩ := hd
  unfold round
  rw [Nat.mul_comm]
  apply Nat.mul_le_mul_right
  apply le_rhe (Nat.mul_pos hb (Nat.pow_pos (by decide)))
  rw [Nat.mul_comm b, ← Nat.mul_assoc, Nat.mul_comm c]
  exact h

theorem round_le {a b d : Nat} (hb : 0 < b) (hd : 2 ^ shift a b ∣ d) (h : a ≤ d * b) : round a b ≤ d := by
  obtain ⟨c, rfl⟩ := hd
  unfold round
  rw [Nat.mul_comm (2 ^ shift a b)]
  apply Nat.mul_le_mul_right
  apply rhe_le (Nat.mul_pos hb (Nat.pow_pos (by decide)))
  rw [Nat.mul_comm b, ← Nat.mul_assoc, Nat.mul_comm c]
  exact h

/-- A double of six digits which is large enough gets its digits back. -/
theorem six_round {q y : Nat} (h1 : 10 ^ 5 ≤ q) (h2 : q < 10 ^ 6) (hy : 6 ≤ y)
    (hs : 10 ^ 7 * 10 ^ 330 < q * 10 ^ (y - 5) * one) : six (round (q * 10 ^ (y - 5) * one) (10 ^ 330)) = (q, y) := by
  have hB := pow10_pos 330
  obtain ⟨e1, e2⟩ := round_error (a := q * 10 ^ (y - 5) * one) hB
  have e3 := unit_le (a := q * 10 ^ (y - 5) * one) hB
  have e5 : 10 ^ (y - 5) * one = 10 * (10 ^ (y - 6) * one) := by
    rw [pow10_split (show 1 + (y - 6) = y - 5 by omega), Nat.mul_assoc]
  have hu : 0 < 10 ^ (y - 6) * one := Nat.mul_pos (pow10_pos _) one_pos
  have hq : q * 10 ^ (y - 5) * one < 10 ^ 7 * (10 ^ (y - 6) * one) := by
    rw [Nat.mul_assoc, e5]
    have := Nat.mul_lt_mul_of_pos_right h2 (show 0 < 10 * (10 ^ (y - 6) * one) by omega)
    omega
  apply six_unique h1 h2 hy
  · rw [e5]
    omega
  · omega

/-! ## Nearness -/

theorem rhe_dist (a : Nat) {b : Nat} (hb : 0 < b) (c : Nat) :
    ((rhe a b * b : Nat) - (a : Int)).natAbs ≤ ((c * b : Nat) - (a : Int)).natAbs := by
  obtain ⟨h1, h2⟩ := rhe_bounds a hb
  rcases Nat.lt_trichotomy (rhe a b) c with h | h | h
  · have := Nat.mul_le_mul_right b h
    rw [Nat.succ_mul] at this
    omega
  · rw [h]; exact Nat.le_refl _
  · have := Nat.mul_le_mul_right b h
    rw [Nat.succ_mul] at this
    omega

/-- What is below a multiple of the unit below `a` is no nearer. -/
theorem rhe_dist_below (a : Nat) {b : Nat} (hb : 0 < b) {c w : Nat} (hc : c * b ≤ a) (hw : w ≤ c * b) :
    ((rhe a b * b : Nat) - (a : Int)).natAbs ≤ ((w : Int) - (a : Int)).natAbs := by
  have := rhe_dist a hb c
  omega

/-- No decimal of at most six digits is nearer than the one which is printed; in units of `10 ^ -(330 + t)`. -/
theorem six_nearest {n : Nat} (hn : n ≠ 0) {q' : Nat} (hq : q' < 10 ^ 6) (z t : Nat) :
    (((six n).1 * 10 ^ ((six n).2 - 5) * one * 10 ^ t : Nat) - ((n * 10 ^ 330 * 10 ^ t : Nat) : Int)).natAbs ≤
      ((q' * 10 ^ z * one : Nat) - ((n * 10 ^ 330 * 10 ^ t : Nat) : Int)).natAbs := by
  obtain ⟨h6, g1, g2⟩ := expo_spec hn
  obtain ⟨-, -, -, e, -, -⟩ := six_spec hn
  have hb : 0 < one * 10 ^ (expo n - 5) * 10 ^ t := Nat.mul_pos (Nat.mul_pos one_pos (pow10_pos _)) (pow10_pos _)
  have eP : (six n).1 * 10 ^ ((six n).2 - 5) * one * 10 ^ t =
      rhe (n * 10 ^ 330 * 10 ^ t) (one * 10 ^ (expo n - 5) * 10 ^ t) * (one * 10 ^ (expo n - 5) * 10 ^ t) := by
    rw [e, rhe_scale _ _ (pow10_pos t), Nat.mul_assoc (digits n), Nat.mul_comm (10 ^ (expo n - 5)), Nat.mul_assoc (digits n)]
    rfl
  have eU : one * 10 ^ (expo n - 5) * 10 ^ t = 10 ^ (expo n - 5 + t) * one := by
    rw [Nat.mul_assoc, ← Nat.pow_add, Nat.mul_comm]
  rw [eP]
  by_cases hz : expo n - 5 + t ≤ z
  · have : q' * 10 ^ z * one = q' * 10 ^ (z - (expo n - 5 + t)) * (one * 10 ^ (expo n - 5) * 10 ^ t) := by
      rw [eU, pow10_split (show (z - (expo n - 5 + t)) + (expo n - 5 + t) = z by omega), ← Nat.mul_assoc, ← Nat.mul_assoc]
    rw [this]
    exact rhe_dist _ hb _
  · apply rhe_dist_below (c := 10 ^ 5) _ hb
    · rw [← Nat.mul_assoc, Nat.mul_comm one, ← Nat.mul_assoc, ← pow10_split (show 5 + (expo n - 5) = expo n by omega)]
      exact Nat.mul_le_mul_right _ g1
    · rw [eU, ← Nat.mul_assoc]
      apply Nat.mul_le_mul_right
      have h1 : q' * 10 ^ z ≤ 10 ^ 6 * 10 ^ z := Nat.mul_le_mul_right _ (by omega)
      refine Nat.le_trans h1 ?_
      rw [← Nat.pow_add, ← Nat.pow_add]
      exact Nat.pow_le_pow_right (by decide) (by omega)

theorem expo_mono {n m : Nat} (hn : n ≠ 0) (h : n ≤ m) : expo n ≤ expo m := by
  obtain ⟨-, a, -⟩ := expo_spec hn
  obtain ⟨-, -, b⟩ := expo_spec (n := m) (by omega)
  have h1 : n * 10 ^ 330 ≤ m * 10 ^ 330 := Nat.mul_le_mul_right _ h
  have h2 : 10 ^ expo n * one < 10 ^ (expo m + 1) * one := by omega
  have h3 := (Nat.mul_lt_mul_right one_pos).1 h2
  have := (Nat.pow_lt_pow_iff_right (by decide)).1 h3
  omega

theorem six_mono {n m : Nat} (hn : n ≠ 0) (h : n ≤ m) :
    (six n).1 * 10 ^ ((six n).2 - 5) ≤ (six m).1 * 10 ^ ((six m).2 - 5) := by
  have hm : m ≠ 0 := by omega
  obtain ⟨-, -, -, e1, -, -⟩ := six_spec hn
  obtain ⟨-, -, -, e2, -, -⟩ := six_spec hm
  rw [e1, e2]
  rcases Nat.lt_or_eq_of_le (expo_mono hn h) with hlt | heq
  · have a : digits n * 10 ^ (expo n - 5) ≤ 10 ^ 6 * 10 ^ (expo n - 5) := Nat.mul_le_mul_right _ (digits_bounds hn).2
    have b : 10 ^ 5 * 10 ^ (expo m - 5) ≤ digits m * 10 ^ (expo m - 5) := Nat.mul_le_mul_right _ (digits_bounds hm).1
    have c : 10 ^ 6 * 10 ^ (expo n - 5) ≤ 10 ^ 5 * 10 ^ (expo m - 5) := by
      rw [← Nat.pow_add, ← Nat.pow_add]
      exact Nat.pow_le_pow_right (by decide) (by have := (expo_spec hn).1; omega)
    exact Nat.le_trans a (Nat.le_trans c b)
  · unfold digits
    rw [heq]
    apply Nat.mul_le_mul_right
    exact rhe_mono (Nat.mul_pos one_pos (pow10_pos _)) (Nat.mul_le_mul_right _ h)

end Lolly.Decimal
