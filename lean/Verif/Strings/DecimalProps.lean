import Verif.Strings.DecimalReadProps

/-!
# Property C129: writing doubles as decimal text
-/

set_option autoImplicit false
set_option exponentiation.threshold 3000

namespace Lolly.DecimalProps

open Lolly.Rounding Lolly.Conv Lolly.ConvProps
open Lolly.RoundingProps hiding one_pos
open Lolly.Decimal hiding asString

/-! ## Printing -/

theorem top_bound {n : Nat} (hn : n ≠ 0) (h : n < 2 ^ 2098) : expo n ≤ 638 := by
  obtain ⟨-, a, -⟩ := expo_spec hn
  apply Classical.byContradiction
  intro hc
  have h1 : 10 ^ 639 * one ≤ 10 ^ expo n * one := Nat.mul_le_mul_right _ (Nat.pow_le_pow_right (by decide) (by omega))
  have h2 : n * 10 ^ 330 < 2 ^ 2098 * 10 ^ 330 := Nat.mul_lt_mul_of_pos_right h (pow10_pos _)
  have h3 : 2 ^ 2098 * 10 ^ 330 < 10 ^ 639 * one := by unfold one; decide +kernel
  omega

theorem strip_length (f : Bytes) : (strip f).length ≤ f.length := by
  obtain ⟨j, hj⟩ := strip_spec f
  have := congrArg List.length hj
  rw [List.length_append] at this
  omega

theorem fraction_length (f : Bytes) : (fraction f).length ≤ f.length + 1 := by
  unfold fraction
  have := strip_length f
  split
  · simp
  · rw [List.length_cons]; omega

theorem layout_length {q y : Nat} (h1 : 10 ^ 5 ≤ q) (h2 : q < 10 ^ 6) (hy : y ≤ 639) (h6 : 6 ≤ y) : (layout q y).length ≤ 12 := by
  have hl : (natDec q).length = 6 := natDec_length h1 h2
  unfold layout
  split
  · have hx : (exponent ((y : Int) - 330)).length ≤ 5 := by
      unfold exponent
      have hs : (if (y : Int) - 330 < 0 then b!"-" else b!"+").length = 1 := by split <;> rfl
      rw [List.length_append, List.length_append, List.length_append, hs]
      by_cases hs : ((y : Int) - 330).natAbs < 10
      · rw [if_pos hs]
        have := natDec_length_le (n := ((y : Int) - 330).natAbs) (k := 0) (by omega)
        simp only [List.length_cons, List.length_nil]
        omega
      · rw [if_neg hs]
        have := natDec_length_le (n := ((y : Int) - 330).natAbs) (k := 2) (by omega)
        simp only [List.length_cons, List.length_nil]
        omega
    have hf := fraction_length ((natDec q).drop 1)
    rw [List.length_drop, hl] at hf
    rw [List.length_append, List.length_append, List.length_take, hl]
    omega
  · split
    · have hf := fraction_length (List.replicate (329 - y) (c! '0') ++ natDec q)
      rw [List.length_append, List.length_replicate, hl] at hf
      rw [List.length_append]
      simp only [List.length_cons, List.length_nil]
      omega
    · have hf := fraction_length ((natDec q).drop (y - 329))
      rw [List.length_drop, hl] at hf
      rw [List.length_append, List.length_take, hl]
      omega

theorem fmtG_eq (n : Int) : fmtG (.fin n) = if n = 0 then b!"0"
    else (if n < 0 then b!"-" else []) ++ layout (six n.natAbs).1 (six n.natAbs).2 := rfl

theorem sign_length (n : Int) {l : Bytes} (h : l.length ≤ 12) : ((if n < 0 then b!"-" else []) ++ l).length ≤ 13 := by
  by_cases hs : n < 0
  · rw [if_pos hs, List.length_append]
    show 1 + l.length ≤ 13
    omega
  · rw [if_neg hs, List.nil_append]
    omega

theorem layout_literal (n : Int) {q y : Nat} (h1 : 10 ^ 5 ≤ q) (h2 : q < 10 ^ 6) (h3 : 6 ≤ y) (h7 : y ≤ 639) :
    ∃ m j : Nat, Literal ((if n < 0 then b!"-" else []) ++ layout q y) (if n < 0 then -(m : Int) else m) ((y : Int) - 335 + j) ∧
      m * 10 ^ j = q ∧ ((if n < 0 then b!"-" else []) ++ layout q y).length ≤ 13 := by
  obtain ⟨m, j, a, b⟩ := layout_stands y h1 h2
  refine ⟨m, j, ?_, b, sign_length n (layout_length h1 h2 h7 h3)⟩
  by_cases hs : n < 0
  · rw [if_pos hs, if_pos hs]
    exact ⟨_, m, a, .inr ⟨rfl, rfl⟩⟩
  · rw [if_neg hs, if_neg hs]
    exact ⟨_, m, a, .inl ⟨.inl rfl, rfl⟩⟩

theorem six_ranges {n : Nat} (hn : n ≠ 0) (h : n < 2 ^ 2098) : 10 ^ 5 ≤ (six n).1 ∧ (six n).1 < 10 ^ 6 ∧ 6 ≤ (six n).2 ∧ (six n).2 ≤ 639 := by
  obtain ⟨h1, h2, h3, -, -, h5⟩ := six_spec hn
  exact ⟨h1, h2, h3, Nat.le_trans h5 (Nat.add_le_add_right (top_bound hn h) 1)⟩

/-- The text of a double different from zero. -/
theorem fmtG_fin {n : Int} (hn : n ≠ 0) (hb : n.natAbs < 2 ^ 2098) :
    ∃ m j : Nat, Literal (fmtG (.fin n)) (if n < 0 then -(m : Int) else m) (((six n.natAbs).2 : Int) - 335 + j) ∧
      m * 10 ^ j = (six n.natAbs).1 ∧ (fmtG (.fin n)).length ≤ 13 := by
  obtain ⟨h1, h2, h3, h4⟩ := six_ranges (fun e => hn (Int.natAbs_eq_zero.1 e)) hb
  have := layout_literal n h1 h2 h3 h4
  rw [fmtG_eq, if_neg hn]
  exact this

theorem print_ok {x : Dbl} (h : (fmtG x).length ≤ 13) :
    Decimal.asString x = .ok (fmtG x) ∧ printDouble x = .ok (fmtG x) ∧ printFloat x = .ok (fmtG x) := by
  have h64 : (fmtG x).length < 64 := Nat.lt_of_le_of_lt h (by decide)
  have h32 : (fmtG x).length < 32 := Nat.lt_of_le_of_lt h (by decide)
  exact ⟨if_pos h64, if_pos h64, if_pos h32⟩

theorem fmtG_length {n : Int} (h : IsDouble n) : (fmtG (.fin n)).length ≤ 13 := by
  by_cases hn : n = 0
  · rw [fmtG_eq, if_pos hn]; decide
  · obtain ⟨-, -, -, -, hl⟩ := fmtG_fin hn h.2
    exact hl

/-- What is printed, in units of `10 ^ -330`. -/
def printed (n : Int) : Int :=
  if n = 0 then 0
  else if n < 0 then -((six n.natAbs).1 * 10 ^ ((six n.natAbs).2 - 5) : Nat) else ((six n.natAbs).1 * 10 ^ ((six n.natAbs).2 - 5) : Nat)

/-- Powers of ten for a common denominator. -/
theorem common {e : Int} (h : -330 ≤ e) : ∃ T : Nat, 0 < T ∧ 10 ^ (-e).toNat * T = 10 ^ 330 ∧
    10 ^ e.toNat * T = 10 ^ (e + 330).toNat :=
  ⟨10 ^ (330 - (-e).toNat), pow10_pos _, by rw [← Nat.pow_add]; congr 1; omega, by rw [← Nat.pow_add]; congr 1; omega⟩

theorem scaled {q y m j T A : Nat} (hy : 6 ≤ y) (hm : m * 10 ^ j = q) (h : A * T = 10 ^ ((y : Int) - 335 + j + 330).toNat) :
    m * A * T = q * 10 ^ (y - 5) := by
  have : ((y : Int) - 335 + j + 330).toNat = j + (y - 5) := by omega
  rw [Nat.mul_assoc, h, this, Nat.pow_add, ← Nat.mul_assoc, hm]

/-- The text of a finite double. -/
theorem printed_literal {n : Int} (h : IsDouble n) : ∃ m e : Int, Literal (fmtG (.fin n)) m e ∧ m.natAbs < 10 ^ 6 ∧
    ∃ T : Nat, 0 < T ∧ 10 ^ (-e).toNat * T = 10 ^ 330 ∧ m * (10 ^ e.toNat * T : Nat) = printed n := by
  by_cases hn : n = 0
  · refine ⟨0, 0, ?_, by decide, 10 ^ 330, pow10_pos _, Nat.one_mul _, ?_⟩
    · rw [fmtG_eq, if_pos hn]
      exact ⟨b!"0", 0, ⟨b!"0", [], [], [], 0, (by unfold Digits Digit; decide), (by intro c hc; cases hc), .inl ⟨rfl, rfl, by simp⟩,
        .inl ⟨rfl, rfl⟩, rfl, rfl, rfl⟩, .inl ⟨.inl rfl, rfl⟩⟩
    · rw [Int.zero_mul, printed, if_pos hn]
  · have h0 : n.natAbs ≠ 0 := fun e => hn (Int.natAbs_eq_zero.1 e)
    obtain ⟨m, j, a, b, -⟩ := fmtG_fin hn h.2
    obtain ⟨h1, h2, h3, h4⟩ := six_ranges h0 h.2
    have hm : m < 10 ^ 6 := by
      have : m * 1 ≤ m * 10 ^ j := Nat.mul_le_mul_left m (pow10_pos j)
      rw [b, Nat.mul_one] at this
      exact Nat.lt_of_le_of_lt this h2
    obtain ⟨T, t1, t2, t3⟩ := common (e := ((six n.natAbs).2 : Int) - 335 + j) (by
      generalize (six n.natAbs).2 = y at *
      omega)
    have key := scaled h3 b t3
    refine ⟨_, _, a, ?_, T, t1, t2, ?_⟩
    · by_cases hs : n < 0
      · rw [if_pos hs, Int.natAbs_neg]; exact hm
      · rw [if_neg hs]; exact hm
    · rw [Nat.mul_assoc] at key
      unfold printed
      rw [if_neg hn]
      by_cases hs : n < 0
      · rw [if_pos hs, if_pos hs, Int.neg_mul, ← Int.natCast_mul, key]
      · rw [if_neg hs, if_neg hs, ← Int.natCast_mul, key]

theorem printed_natAbs {n : Int} (hn : n ≠ 0) : (printed n).natAbs = (six n.natAbs).1 * 10 ^ ((six n.natAbs).2 - 5) := by
  unfold printed
  rw [if_neg hn]
  by_cases hs : n < 0
  · rw [if_pos hs, Int.natAbs_neg, Int.natAbs_natCast]
  · rw [if_neg hs, Int.natAbs_natCast]

/-- The sign of what is printed. -/
theorem printed_sign (n : Int) : (0 ≤ printed n ∧ 0 ≤ n) ∨ (printed n ≤ 0 ∧ n ≤ 0) := by
  unfold printed
  generalize (six n.natAbs).1 * 10 ^ ((six n.natAbs).2 - 5) = w
  by_cases h0 : n = 0
  · rw [if_pos h0]; omega
  · rw [if_neg h0]
    by_cases hs : n < 0
    · rw [if_pos hs]; omega
    · rw [if_neg hs]; omega

/-- The distance between a double and what is printed for it. -/
theorem gap_scaled {m e n V : Int} {T : Nat} (h2 : 10 ^ (-e).toNat * T = 10 ^ 330) (h3 : m * (10 ^ e.toNat * T : Nat) = V) :
    gap m e n * T = (V * one - n * (10 ^ 330 : Nat)).natAbs := by
  unfold gap
  rw [← h2, ← h3]
  rw [show T = ((T : Nat) : Int).natAbs from (Int.natAbs_natCast T).symm, ← Int.natAbs_mul, Int.natAbs_natCast]
  congr 1
  rw [Int.sub_mul, Int.natCast_mul, Int.natCast_mul]
  generalize ((10 ^ (-e).toNat : Nat) : Int) = B
  generalize ((10 ^ e.toNat : Nat) : Int) = A
  generalize (one : Int) = D
  generalize (T : Int) = T
  rw [Int.mul_right_comm (m * A) D T, Int.mul_assoc m A T, Int.mul_assoc n B T]

theorem dist_natAbs {V n : Int} (D B : Nat) (h : (0 ≤ V ∧ 0 ≤ n) ∨ (V ≤ 0 ∧ n ≤ 0)) :
    (V * D - n * B).natAbs = ((V.natAbs * D : Nat) - ((n.natAbs * B : Nat) : Int)).natAbs := by
  rw [Int.natCast_mul, Int.natCast_mul]
  rcases h with ⟨h1, h2⟩ | ⟨h1, h2⟩
  · rw [show ((V.natAbs : Nat) : Int) = V by omega, show ((n.natAbs : Nat) : Int) = n by omega]
  · rw [show ((V.natAbs : Nat) : Int) = -V by omega, show ((n.natAbs : Nat) : Int) = -n by omega, Int.neg_mul, Int.neg_mul]
    omega

theorem close_of {P N u : Nat} (a : 2 * P ≤ 2 * N + u) (b : 2 * N ≤ 2 * P + u) (c : 10 ^ 5 * u ≤ N) :
    2 * 10 ^ 5 * ((P : Nat) - (N : Int)).natAbs ≤ N := by
  omega

theorem six_close {n : Nat} (hn : n ≠ 0) :
    2 * 10 ^ 5 * (((six n).1 * 10 ^ ((six n).2 - 5) * one : Nat) - ((n * 10 ^ 330 : Nat) : Int)).natAbs ≤ n * 10 ^ 330 := by
  obtain ⟨a, b⟩ := six_error hn
  obtain ⟨h6, c, -⟩ := expo_spec hn
  have e : 10 ^ expo n * one = 10 ^ 5 * (10 ^ (expo n - 5) * one) := by
    rw [← Nat.mul_assoc, ← pow10_split (show 5 + (expo n - 5) = expo n by omega)]
  rw [e] at c
  exact close_of a b c

/-- C129: what `as_string` and the streams write for a finite double is a decimal literal with at most six digits after
leading zeros; the number it stands for differs from the double by at most one part in 200000. Nothing is written past
the end of a buffer. -/
theorem C129_precision {n : Int} (h : IsDouble n) : ∃ s m e, Decimal.asString (.fin n) = .ok s ∧
    printDouble (.fin n) = .ok s ∧ printFloat (.fin n) = .ok s ∧ Literal s m e ∧ m.natAbs < 10 ^ 6 ∧
    2 * 10 ^ 5 * gap m e n ≤ n.natAbs * 10 ^ (-e).toNat := by
  obtain ⟨m, e, hl, hm, T, t1, t2, t3⟩ := printed_literal h
  obtain ⟨p1, p2, p3⟩ := print_ok (fmtG_length h)
  refine ⟨_, m, e, p1, p2, p3, hl, hm, ?_⟩
  apply Nat.le_of_mul_le_mul_right _ t1
  rw [Nat.mul_assoc (2 * 10 ^ 5), gap_scaled t2 t3, Nat.mul_assoc n.natAbs, t2]
  by_cases hn : n = 0
  · subst hn
    have : printed 0 = 0 := rfl
    rw [this, Int.zero_mul, Int.zero_mul]
    exact Nat.zero_le _
  · rw [dist_natAbs _ _ (printed_sign n), printed_natAbs hn]
    exact six_close (fun e => hn (Int.natAbs_eq_zero.1 e))

theorem pow_swap {a b c d : Nat} (h : a + b = c + d) : 10 ^ a * 10 ^ b = 10 ^ c * 10 ^ d := by
  rw [← Nat.pow_add, h, Nat.pow_add]

theorem cross1 {g B T T' t u : Nat} (h : B * T' = u * t) : g * B * (T * T') = g * T * t * u := by
  rw [Nat.mul_comm T, Nat.mul_assoc, ← Nat.mul_assoc B, h, Nat.mul_assoc g, Nat.mul_assoc g, Nat.mul_comm (u * t), Nat.mul_comm u, Nat.mul_assoc]

theorem cross2 {g B T T' u : Nat} (h : B * T = u) : g * B * (T * T') = g * T' * u := by
  rw [Nat.mul_assoc, ← Nat.mul_assoc B, h, Nat.mul_comm u, Nat.mul_assoc]

theorem dist_mul (a b t : Nat) : (((a * t : Nat) : Int) - ((b * t : Nat) : Int)).natAbs = ((a : Int) - (b : Int)).natAbs * t := by
  rw [Int.natCast_mul, Int.natCast_mul, ← Int.sub_mul, Int.natAbs_mul, Int.natAbs_natCast]

theorem dist_scale {n m B A T u t z D : Nat} (s2 : B * T = u * t) (s3 : A * T = z) :
    ((n * B : Nat) - ((m * D * A : Nat) : Int)).natAbs * T = ((m * z * D : Nat) - ((n * u * t : Nat) : Int)).natAbs := by
  rw [← dist_mul]
  have x1 : n * B * T = n * u * t := by rw [Nat.mul_assoc, s2, Nat.mul_assoc]
  have x2 : m * D * A * T = m * z * D := by rw [Nat.mul_assoc, s3, Nat.mul_right_comm]
  rw [x1, x2]
  omega

/-- C129: no decimal with at most six digits is nearer to the double than the one which is written. -/
theorem C129_nearest {n : Int} (h : IsDouble n) : ∃ s m e, Decimal.asString (.fin n) = .ok s ∧ Literal s m e ∧
    ∀ m' e' : Int, m'.natAbs < 10 ^ 6 → gap m e n * 10 ^ (-e').toNat ≤ gap m' e' n * 10 ^ (-e).toNat := by
  obtain ⟨m, e, hl, hm, T, t1, t2, t3⟩ := printed_literal h
  refine ⟨_, m, e, (print_ok (fmtG_length h)).1, hl, ?_⟩
  intro m' e' hm'
  have hg := gap_scaled (n := n) t2 t3
  by_cases hn : n = 0
  · subst hn
    have h0 : gap m e 0 * T = 0 := by
      rw [hg]
      have : printed 0 = 0 := rfl
      rw [this, Int.zero_mul, Int.zero_mul]
      rfl
    have : gap m e 0 = 0 := by
      rcases Nat.mul_eq_zero.1 h0 with h | h
      · exact h
      · omega
    rw [this, Nat.zero_mul]
    exact Nat.zero_le _
  · have hn0 : n.natAbs ≠ 0 := fun e => hn (Int.natAbs_eq_zero.1 e)
    -- a common denominator
    obtain ⟨t, z, T', s1, s2, s3⟩ : ∃ t z T' : Nat, 0 < T' ∧ 10 ^ (-e').toNat * T' = 10 ^ 330 * 10 ^ t ∧
        10 ^ e'.toNat * T' = 10 ^ z := by
      refine ⟨(-e').toNat - 330, (e' + 330 + ((-e').toNat - 330 : Nat)).toNat, 10 ^ (330 + ((-e').toNat - 330) - (-e').toNat), pow10_pos _, ?_, ?_⟩
      · exact pow_swap (by omega)
      · rw [← Nat.pow_add]; congr 1; omega
    have hs := six_nearest hn0 hm' z t
    have hg' : gap m e n * T * 10 ^ t ≤ gap m' e' n * T' := by
      refine Nat.le_trans ?_ (Nat.mul_le_mul_right T' (gap_ge m' e' n))
      rw [hg, dist_natAbs _ _ (printed_sign n), printed_natAbs hn]
      rw [dist_scale s2 s3]
      refine Nat.le_trans (Nat.le_of_eq ?_) hs
      exact (dist_mul _ _ _).symm
    apply Nat.le_of_mul_le_mul_right _ (Nat.mul_pos t1 s1)
    have l1 : gap m e n * 10 ^ (-e').toNat * (T * T') = gap m e n * T * 10 ^ t * 10 ^ 330 := cross1 s2
    have l2 : gap m' e' n * 10 ^ (-e).toNat * (T * T') = gap m' e' n * T' * 10 ^ 330 := cross2 t2
    rw [l1, l2]
    exact Nat.mul_le_mul_right _ hg'

/-! ## Order -/

theorem printed_mono {n n' : Int} (h : n ≤ n') : printed n ≤ printed n' := by
  by_cases h1 : n < 0
  · by_cases h2 : n' < 0
    · have e1 : printed n = -((six n.natAbs).1 * 10 ^ ((six n.natAbs).2 - 5) : Nat) := by
        unfold printed; rw [if_neg (by omega), if_pos h1]
      have e2 : printed n' = -((six n'.natAbs).1 * 10 ^ ((six n'.natAbs).2 - 5) : Nat) := by
        unfold printed; rw [if_neg (by omega), if_pos h2]
      rw [e1, e2]
      have := six_mono (n := n'.natAbs) (m := n.natAbs) (by omega) (by omega)
      exact Int.neg_le_neg (Int.ofNat_le.2 this)
    · have a : printed n ≤ 0 := by
        rcases printed_sign n with h | h
        · omega
        · exact h.1
      have b : 0 ≤ printed n' := by
        rcases printed_sign n' with h | h
        · exact h.1
        · have : n' = 0 := by omega
          subst this
          exact Int.le_refl _
      exact Int.le_trans a b
  · by_cases h0 : n = 0
    · subst h0
      have : printed 0 = 0 := rfl
      rw [this]
      rcases printed_sign n' with h' | h'
      · exact h'.1
      · have : n' = 0 := by omega
        subst this
        exact Int.le_refl _
    · have e1 : printed n = ((six n.natAbs).1 * 10 ^ ((six n.natAbs).2 - 5) : Nat) := by
        unfold printed; rw [if_neg h0, if_neg h1]
      have e2 : printed n' = ((six n'.natAbs).1 * 10 ^ ((six n'.natAbs).2 - 5) : Nat) := by
        unfold printed; rw [if_neg (by omega), if_neg (by omega)]
      rw [e1, e2]
      exact Int.ofNat_le.2 (six_mono (by omega) (by omega))

theorem cross_le {m m' V V' : Int} {A A' B B' T T' u : Nat} (t1 : 0 < T) (s1 : 0 < T') (t2 : B * T = u) (s2 : B' * T' = u)
    (t3 : m * (A * T : Nat) = V) (s3 : m' * (A' * T' : Nat) = V') (h : V ≤ V') : m * (A * B' : Nat) ≤ m' * (A' * B : Nat) := by
  have hp : (0 : Int) < (T * T' : Nat) := by
    have := Nat.mul_pos t1 s1
    omega
  apply Int.le_of_mul_le_mul_right _ hp
  have l1 : m * (A * B' : Nat) * (T * T' : Nat) = V * u := by
    rw [← t3, ← s2, Int.mul_assoc, ← Int.natCast_mul, Int.mul_assoc, ← Int.natCast_mul, Nat.mul_assoc A B', Nat.mul_left_comm B', Nat.mul_assoc]
  have l2 : m' * (A' * B : Nat) * (T * T' : Nat) = V' * u := by
    rw [← s3, ← t2, Int.mul_assoc, ← Int.natCast_mul, Int.mul_assoc, ← Int.natCast_mul, Nat.mul_assoc A' B, Nat.mul_comm T, Nat.mul_left_comm B,
      Nat.mul_assoc A']
  rw [l1, l2]
  exact Int.mul_le_mul_of_nonneg_right h (by omega)

/-- C129: the order of doubles is the order of the numbers written for them. -/
theorem C129_order {n n' : Int} (h : IsDouble n) (h' : IsDouble n') (hle : n ≤ n') :
    ∃ s s' m e m' e', Decimal.asString (.fin n) = .ok s ∧ Decimal.asString (.fin n') = .ok s' ∧ Literal s m e ∧ Literal s' m' e' ∧
      m * (10 ^ e.toNat * 10 ^ (-e').toNat : Nat) ≤ m' * (10 ^ e'.toNat * 10 ^ (-e).toNat : Nat) := by
  obtain ⟨m, e, hl, -, T, t1, t2, t3⟩ := printed_literal h
  obtain ⟨m', e', hl', -, T', s1, s2, s3⟩ := printed_literal h'
  exact ⟨_, _, m, e, m', e', (print_ok (fmtG_length h)).1, (print_ok (fmtG_length h')).1, hl, hl',
    cross_le t1 s1 t2 s2 t3 s3 (printed_mono hle)⟩

/-! ## What is written is accepted -/

/-- C129: `is_double` accepts what is written for a finite double. -/
theorem C129_accepted {n : Int} (h : IsDouble n) :
    ∃ s, Decimal.asString (.fin n) = .ok s ∧ isDouble (rd s) s.length = .ok true ∧ s.length ≤ 13 := by
  refine ⟨_, (print_ok (fmtG_length h)).1, ?_, fmtG_length h⟩
  rw [C71_accepts]
  by_cases hn : n = 0
  · rw [fmtG_eq, if_pos hn]
    exact ⟨[], b!"0", [], [], .inl rfl, (by unfold Digits Digit; decide), .inl rfl, (by simp), .inl rfl, rfl⟩
  · obtain ⟨h1, h2, -, -⟩ := six_ranges (fun e => hn (Int.natAbs_eq_zero.1 e)) h.2
    rw [fmtG_eq, if_neg hn]
    apply layout_accepted _ h1 h2
    by_cases hs : n < 0
    · rw [if_pos hs]; exact .inr rfl
    · rw [if_neg hs]; exact .inl rfl

/-! ## With and without an exponent -/

theorem digits_no_e {l : Bytes} (h : Digits l) : c! 'e' ∉ l := fun hc => absurd (h _ hc) (by unfold Digit; decide)

theorem fraction_no_e {f : Bytes} (h : Digits f) : c! 'e' ∉ fraction f := by
  obtain ⟨j, hj⟩ := strip_spec f
  have hs : Digits (strip f) := fun c hc => h c (by rw [hj]; exact List.mem_append_left _ hc)
  unfold fraction
  by_cases h : strip f = []
  · rw [if_pos h]; exact List.not_mem_nil
  · rw [if_neg h]
    intro hc
    rcases List.mem_cons.1 hc with hc | hc
    · exact absurd hc (by decide)
    · exact digits_no_e hs hc

theorem layout_e (q y : Nat) : c! 'e' ∈ layout q y ↔ y < 326 ∨ 336 ≤ y := by
  have hd := natDec_digits q
  unfold layout
  by_cases h : y < 326 ∨ 336 ≤ y
  · rw [if_pos h]
    refine ⟨fun _ => h, fun _ => List.mem_append_right _ ?_⟩
    unfold exponent
    simp
  · rw [if_neg h]
    refine ⟨fun hc => ?_, fun hc => absurd hc h⟩
    exfalso
    by_cases h2 : y < 330
    · rw [if_pos h2] at hc
      rcases List.mem_append.1 hc with hc | hc
      · exact absurd hc (by decide)
      · refine fraction_no_e ?_ hc
        intro c hc
        rcases List.mem_append.1 hc with h | h
        · rw [List.eq_of_mem_replicate h]
          exact (by unfold Digit; decide)
        · exact hd c h
    · rw [if_neg h2] at hc
      rcases List.mem_append.1 hc with hc | hc
      · exact digits_no_e (digits_take hd _) hc
      · exact fraction_no_e (digits_drop hd _) hc

theorem six_size {q y : Nat} (h1 : 10 ^ 5 ≤ q) (h2 : q < 10 ^ 6) (hy : 6 ≤ y) (k : Nat) : q * 10 ^ (y - 5) < 10 ^ k ↔ y < k := by
  have a : 10 ^ y ≤ q * 10 ^ (y - 5) := by
    rw [pow10_split (show 5 + (y - 5) = y by omega)]
    exact Nat.mul_le_mul_right _ h1
  have b : q * 10 ^ (y - 5) < 10 ^ (y + 1) := by
    rw [pow10_split (show 6 + (y - 5) = y + 1 by omega)]
    exact Nat.mul_lt_mul_of_pos_right h2 (pow10_pos _)
  constructor
  · intro h
    exact (Nat.pow_lt_pow_iff_right (by decide)).1 (Nat.lt_of_le_of_lt a h)
  · intro h
    exact Nat.lt_of_lt_of_le b (Nat.pow_le_pow_right (by decide) h)

theorem scale_lt {a b T u v : Nat} (hT : 0 < T) (hb : b * T = u) (c d : Nat) (hv : a * T = v) : a * c < b * d ↔ v * c < u * d := by
  rw [← hb, ← hv, Nat.mul_right_comm, Nat.mul_right_comm b]
  exact (Nat.mul_lt_mul_right hT).symm

/-- C129: an exponent is written exactly for what is below a ten thousandth or not below a million. -/
theorem C129_style {n : Int} (h : IsDouble n) (hn : n ≠ 0) : ∃ s m e, Decimal.asString (.fin n) = .ok s ∧ Literal s m e ∧
    (c! 'e' ∈ s ↔ m.natAbs * 10 ^ e.toNat * 10 ^ 4 < 10 ^ (-e).toNat ∨ 10 ^ (-e).toNat * 10 ^ 6 ≤ m.natAbs * 10 ^ e.toNat) := by
  obtain ⟨m, e, hl, -, T, t1, t2, t3⟩ := printed_literal h
  refine ⟨_, m, e, (print_ok (fmtG_length h)).1, hl, ?_⟩
  have h0 : n.natAbs ≠ 0 := fun e => hn (Int.natAbs_eq_zero.1 e)
  obtain ⟨h1, h2, h3, -⟩ := six_ranges h0 h.2
  have hv : m.natAbs * 10 ^ e.toNat * T = (six n.natAbs).1 * 10 ^ ((six n.natAbs).2 - 5) := by
    rw [← printed_natAbs hn, ← t3, Int.natAbs_mul, Int.natAbs_natCast, Nat.mul_assoc]
  have he : c! 'e' ∈ fmtG (.fin n) ↔ (six n.natAbs).2 < 326 ∨ 336 ≤ (six n.natAbs).2 := by
    rw [fmtG_eq, if_neg hn, List.mem_append, layout_e]
    refine ⟨fun h => h.resolve_left ?_, .inr⟩
    by_cases hs : n < 0
    · rw [if_pos hs]; exact (by decide)
    · rw [if_neg hs]; exact List.not_mem_nil
  have l1 := six_size h1 h2 h3 326
  have l2 := six_size h1 h2 h3 336
  rw [he, ← hv] at *
  have k1 : m.natAbs * 10 ^ e.toNat * 10 ^ 4 < 10 ^ (-e).toNat ↔ m.natAbs * 10 ^ e.toNat * T < 10 ^ 326 := by
    have := scale_lt t1 t2 (10 ^ 4) 1 rfl (a := m.natAbs * 10 ^ e.toNat)
    rw [Nat.mul_one, Nat.mul_one] at this
    rw [this, show 10 ^ 330 = 10 ^ 326 * 10 ^ 4 from (Nat.pow_add 10 326 4)]
    exact Nat.mul_lt_mul_right (pow10_pos 4)
  have k2 : m.natAbs * 10 ^ e.toNat < 10 ^ (-e).toNat * 10 ^ 6 ↔ m.natAbs * 10 ^ e.toNat * T < 10 ^ 336 := by
    have := scale_lt t1 t2 1 (10 ^ 6) rfl (a := m.natAbs * 10 ^ e.toNat)
    rw [Nat.mul_one, Nat.mul_one] at this
    rw [this, show 10 ^ 336 = 10 ^ 330 * 10 ^ 6 from (Nat.pow_add 10 330 6)]
  rw [k1, l1, ← Nat.not_lt (b := 10 ^ (-e).toNat * 10 ^ 6), k2, l2, Nat.not_lt]

/-! ## And back -/

theorem round_congr {a b c d : Nat} (hb : 0 < b) (hd : 0 < d) (h : a * d = c * b) : round a b = round c d := by
  have key : ∀ (a b : Nat) {c : Nat}, 0 < c → round (a * c) (b * c) = round a b := by
    intro a b c hc
    unfold round shift
    rw [Nat.mul_div_mul_right a b hc]
    rw [Nat.mul_right_comm b c, rhe_scale _ _ hc]
  rw [← key a b hd, ← key c d hb, h, Nat.mul_comm b d]

/-- The largest double. -/
def maxDouble : Nat := (2 ^ 53 - 1) * 2 ^ 2045

theorem maxDouble_spec : Rep maxDouble ∧ maxDouble < 2 ^ 2098 ∧ 179769 * 10 ^ 633 * one ≤ maxDouble * 10 ^ 330 :=
  ⟨⟨_, _, by decide, rfl⟩, by unfold maxDouble; decide +kernel, by unfold maxDouble one; decide +kernel⟩

/-- Six digits which are read back as a double that is written with the same digits. -/
def InRange (q y : Nat) : Prop :=
  10 ^ 5 ≤ q ∧ q < 10 ^ 6 ∧ 6 ≤ y ∧ 10 ^ 7 * 10 ^ 330 < q * 10 ^ (y - 5) * one ∧ q * 10 ^ (y - 5) ≤ 179769 * 10 ^ 633

theorem range_round {q y : Nat} (h : InRange q y) :
    round (q * 10 ^ (y - 5) * one) (10 ^ 330) < 2 ^ 2098 ∧ six (round (q * 10 ^ (y - 5) * one) (10 ^ 330)) = (q, y) ∧
      round (q * 10 ^ (y - 5) * one) (10 ^ 330) ≠ 0 := by
  obtain ⟨h1, h2, h3, h4, h5⟩ := h
  obtain ⟨a, b, c⟩ := maxDouble_spec
  refine ⟨round_finite (pow10_pos _) a b (Nat.le_trans (Nat.mul_le_mul_right one h5) c), six_round h1 h2 h3 h4, ?_⟩
  have : 1 ≤ round (q * 10 ^ (y - 5) * one) (10 ^ 330) := by
    by_cases h0 : shift (q * 10 ^ (y - 5) * one) (10 ^ 330) = 0
    · apply le_round (pow10_pos _)
      · rw [h0]; exact Nat.one_dvd 1
      · exact Nat.le_trans (Nat.mul_le_mul_right (10 ^ 330) (by decide)) (Nat.le_of_lt h4)
    · have hle := shift_le (pow10_pos 330) h0
      have := le_round (pow10_pos _) (Nat.pow_dvd_pow 2 (Nat.le_add_left _ _)) hle
      exact Nat.le_trans (Nat.pow_pos (by decide)) this
  exact Nat.ne_of_gt this

/-- Reading a literal of six digits and writing what was read. -/
theorem read_write {s : Bytes} {m e : Int} {q y A T : Nat} (hl : Literal s m e) (hr : InRange q y)
    (h2 : 10 ^ (-e).toNat * T = 10 ^ 330) (hA : 10 ^ e.toNat * T = A) (h3 : m.natAbs * A = q * 10 ^ (y - 5)) :
    ∃ d, asDouble s = .fin d ∧ d ≠ 0 ∧ d.natAbs < 2 ^ 2098 ∧ six d.natAbs = (q, y) ∧ (d < 0 ↔ m < 0) := by
  obtain ⟨a, b, c⟩ := range_round hr
  have e1 : round (m.natAbs * one * 10 ^ e.toNat) (10 ^ (-e).toNat) = round (q * 10 ^ (y - 5) * one) (10 ^ 330) := by
    apply round_congr (pow10_pos _) (pow10_pos _)
    rw [← h2, ← h3, ← hA]
    generalize 10 ^ e.toNat = A
    generalize 10 ^ (-e).toNat = B
    rw [Nat.mul_right_comm m.natAbs one A, Nat.mul_comm B T, ← Nat.mul_assoc, ← Nat.mul_assoc m.natAbs, Nat.mul_right_comm _ one T]
  have hd := read_fin hl (by rw [e1]; exact a)
  rw [e1] at hd
  generalize round (q * 10 ^ (y - 5) * one) (10 ^ 330) = w at *
  refine ⟨_, hd, ?_⟩
  by_cases h0 : 0 ≤ m
  · rw [if_pos h0]
    refine ⟨?_, ?_, ?_, ?_⟩
    · intro h; exact c (by omega)
    · rw [Int.natAbs_natCast]; exact a
    · rw [Int.natAbs_natCast]; exact b
    · constructor
      · intro h; clear a; omega
      · intro h; omega
  · rw [if_neg h0]
    refine ⟨?_, ?_, ?_, ?_⟩
    · intro h; exact c (by clear a; omega)
    · rw [Int.natAbs_neg, Int.natAbs_natCast]; exact a
    · rw [Int.natAbs_neg, Int.natAbs_natCast]; exact b
    · constructor
      · intro h; omega
      · intro h; clear a; omega

end Lolly.DecimalProps
