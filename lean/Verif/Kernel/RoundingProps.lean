import Verif.Kernel.RoundingLemmas

/-!
# C124: rounding to the nearest integer
-/

set_option autoImplicit false
set_option exponentiation.threshold 3000

namespace Lolly.RoundingProps
open Rounding

/-! ## Specification

The integer `n` stands for the number `n * 2 ^ -1074`; `one` stands for 1. -/

/-- `n * 2 ^ -1074` is a finite double: a number of at most 53 significant bits
which is below `2 ^ 1024`. -/
def IsDouble (n : Int) : Prop :=
  (∃ (m : Int) (j : Nat), m.natAbs < 2 ^ 53 ∧ n = m * (2 ^ j : Nat)) ∧ n.natAbs < 2 ^ 2098

/-- `z` is the integer nearest to `n`; a number half way between two integers
goes to the greater one. -/
def Nearest (n z : Int) : Prop :=
  2 * (n - z * one).natAbs ≤ one ∧ (2 * (n - z * one).natAbs = one → n < z * one)

/-- The greatest double below a half: `0.5 - 2 ^ -54`, that is
0.49999999999999994. -/
def belowHalf : Int := (2 ^ 1073 : Nat) - (2 ^ 1020 : Nat)

/-! ## Lemmas -/

theorem one_eq : one = 2 * 2 ^ 1073 := by
  show 2 ^ (1073 + 1) = _
  rw [Nat.pow_succ, Nat.mul_comm]

theorem one_pos : 0 < one := by
  show 0 < 2 ^ 1074
  exact Nat.pow_pos (by decide)

theorem IsDouble.rep {n : Int} (h : IsDouble n) : Rep n.natAbs := by
  obtain ⟨⟨m, j, hm, rfl⟩, -⟩ := h
  exact ⟨m.natAbs, j, hm, by rw [Int.natAbs_mul, Int.natAbs_natCast]⟩

theorem isDouble_of_rep {n : Int} (h : Rep n.natAbs) (hb : n.natAbs < 2 ^ 2098) : IsDouble n := by
  obtain ⟨m, j, hm, e⟩ := h
  refine ⟨?_, hb⟩
  by_cases hs : 0 ≤ n
  · refine ⟨m, j, by simpa using hm, ?_⟩
    rw [← Int.natCast_mul]; omega
  · refine ⟨-(m : Int), j, by simpa using hm, ?_⟩
    rw [Int.neg_mul, ← Int.natCast_mul]; omega

theorem top_eq : 2 ^ 2098 = 2 ^ 1024 * one := pow_split 1024 1074 2098 rfl

theorem tmRound_fin {n : Int} (hb : (rnd (n + (2 ^ 1073 : Nat))).natAbs < 2 ^ 2098) :
    tmRound (.fin n) = .fin (rnd (n + (2 ^ 1073 : Nat)) / (one : Int) * (one : Int)) := by
  show floor (if _ then _ else _) = _
  rw [if_pos hb]
  rfl

theorem floor_eq {y z : Int} (h1 : z * one ≤ y) (h2 : y < (z + 1) * one) : y / (one : Int) = z := by
  have hp : (0 : Int) < one := by have := one_pos; omega
  have a := Int.ediv_mul_le y (Int.ne_of_gt hp)
  have b := Int.lt_ediv_add_one_mul_self y hp
  have c := int_mul_lt hp (Int.lt_of_le_of_lt h1 b)
  have d := int_mul_lt hp (Int.lt_of_le_of_lt a h2)
  omega

theorem big_bound : 2 ^ 54 * one ≤ 2 ^ 2098 := by
  rw [top_eq]
  exact Nat.mul_le_mul_right _ (Nat.pow_le_pow_right (by decide) (by decide))

theorem rep_int {z : Int} (h : z.natAbs ≤ 2 ^ 53) : Rep (z * one).natAbs := by
  rw [Int.natAbs_mul, Int.natAbs_natCast]
  exact rep_le _ _ h

/-- The value of `tm_round` below `2 ^ 52`. -/
theorem small_value {n : Int} (h : IsDouble n) (hs : n.natAbs < 2 ^ 52 * one) (hne : n ≠ belowHalf) :
    ∃ z : Int, tmRound (.fin n) = .fin (z * one) ∧ z * one ≤ n + (2 ^ 1073 : Nat) ∧
      n + (2 ^ 1073 : Nat) < (z + 1) * one ∧ z.natAbs ≤ 2 ^ 52 := by
  have hp : (0 : Int) < one := by have := one_pos; omega
  have h1 := Int.ediv_mul_le (n + (2 ^ 1073 : Nat)) (Int.ne_of_gt hp)
  have h2 := Int.lt_ediv_add_one_mul_self (n + (2 ^ 1073 : Nat)) hp
  generalize (n + (2 ^ 1073 : Nat)) / (one : Int) = z at h1 h2
  have ho := one_eq
  have hz : z ≤ 2 ^ 52 := by
    have : z * one < (2 ^ 52 + 1) * one := by rw [Int.add_mul]; omega
    have := int_mul_lt hp this
    omega
  have hz' : -(2 ^ 52) ≤ z := by
    have : (-(2 ^ 52)) * (one : Int) < (z + 1) * one := by rw [Int.neg_mul]; omega
    have := int_mul_lt hp this
    omega
  have key : z * one ≤ rnd (n + (2 ^ 1073 : Nat)) ∧ rnd (n + (2 ^ 1073 : Nat)) < (z + 1) * one := by
    by_cases hb : 2 ^ 51 * one ≤ n.natAbs
    · rw [rnd_fix (exact_large (u := 1073) h.rep hb hs)]
      exact ⟨h1, h2⟩
    · exact ⟨rnd_ge (rep_int (by omega)) h1,
        below_next (u := 1073) (by decide) h.rep (Nat.lt_of_not_le hb) hne h1 h2⟩
  refine ⟨z, ?_, h1, h2, by omega⟩
  rw [tmRound_fin, floor_eq key.1 key.2]
  have hbb := big_bound
  have e1 : z * one ≤ 2 ^ 52 * one := Int.mul_le_mul_of_nonneg_right hz (Int.le_of_lt hp)
  have e2 : (-(2 ^ 52)) * (one : Int) ≤ z * one := Int.mul_le_mul_of_nonneg_right hz' (Int.le_of_lt hp)
  have k1 := key.1
  have k2 := key.2
  rw [Int.add_mul] at k2
  rw [Int.neg_mul] at e2
  have : (2 : Int) ^ 52 * one = ((2 ^ 52 * one : Nat) : Int) := by rw [Int.natCast_mul]; rfl
  omega

theorem nearest_of {n z : Int} (h1 : z * one ≤ n + (2 ^ 1073 : Nat))
    (h2 : n + (2 ^ 1073 : Nat) < (z + 1) * one) : Nearest n z := by
  have ho := one_eq
  have hp := one_pos
  rw [Int.add_mul] at h2
  unfold Nearest
  generalize z * (one : Int) = y at *
  omega

theorem nearest_bounds {n z : Int} (h : Nearest n z) :
    z * one ≤ n + (2 ^ 1073 : Nat) ∧ n + (2 ^ 1073 : Nat) < (z + 1) * one := by
  have ho := one_eq
  have hp := one_pos
  rw [Int.add_mul]
  unfold Nearest at h
  generalize z * (one : Int) = y at *
  omega

/-! ## The property -/

/-- C124, below `2 ^ 52`.  Missing: the number 0.49999999999999994 and the odd
numbers from `2 ^ 52` on (`C124_violated`). -/
theorem C124_nearest_partial {n : Int} (h : IsDouble n) (hs : n.natAbs < 2 ^ 52 * one)
    (hne : n ≠ belowHalf) :
    ∃ z : Int, tmRound (.fin n) = .fin (z * one) ∧ Nearest n z := by
  obtain ⟨z, e, h1, h2, -⟩ := small_value h hs hne
  exact ⟨z, e, nearest_of h1 h2⟩

/-- The hypotheses are met: 2.5, which becomes 3. -/
example : IsDouble (5 * (2 ^ 1073 : Nat)) ∧ (5 * (2 ^ 1073 : Nat) : Int).natAbs < 2 ^ 52 * one ∧
    (5 * (2 ^ 1073 : Nat) : Int) ≠ belowHalf ∧
    tmRound (.fin (5 * (2 ^ 1073 : Nat))) = .fin (3 * one) :=
  ⟨⟨⟨5, 1073, by decide, rfl⟩, by decide +kernel⟩, by decide +kernel, by decide +kernel,
    by decide +kernel⟩

/-- From `2 ^ 52` on every double is an integer: an even one is left as it is
and an odd one is replaced by the next integer. -/
theorem C124_large {n : Int} (h : IsDouble n) (hs : 2 ^ 52 * one ≤ n.natAbs) :
    ∃ w : Int, n = w * one ∧ tmRound (.fin n) = .fin ((w + w % 2) * one) := by
  have ho := one_eq
  have hp := one_pos
  have hpi : (0 : Int) < one := by omega
  have hd : one ∣ n.natAbs := h.rep.dvd (k := 1074) (by
    rw [pow_split 52 1074 (52 + 1074) rfl]; exact hs)
  obtain ⟨w, hw⟩ := hd
  rw [Nat.mul_comm] at hw
  have hw52 : 2 ^ 52 ≤ w := by
    rw [hw] at hs; exact Nat.le_of_mul_le_mul_right hs hp
  have hrep : Rep (w * 2 ^ (1073 + 1)) := by
    have := h.rep; rw [hw] at this; exact this
  have hlt := h.2
  rw [hw] at hlt
  have hbig := big_bound
  have hodd : w % 2 = 1 → w < 2 ^ 53 := by
    intro h1
    apply Classical.byContradiction
    intro h2
    have := huge_even (u := 1073) (by omega) hrep
    omega
  by_cases hn : 0 ≤ n
  · refine ⟨w, by rw [← Int.natCast_mul]; omega, ?_⟩
    have hr : rnd (n + (2 ^ 1073 : Nat)) = (((w + w % 2) * one : Nat) : Int) := by
      rw [rnd_nonneg (by omega)]
      have e : (n + (2 ^ 1073 : Nat)).natAbs = w * 2 ^ (1073 + 1) + 2 ^ 1073 := by
        have : w * 2 ^ (1073 + 1) = w * one := rfl
        omega
      rw [e, up_large hw52 hrep]
      rfl
    rw [tmRound_fin, hr, Int.natCast_mul, Int.mul_ediv_cancel _ (Int.ne_of_gt hpi)]
    · rw [Int.natCast_add, Int.natCast_emod]; rfl
    · rw [hr, Int.natAbs_natCast]
      rcases Nat.mod_two_eq_zero_or_one w with h0 | h1
      · rw [h0]; exact hlt
      · have h53 := hodd h1
        have : (w + w % 2) * one ≤ 2 ^ 53 * one := Nat.mul_le_mul_right _ (by omega)
        omega
  · refine ⟨-(w : Int), by rw [Int.neg_mul, ← Int.natCast_mul]; omega, ?_⟩
    have hle : 2 ^ 1073 ≤ w * one := by
      have : 1 * one ≤ w * one := Nat.mul_le_mul_right _ (by omega)
      omega
    have e : n + (2 ^ 1073 : Nat) = -((w * 2 ^ (1073 + 1) - 2 ^ 1073 : Nat) : Int) := by
      have : w * 2 ^ (1073 + 1) = w * one := rfl
      omega
    have ev : (-(w : Int) + -(w : Int) % 2) = -((w - w % 2 : Nat) : Int) := by omega
    rw [ev]
    by_cases h52 : w = 2 ^ 52
    · subst h52
      have e2 : n + (2 ^ 1073 : Nat) = -(((2 ^ 53 - 1) * 2 ^ 1073 : Nat) : Int) := by
        rw [e]
      have hr : rnd (n + (2 ^ 1073 : Nat)) = n + (2 ^ 1073 : Nat) := by
        refine rnd_fix ?_
        rw [e2, Int.natAbs_neg, Int.natAbs_natCast]
        exact rep_le _ _ (by decide)
      rw [tmRound_fin (by rw [hr]; omega), hr, floor_eq (z := -(2 ^ 52 : Nat))]
      · rw [Int.neg_mul, ← Int.natCast_mul]; omega
      · rw [Int.add_mul, Int.neg_mul, ← Int.natCast_mul]; omega
    · have hr : rnd (n + (2 ^ 1073 : Nat)) = -(((w - w % 2) * one : Nat) : Int) := by
        rw [e, rnd_neg, rnd_nonneg (by omega), Int.natAbs_natCast, down_large (by omega) hrep]
        rfl
      rw [tmRound_fin, hr, Int.natCast_mul, ← Int.neg_mul, Int.mul_ediv_cancel _ (Int.ne_of_gt hpi)]
      rw [hr, Int.natAbs_neg, Int.natAbs_natCast]
      have : (w - w % 2) * one ≤ w * one := Nat.mul_le_mul_right _ (by omega)
      omega

/-- `2 ^ 60` is left as it is. -/
example : IsDouble (2 ^ 60 * one : Nat) ∧ 2 ^ 52 * one ≤ ((2 ^ 60 * one : Nat) : Int).natAbs :=
  ⟨⟨⟨1, 60 + 1074, by decide, by decide +kernel⟩, by decide +kernel⟩, by decide +kernel⟩

theorem belowHalf_round : tmRound (.fin belowHalf) = .fin one := by decide +kernel

/-- For every finite double the result is an integral double which differs from
it by at most one. -/
theorem C124_within_one {n : Int} (h : IsDouble n) :
    ∃ z : Int, tmRound (.fin n) = .fin (z * one) ∧ IsDouble (z * one) ∧
      (z * one - n).natAbs ≤ one := by
  have ho := one_eq
  have hp := one_pos
  have hbig := big_bound
  by_cases hs : n.natAbs < 2 ^ 52 * one
  · by_cases hne : n = belowHalf
    · subst hne
      refine ⟨1, by rw [Int.one_mul]; exact belowHalf_round, ?_, ?_⟩
      · exact isDouble_of_rep (rep_int (by decide)) (by decide +kernel)
      · decide +kernel
    · obtain ⟨z, e, h1, h2, h3⟩ := small_value h hs hne
      refine ⟨z, e, isDouble_of_rep (rep_int (by omega)) ?_, ?_⟩
      · rw [Int.natAbs_mul, Int.natAbs_natCast]
        have := Nat.mul_le_mul_right one h3
        omega
      · rw [Int.add_mul] at h2
        generalize z * (one : Int) = y at *
        omega
  · have hs' : 2 ^ 52 * one ≤ n.natAbs := by omega
    obtain ⟨w, e, er⟩ := C124_large h hs'
    refine ⟨w + w % 2, er, ?_, ?_⟩
    · rcases (by omega : w % 2 = 0 ∨ w % 2 = 1) with h0 | h1
      · rw [h0, Int.add_zero, ← e]; exact h
      · have hlt : w.natAbs < 2 ^ 53 := by
          apply Classical.byContradiction
          intro hc
          have hr := h.rep
          rw [e, Int.natAbs_mul, Int.natAbs_natCast] at hr
          have := huge_even (u := 1073) (by omega) hr
          omega
        refine isDouble_of_rep (rep_int (by omega)) ?_
        rw [Int.natAbs_mul, Int.natAbs_natCast]
        have : (w + w % 2).natAbs * one ≤ 2 ^ 53 * one := Nat.mul_le_mul_right _ (by omega)
        omega
    · rw [e, Int.add_mul]
      rcases (by omega : w % 2 = 0 ∨ w % 2 = 1) with h0 | h1
      · rw [h0]; omega
      · rw [h1]; omega

example : IsDouble belowHalf :=
  ⟨⟨2 ^ 53 - 1, 1020, by decide, by decide +kernel⟩, by decide +kernel⟩

/-- An integer of at most `2 ^ 52` is left as it is. -/
theorem C124_integer {z : Int} (h : z.natAbs ≤ 2 ^ 52) :
    tmRound (.fin (z * one)) = .fin (z * one) := by
  have ho := one_eq
  have hp := one_pos
  have hbig := big_bound
  have hd : IsDouble (z * one) := by
    refine isDouble_of_rep (rep_int (by omega)) ?_
    rw [Int.natAbs_mul, Int.natAbs_natCast]
    have := Nat.mul_le_mul_right one h
    omega
  have hpi : (0 : Int) < one := by omega
  by_cases hs : (z * one).natAbs < 2 ^ 52 * one
  · obtain ⟨y, e, h1, h2, -⟩ := small_value hd hs (by
      intro hc
      have : (one : Int) ∣ belowHalf := by rw [← hc]; exact Int.dvd_mul_left _ _
      revert this
      decide +kernel)
    have hzy : y = z := by
      have a : y * one < (z + 1) * one := by rw [Int.add_mul]; omega
      have b : z * one < (y + 1) * one := by omega
      have a' := int_mul_lt hpi a
      have b' := int_mul_lt hpi b
      omega
    rw [e, hzy]
  · obtain ⟨w, e, er⟩ := C124_large hd (by omega)
    have : z = w := Int.eq_of_mul_eq_mul_right (Int.ne_of_gt hpi) e
    subst this
    rw [er]
    have : z.natAbs = 2 ^ 52 := by
      rw [Int.natAbs_mul, Int.natAbs_natCast] at hs
      have : 2 ^ 52 ≤ z.natAbs := Nat.le_of_mul_le_mul_right (by omega) hp
      omega
    have : z % 2 = 0 := by omega
    rw [this, Int.add_zero]

example : tmRound (.fin (-7 * one)) = .fin (-7 * one) := C124_integer (by decide)

/-- Rounding respects the order. -/
theorem C124_monotone {n m a b : Int} (h : n ≤ m) (ha : tmRound (.fin n) = .fin a)
    (hb : tmRound (.fin m) = .fin b) : a ≤ b := by
  have hp := one_pos
  have hpi : (0 : Int) < one := by omega
  have key : ∀ {k c : Int}, tmRound (.fin k) = .fin c →
      c = rnd (k + (2 ^ 1073 : Nat)) / (one : Int) * (one : Int) := by
    intro k c hk
    by_cases hc : (rnd (k + (2 ^ 1073 : Nat))).natAbs < 2 ^ 2098
    · rw [tmRound_fin hc] at hk
      exact (Dbl.fin.inj hk).symm
    · have : tmRound (.fin k) = .inf (decide (rnd (k + (2 ^ 1073 : Nat)) < 0)) := by
        show floor (if _ then _ else _) = _
        rw [if_neg hc]
        rfl
      rw [this] at hk
      cases hk
  rw [key ha, key hb]
  refine Int.mul_le_mul_of_nonneg_right ?_ (Int.le_of_lt hpi)
  exact Int.ediv_le_ediv hpi (rnd_mono (by omega))

example : tmRound (.fin (3 * (2 ^ 1072 : Nat))) = .fin one ∧
    tmRound (.fin (5 * (2 ^ 1073 : Nat))) = .fin (3 * one) := by decide +kernel

/-- The values which are not finite. -/
theorem C124_special (s : Bool) :
    tmRound .nan = .nan ∧ tmRound (.inf s) = .inf s ∧ asInt .nan = .ub ∧ asInt (.inf s) = .ub := by
  exact ⟨rfl, rfl, rfl, rfl⟩

theorem asInt_eq {n z : Int} (h : tmRound (.fin n) = .fin (z * one)) :
    asInt (.fin n) = if -2147483648 ≤ z ∧ z ≤ 2147483647 then .ok z else .ub := by
  have hp := one_pos
  have hpi : (0 : Int) < one := by omega
  show toInt (tmRound (.fin n)) = _
  rw [h]
  show (if _ then _ else _) = _
  rw [Int.mul_tdiv_cancel _ (Int.ne_of_gt hpi)]

/-- C124 for `as_int`: the nearest integer if this is an `int`, and otherwise
the conversion is undefined.  Missing: 0.49999999999999994
(`C124_int_violated`). -/
theorem C124_int_partial {n z : Int} (h : IsDouble n) (hne : n ≠ belowHalf) (hz : Nearest n z) :
    asInt (.fin n) = if -2147483648 ≤ z ∧ z ≤ 2147483647 then .ok z else .ub := by
  have ho := one_eq
  have hp := one_pos
  have hpi : (0 : Int) < one := by omega
  obtain ⟨b1, b2⟩ := nearest_bounds hz
  by_cases hs : n.natAbs < 2 ^ 52 * one
  · obtain ⟨y, e, h1, h2, -⟩ := small_value h hs hne
    have hzy : y = z := by
      have a' := int_mul_lt hpi (Int.lt_of_le_of_lt h1 b2)
      have b' := int_mul_lt hpi (Int.lt_of_le_of_lt b1 h2)
      omega
    rw [asInt_eq e, hzy]
  · obtain ⟨w, e, er⟩ := C124_large h (by omega)
    have hw : 2 ^ 52 ≤ w.natAbs := by
      rw [e, Int.natAbs_mul, Int.natAbs_natCast] at hs
      exact Nat.le_of_mul_le_mul_right (by omega) hp
    have hzw : z = w := by
      have a : z * one < (w + 1) * one := by rw [Int.add_mul]; omega
      have b : w * one < (z + 1) * one := by omega
      have a' := int_mul_lt hpi a
      have b' := int_mul_lt hpi b
      omega
    rw [asInt_eq er, if_neg (by omega), if_neg (by omega)]

/-- -2.5 becomes -2. -/
example : IsDouble (-5 * (2 ^ 1073 : Nat)) ∧ (-5 * (2 ^ 1073 : Nat) : Int) ≠ belowHalf ∧
    Nearest (-5 * (2 ^ 1073 : Nat)) (-2) ∧ asInt (.fin (-5 * (2 ^ 1073 : Nat))) = .ok (-2) :=
  ⟨⟨⟨-5, 1073, by decide, rfl⟩, by decide +kernel⟩, by decide +kernel,
    by unfold Nearest; decide +kernel, by decide +kernel⟩

/-- Every double has a nearest integer, so that `C124_int_partial` speaks about
all of them. -/
theorem C124_defined (n : Int) : ∃ z, Nearest n z := by
  have hp := one_pos
  have hpi : (0 : Int) < one := by omega
  exact ⟨_, nearest_of (Int.ediv_mul_le (n + (2 ^ 1073 : Nat)) (Int.ne_of_gt hpi))
    (Int.lt_ediv_add_one_mul_self (n + (2 ^ 1073 : Nat)) hpi)⟩

/-- 0.49999999999999994 becomes 1, though 0 is nearer, and `2 ^ 52 + 1`, an
integer, becomes `2 ^ 52 + 2`. -/
theorem C124_violated :
    (IsDouble belowHalf ∧ Nearest belowHalf 0 ∧ tmRound (.fin belowHalf) = .fin one) ∧
      (IsDouble ((2 ^ 52 + 1) * one) ∧ Nearest ((2 ^ 52 + 1) * one) (2 ^ 52 + 1) ∧
        tmRound (.fin ((2 ^ 52 + 1) * one)) = .fin ((2 ^ 52 + 2) * one)) := by
  refine ⟨⟨⟨⟨2 ^ 53 - 1, 1020, by decide, by decide +kernel⟩, by decide +kernel⟩,
    by unfold Nearest; decide +kernel, belowHalf_round⟩,
    ⟨⟨2 ^ 52 + 1, 1074, by decide, by decide +kernel⟩, by decide +kernel⟩,
    by unfold Nearest; decide +kernel, by decide +kernel⟩

/-- `as_int (0.49999999999999994)` is 1. -/
theorem C124_int_violated :
    IsDouble belowHalf ∧ Nearest belowHalf 0 ∧ asInt (.fin belowHalf) = .ok 1 := by
  refine ⟨⟨⟨2 ^ 53 - 1, 1020, by decide, by decide +kernel⟩, by decide +kernel⟩,
    by unfold Nearest; decide +kernel, by decide +kernel⟩

end Lolly.RoundingProps
