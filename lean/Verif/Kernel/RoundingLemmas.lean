import Verif.Kernel.Rounding

/-!
# Rounding to 53 bits: order and fixed points
-/

set_option autoImplicit false

namespace Lolly.Rounding

/-- A magnitude with at most 53 significant bits. -/
def Rep (n : Nat) : Prop := ∃ m j : Nat, m < 2 ^ 53 ∧ n = m * 2 ^ j

theorem rep_le (m j : Nat) (h : m ≤ 2 ^ 53) : Rep (m * 2 ^ j) := by
  rcases Nat.lt_or_eq_of_le h with h | h
  · exact ⟨m, j, h, rfl⟩
  · refine ⟨1, 53 + j, by decide, ?_⟩
    rw [h, Nat.pow_add, Nat.one_mul]

theorem rep_of_dvd {n k : Nat} (hd : 2 ^ k ∣ n) (h : n ≤ 2 ^ (53 + k)) : Rep n := by
  obtain ⟨c, rfl⟩ := hd
  rw [Nat.mul_comm]
  refine rep_le c k ?_
  rw [Nat.pow_add, Nat.mul_comm] at h
  exact Nat.le_of_mul_le_mul_right h (Nat.pow_pos (by decide))

/-- A representable number which is at least `2 ^ (52 + k)` is a multiple of
`2 ^ k`. -/
theorem Rep.dvd {n k : Nat} (hn : Rep n) (h : 2 ^ (52 + k) ≤ n) : 2 ^ k ∣ n := by
  obtain ⟨m, j, hm, rfl⟩ := hn
  have hj : k ≤ j := by
    apply Classical.byContradiction
    intro hc
    have h1 : m * 2 ^ j < 2 ^ 53 * 2 ^ j := Nat.mul_lt_mul_of_pos_right hm (Nat.pow_pos (by decide))
    rw [← Nat.pow_add] at h1
    have h2 : 2 ^ (53 + j) ≤ 2 ^ (52 + k) := Nat.pow_le_pow_right (by decide) (by omega)
    omega
  exact Nat.dvd_trans (Nat.pow_dvd_pow 2 hj) (Nat.dvd_mul_left _ _)

/-- The shape of a large number: `k`, `q` and `r` with `n = q * 2 ^ k + r`. -/
theorem rne_large {n : Nat} (h : 2 ^ 53 ≤ n) :
    ∃ k q r, n = q * 2 ^ k + r ∧ r < 2 ^ k ∧ 2 ^ 52 ≤ q ∧ q < 2 ^ 53 ∧
      rne n = if 2 * r < 2 ^ k ∨ (2 * r = 2 ^ k ∧ q % 2 = 0) then q * 2 ^ k
        else (q + 1) * 2 ^ k := by
  have h0 : n ≠ 0 := by
    intro e; subst e; exact absurd h (by decide)
  have hl : 53 ≤ n.log2 := (Nat.le_log2 h0).2 h
  have hlo := Nat.log2_self_le h0
  have hhi := @Nat.lt_log2_self n
  refine ⟨n.log2 - 52, n / 2 ^ (n.log2 - 52), n % 2 ^ (n.log2 - 52), ?_, ?_, ?_, ?_, ?_⟩
  · rw [Nat.mul_comm]; exact (Nat.div_add_mod _ _).symm
  · exact Nat.mod_lt _ (Nat.pow_pos (by decide))
  · rw [Nat.le_div_iff_mul_le (Nat.pow_pos (by decide)), ← Nat.pow_add]
    have : 52 + (n.log2 - 52) = n.log2 := by omega
    rw [this]; exact hlo
  · rw [Nat.div_lt_iff_lt_mul (Nat.pow_pos (by decide)), ← Nat.pow_add]
    have : 53 + (n.log2 - 52) = n.log2 + 1 := by omega
    rw [this]; exact hhi
  · unfold rne
    rw [if_neg (by omega)]

/-- `k`, `q` and `r` are determined by `n`. -/
theorem rne_of_shape {n k q r : Nat} (hn : n = q * 2 ^ k + r) (hr : r < 2 ^ k)
    (hlo : 2 ^ 52 ≤ q) (hhi : q < 2 ^ 53) :
    rne n = if 2 * r < 2 ^ k ∨ (2 * r = 2 ^ k ∧ q % 2 = 0) then q * 2 ^ k
        else (q + 1) * 2 ^ k := by
  by_cases hs : n < 2 ^ 53
  · have hk : k = 0 := by
      apply Classical.byContradiction
      intro hc
      have h1 : 2 ^ 1 ≤ 2 ^ k := Nat.pow_le_pow_right (by decide) (by omega)
      have h2 : 2 ^ 52 * 2 ≤ q * 2 ^ k := Nat.mul_le_mul hlo h1
      omega
    subst hk
    have : r = 0 := by omega
    subst this
    unfold rne
    rw [if_pos hs]
    simp at hn ⊢
    exact hn
  · have hk : n.log2 = 52 + k := by
      rw [Nat.log2_eq_iff (by omega)]
      constructor
      · rw [Nat.pow_add]
        have := Nat.mul_le_mul_right (2 ^ k) hlo
        omega
      · have h1 : (q + 1) * 2 ^ k ≤ 2 ^ 53 * 2 ^ k := Nat.mul_le_mul_right _ hhi
        rw [Nat.add_mul] at h1
        have e : 52 + k + 1 = 53 + k := by omega
        rw [e, Nat.pow_add]
        omega
    unfold rne
    rw [if_neg hs, hk]
    have e : 52 + k - 52 = k := by omega
    have hp : 0 < 2 ^ k := Nat.pow_pos (by decide)
    have hq : n / 2 ^ k = q := by
      rw [hn, Nat.mul_comm, Nat.mul_add_div hp, Nat.div_eq_of_lt hr, Nat.add_zero]
    have hm : n % 2 ^ k = r := by
      rw [hn, Nat.mul_comm, Nat.mul_add_mod, Nat.mod_eq_of_lt hr]
    simp only [e, hq, hm]

/-- Nothing representable lies strictly between `n` and its rounding. -/
theorem rne_ge {n m : Nat} (hm : Rep m) (h : m ≤ n) : m ≤ rne n := by
  by_cases hs : n < 2 ^ 53
  · unfold rne; rw [if_pos hs]; exact h
  · obtain ⟨k, q, r, hn, hr, hlo, hhi, e⟩ := rne_large (by omega : 2 ^ 53 ≤ n)
    have key : m ≤ q * 2 ^ k := by
      by_cases hb : 2 ^ (52 + k) ≤ m
      · obtain ⟨c, rfl⟩ := hm.dvd hb
        rw [Nat.mul_comm (2 ^ k) c]
        refine Nat.mul_le_mul_right _ ?_
        apply Classical.byContradiction
        intro hc
        have h1 : (q + 1) * 2 ^ k ≤ c * 2 ^ k := Nat.mul_le_mul_right _ (by omega)
        rw [Nat.add_mul] at h1
        rw [Nat.mul_comm] at h
        omega
      · have h1 : 2 ^ 52 * 2 ^ k ≤ q * 2 ^ k := Nat.mul_le_mul_right _ hlo
        rw [Nat.pow_add] at hb
        omega
    rw [e]
    split
    · exact key
    · rw [Nat.add_mul]; omega

theorem rne_le {n m : Nat} (hm : Rep m) (h : n ≤ m) : rne n ≤ m := by
  by_cases hs : n < 2 ^ 53
  · unfold rne; rw [if_pos hs]; exact h
  · obtain ⟨k, q, r, hn, hr, hlo, hhi, e⟩ := rne_large (by omega : 2 ^ 53 ≤ n)
    rw [e]
    split
    · omega
    · rename_i hc
      have hr0 : 0 < r := by
        have hp : 0 < 2 ^ k := Nat.pow_pos (by decide)
        apply Classical.byContradiction
        intro h0
        have h0' : r = 0 := by omega
        subst h0'
        exact hc (Or.inl (by omega))
      have hb : 2 ^ (52 + k) ≤ m := by
        have h1 : 2 ^ 52 * 2 ^ k ≤ q * 2 ^ k := Nat.mul_le_mul_right _ hlo
        rw [Nat.pow_add]
        omega
      obtain ⟨c, rfl⟩ := hm.dvd hb
      rw [Nat.mul_comm (2 ^ k) c] at h ⊢
      refine Nat.mul_le_mul_right _ ?_
      apply Classical.byContradiction
      intro hcc
      have h1 : c * 2 ^ k ≤ q * 2 ^ k := Nat.mul_le_mul_right _ (by omega)
      omega

/-- Representable numbers are left as they are. -/
theorem rne_fix {n : Nat} (hn : Rep n) : rne n = n :=
  Nat.le_antisymm (rne_le hn (Nat.le_refl n)) (rne_ge hn (Nat.le_refl n))

/-- The result of rounding is representable. -/
theorem rne_rep (n : Nat) : Rep (rne n) := by
  by_cases hs : n < 2 ^ 53
  · unfold rne; rw [if_pos hs]; exact ⟨n, 0, hs, by simp⟩
  · obtain ⟨k, q, r, hn, hr, hlo, hhi, e⟩ := rne_large (by omega : 2 ^ 53 ≤ n)
    rw [e]
    split
    · exact rep_le _ _ (Nat.le_of_lt hhi)
    · exact rep_le _ _ hhi

/-- Rounding respects the order. -/
theorem rne_mono {a b : Nat} (h : a ≤ b) : rne a ≤ rne b := by
  by_cases hab : a ≤ rne b
  · exact rne_le (rne_rep b) hab
  · have hb : rne b < a := by omega
    by_cases hs : b < 2 ^ 53
    · have : rne b = b := by unfold rne; rw [if_pos hs]
      omega
    · obtain ⟨k, q, r, hn, hr, hlo, hhi, e⟩ := rne_large (by omega : 2 ^ 53 ≤ b)
      by_cases hc : 2 * r < 2 ^ k ∨ (2 * r = 2 ^ k ∧ q % 2 = 0)
      · rw [if_pos hc] at e
        have ha : a = q * 2 ^ k + (a - q * 2 ^ k) := by omega
        rw [rne_of_shape (r := a - q * 2 ^ k) ha (by omega) hlo hhi, if_pos (by omega), e]
        exact Nat.le_refl _
      · rw [if_neg hc, Nat.add_mul] at e
        omega

theorem rep_zero : Rep 0 := ⟨0, 0, by decide, rfl⟩

theorem rnd_neg (a : Int) : rnd (-a) = -rnd a := by
  unfold rnd
  rw [Int.natAbs_neg]
  by_cases h0 : a = 0
  · subst h0; simp [rne]
  · by_cases h : a < 0
    · rw [if_neg (by omega), if_pos h]; omega
    · rw [if_pos (by omega), if_neg h]

theorem rnd_nonneg {a : Int} (h : 0 ≤ a) : rnd a = (rne a.natAbs : Int) := by
  unfold rnd; rw [if_neg (by omega)]

theorem rnd_mono {a b : Int} (h : a ≤ b) : rnd a ≤ rnd b := by
  unfold rnd
  split <;> split
  · have := rne_mono (show b.natAbs ≤ a.natAbs by omega)
    omega
  · omega
  · omega
  · have := rne_mono (show a.natAbs ≤ b.natAbs by omega)
    omega

theorem rnd_fix {a : Int} (h : Rep a.natAbs) : rnd a = a := by
  unfold rnd
  rw [rne_fix h]
  split <;> omega

theorem rnd_ge {a b : Int} (hb : Rep b.natAbs) (h : b ≤ a) : b ≤ rnd a := by
  have := rnd_mono h
  rwa [rnd_fix hb] at this

theorem rnd_le {a b : Int} (hb : Rep b.natAbs) (h : a ≤ b) : rnd a ≤ b := by
  have := rnd_mono h
  rwa [rnd_fix hb] at this

theorem rnd_rep (a : Int) : Rep (rnd a).natAbs := by
  unfold rnd
  split
  · rw [Int.natAbs_neg]; exact rne_rep _
  · exact rne_rep _

/-! ## Adding a half -/

theorem pow_split (a b c : Nat) (h : a + b = c) : 2 ^ c = 2 ^ a * 2 ^ b := by
  rw [← h, Nat.pow_add]

theorem int_mul_lt {a b c : Int} (hc : 0 < c) (h : a * c < b * c) : a < b :=
  Int.lt_of_mul_lt_mul_right h (Int.le_of_lt hc)

/-- The sum of a number of at least `2 ^ 51` and a half is exact up to
`2 ^ 52`. -/
theorem exact_large {u : Nat} {x : Int} (hx : Rep x.natAbs)
    (hlo : 2 ^ 51 * 2 ^ (u + 1) ≤ x.natAbs) (hhi : x.natAbs < 2 ^ 52 * 2 ^ (u + 1)) :
    Rep (x + (2 ^ u : Nat)).natAbs := by
  have hd : 2 ^ u ∣ x.natAbs := hx.dvd (by
    rw [pow_split 52 u (52 + u) rfl]
    rw [Nat.pow_succ] at hlo
    omega)
  obtain ⟨c, hc⟩ := hd
  have hp : 0 < 2 ^ u := Nat.pow_pos (by decide)
  have hc' : c < 2 ^ 53 := by
    apply Classical.byContradiction
    intro hn
    have h1 : 2 ^ 53 * 2 ^ u ≤ c * 2 ^ u := Nat.mul_le_mul_right _ (by omega)
    rw [Nat.mul_comm] at hc
    rw [Nat.pow_succ] at hhi
    omega
  have hc0 : 1 ≤ c := by
    apply Classical.byContradiction
    intro hn
    have : c = 0 := by omega
    subst this
    rw [Nat.pow_succ] at hlo
    omega
  by_cases hs : 0 ≤ x
  · have e : (x + (2 ^ u : Nat)).natAbs = (c + 1) * 2 ^ u := by
      rw [Nat.add_mul, Nat.mul_comm c]
      omega
    rw [e]
    exact rep_le _ _ hc'
  · have e : (x + (2 ^ u : Nat)).natAbs = (c - 1) * 2 ^ u := by
      rw [Nat.sub_mul, Nat.mul_comm c]
      have : 2 ^ u ≤ 2 ^ u * c := Nat.le_mul_of_pos_right _ hc0
      omega
    rw [e]
    exact rep_le _ _ (by omega)

/-- Below `2 ^ 51`, adding a half and rounding to 53 bits stays below the next
integer, except for the largest number below a half. -/
theorem below_next {u : Nat} (hu : 53 ≤ u) {x z : Int} (hx : Rep x.natAbs)
    (hhi : x.natAbs < 2 ^ 51 * 2 ^ (u + 1))
    (hne : x ≠ (2 ^ u : Nat) - (2 ^ (u - 53) : Nat))
    (h1 : z * (2 ^ (u + 1) : Nat) ≤ x + (2 ^ u : Nat))
    (h2 : x + (2 ^ u : Nat) < (z + 1) * (2 ^ (u + 1) : Nat)) :
    rnd (x + (2 ^ u : Nat)) < (z + 1) * (2 ^ (u + 1) : Nat) := by
  have hU : 2 ^ (u + 1) = 2 * 2 ^ u := by rw [Nat.pow_succ, Nat.mul_comm]
  have hp : 0 < 2 ^ u := Nat.pow_pos (by decide)
  have hUp : (0 : Int) < (2 ^ (u + 1) : Nat) := by rw [hU]; omega
  have hz : z ≤ 2 ^ 51 := by
    have : z * (2 ^ (u + 1) : Nat) < (2 ^ 51 + 1) * (2 ^ (u + 1) : Nat) := by
      rw [Int.add_mul]; omega
    have := int_mul_lt hUp this
    omega
  have hz' : -(2 ^ 51) ≤ z := by
    have : (-(2 ^ 51)) * (2 ^ (u + 1) : Nat) < (z + 1) * (2 ^ (u + 1) : Nat) := by
      rw [Int.neg_mul]; omega
    have := int_mul_lt hUp this
    omega
  rcases Int.lt_trichotomy z 0 with hneg | h0 | hpos
  · -- below zero
    by_cases hm1 : z = -1
    · subst hm1
      have : rnd (x + (2 ^ u : Nat)) ≤ -1 :=
        rnd_le (b := -1) ⟨1, 0, by decide, rfl⟩ (by omega)
      omega
    · obtain ⟨n, hn⟩ : ∃ n : Nat, z + 1 = -(n : Int) := ⟨(-(z + 1)).toNat, by omega⟩
      have hn1 : n ≠ 0 := by omega
      have hlo := Nat.log2_self_le hn1
      have hhi2 := @Nat.lt_log2_self n
      have ht : n.log2 ≤ 51 := by
        have : n.log2 < 52 := (Nat.log2_lt hn1).2 (by omega)
        omega
      generalize n.log2 = t at hlo hhi2 ht
      have hnU : 2 ^ t * 2 ^ (u + 1) ≤ n * 2 ^ (u + 1) := Nat.mul_le_mul_right _ hlo
      have hnU2 : n * 2 ^ (u + 1) < 2 ^ (t + 1) * 2 ^ (u + 1) :=
        Nat.mul_lt_mul_of_pos_right hhi2 (by omega)
      rw [hn] at h2 ⊢
      rw [Int.neg_mul] at h2 ⊢
      have hcast : (n : Int) * (2 ^ (u + 1) : Nat) = ((n * 2 ^ (u + 1) : Nat) : Int) := by
        rw [Int.natCast_mul]
      rw [hcast] at h2 ⊢
      generalize n * 2 ^ (u + 1) = nU at *
      have hd : 2 ^ (t + u + 1 - 52) ∣ x.natAbs := hx.dvd (by
        rw [pow_split t (u + 1) (52 + (t + u + 1 - 52)) (by omega)]
        omega)
      have hdH : 2 ^ (t + u + 1 - 52) ∣ 2 ^ u := Nat.pow_dvd_pow 2 (by omega)
      have hy : (x + (2 ^ u : Nat)).natAbs = x.natAbs - 2 ^ u := by omega
      have hdy : 2 ^ (t + u + 1 - 52) ∣ (x + (2 ^ u : Nat)).natAbs := by
        rw [hy]; exact Nat.dvd_sub hd hdH
      have hT : 2 ^ (t + 1) * 2 ^ (u + 1) = 2 ^ (53 + (t + u + 1 - 52)) := by
        rw [← Nat.pow_add]; congr 1; omega
      by_cases hb : (x + (2 ^ u : Nat)).natAbs ≤ 2 ^ (t + 1) * 2 ^ (u + 1)
      · rw [rnd_fix (rep_of_dvd hdy (by rw [← hT]; exact hb))]
        omega
      · have : rnd (x + (2 ^ u : Nat)) ≤ -((2 ^ (t + 1) * 2 ^ (u + 1) : Nat) : Int) := by
          refine rnd_le ?_ (by omega)
          rw [Int.natAbs_neg, Int.natAbs_natCast, hT]
          exact ⟨1, _, by decide, by rw [Nat.one_mul]⟩
        omega
  · -- below one
    subst h0
    rw [Int.zero_add, Int.one_mul] at h2 ⊢
    by_cases hq : 2 ^ (u - 1) ≤ x.natAbs ∧ 0 ≤ x
    · obtain ⟨c, hc⟩ := hx.dvd (k := u - 53) (by
        have : 52 + (u - 53) = u - 1 := by omega
        rw [this]; exact hq.1)
      have hH : 2 ^ u = 2 ^ 53 * 2 ^ (u - 53) := pow_split _ _ _ (by omega)
      have hg : 0 < 2 ^ (u - 53) := Nat.pow_pos (by decide)
      have hcl : c + 2 ≤ 2 ^ 53 := by
        apply Classical.byContradiction
        intro hn
        by_cases he : c = 2 ^ 53 - 1
        · subst he
          rw [Nat.mul_comm] at hc
          omega
        · have : 2 ^ 53 * 2 ^ (u - 53) ≤ c * 2 ^ (u - 53) := Nat.mul_le_mul_right _ (by omega)
          rw [Nat.mul_comm] at hc
          omega
      have hb : c * 2 ^ (u - 53) ≤ (2 ^ 53 - 2) * 2 ^ (u - 53) := Nat.mul_le_mul_right _ (by omega)
      have hr : rnd (x + (2 ^ u : Nat)) ≤ (((2 ^ 53 - 1) * 2 ^ (u - 52) : Nat) : Int) := by
        refine rnd_le (rep_le _ _ (by decide)) ?_
        have e2 : 2 ^ (u - 52) = 2 * 2 ^ (u - 53) := by
          rw [pow_split 1 (u - 53) (u - 52) (by omega)]
        rw [e2]
        rw [Nat.mul_comm] at hc
        omega
      have e2 : 2 ^ (u - 52) = 2 * 2 ^ (u - 53) := by
        rw [pow_split 1 (u - 53) (u - 52) (by omega)]
      rw [e2] at hr
      omega
    · have hH : 2 ^ u = 2 * 2 ^ (u - 1) := by
        rw [pow_split 1 (u - 1) u (by omega)]
      have hr : rnd (x + (2 ^ u : Nat)) ≤ ((3 * 2 ^ (u - 1) : Nat) : Int) :=
        rnd_le (rep_le _ _ (by decide)) (by omega)
      omega
  · -- above one
    obtain ⟨n, hn⟩ : ∃ n : Nat, z = (n : Int) := ⟨z.toNat, by omega⟩
    subst hn
    have hn1 : n ≠ 0 := by omega
    have hlo := Nat.log2_self_le hn1
    have hhi2 := @Nat.lt_log2_self n
    have ht : n.log2 ≤ 51 := by
      have : n.log2 < 52 := (Nat.log2_lt hn1).2 (by omega)
      omega
    generalize n.log2 = t at hlo hhi2 ht
    have hnU : 2 ^ t * 2 ^ (u + 1) ≤ n * 2 ^ (u + 1) := Nat.mul_le_mul_right _ hlo
    have hnU2 : (n + 1) * 2 ^ (u + 1) ≤ 2 ^ (t + 1) * 2 ^ (u + 1) :=
      Nat.mul_le_mul_right _ hhi2
    have hcast : ((n : Int) + 1) * (2 ^ (u + 1) : Nat) = ((n * 2 ^ (u + 1) : Nat) : Int) + (2 ^ (u + 1) : Nat) := by
      rw [Int.add_mul, Int.one_mul, Int.natCast_mul]
    rw [hcast] at h2 ⊢
    rw [Nat.add_mul, Nat.one_mul] at hnU2
    have hT : 2 ^ (t + 1) * 2 ^ (u + 1) = 2 ^ (53 + (t + u + 1 - 52)) := by
      rw [← Nat.pow_add]; congr 1; omega
    have hdH : 2 ^ (t + u + 1 - 52) ∣ 2 ^ u := Nat.pow_dvd_pow 2 (by omega)
    have hle : 2 ^ (u + 1) ≤ n * 2 ^ (u + 1) := Nat.le_mul_of_pos_left _ (by omega)
    rw [← Int.natCast_mul] at h1
    generalize n * 2 ^ (u + 1) = nU at *
    by_cases hb : 2 ^ t * 2 ^ (u + 1) ≤ x.natAbs
    · have hd : 2 ^ (t + u + 1 - 52) ∣ x.natAbs := hx.dvd (by
        rw [pow_split t (u + 1) (52 + (t + u + 1 - 52)) (by omega)]
        exact hb)
      have hx0 : 0 ≤ x := by
        omega
      have hy : (x + (2 ^ u : Nat)).natAbs = x.natAbs + 2 ^ u := by omega
      have hdy : 2 ^ (t + u + 1 - 52) ∣ (x + (2 ^ u : Nat)).natAbs := by
        rw [hy]; exact Nat.dvd_add hd hdH
      rw [rnd_fix (rep_of_dvd hdy (by rw [← hT]; omega))]
      exact h2
    · have hr : rnd (x + (2 ^ u : Nat)) ≤ (((2 ^ (t + 1) + 1) * 2 ^ u : Nat) : Int) := by
        refine rnd_le (rep_le _ _ ?_) ?_
        · have : 2 ^ (t + 1) ≤ 2 ^ 52 := Nat.pow_le_pow_right (by decide) (by omega)
          omega
        · have : 2 ^ t * 2 ^ (u + 1) = 2 ^ (t + 1) * 2 ^ u := by
            rw [← Nat.pow_add, ← Nat.pow_add]; congr 1; omega
          rw [Nat.add_mul, Nat.one_mul]
          omega
      have : 2 ^ t * 2 ^ (u + 1) = 2 ^ (t + 1) * 2 ^ u := by
        rw [← Nat.pow_add, ← Nat.pow_add]; congr 1; omega
      rw [Nat.add_mul, Nat.one_mul] at hr
      omega

/-! ## From `2 ^ 52` on -/

/-- From `2 ^ 53` on: the multiples of a power of two which is at least twice
the unit. -/
theorem huge_shape {u w : Nat} (hw : 2 ^ 53 ≤ w) (hr : Rep (w * 2 ^ (u + 1))) :
    ∃ k q, w * 2 ^ (u + 1) = q * 2 ^ k ∧ u + 2 ≤ k ∧ 2 ^ 52 ≤ q ∧ q < 2 ^ 53 := by
  have hp : 0 < 2 ^ (u + 1) := Nat.pow_pos (by decide)
  have hge : 2 ^ 53 * 2 ^ (u + 1) ≤ w * 2 ^ (u + 1) := Nat.mul_le_mul_right _ hw
  obtain ⟨k, q, r, hn, hrk, hlo, hhi, -⟩ := rne_large (show 2 ^ 53 ≤ w * 2 ^ (u + 1) by omega)
  have hq : 2 ^ 52 * 2 ^ k ≤ q * 2 ^ k := Nat.mul_le_mul_right _ hlo
  have hq2 : (q + 1) * 2 ^ k ≤ 2 ^ 53 * 2 ^ k := Nat.mul_le_mul_right _ hhi
  rw [Nat.add_mul] at hq2
  have hd : 2 ^ k ∣ w * 2 ^ (u + 1) := hr.dvd (by rw [Nat.pow_add]; omega)
  have hr0 : r = 0 := by
    rw [hn] at hd
    have := (Nat.dvd_add_right (Nat.dvd_mul_left (2 ^ k) q)).1 hd
    exact Nat.eq_zero_of_dvd_of_lt this hrk
  subst hr0
  refine ⟨k, q, hn, ?_, hlo, hhi⟩
  apply Classical.byContradiction
  intro hk
  have : 2 ^ k ≤ 2 ^ (u + 1) := Nat.pow_le_pow_right (by decide) (by omega)
  have : 2 ^ 53 * 2 ^ k ≤ 2 ^ 53 * 2 ^ (u + 1) := Nat.mul_le_mul_left _ this
  have hpk : 0 < 2 ^ k := Nat.pow_pos (by decide)
  omega

theorem huge_even {u w : Nat} (hw : 2 ^ 53 ≤ w) (hr : Rep (w * 2 ^ (u + 1))) : w % 2 = 0 := by
  obtain ⟨k, q, e, hk, -, -⟩ := huge_shape hw hr
  have h1 : 2 ^ k = 2 ^ (k - (u + 1)) * 2 ^ (u + 1) := pow_split _ _ _ (by omega)
  rw [h1, ← Nat.mul_assoc] at e
  have e2 := Nat.eq_of_mul_eq_mul_right (Nat.pow_pos (by decide)) e
  have h3 : 2 ^ (k - (u + 1)) = 2 * 2 ^ (k - (u + 2)) := by
    rw [pow_split 1 (k - (u + 2)) (k - (u + 1)) (by omega)]
  rw [e2, h3, Nat.mul_left_comm]
  exact Nat.mul_mod_right _ _

theorem up_large {u w : Nat} (hw : 2 ^ 52 ≤ w) (hr : Rep (w * 2 ^ (u + 1))) :
    rne (w * 2 ^ (u + 1) + 2 ^ u) = (w + w % 2) * 2 ^ (u + 1) := by
  have hU : 2 ^ (u + 1) = 2 * 2 ^ u := by rw [Nat.pow_succ, Nat.mul_comm]
  have hp : 0 < 2 ^ u := Nat.pow_pos (by decide)
  by_cases hs : w < 2 ^ 53
  · rw [rne_of_shape (k := u + 1) (q := w) (r := 2 ^ u) rfl (by omega) hw hs]
    rcases Nat.mod_two_eq_zero_or_one w with h | h
    · rw [if_pos (Or.inr ⟨hU.symm, h⟩), h, Nat.add_zero w]
    · rw [if_neg (by omega), h]
  · have he := huge_even (by omega) hr
    obtain ⟨k, q, e, hk, hlo, hhi⟩ := huge_shape (by omega) hr
    have h4 : 2 ^ (u + 2) ≤ 2 ^ k := Nat.pow_le_pow_right (by decide) hk
    have h5 : 2 ^ (u + 2) = 4 * 2 ^ u := by rw [Nat.pow_add, Nat.mul_comm]
    rw [he, Nat.add_zero w, e,
      rne_of_shape (k := k) (q := q) (r := 2 ^ u) rfl (by omega) hlo hhi, if_pos (by omega)]

theorem down_large {u w : Nat} (hw : 2 ^ 52 < w) (hr : Rep (w * 2 ^ (u + 1))) :
    rne (w * 2 ^ (u + 1) - 2 ^ u) = (w - w % 2) * 2 ^ (u + 1) := by
  have hU : 2 ^ (u + 1) = 2 * 2 ^ u := by rw [Nat.pow_succ, Nat.mul_comm]
  have hp : 0 < 2 ^ u := Nat.pow_pos (by decide)
  by_cases hs : w ≤ 2 ^ 53
  · obtain ⟨v, rfl⟩ : ∃ v, w = v + 1 := ⟨w - 1, by omega⟩
    rw [rne_of_shape (k := u + 1) (q := v) (r := 2 ^ u) (by rw [Nat.add_mul]; omega) (by omega)
      (by omega) (by omega)]
    rcases Nat.mod_two_eq_zero_or_one v with h | h
    · have h' : (v + 1) % 2 = 1 := by omega
      rw [if_pos (Or.inr ⟨hU.symm, h⟩), h']
      rfl
    · have h' : (v + 1) % 2 = 0 := by omega
      rw [if_neg (by omega), h', Nat.sub_zero]
  · have he := huge_even (by omega) hr
    obtain ⟨k, q, e, hk, hlo, hhi⟩ := huge_shape (by omega) hr
    have h4 : 2 ^ (u + 2) ≤ 2 ^ k := Nat.pow_le_pow_right (by decide) hk
    have h5 : 2 ^ (u + 2) = 4 * 2 ^ u := by rw [Nat.pow_add, Nat.mul_comm]
    rw [he, Nat.sub_zero, e]
    by_cases hq : q = 2 ^ 52
    · subst hq
      have h6 : 2 ^ k = 2 * 2 ^ (k - 1) := by rw [pow_split 1 (k - 1) k (by omega)]
      rw [rne_of_shape (k := k - 1) (q := 2 ^ 53 - 1) (r := 2 ^ (k - 1) - 2 ^ u) (by omega)
        (by omega) (by decide) (by decide), if_neg (by omega)]
      omega
    · obtain ⟨v, rfl⟩ : ∃ v, q = v + 1 := ⟨q - 1, by omega⟩
      rw [rne_of_shape (k := k) (q := v) (r := 2 ^ k - 2 ^ u)
        (by rw [Nat.add_mul]; omega) (by omega) (by omega) (by omega), if_neg (by omega)]

end Lolly.Rounding
