import Verif.Strings.Diff
import Verif.Strings.SearchLemmas

/-!
# C26: differences between strings
-/

set_option autoImplicit false

namespace Lolly.DiffProps

open Lolly.An Lolly.Diff

/-! ## Specification -/

/-- `segs` lists segments of a string of length `n1` and one of length `n2`, from `p1` and `p2` on,
in order and without overlap, such that the parts between the segments have the same lengths. -/
def Aligned (n1 n2 : Nat) : Nat → Nat → List Seg → Prop
  | p1, p2, [] => p1 ≤ n1 ∧ p2 ≤ n2 ∧ n1 - p1 = n2 - p2
  | p1, p2, s :: r => p1 ≤ s.a ∧ s.a ≤ s.b ∧ p2 ≤ s.c ∧ s.c ≤ s.d ∧ s.a - p1 = s.c - p2 ∧
      Aligned n1 n2 s.b s.d r

/-- What is obtained from `s1`, from `p` on, by replacing the listed segments by those of `s2`. -/
def patch (s1 s2 : Bytes) : Nat → List Seg → Bytes
  | p, [] => s1.drop p
  | p, s :: r => (s1.take s.a).drop p ++ (s2.take s.d).drop s.c ++ patch s1 s2 s.b r

/-! ## Lemmas -/

theorem goRight_spec (s1 s2 : Bytes) (c1 c2 r : Nat) :
    ∃ r', goRight s1 s2 c1 c2 r = .ok r' ∧ r ≤ r' := by
  fun_induction goRight s1 s2 c1 c2 r with
  | case1 r h ih =>
    rw [rd_ok h.1, rd_ok h.2]
    simp only [Res.ok_bind]
    split
    · rename_i e
      obtain ⟨r', e1, h1⟩ := ih
      exact ⟨r', e1, by omega⟩
    · exact ⟨r, rfl, Nat.le_refl _⟩
  | case2 r h => exact ⟨r, rfl, Nat.le_refl _⟩

theorem goLeft_spec (s1 s2 : Bytes) (c1 c2 l : Nat) (h1 : c1 ≤ s1.length) (h2 : c2 ≤ s2.length) :
    ∃ l', goLeft s1 s2 c1 c2 l = .ok l' ∧ (l ≤ c1 → l ≤ c2 → l' ≤ c1 ∧ l' ≤ c2) := by
  fun_induction goLeft s1 s2 c1 c2 l with
  | case1 l h ih =>
    rw [rd_ok (show c1 - l - 1 < s1.length by omega), rd_ok (show c2 - l - 1 < s2.length by omega)]
    simp only [Res.ok_bind]
    split
    · obtain ⟨l', e1, h1⟩ := ih
      exact ⟨l', e1, fun _ _ => h1 (by omega) (by omega)⟩
    · exact ⟨l, rfl, fun a b => ⟨a, b⟩⟩
  | case2 l h => exact ⟨l, rfl, fun a b => ⟨a, b⟩⟩

theorem findLongest_spec (s1 s2 : Bytes) (c1 : Nat) (h : c1 < s1.length) :
    ∃ n a b, findLongest s1 s2 c1 = .ok (n, a, b) ∧ (n > 0 → a < s1.length ∧ b < s2.length) := by
  obtain ⟨st, e, hs⟩ := forUp_spec (lo := 0) (hi := s2.length) (s := (⟨0, 0, 0⟩ : Best))
    (body := longestBody s1 s2 c1)
    (fun _ b => b.l + b.r > 0 → b.c < s2.length ∧ b.l ≤ c1 ∧ b.l ≤ b.c) (by omega)
    (fun h => absurd h (by decide))
    (fun c2 b _ hc2 hb => by
      unfold longestBody
      rw [rd_ok h, rd_ok hc2]
      simp only [Res.ok_bind]
      by_cases hxy : s1[c1] = s2[c2]
      · rw [if_pos hxy]
        obtain ⟨r, er, _⟩ := goRight_spec s1 s2 c1 c2 0
        obtain ⟨l, el, hl⟩ := goLeft_spec s1 s2 c1 c2 0 (by omega) (by omega)
        rw [er, el]
        refine ⟨_, rfl, ?_⟩
        split
        · intro _
          have := hl (by omega) (by omega)
          exact ⟨hc2, this.1, this.2⟩
        · exact hb
      · rw [if_neg hxy]; exact ⟨b, rfl, hb⟩)
  unfold findLongest
  rw [e]
  simp only [Res.ok_bind]
  by_cases hp : st.l + st.r > 0
  · rw [if_pos hp]
    exact ⟨_, _, _, rfl, fun _ => by have := hs hp; omega⟩
  · rw [if_neg hp]
    exact ⟨_, _, _, rfl, fun h => absurd h hp⟩

theorem findCommon_spec (s1 s2 : Bytes) :
    ∃ c1 c2, findCommon s1 s2 = .ok (c1, c2) ∧
      ((c1 = 0 ∧ c2 = 0) ∨ (c1 < s1.length ∧ c2 < s2.length)) ∧
      (s1 = [] ∨ s2 = [] → c1 = 0 ∧ c2 = 0) := by
  unfold findCommon
  by_cases h0 : s1.length = 0 ∨ s2.length = 0
  · rw [if_pos h0]; exact ⟨0, 0, rfl, .inl ⟨rfl, rfl⟩, fun _ => ⟨rfl, rfl⟩⟩
  · rw [if_neg h0]
    dsimp only
    obtain ⟨st, e, hs⟩ := forUp_spec (lo := 1) (hi := min (min s1.length s2.length) 6)
      (s := ((0, 0, 0) : Nat × Nat × Nat))
      (body := commonBody s1 s2 (min (min s1.length s2.length) 6))
      (fun _ st => (st.2.1 = 0 ∧ st.2.2 = 0) ∨ (st.2.1 < s1.length ∧ st.2.2 < s2.length))
      (by omega) (.inl ⟨rfl, rfl⟩)
      (fun k st _ hk hb => by
        unfold commonBody
        have hlt : k * s1.length / min (min s1.length s2.length) 6 < s1.length := by
          rw [Nat.div_lt_iff_lt_mul (by omega), Nat.mul_comm]
          exact Nat.mul_lt_mul_of_pos_left hk (by omega)
        obtain ⟨n, a, b, er, hr⟩ := findLongest_spec s1 s2 _ hlt
        rw [er]
        refine ⟨_, rfl, ?_⟩
        split
        · rename_i hgt; exact .inr (hr (by dsimp only at hgt; omega))
        · exact hb)
    rw [e]
    refine ⟨_, _, rfl, hs, fun h => ?_⟩
    rcases h with h | h <;> subst h <;> simp at h0

theorem skipLeft_spec (s1 s2 : Bytes) (i : Nat) (h1 : i ≤ s1.length) (h2 : i ≤ s2.length) :
    ∃ k, skipLeft s1 s2 i i s1.length s2.length = .ok (k, k) ∧ i ≤ k ∧ k ≤ s1.length ∧ k ≤ s2.length ∧
      (∀ j, i ≤ j → j < k → s1[j]? = s2[j]?) ∧
      (k = s1.length ∨ k = s2.length ∨ s1[k]? ≠ s2[k]?) := by
  generalize hn : s1.length - i = n
  induction n generalizing i with
  | zero =>
    rw [skipLeft, if_neg (by omega)]
    exact ⟨i, rfl, Nat.le_refl _, h1, h2, fun j _ _ => by omega, .inl (by omega)⟩
  | succ n ih =>
    rw [skipLeft]
    by_cases h : i < s1.length ∧ i < s2.length
    · rw [if_pos h, rd_ok h.1, rd_ok h.2]
      simp only [Res.ok_bind]
      by_cases e : s1[i] = s2[i]
      · rw [if_pos e]
        obtain ⟨k, ek, a1, a2, a3, a4, a5⟩ := ih (i + 1) (by omega) (by omega) (by omega)
        refine ⟨k, ek, by omega, a2, a3, fun j hj hk => ?_, a5⟩
        by_cases hji : j = i
        · subst hji; rw [List.getElem?_eq_getElem h.1, List.getElem?_eq_getElem h.2, e]
        · exact a4 j (by omega) hk
      · rw [if_neg e]
        refine ⟨i, rfl, Nat.le_refl _, h1, h2, fun j _ _ => by omega, .inr (.inr ?_)⟩
        rw [List.getElem?_eq_getElem h.1, List.getElem?_eq_getElem h.2]
        simpa using e
    · rw [if_neg h]
      exact ⟨i, rfl, Nat.le_refl _, h1, h2, fun j _ _ => by omega, by omega⟩

theorem skipRight_spec (s1 s2 : Bytes) (k m : Nat) (h1 : k + m ≤ s1.length) (h2 : k + m ≤ s2.length) :
    ∃ m', skipRight s1 s2 k k (s1.length - m) (s2.length - m) = .ok (s1.length - m', s2.length - m') ∧
      m ≤ m' ∧ k + m' ≤ s1.length ∧ k + m' ≤ s2.length ∧
      (∀ j, m ≤ j → j < m' → s1[s1.length - 1 - j]? = s2[s2.length - 1 - j]?) ∧
      (k + m' = s1.length ∨ k + m' = s2.length ∨
        s1[s1.length - 1 - m']? ≠ s2[s2.length - 1 - m']?) := by
  generalize hn : s1.length - m - k = n
  induction n generalizing m with
  | zero =>
    rw [skipRight, if_neg (by omega)]
    exact ⟨m, rfl, Nat.le_refl _, h1, h2, fun j _ _ => by omega, .inl (by omega)⟩
  | succ n ih =>
    rw [skipRight]
    by_cases h : k < s1.length - m ∧ k < s2.length - m
    · have g1 : s1.length - m - 1 < s1.length := by omega
      have g2 : s2.length - m - 1 < s2.length := by omega
      rw [if_pos h, rd_ok g1, rd_ok g2]
      simp only [Res.ok_bind]
      by_cases e : s1[s1.length - m - 1] = s2[s2.length - m - 1]
      · rw [if_pos e]
        obtain ⟨m', em, a1, a2, a3, a4, a5⟩ := ih (m + 1) (by omega) (by omega) (by omega)
        refine ⟨m', em, by omega, a2, a3, fun j hj hk => ?_, a5⟩
        by_cases hji : j = m
        · subst hji
          rw [show s1.length - 1 - j = s1.length - j - 1 by omega,
            show s2.length - 1 - j = s2.length - j - 1 by omega,
            List.getElem?_eq_getElem g1, List.getElem?_eq_getElem g2, e]
        · exact a4 j (by omega) hk
      · rw [if_neg e]
        refine ⟨m, rfl, Nat.le_refl _, h1, h2, fun j _ _ => by omega, .inr (.inr ?_)⟩
        rw [show s1.length - 1 - m = s1.length - m - 1 by omega,
            show s2.length - 1 - m = s2.length - m - 1 by omega,
            List.getElem?_eq_getElem g1, List.getElem?_eq_getElem g2]
        simpa using e
    · rw [if_neg h]
      exact ⟨m, rfl, Nat.le_refl _, h1, h2, fun j _ _ => by omega, by omega⟩

/-- One step of the recursion. -/
theorem diff_step (fuel : Nat) (s1 s2 : Bytes) : ∃ k m,
    k + m ≤ s1.length ∧ k + m ≤ s2.length ∧
    (∀ j, j < k → s1[j]? = s2[j]?) ∧ (k = s1.length ∨ k = s2.length ∨ s1[k]? ≠ s2[k]?) ∧
    (∀ j, j < m → s1[s1.length - 1 - j]? = s2[s2.length - 1 - j]?) ∧
    (k + m = s1.length ∨ k + m = s2.length ∨ s1[s1.length - 1 - m]? ≠ s2[s2.length - 1 - m]?) ∧
    ((s1.length = s2.length ∧ differencesN (fuel + 1) s1 s2 = .ok []) ∨
     (s1.length ≠ s2.length ∧ 0 < k + m ∧ differencesN (fuel + 1) s1 s2 = (do
        let r ← differencesN fuel ((s1.take (s1.length - m)).drop k) ((s2.take (s2.length - m)).drop k)
        .ok (shift k k r))) ∨
     (s1.length ≠ s2.length ∧ k = 0 ∧ m = 0 ∧ findCommon s1 s2 = .ok (0, 0) ∧
        differencesN (fuel + 1) s1 s2 = .ok [⟨0, s1.length, 0, s2.length⟩]) ∨
     (s1.length ≠ s2.length ∧ k = 0 ∧ m = 0 ∧ ∃ c1 c2, findCommon s1 s2 = .ok (c1, c2) ∧
        0 < c1 + c2 ∧ c1 < s1.length ∧ c2 < s2.length ∧ s1 ≠ [] ∧ s2 ≠ [] ∧
        differencesN (fuel + 1) s1 s2 = (do
          let r1 ← differencesN fuel (s1.take c1) (s2.take c2)
          let r2 ← differencesN fuel (s1.drop c1) (s2.drop c2)
          .ok (r1 ++ shift c1 c2 r2)))) := by
  obtain ⟨k, ek, _, k1, k2, k3, k4⟩ := skipLeft_spec s1 s2 0 (by omega) (by omega)
  obtain ⟨m, em, _, m1, m2, m3, m4⟩ := skipRight_spec s1 s2 k 0 (by omega) (by omega)
  refine ⟨k, m, m1, m2, fun j hj => k3 j (by omega) hj, k4, fun j hj => m3 j (by omega) hj, m4, ?_⟩
  simp only [Nat.sub_zero] at em
  have unf : differencesN (fuel + 1) s1 s2 =
      (if k = k ∧ s1.length - m = s2.length - m then .ok []
      else if k > 0 ∨ k > 0 ∨ s1.length - m < s1.length ∨ s2.length - m < s2.length then do
        let r ← differencesN fuel (sub s1 k (s1.length - m : Nat)) (sub s2 k (s2.length - m : Nat))
        .ok (shift k k r)
      else do
        let (c1, c2) ← findCommon s1 s2
        if c1 = 0 ∧ c2 = 0 then .ok [⟨k, s1.length - m, k, s2.length - m⟩]
        else do
          let r1 ← differencesN fuel (sub s1 0 c1) (sub s2 0 c2)
          let r2 ← differencesN fuel (sub s1 c1 s1.length) (sub s2 c2 s2.length)
          .ok (r1 ++ shift c1 c2 r2)) := by
    rw [differencesN]
    dsimp only
    rw [ek]
    simp only [Res.ok_bind]
    rw [em]
    rfl
  by_cases hl : s1.length = s2.length
  · exact .inl ⟨hl, by rw [unf, if_pos ⟨rfl, by omega⟩]⟩
  · right
    rw [if_neg (by omega)] at unf
    by_cases hp : 0 < k + m
    · left
      refine ⟨hl, hp, ?_⟩
      rw [unf, if_pos (by omega), sub_nat, sub_nat]
    · right
      obtain rfl : k = 0 := by omega
      obtain rfl : m = 0 := by omega
      rw [if_neg (by omega)] at unf
      obtain ⟨c1, c2, ec, hc, hc0⟩ := findCommon_spec s1 s2
      by_cases h0 : c1 = 0 ∧ c2 = 0
      · left
        obtain ⟨rfl, rfl⟩ := h0
        refine ⟨hl, rfl, rfl, ec, ?_⟩
        rw [unf, ec]; rfl
      · right
        refine ⟨hl, rfl, rfl, c1, c2, ec, by omega, by omega, by omega, ?_, ?_, ?_⟩
        · intro e; exact h0 (hc0 (.inl e))
        · intro e; exact h0 (hc0 (.inr e))
        · rw [unf, ec]
          simp only [Res.ok_bind]
          rw [if_neg h0, sub_from_zero, sub_from_zero, sub_to_end, sub_to_end]

theorem aligned_shift {n1 n2 x y : Nat} (r : List Seg) {p1 p2 : Nat} (h : Aligned n1 n2 p1 p2 r) :
    Aligned (n1 + x) (n2 + y) (p1 + x) (p2 + y) (shift x y r) := by
  induction r generalizing p1 p2 with
  | nil => simp only [shift, List.map_nil, Aligned] at h ⊢; omega
  | cons s r ih =>
    obtain ⟨a1, a2, a3, a4, a5, a6⟩ := h
    exact ⟨by dsimp only; omega, by dsimp only; omega, by dsimp only; omega, by dsimp only; omega,
      by dsimp only; omega, ih a6⟩

/-- Start earlier and end later by the same amounts. -/
theorem aligned_widen {n1 n2 k m : Nat} (r : List Seg) {p1 p2 : Nat} (h : Aligned n1 n2 p1 p2 r)
    (hp1 : k ≤ p1) (hp2 : k ≤ p2) : Aligned (n1 + m) (n2 + m) (p1 - k) (p2 - k) r := by
  induction r generalizing p1 p2 k with
  | nil => simp only [Aligned] at h ⊢; omega
  | cons s r ih =>
    obtain ⟨a1, a2, a3, a4, a5, a6⟩ := h
    exact ⟨by omega, a2, by omega, a4, by omega, by simpa using ih (k := 0) a6 (by omega) (by omega)⟩

theorem aligned_append {c1 c2 n1 n2 : Nat} (r r' : List Seg) {p1 p2 : Nat}
    (h : Aligned c1 c2 p1 p2 r) (h' : Aligned n1 n2 c1 c2 r') : Aligned n1 n2 p1 p2 (r ++ r') := by
  induction r generalizing p1 p2 with
  | nil =>
    simp only [Aligned, List.nil_append] at h ⊢
    cases r' with
    | nil => simp only [Aligned] at h' ⊢; omega
    | cons s r' =>
      obtain ⟨a1, a2, a3, a4, a5, a6⟩ := h'
      exact ⟨by omega, a2, by omega, a4, by omega, a6⟩
  | cons s r ih =>
    obtain ⟨a1, a2, a3, a4, a5, a6⟩ := h
    exact ⟨a1, a2, a3, a4, a5, ih a6⟩

/-- The size of a list of segments, as counted by `distance`. -/
def size : List Seg → Nat
  | [] => 0
  | s :: r => max (s.b - s.a) (s.d - s.c) + size r

theorem size_shift (x y : Nat) (r : List Seg) : size (shift x y r) = size r := by
  induction r with
  | nil => rfl
  | cons s r ih =>
    simp only [shift, List.map_cons, size] at ih ⊢
    rw [ih]; omega

theorem size_append (r r' : List Seg) : size (r ++ r') = size r + size r' := by
  induction r with
  | nil => simp [size]
  | cons s r ih => simp only [List.cons_append, size, ih]; omega

/-- The recursion terminates, and what it returns is aligned, with no empty segment. -/
theorem diff_spec (fuel : Nat) (s1 s2 : Bytes) (hf : s1.length + s2.length < fuel) :
    ∃ r, differencesN fuel s1 s2 = .ok r ∧ Aligned s1.length s2.length 0 0 r ∧
      (∀ s ∈ r, s.a < s.b ∨ s.c < s.d) := by
  induction fuel generalizing s1 s2 with
  | zero => omega
  | succ fuel ih =>
    obtain ⟨k, m, hk1, hk2, _, _, _, _, h | h | h | h⟩ := diff_step fuel s1 s2
    · exact ⟨[], h.2, ⟨by omega, by omega, by omega⟩, by simp⟩
    · obtain ⟨_, hp, e⟩ := h
      have l1 : ((s1.take (s1.length - m)).drop k).length = s1.length - m - k := by simp
      have l2 : ((s2.take (s2.length - m)).drop k).length = s2.length - m - k := by simp
      obtain ⟨r, er, h1, h2⟩ := ih ((s1.take (s1.length - m)).drop k) ((s2.take (s2.length - m)).drop k)
        (by rw [l1, l2]; omega)
      refine ⟨shift k k r, by rw [e, er]; rfl, ?_, ?_⟩
      · rw [l1, l2] at h1
        have := aligned_widen (k := k) (m := m) _ (aligned_shift (x := k) (y := k) r h1) (by omega) (by omega)
        rw [show s1.length - m - k + k + m = s1.length by omega,
          show s2.length - m - k + k + m = s2.length by omega] at this
        simpa using this
      · intro s hs
        obtain ⟨t, ht, rfl⟩ := List.mem_map.1 hs
        have := h2 t ht
        dsimp only; omega
    · obtain ⟨hl, _, _, _, e⟩ := h
      refine ⟨_, e, by simp [Aligned], ?_⟩
      intro s hs
      simp only [List.mem_singleton] at hs
      subst hs; dsimp only; omega
    · obtain ⟨hl, _, _, c1, c2, _, hc, h1, h2, _, _, e⟩ := h
      have l1 : (s1.take c1).length = c1 := by simp; omega
      have l2 : (s2.take c2).length = c2 := by simp; omega
      have l3 : (s1.drop c1).length = s1.length - c1 := by simp
      have l4 : (s2.drop c2).length = s2.length - c2 := by simp
      obtain ⟨r1, e1, a1, b1⟩ := ih (s1.take c1) (s2.take c2) (by rw [l1, l2]; omega)
      obtain ⟨r2, e2, a2, b2⟩ := ih (s1.drop c1) (s2.drop c2) (by rw [l3, l4]; omega)
      refine ⟨r1 ++ shift c1 c2 r2, by rw [e, e1, e2]; rfl, ?_, ?_⟩
      · rw [l1, l2] at a1
        rw [l3, l4] at a2
        have := aligned_shift (x := c1) (y := c2) r2 a2
        rw [show s1.length - c1 + c1 = s1.length by omega,
          show s2.length - c2 + c2 = s2.length by omega, Nat.zero_add, Nat.zero_add] at this
        exact aligned_append _ _ a1 this
      · intro s hs
        rcases List.mem_append.1 hs with hs | hs
        · exact b1 s hs
        · obtain ⟨t, ht, rfl⟩ := List.mem_map.1 hs
          have := b2 t ht
          dsimp only; omega

theorem foldl_size (r : List Seg) (x : Nat) :
    r.foldl (fun d s => d + max (s.b - s.a) (s.d - s.c)) x = x + size r := by
  induction r generalizing x with
  | nil => rfl
  | cons s r ih => rw [List.foldl_cons, ih, size]; omega

theorem aligned_size {n1 n2 p1 p2 : Nat} (r : List Seg) (h : Aligned n1 n2 p1 p2 r) :
    p1 ≤ n1 ∧ p2 ≤ n2 ∧ (n1 - p1) - (n2 - p2) ≤ size r ∧ (n2 - p2) - (n1 - p1) ≤ size r ∧
    size r ≤ (n1 - p1) + (n2 - p2) := by
  induction r generalizing p1 p2 with
  | nil => simp only [Aligned, size] at h ⊢; omega
  | cons s r ih =>
    obtain ⟨a1, a2, a3, a4, a5, a6⟩ := h
    have := ih a6
    simp only [size]; omega

/-! ## C26 -/

/-- `differences` always terminates and never reads outside of the strings. It lists non-empty
segments of both strings, in order and without overlap, and the parts between them have equal
lengths. Missing: that the parts between the segments are equal, which is false (`C26_violated`). -/
theorem C26_aligned_partial (s1 s2 : Bytes) (fuel : Nat) (hf : s1.length + s2.length < fuel) :
    ∃ r, differencesN fuel s1 s2 = .ok r ∧ Aligned s1.length s2.length 0 0 r ∧
      ∀ s ∈ r, s.a < s.b ∨ s.c < s.d :=
  diff_spec fuel s1 s2 hf

/-- Two strings of equal length are never reported to differ. -/
theorem C26_violated (s1 s2 : Bytes) (fuel : Nat) (h : s1.length = s2.length) :
    differencesN (fuel + 1) s1 s2 = .ok [] ∧ distanceN (fuel + 1) s1 s2 = .ok 0 := by
  have e : differencesN (fuel + 1) s1 s2 = .ok [] := by
    obtain ⟨k, m, _, _, _, _, _, _, h' | h' | h' | h'⟩ := diff_step fuel s1 s2
    · exact h'.2
    · exact absurd h h'.1
    · exact absurd h h'.1
    · exact absurd h h'.1
  exact ⟨e, by unfold distanceN; rw [e]; rfl⟩

example : (b!"left" : Bytes).length = (b!"nope" : Bytes).length := rfl

/-- `distance` is the total size of the segments; it is at least the difference of the lengths and at
most their sum, it is 0 exactly for strings of equal length, and equal strings are at distance 0.
Missing: distance 0 only for equal strings, which is false. -/
theorem C26_distance_partial (s1 s2 : Bytes) (fuel : Nat) (hf : s1.length + s2.length < fuel) :
    ∃ d, distanceN fuel s1 s2 = .ok d ∧ s1.length - s2.length ≤ d ∧ s2.length - s1.length ≤ d ∧
      d ≤ s1.length + s2.length ∧ (d = 0 ↔ s1.length = s2.length) ∧ (s1 = s2 → d = 0) := by
  obtain ⟨r, e, h1, h2⟩ := diff_spec fuel s1 s2 hf
  obtain ⟨fuel, rfl⟩ : ∃ f, fuel = f + 1 := ⟨fuel - 1, by omega⟩
  have hs := aligned_size r h1
  refine ⟨size r, by unfold distanceN; rw [e]; simp [foldl_size], by omega, by omega, by omega, ?_, ?_⟩
  · constructor
    · intro h0; omega
    · intro hl
      rw [(C26_violated s1 s2 fuel hl).1] at e
      rw [← Res.ok.inj e]; rfl
  · rintro rfl
    rw [(C26_violated s1 s1 fuel rfl).1] at e
    rw [← Res.ok.inj e]; rfl

/-- If the first string is empty, everything is one segment. -/
theorem diff_empty (s : Bytes) (hs : s ≠ []) (fuel : Nat) :
    differencesN (fuel + 1) [] s = .ok [⟨0, 0, 0, s.length⟩] ∧
    differencesN (fuel + 1) s [] = .ok [⟨0, s.length, 0, 0⟩] := by
  have hp : 0 < s.length := List.length_pos_iff.2 hs
  constructor
  · obtain ⟨k, m, hk1, hk2, _, _, _, _, h | h | h | h⟩ := diff_step fuel [] s
    · have := h.1; simp at this; omega
    · have := h.2.1; simp at hk1; omega
    · exact h.2.2.2.2
    · obtain ⟨_, _, _, c1, c2, _, _, hc, _⟩ := h; simp at hc
  · obtain ⟨k, m, hk1, hk2, _, _, _, _, h | h | h | h⟩ := diff_step fuel s []
    · have h1 : s.length = 0 := h.1
      omega
    · have := h.2.1; simp at hk2; omega
    · exact h.2.2.2.2
    · obtain ⟨_, _, _, c1, c2, _, _, _, hc, _⟩ := h; simp at hc

/-- The prefix and the suffix found by the first step use up the shorter string if the longer one
results from it by an insertion. -/
theorem insert_covers (p q x : Bytes) (hx : x ≠ []) (k m : Nat)
    (hk1 : k + m ≤ (p ++ q).length) (hk2 : k + m ≤ (p ++ x ++ q).length)
    (hk : k = (p ++ q).length ∨ k = (p ++ x ++ q).length ∨ (p ++ q)[k]? ≠ (p ++ x ++ q)[k]?)
    (hm : k + m = (p ++ q).length ∨ k + m = (p ++ x ++ q).length ∨
      (p ++ q)[(p ++ q).length - 1 - m]? ≠ (p ++ x ++ q)[(p ++ x ++ q).length - 1 - m]?) :
    k + m = (p ++ q).length := by
  have hp : 0 < x.length := List.length_pos_iff.2 hx
  simp only [List.length_append] at *
  refine Classical.byContradiction fun hne => ?_
  have hkp : p.length ≤ k := by
    refine Classical.byContradiction fun hlt => ?_
    rcases hk with h | h | h
    · omega
    · omega
    · rw [List.getElem?_append_left (by omega), List.append_assoc, List.getElem?_append_left (by omega)] at h
      exact h rfl
  rcases hm with h | h | h
  · exact hne h
  · omega
  · apply h
    rw [List.getElem?_append_right (by omega), List.getElem?_append_right (by simp; omega)]
    congr 1
    simp only [List.length_append]; omega

/-- A single insertion or a single deletion is reported as one segment, and replacing that segment
turns the first string into the second. -/
theorem C26_insert_partial (p q x : Bytes) (hx : x ≠ []) (fuel : Nat) :
    (∃ r, differencesN (fuel + 2) (p ++ q) (p ++ x ++ q) = .ok r ∧ r.length = 1 ∧
      patch (p ++ q) (p ++ x ++ q) 0 r = p ++ x ++ q) ∧
    (∃ r, differencesN (fuel + 2) (p ++ x ++ q) (p ++ q) = .ok r ∧ r.length = 1 ∧
      patch (p ++ x ++ q) (p ++ q) 0 r = p ++ q) := by
  have hp : 0 < x.length := List.length_pos_iff.2 hx
  -- equal prefixes and suffixes, as lists
  have pre : ∀ (s1 s2 : Bytes) (k : Nat), (∀ j, j < k → s1[j]? = s2[j]?) → s1.take k = s2.take k := by
    intro s1 s2 k h
    apply List.ext_getElem?
    intro i
    rw [List.getElem?_take, List.getElem?_take]
    split
    · exact h i (by omega)
    · rfl
  have suf : ∀ (s1 s2 : Bytes) (m : Nat), m ≤ s1.length → m ≤ s2.length →
      (∀ j, j < m → s1[s1.length - 1 - j]? = s2[s2.length - 1 - j]?) →
      s1.drop (s1.length - m) = s2.drop (s2.length - m) := by
    intro s1 s2 m h1 h2 h
    apply List.ext_getElem?
    intro i
    rw [List.getElem?_drop, List.getElem?_drop]
    by_cases hi : i < m
    · have := h (m - 1 - i) (by omega)
      rw [show s1.length - 1 - (m - 1 - i) = s1.length - m + i by omega,
        show s2.length - 1 - (m - 1 - i) = s2.length - m + i by omega] at this
      exact this
    · rw [List.getElem?_eq_none (by omega), List.getElem?_eq_none (by omega)]
  constructor
  · obtain ⟨k, m, hk1, hk2, e1, hk, e2, hm, h⟩ := diff_step (fuel + 1) (p ++ q) (p ++ x ++ q)
    have cov := insert_covers p q x hx k m hk1 hk2 hk hm
    generalize h1 : p ++ q = s1 at *
    generalize h2 : p ++ x ++ q = s2 at *
    have hlt : s1.length < s2.length := by subst h1; subst h2; simp; omega
    have t1 := pre s1 s2 k e1
    have t2 := suf s1 s2 m (by omega) (by omega) e2
    have fin : patch s1 s2 0 [⟨k, k, k, s2.length - m⟩] = s2 := by
      simp only [patch, List.drop_zero]
      have hk' : s1.length - m = k := by omega
      have hk2' : k ≤ s2.length - m := by omega
      rw [hk'] at t2
      rw [t1, t2]
      have : s2.take k = (s2.take (s2.length - m)).take k := by
        rw [List.take_take, Nat.min_eq_left hk2']
      rw [this, List.take_append_drop, List.take_append_drop]
    rcases h with h | h | h | h
    · omega
    · obtain ⟨_, _, e⟩ := h
      have l1 : (s1.take (s1.length - m)).drop k = [] := by
        rw [List.drop_of_length_le]; simp; omega
      have l2 : ((s2.take (s2.length - m)).drop k).length = s2.length - m - k := by simp
      have l2' : (s2.take (s2.length - m)).drop k ≠ [] := by
        intro e; rw [e] at l2; simp at l2; omega
      rw [l1, (diff_empty _ l2' fuel).1, l2] at e
      refine ⟨_, e, by simp [shift], ?_⟩
      simp only [shift, List.map_cons, List.map_nil, Nat.zero_add]
      rw [show s2.length - m - k + k = s2.length - m by omega]
      exact fin
    · obtain ⟨_, rfl, rfl, _, e⟩ := h
      refine ⟨_, e, rfl, ?_⟩
      have : s1.length = 0 := by omega
      rw [this]; exact fin
    · obtain ⟨_, rfl, rfl, c1, c2, _, _, _, _, hne, _⟩ := h
      exact absurd (List.length_eq_zero_iff.1 (by omega)) hne
  · obtain ⟨k, m, hk1, hk2, e1, hk, e2, hm, h⟩ := diff_step (fuel + 1) (p ++ x ++ q) (p ++ q)
    have cov := insert_covers p q x hx k m hk2 hk1
      (by rcases hk with h | h | h
          · exact .inr (.inl h)
          · exact .inl h
          · exact .inr (.inr (Ne.symm h)))
      (by rcases hm with h | h | h
          · exact .inr (.inl h)
          · exact .inl h
          · exact .inr (.inr (Ne.symm h)))
    generalize h1 : p ++ q = s1 at *
    generalize h2 : p ++ x ++ q = s2 at *
    have hlt : s1.length < s2.length := by subst h1; subst h2; simp; omega
    have t1 := pre s2 s1 k e1
    have t2 := suf s2 s1 m (by omega) (by omega) e2
    have fin : patch s2 s1 0 [⟨k, s2.length - m, k, k⟩] = s1 := by
      simp only [patch, List.drop_zero]
      rw [t2, show k = s1.length - m by omega]
      rw [show k = s1.length - m by omega] at t1
      rw [t1]
      have : (s1.take (s1.length - m)).drop (s1.length - m) = [] := by
        rw [List.drop_of_length_le]; simp
      rw [this, List.append_nil, List.take_append_drop]
    rcases h with h | h | h | h
    · omega
    · obtain ⟨_, _, e⟩ := h
      have l1 : (s1.take (s1.length - m)).drop k = [] := by
        rw [List.drop_of_length_le]; simp; omega
      have l2 : ((s2.take (s2.length - m)).drop k).length = s2.length - m - k := by simp
      have l2' : (s2.take (s2.length - m)).drop k ≠ [] := by
        intro e; rw [e] at l2; simp at l2; omega
      rw [l1, (diff_empty _ l2' fuel).2, l2] at e
      refine ⟨_, e, by simp [shift], ?_⟩
      simp only [shift, List.map_cons, List.map_nil, Nat.zero_add]
      rw [show s2.length - m - k + k = s2.length - m by omega]
      exact fin
    · obtain ⟨_, rfl, rfl, _, e⟩ := h
      refine ⟨_, e, rfl, ?_⟩
      have : s1.length = 0 := by omega
      rw [this]; exact fin
    · obtain ⟨_, rfl, rfl, c1, c2, _, _, _, _, _, hne, _⟩ := h
      exact absurd (List.length_eq_zero_iff.1 (by omega)) hne

example : (b!"!" : Bytes) ≠ [] := by decide

end Lolly.DiffProps
