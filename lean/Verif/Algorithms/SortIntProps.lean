import Verif.Algorithms.SortInt
import Verif.Algorithms.MergeSortProps

set_option autoImplicit false

/-!
# C182: sorting long arrays
-/

namespace Lolly.SortIntProps

open Lolly.SortInt

variable {T : Type}

/-! ## Lemmas -/

theorem int32_nat {n : Nat} (h : n < 2147483648) : int32 (n : Int) = .ok (n : Int) := by
  rw [int32, if_pos (by omega)]

theorem int32_succ {n : Nat} (h : n + 1 < 2147483648) : int32 ((n : Int) + 1) = .ok ((n + 1 : Nat) : Int) := by
  rw [int32, if_pos (by omega)]; rfl

theorem rdI_nat (a : List T) (n : Nat) : rdI a (n : Int) = rd a n := by simp [rdI]

theorem wrI_nat (a : List T) (n : Nat) (x : T) : wrI a (n : Int) x = wr a n x := by simp [wrI]

def cast4 (r : List T × Nat × Nat × Nat) : List T × Int × Int × Int := (r.1, r.2.1, r.2.2.1, r.2.2.2)

theorem mergeLoop_eq (leq : T → T → Bool) (a : List T) (mid e f : Nat) (buf : List T) (i j k : Nat) (hi : i ≤ mid)
    (hj : j ≤ e) (hm : mid ≤ e) (he : e < 2147483648) (hk : k + (mid - i) + (e - j) ≤ e) :
    mergeLoop leq a mid e f buf i j k = (MergeSort.mergeLoop leq a mid e f buf i j k >>= fun r => .ok (cast4 r)) ∧
    ∀ r, MergeSort.mergeLoop leq a mid e f buf i j k = .ok r →
      r.2.1 ≤ mid ∧ r.2.2.1 ≤ e ∧ i ≤ r.2.1 ∧ r.2.2.2 + i + j = k + r.2.1 + r.2.2.1 := by
  induction f generalizing buf i j k with
  | zero => exact ⟨rfl, fun r h => by cases h⟩
  | succ f ih =>
    rw [mergeLoop, MergeSort.mergeLoop]
    by_cases hc : i < mid ∧ j < e
    · rw [if_pos (by omega), if_pos hc, rdI_nat, rdI_nat]
      cases hx : rd a i with
      | ok x =>
        rw [Res.ok_bind, Res.ok_bind]
        cases hy : rd a j with
        | ok y =>
          rw [Res.ok_bind, Res.ok_bind]
          by_cases hl : leq x y = true
          · rw [if_pos hl, if_pos hl, wrI_nat]
            cases hw : wr buf k x with
            | ok b =>
              rw [Res.ok_bind, Res.ok_bind, int32_succ (by omega), Res.ok_bind, int32_succ (by omega), Res.ok_bind]
              obtain ⟨h1, h2⟩ := ih b (i + 1) j (k + 1) (by omega) hj (by omega)
              refine ⟨h1, fun r hr => ?_⟩
              obtain ⟨g1, g2, g3, g4⟩ := h2 r hr
              omega
            | ub => exact ⟨rfl, fun r h => by cases h⟩
            | thrown => exact ⟨rfl, fun r h => by cases h⟩
            | hang => exact ⟨rfl, fun r h => by cases h⟩
          · rw [if_neg hl, if_neg hl, wrI_nat]
            cases hw : wr buf k y with
            | ok b =>
              rw [Res.ok_bind, Res.ok_bind, int32_succ (by omega), Res.ok_bind, int32_succ (by omega), Res.ok_bind]
              obtain ⟨h1, h2⟩ := ih b i (j + 1) (k + 1) hi (by omega) (by omega)
              refine ⟨h1, fun r hr => ?_⟩
              obtain ⟨g1, g2, g3, g4⟩ := h2 r hr
              omega
            | ub => exact ⟨rfl, fun r h => by cases h⟩
            | thrown => exact ⟨rfl, fun r h => by cases h⟩
            | hang => exact ⟨rfl, fun r h => by cases h⟩
        | ub => exact ⟨rfl, fun r h => by cases h⟩
        | thrown => exact ⟨rfl, fun r h => by cases h⟩
        | hang => exact ⟨rfl, fun r h => by cases h⟩
      | ub => exact ⟨rfl, fun r h => by cases h⟩
      | thrown => exact ⟨rfl, fun r h => by cases h⟩
      | hang => exact ⟨rfl, fun r h => by cases h⟩
    · rw [if_neg (by omega), if_neg hc]
      refine ⟨rfl, fun r h => ?_⟩
      cases h
      exact ⟨hi, hj, Nat.le_refl _, rfl⟩

theorem leftover_eq (i0 k0 mid : Nat) (hk : k0 + (mid - i0) < 2147483648) (hm : mid < 2147483648) (n : Nat) :
    ∀ (g : Nat) (a : List T) (t : Nat), t + n = mid → i0 ≤ t → n < g →
    leftover (mid : Int) g a t ((k0 + (t - i0) : Nat) : Int) =
      forN (fun t a => do let x ← rd a t; wr a (k0 + (t - i0)) x) n t a := by
  induction n with
  | zero =>
    intro g a t ht _ hg
    obtain ⟨g, rfl⟩ : ∃ g', g = g' + 1 := ⟨g - 1, by omega⟩
    rw [leftover, if_neg (by omega), forN]
  | succ n ih =>
    intro g a t ht h0 hg
    obtain ⟨g, rfl⟩ : ∃ g', g = g' + 1 := ⟨g - 1, by omega⟩
    rw [leftover, if_pos (by omega), forN, rdI_nat]
    cases hx : rd a t with
    | ok x =>
      rw [Res.ok_bind, Res.ok_bind, wrI_nat]
      cases hw : wr a (k0 + (t - i0)) x with
      | ok b =>
        rw [Res.ok_bind, Res.ok_bind, int32_succ (by omega), Res.ok_bind, int32_succ (by omega), Res.ok_bind,
          show k0 + (t - i0) + 1 = k0 + (t + 1 - i0) by omega]
        exact ih g b (t + 1) (by omega) (by omega) (by omega)
      | ub => simp only [Res.ub_bind]
      | thrown => simp only [Res.thrown_bind]
      | hang => simp only [Res.hang_bind]
    | ub => rfl
    | thrown => rfl
    | hang => rfl

theorem copyBack_eq (buf : List T) (j : Nat) (hj : j < 2147483648) (n : Nat) :
    ∀ (g : Nat) (a : List T) (i : Nat), n = j - i → n < g →
    copyBack buf (j : Int) g a i = forN (fun i a => do let x ← rd buf i; wr a i x) n i a := by
  induction n with
  | zero =>
    intro g a i hi hg
    obtain ⟨g, rfl⟩ : ∃ g', g = g' + 1 := ⟨g - 1, by omega⟩
    rw [copyBack, if_neg (by omega), forN]
  | succ n ih =>
    intro g a i hi hg
    obtain ⟨g, rfl⟩ : ∃ g', g = g' + 1 := ⟨g - 1, by omega⟩
    rw [copyBack, if_pos (by omega), forN, rdI_nat]
    cases hx : rd buf i with
    | ok x =>
      rw [Res.ok_bind, Res.ok_bind, wrI_nat]
      cases hw : wr a i x with
      | ok b =>
        rw [Res.ok_bind, Res.ok_bind, int32_succ (by omega), Res.ok_bind]
        exact ih g b (i + 1) (by omega) (by omega)
      | ub => simp only [Res.ub_bind]
      | thrown => simp only [Res.thrown_bind]
      | hang => simp only [Res.hang_bind]
    | ub => rfl
    | thrown => rfl
    | hang => rfl

theorem diff_eq {s e : Nat} (h : s ≤ e) : (e : Int) - s = ((e - s : Nat) : Int) := by omega

theorem half_eq (s e : Nat) : ((s : Int) + e) / 2 = (((s + e) / 2 : Nat) : Int) := by omega

/-- Without overflow and with a stack that is deep enough the call is that of C13. -/
theorem sub_eq (leq : T → T → Bool) (f : Nat) : ∀ (a : List T) (s e : Nat) (buf : List T), s ≤ e → e ≤ 1073741825 →
    e - s ≤ 2 ^ (f + 1) → sub leq (f + 1) a s e buf = MergeSort.sub leq a s e buf := by
  induction f with
  | zero =>
    intro a s e buf hs he hd
    rw [sub, MergeSort.sub, diff_eq hs, int32_nat (by omega), Res.ok_bind]
    by_cases h1 : e - s ≤ 1
    · rw [if_pos (by omega), if_pos h1]
    · have h2 : e - s = 2 := by omega
      rw [if_neg (by omega), if_neg h1, if_pos (by omega), if_pos h2, int32_succ (by omega), Res.ok_bind, rdI_nat, rdI_nat]
      simp only [wrI_nat, rdI_nat]
  | succ f ih =>
    intro a s e buf hs he hd
    rw [sub, MergeSort.sub, diff_eq hs, int32_nat (by omega), Res.ok_bind]
    by_cases h1 : e - s ≤ 1
    · rw [if_pos (by omega), if_pos h1]
    by_cases h2 : e - s = 2
    · rw [if_neg (by omega), if_neg h1, if_pos (by omega), if_pos h2, int32_succ (by omega), Res.ok_bind, rdI_nat, rdI_nat]
      simp only [wrI_nat, rdI_nat]
    rw [if_neg (by omega), if_neg h1, if_neg (by omega), if_neg h2]
    have hsum : int32 ((s : Int) + e) = .ok ((s : Int) + e) := by rw [int32, if_pos (by omega)]
    have hp : 2 ^ (f + 1 + 1) = 2 * 2 ^ (f + 1) := by rw [Nat.pow_succ, Nat.mul_comm]
    rw [hsum, Res.ok_bind, half_eq]
    dsimp only
    generalize hmid : (s + e) / 2 = mid
    rw [ih a s mid buf (by omega) (by omega) (by omega)]
    cases hr : MergeSort.sub leq a s mid buf with
    | ok r =>
      rw [Res.ok_bind, Res.ok_bind, ih r.1 mid e r.2 (by omega) he (by omega)]
      cases hr' : MergeSort.sub leq r.1 mid e r.2 with
      | ok q =>
        rw [Res.ok_bind, Res.ok_bind]
        obtain ⟨g1, g2⟩ := mergeLoop_eq leq q.1 mid e (e - s + 1) q.2 s mid s (by omega) (by omega) (by omega) (by omega)
          (by omega)
        rw [Int.toNat_natCast, g1]
        cases hl : MergeSort.mergeLoop leq q.1 mid e (e - s + 1) q.2 s mid s with
        | ok l =>
          obtain ⟨b1, b2, b3, b4⟩ := g2 l hl
          rw [Res.ok_bind, Res.ok_bind, Res.ok_bind]
          dsimp only [cast4]
          have hlo := leftover_eq (T := T) l.2.1 l.2.2.2 mid (by omega) (by omega) (mid - l.2.1) (e - s + 1) q.1 l.2.1
            (by omega) (by omega) (by omega)
          rw [show l.2.2.2 + (l.2.1 - l.2.1) = l.2.2.2 by omega] at hlo
          rw [hlo]
          show _ = (MergeSort.leftover q.1 l.2.1 mid l.2.2.2 >>= _)
          rw [MergeSort.leftover, forUp]
          congr 1
          funext a'
          rw [copyBack_eq l.1 l.2.2.2 (by omega) (l.2.2.2 - s) (e - s + 1) a' s rfl (by omega)]
          rfl
        | ub => rfl
        | thrown => rfl
        | hang => rfl
      | ub => rfl
      | thrown => rfl
      | hang => rfl
    | ub => rfl
    | thrown => rfl
    | hang => rfl

/-- With a stack that is not deep enough there is no result. -/
theorem sub_deep (leq : T → T → Bool) (f : Nat) : ∀ (a : List T) (s e : Nat) (buf : List T), s ≤ e → e < 2147483648 →
    (f = 0 ∨ 2 ^ f < e - s) → ∀ r, sub leq f a s e buf ≠ .ok r := by
  induction f with
  | zero => intro a s e buf _ _ _ r h; cases h
  | succ f ih =>
    intro a s e buf hs he hd r h
    have hd : 2 ^ (f + 1) < e - s := hd.resolve_left (by omega)
    have hp : 2 ^ (f + 1) = 2 * 2 ^ f := by rw [Nat.pow_succ, Nat.mul_comm]
    have hp0 : 0 < 2 ^ f := Nat.two_pow_pos f
    rw [sub, diff_eq hs, int32_nat (by omega), Res.ok_bind, if_neg (by omega), if_neg (by omega)] at h
    obtain ⟨sum, e1, h⟩ := Res.bind_eq_ok.1 h
    have hsum : sum = (s : Int) + e := by
      rw [int32] at e1
      split at e1
      · cases e1; rfl
      · cases e1
    subst hsum
    rw [half_eq] at h
    obtain ⟨r1, e2, h⟩ := Res.bind_eq_ok.1 h
    obtain ⟨r2, e3, h⟩ := Res.bind_eq_ok.1 h
    exact ih r1.1 ((s + e) / 2) e r1.2 (by omega) he (.inr (by omega)) r2 e3

/-- If the end is beyond 2^30 + 1 and there are three or more elements, `start + end` overflows in some nested call. -/
theorem sub_long (leq : T → T → Bool) (f : Nat) : ∀ (a : List T) (s e : Nat) (buf : List T), s + 3 ≤ e → e < 2147483648 →
    1073741826 ≤ e → ∀ r, sub leq f a s e buf ≠ .ok r := by
  induction f with
  | zero => intro a s e buf _ _ _ r h; cases h
  | succ f ih =>
    intro a s e buf hs he hl r h
    rw [sub, diff_eq (by omega), int32_nat (by omega), Res.ok_bind, if_neg (by omega), if_neg (by omega)] at h
    obtain ⟨sum, e1, h⟩ := Res.bind_eq_ok.1 h
    rw [int32] at e1
    split at e1
    · next hc =>
      cases e1
      rw [half_eq] at h
      obtain ⟨r1, e2, h⟩ := Res.bind_eq_ok.1 h
      obtain ⟨r2, e3, h⟩ := Res.bind_eq_ok.1 h
      exact ih r1.1 ((s + e) / 2) e r1.2 (by omega) he hl r2 e3
    · cases e1

/-! ## C182 -/

/-- C182: an array of any length up to 2^30, the longest that can be made (C172), is sorted without overflow, with the
result of C13, if calls may be nested `f` deep and the array has at most 2^f elements: 30 are enough for all arrays. -/
theorem C182_sort (leq : T → T → Bool) (htot : ∀ x y, leq x y = true ∨ leq y x = true)
    (ht : ∀ x y z, leq x y = true → leq y z = true → leq x z = true) (dv : T) (a : List T) (ha : a.length ≤ 2 ^ 30) :
    ∃ r p, MergeSort.StableSort leq a r p ∧ ∀ f, 1 ≤ f → a.length ≤ 2 ^ f → sort leq f dv a = .ok r := by
  obtain ⟨r, p, hr, hp⟩ := MergeSort.C13_sort leq htot ht dv a
  refine ⟨r, p, hp, fun f h1 h2 => ?_⟩
  obtain ⟨f, rfl⟩ : ∃ g, f = g + 1 := ⟨f - 1, by omega⟩
  have := sub_eq leq f a 0 a.length (List.replicate a.length dv) (by omega) (by omega) (by omega)
  rw [sort, int32_nat (by omega), Res.ok_bind]
  refine Eq.trans (congrArg (fun x : Res (List T × List T) => x >>= fun r => Res.ok r.1) this) ?_
  rw [MergeSort.sort] at hr
  exact hr

/-- C182: whatever the comparison answers, exactly `f` nested calls with 2^f at least the number of elements are needed. -/
theorem C182_depth (leq : T → T → Bool) (dv : T) (a : List T) (ha : a.length ≤ 2 ^ 30) (f : Nat) :
    (∃ r, sort leq f dv a = .ok r) ↔ 1 ≤ f ∧ a.length ≤ 2 ^ f := by
  constructor
  · rintro ⟨r, h⟩
    rw [sort, int32_nat (by omega), Res.ok_bind] at h
    obtain ⟨q, e, -⟩ := Res.bind_eq_ok.1 h
    by_cases hf : f = 0 ∨ 2 ^ f < a.length
    · exact absurd e (sub_deep leq f a 0 a.length _ (by omega) (by omega) hf q)
    · omega
  · rintro ⟨h1, h2⟩
    obtain ⟨f, rfl⟩ : ∃ g, f = g + 1 := ⟨f - 1, by omega⟩
    obtain ⟨r, p, hr, -⟩ := MergeSort.C13_any_comparison leq dv a
    refine ⟨r, ?_⟩
    have := sub_eq leq f a 0 a.length (List.replicate a.length dv) (by omega) (by omega) (by omega)
    rw [sort, int32_nat (by omega), Res.ok_bind]
    refine Eq.trans (congrArg (fun x : Res (List T × List T) => x >>= fun r => Res.ok r.1) this) ?_
    rw [MergeSort.sort] at hr
    exact hr

/-- The limit of the lengths of arrays is needed for this: if there were arrays of two elements more, none of them could be
sorted, whatever the stack and the comparison. -/
theorem C182_limit (leq : T → T → Bool) (dv : T) (a : List T) :
    (∃ f r, sort leq f dv a = .ok r) ↔ a.length ≤ 2 ^ 30 + 1 := by
  constructor
  · rintro ⟨f, r, h⟩
    by_cases hl : a.length ≤ 2 ^ 30 + 1
    · exact hl
    exfalso
    rw [sort] at h
    obtain ⟨n, e1, h⟩ := Res.bind_eq_ok.1 h
    obtain ⟨q, e2, -⟩ := Res.bind_eq_ok.1 h
    rw [int32] at e1
    split at e1
    · next hc =>
      cases e1
      exact sub_long leq f a 0 a.length _ (by omega) (by omega) (by omega) q e2
    · cases e1
  · intro h
    obtain ⟨r, p, hr, -⟩ := MergeSort.C13_any_comparison leq dv a
    refine ⟨31, r, ?_⟩
    have := sub_eq leq 30 a 0 a.length (List.replicate a.length dv) (by omega) (by omega) (by omega)
    rw [sort, int32_nat (by omega), Res.ok_bind]
    refine Eq.trans (congrArg (fun x : Res (List T × List T) => x >>= fun r => Res.ok r.1) this) ?_
    rw [MergeSort.sort] at hr
    exact hr

/-- Five elements need three nested calls. -/
example : sort (fun x y : Nat => decide (x ≤ y)) 3 0 [3, 1, 2, 5, 4] = .ok [1, 2, 3, 4, 5] ∧
    sort (fun x y : Nat => decide (x ≤ y)) 2 0 [3, 1, 2, 5, 4] = .hang := by decide

end Lolly.SortIntProps
