import Verif.Algorithms.SortInt2
import Verif.Algorithms.SortIntProps

set_option autoImplicit false

/-!
# C182: sorting long arrays together with a companion array
-/

namespace Lolly.SortIntProps

open Lolly.SortInt

variable {T U : Type}

/-! ## Lemmas -/

def cast5 (r : List T × List U × Nat × Nat × Nat) : List T × List U × Int × Int × Int :=
  (r.1, r.2.1, r.2.2.1, r.2.2.2.1, r.2.2.2.2)

/-- The rest of a computation may depend on the outcome of the first step only if it succeeds. -/
theorem bind_both {α β γ : Type} {x : Res α} {k1 : α → Res β} {k2 : α → Res γ} {g : γ → β} {Q : γ → Prop}
    (h : ∀ y, x = .ok y → k1 y = (k2 y >>= fun r => .ok (g r)) ∧ ∀ r, k2 y = .ok r → Q r) :
    (x >>= k1) = ((x >>= k2) >>= fun r => .ok (g r)) ∧ ∀ r, (x >>= k2) = .ok r → Q r := by
  cases x with
  | ok y => exact h y rfl
  | ub => exact ⟨rfl, fun r h => by cases h⟩
  | thrown => exact ⟨rfl, fun r h => by cases h⟩
  | hang => exact ⟨rfl, fun r h => by cases h⟩

theorem bind_same {α β : Type} {x : Res α} {k1 k2 : α → Res β} (h : ∀ y, x = .ok y → k1 y = k2 y) :
    (x >>= k1) = (x >>= k2) := by
  cases x with
  | ok y => exact h y rfl
  | ub => rfl
  | thrown => rfl
  | hang => rfl

theorem bind_assoc' {α β γ : Type} (x : Res α) (k : α → Res β) (l : β → Res γ) :
    ((x >>= k) >>= l) = (x >>= fun y => k y >>= l) := by
  cases x <;> rfl

theorem mergeLoop2_int (leq : T → T → Bool) (a : List T) (b : List U) (mid e f : Nat) (ma : List T) (mb : List U)
    (i j k : Nat) (hi : i ≤ mid) (hj : j ≤ e) (hm : mid ≤ e) (he : e < 2147483648) (hk : k + (mid - i) + (e - j) ≤ e) :
    mergeLoop2 leq a b mid e f ma mb i j k =
      (MergeSort.mergeLoop2 leq a b mid e f ma mb i j k >>= fun r => .ok (cast5 r)) ∧
    ∀ r, MergeSort.mergeLoop2 leq a b mid e f ma mb i j k = .ok r →
      r.2.2.1 ≤ mid ∧ r.2.2.2.1 ≤ e ∧ i ≤ r.2.2.1 ∧ r.2.2.2.2 + i + j = k + r.2.2.1 + r.2.2.2.1 := by
  induction f generalizing ma mb i j k with
  | zero => exact ⟨rfl, fun r h => by cases h⟩
  | succ f ih =>
    rw [mergeLoop2, MergeSort.mergeLoop2]
    by_cases hc : i < mid ∧ j < e
    · rw [if_pos (by omega), if_pos hc, rdI_nat, rdI_nat]
      refine bind_both fun x _ => bind_both fun y _ => ?_
      by_cases hl : leq x y = true
      · rw [if_pos hl, if_pos hl, rdI_nat]
        simp only [wrI_nat]
        refine bind_both fun u _ => bind_both fun mb' _ => bind_both fun ma' _ => ?_
        rw [int32_succ (by omega), Res.ok_bind, int32_succ (by omega), Res.ok_bind]
        obtain ⟨h1, h2⟩ := ih ma' mb' (i + 1) j (k + 1) (by omega) hj (by omega)
        refine ⟨h1, fun r hr => ?_⟩
        obtain ⟨g1, g2, g3, g4⟩ := h2 r hr
        omega
      · rw [if_neg hl, if_neg hl, rdI_nat]
        simp only [wrI_nat]
        refine bind_both fun u _ => bind_both fun mb' _ => bind_both fun ma' _ => ?_
        rw [int32_succ (by omega), Res.ok_bind, int32_succ (by omega), Res.ok_bind]
        obtain ⟨h1, h2⟩ := ih ma' mb' i (j + 1) (k + 1) hi (by omega) (by omega)
        refine ⟨h1, fun r hr => ?_⟩
        obtain ⟨g1, g2, g3, g4⟩ := h2 r hr
        omega
    · rw [if_neg (by omega), if_neg hc]
      refine ⟨rfl, fun r h => ?_⟩
      cases h
      exact ⟨hi, hj, Nat.le_refl _, rfl⟩

theorem forN_succ {S : Type} (body : Nat → S → Res S) (n i : Nat) (s : S) :
    forN body (n + 1) i s = (body i s >>= fun s => forN body n (i + 1) s) := rfl

theorem leftover2_int (i0 k0 mid : Nat) (hk : k0 + (mid - i0) < 2147483648) (hm : mid < 2147483648) (n : Nat) :
    ∀ (g : Nat) (ab : List T × List U) (t : Nat), t + n = mid → i0 ≤ t → n < g →
    leftover2 (mid : Int) g ab t ((k0 + (t - i0) : Nat) : Int) =
      forN (fun t ab => do
        let u ← rd ab.2 t
        let b ← wr ab.2 (k0 + (t - i0)) u
        let x ← rd ab.1 t
        let a ← wr ab.1 (k0 + (t - i0)) x
        .ok (a, b)) n t ab := by
  induction n with
  | zero =>
    intro g ab t ht _ hg
    obtain ⟨g, rfl⟩ : ∃ g', g = g' + 1 := ⟨g - 1, by omega⟩
    rw [leftover2, if_neg (by omega), forN]
  | succ n ih =>
    intro g ab t ht h0 hg
    obtain ⟨g, rfl⟩ : ∃ g', g = g' + 1 := ⟨g - 1, by omega⟩
    rw [leftover2, if_pos (by omega), forN_succ]
    simp only [rdI_nat, wrI_nat, bind_assoc']
    refine bind_same fun u _ => bind_same fun b _ => bind_same fun x _ => bind_same fun a _ => ?_
    rw [int32_succ (by omega), Res.ok_bind, int32_succ (by omega), Res.ok_bind, Res.ok_bind,
      show k0 + (t - i0) + 1 = k0 + (t + 1 - i0) by omega]
    exact ih g (a, b) (t + 1) (by omega) (by omega) (by omega)

theorem copyBack2_int (ma : List T) (mb : List U) (j : Nat) (hj : j < 2147483648) (n : Nat) :
    ∀ (g : Nat) (ab : List T × List U) (i : Nat), n = j - i → n < g →
    copyBack2 ma mb (j : Int) g ab i = forN (fun i ab => do
      let u ← rd mb i
      let b ← wr ab.2 i u
      let x ← rd ma i
      let a ← wr ab.1 i x
      .ok (a, b)) n i ab := by
  induction n with
  | zero =>
    intro g ab i hi hg
    obtain ⟨g, rfl⟩ : ∃ g', g = g' + 1 := ⟨g - 1, by omega⟩
    rw [copyBack2, if_neg (by omega), forN]
  | succ n ih =>
    intro g ab i hi hg
    obtain ⟨g, rfl⟩ : ∃ g', g = g' + 1 := ⟨g - 1, by omega⟩
    rw [copyBack2, if_pos (by omega), forN_succ]
    simp only [rdI_nat, wrI_nat, bind_assoc']
    refine bind_same fun u _ => bind_same fun b _ => bind_same fun x _ => bind_same fun a _ => ?_
    rw [int32_succ (by omega), Res.ok_bind, Res.ok_bind]
    exact ih g (a, b) (i + 1) (by omega) (by omega)

theorem sub2_eq (leq : T → T → Bool) (f : Nat) : ∀ (a : List T) (b : List U) (s e : Nat) (ma : List T) (mb : List U),
    s ≤ e → e ≤ 1073741825 → e - s ≤ 2 ^ (f + 1) →
    sub2 leq (f + 1) a b s e ma mb = MergeSort.sub2 leq a b s e ma mb := by
  induction f with
  | zero =>
    intro a b s e ma mb hs he hd
    rw [sub2, MergeSort.sub2, diff_eq hs, int32_nat (by omega), Res.ok_bind]
    by_cases h1 : e - s ≤ 1
    · rw [if_pos (by omega), if_pos h1]
    · have h2 : e - s = 2 := by omega
      rw [if_neg (by omega), if_neg h1, if_pos (by omega), if_pos h2, int32_succ (by omega), Res.ok_bind, rdI_nat, rdI_nat]
      simp only [wrI_nat, rdI_nat]
  | succ f ih =>
    intro a b s e ma mb hs he hd
    rw [sub2, MergeSort.sub2, diff_eq hs, int32_nat (by omega), Res.ok_bind]
    by_cases h1 : e - s ≤ 1
    · rw [if_pos (by omega), if_pos h1]
    by_cases h2 : e - s = 2
    · rw [if_neg (by omega), if_neg h1, if_pos (by omega), if_pos h2, int32_succ (by omega), Res.ok_bind, rdI_nat, rdI_nat]
      simp only [wrI_nat, rdI_nat]
    rw [if_neg (by omega), if_neg h1, if_neg (by omega), if_neg h2]
    have hsum : int32 ((s : Int) + e) = .ok ((s : Int) + e) := by rw [int32, if_pos (by omega)]
    have hp : 2 ^ (f + 1 + 1) = 2 * 2 ^ (f + 1) := by rw [Nat.pow_succ, Nat.mul_comm]
    rw [hsum, Res.ok_bind, half_eq]
    dsimp only
    generalize hmid : (s + e) / 2 = mid
    rw [ih a b s mid ma mb (by omega) (by omega) (by omega)]
    refine bind_same fun r _ => ?_
    obtain ⟨⟨ra, rb⟩, rma, rmb⟩ := r
    dsimp only
    rw [ih ra rb mid e rma rmb (by omega) he (by omega)]
    refine bind_same fun q _ => ?_
    obtain ⟨⟨qa, qb⟩, qma, qmb⟩ := q
    dsimp only
    obtain ⟨g1, g2⟩ := mergeLoop2_int leq qa qb mid e (e - s + 1) qma qmb s mid s (by omega) (by omega) (by omega)
      (by omega) (by omega)
    rw [Int.toNat_natCast, g1, bind_assoc']
    refine bind_same fun l hl => ?_
    obtain ⟨b1, b2, b3, b4⟩ := g2 l hl
    rw [Res.ok_bind]
    obtain ⟨la, lb, li, lj, lk⟩ := l
    dsimp only [cast5] at b1 b2 b3 b4 ⊢
    have hlo := leftover2_int (T := T) (U := U) li lk mid (by omega) (by omega) (mid - li) (e - s + 1) (qa, qb) li
      (by omega) (by omega) (by omega)
    rw [show lk + (li - li) = lk by omega] at hlo
    rw [hlo]
    show _ = (MergeSort.leftover2 qa qb li mid lk >>= _)
    rw [MergeSort.leftover2, forUp]
    refine bind_same fun ab _ => ?_
    rw [copyBack2_int la lb lk (by omega) (lk - s) (e - s + 1) ab s rfl (by omega)]
    rfl

/-! ## C182 -/

/-- C182 for two arrays of the same length: the first one is sorted and the second rearranged alike, without overflow, with
the same number of nested calls as for one array. -/
theorem C182_companion (leq : T → T → Bool) (htot : ∀ x y, leq x y = true ∨ leq y x = true)
    (ht : ∀ x y z, leq x y = true → leq y z = true → leq x z = true) (dt : T) (du : U) (a : List T) (b : List U)
    (hl : a.length = b.length) (ha : a.length ≤ 2 ^ 30) :
    ∃ ra rb p, MergeSort.StableSort leq a ra p ∧ MergeSort.Rearranged b rb p ∧
      ∀ f, 1 ≤ f → a.length ≤ 2 ^ f → sort2 leq f dt du a b = .ok (ra, rb) := by
  obtain ⟨ra, rb, p, hr, hp, hq⟩ := (MergeSort.C13_companion leq htot ht dt du a b).1 hl
  refine ⟨ra, rb, p, hp, hq, fun f h1 h2 => ?_⟩
  obtain ⟨f, rfl⟩ : ∃ g, f = g + 1 := ⟨f - 1, by omega⟩
  have := sub2_eq leq f a b 0 a.length (List.replicate a.length dt) (List.replicate b.length du) (by omega) (by omega)
    (by omega)
  rw [sort2, if_pos hl, int32_nat (by omega), Res.ok_bind]
  refine Eq.trans (congrArg (fun x : Res ((List T × List U) × (List T × List U)) => x >>= fun r => Res.ok r.1) this) ?_
  rw [MergeSort.sort2, if_pos hl] at hr
  exact hr

/-- Three pairs. -/
example : sort2 (fun x y : Nat => decide (x ≤ y)) 2 0 0 [3, 1, 2] [30, 10, 20] = .ok ([1, 2, 3], [10, 20, 30]) := by decide

end Lolly.SortIntProps
