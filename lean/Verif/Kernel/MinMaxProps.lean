import Verif.Kernel.MinMax

set_option autoImplicit false

/-!
# Property C148: smallest and largest of several numbers
-/

namespace Lolly.MinMaxProps

open MinMax

/-- The ways to combine several numbers by a function of two arguments. -/
inductive Expr (α : Type) where
  | num (x : α)
  | app (a b : Expr α)

variable {α : Type}

/-- The numbers, from left to right. -/
def Expr.nums : Expr α → List α
  | .num x => [x]
  | .app a b => a.nums ++ b.nums

def Expr.eval (f : α → α → α) : Expr α → α
  | .num x => x
  | .app a b => f (a.eval f) (b.eval f)

theorem nums_ne_nil (e : Expr α) : e.nums ≠ [] := by
  induction e with
  | num x => simp [Expr.nums]
  | app a b iha _ => simp [Expr.nums, iha]

/-- A function that gives one of its arguments, which is related to both by a transitive relation. -/
theorem eval_spec {f : α → α → α} {P : α → Prop} {r : α → α → Prop} (hr : ∀ x y z, r x y → r y z → r x z)
    (hrefl : ∀ x, r x x) (hf : ∀ x y, P x → P y → (f x y = x ∨ f x y = y) ∧ r (f x y) x ∧ r (f x y) y) (e : Expr α)
    (hP : ∀ x ∈ e.nums, P x) : e.eval f ∈ e.nums ∧ ∀ x ∈ e.nums, r (e.eval f) x := by
  induction e with
  | num x => simp [Expr.nums, Expr.eval, hrefl]
  | app a b iha ihb =>
    simp only [Expr.nums, List.mem_append, Expr.eval] at hP ⊢
    obtain ⟨a1, a2⟩ := iha fun x h => hP x (.inl h)
    obtain ⟨b1, b2⟩ := ihb fun x h => hP x (.inr h)
    obtain ⟨h1, h2, h3⟩ := hf _ _ (hP _ (.inl a1)) (hP _ (.inr b1))
    refine ⟨?_, ?_⟩
    · rcases h1 with h | h <;> rw [h]
      · exact .inl a1
      · exact .inr b1
    · rintro x (h | h)
      · exact hr _ _ _ h2 (a2 x h)
      · exact hr _ _ _ h3 (b2 x h)

/-- C148 for integers: `min` and `max` of several numbers, in whatever order and grouping, are the smallest and the largest
one. -/
theorem C148_int (e : Expr Int) :
    (e.eval minI ∈ e.nums ∧ ∀ x ∈ e.nums, e.eval minI ≤ x) ∧ (e.eval maxI ∈ e.nums ∧ ∀ x ∈ e.nums, x ≤ e.eval maxI) := by
  refine ⟨eval_spec (P := fun _ => True) (r := (· ≤ ·)) (fun x y z => Int.le_trans) Int.le_refl ?_ e (fun _ _ => trivial),
    eval_spec (P := fun _ => True) (r := fun x y => y ≤ x) (fun x y z h1 h2 => Int.le_trans h2 h1) Int.le_refl ?_ e
      (fun _ _ => trivial)⟩
  · intro x y _ _
    unfold minI
    split <;> refine ⟨?_, ?_, ?_⟩ <;> first | omega | exact .inl rfl | exact .inr rfl
  · intro x y _ _
    unfold maxI
    split <;> refine ⟨?_, ?_, ?_⟩ <;> first | omega | exact .inl rfl | exact .inr rfl

theorem lt_iff {x y : F64} (hx : x.isNaN = false) (hy : y.isNaN = false) : x.lt y = true ↔ x.val < y.val := by
  simp [F64.lt, hx, hy]

/-- C148 for doubles none of which is a NaN. -/
theorem C148_double_partial (e : Expr F64) (h : ∀ x ∈ e.nums, x.isNaN = false) :
    (e.eval minD ∈ e.nums ∧ ∀ x ∈ e.nums, (e.eval minD).val ≤ x.val) ∧
    (e.eval maxD ∈ e.nums ∧ ∀ x ∈ e.nums, x.val ≤ (e.eval maxD).val) := by
  refine ⟨eval_spec (P := fun x => x.isNaN = false) (r := fun x y : F64 => x.val ≤ y.val) (fun x y z => Int.le_trans)
      (fun _ => Int.le_refl _) ?_ e h,
    eval_spec (P := fun x => x.isNaN = false) (r := fun x y : F64 => y.val ≤ x.val) (fun x y z h1 h2 => Int.le_trans h2 h1)
      (fun _ => Int.le_refl _) ?_ e h⟩
  · intro x y hx hy
    unfold minD
    split
    · next hl =>
      have := (lt_iff hx hy).1 hl
      exact ⟨.inl rfl, by omega, by omega⟩
    · next hl =>
      have := mt (lt_iff hx hy).2 hl
      exact ⟨.inr rfl, by omega, by omega⟩
  · intro x y hx hy
    unfold maxD
    split
    · next hl =>
      have := (lt_iff hy hx).1 hl
      exact ⟨.inl rfl, by omega, by omega⟩
    · next hl =>
      have := mt (lt_iff hy hx).2 hl
      exact ⟨.inr rfl, by omega, by omega⟩

/-- So the order and the grouping do not matter, but for the sign of a zero. -/
theorem C148_order_partial (e e' : Expr F64) (h : ∀ x ∈ e.nums, x.isNaN = false) (p : e.nums.Perm e'.nums) :
    (e.eval minD).val = (e'.eval minD).val ∧ (e.eval maxD).val = (e'.eval maxD).val := by
  obtain ⟨⟨a1, a2⟩, a3, a4⟩ := C148_double_partial e h
  obtain ⟨⟨b1, b2⟩, b3, b4⟩ := C148_double_partial e' fun x hx => h x (p.mem_iff.2 hx)
  have h1 := a2 _ (p.mem_iff.2 b1)
  have h2 := b2 _ (p.mem_iff.1 a1)
  have h3 := a4 _ (p.mem_iff.2 b3)
  have h4 := b4 _ (p.mem_iff.1 a3)
  exact ⟨by omega, by omega⟩

theorem mag_lt {m m' e e' : Nat} (hm : m < 4503599627370496) (h : e < e') :
    (if e = 0 then m else (4503599627370496 + m) * 2 ^ (e - 1)) <
      (if e' = 0 then m' else (4503599627370496 + m') * 2 ^ (e' - 1)) := by
  rw [if_neg (by omega : e' ≠ 0)]
  split
  · have h1 : 0 < 2 ^ (e' - 1) := Nat.two_pow_pos _
    have h2 := Nat.mul_le_mul_left (4503599627370496 + m') h1
    omega
  · have h1 : 2 ^ (e' - 1) = 2 ^ (e - 1) * 2 ^ (e' - e) := by rw [← Nat.pow_add]; congr 1; omega
    have h2 : 2 ^ 1 ≤ 2 ^ (e' - e) := Nat.pow_le_pow_right (by decide) (by omega)
    have h3 : 0 < 2 ^ (e - 1) := Nat.two_pow_pos _
    rw [h1]
    generalize 2 ^ (e - 1) = u at h3 ⊢
    generalize 2 ^ (e' - e) = v at h2 ⊢
    calc (4503599627370496 + m) * u < (4503599627370496 * 2) * u := Nat.mul_lt_mul_of_pos_right (by omega) h3
      _ = 4503599627370496 * (u * 2) := by rw [Nat.mul_assoc, Nat.mul_comm 2 u]
      _ ≤ (4503599627370496 + m') * (u * v) := Nat.mul_le_mul (by omega) (Nat.mul_le_mul_left u (by omega))

/-- Values other than zero have one representation, so that the order and the grouping do not matter at all if the
smallest (or largest) number is not zero. -/
theorem C148_value (x y : F64) (h : x.val = y.val) (h0 : x.val ≠ 0) : x = y := by
  obtain ⟨s, e, m⟩ := x
  obtain ⟨s', e', m'⟩ := y
  have hm : F64.mag ⟨s, e, m⟩ = F64.mag ⟨s', e', m'⟩ ∧ s = s' := by
    unfold F64.val at h h0
    generalize F64.mag ⟨s, e, m⟩ = a at h h0 ⊢
    generalize F64.mag ⟨s', e', m'⟩ = b at h ⊢
    dsimp only at h h0
    cases s <;> cases s' <;> simp at h h0 ⊢ <;> omega
  obtain ⟨hm, rfl⟩ := hm
  unfold F64.mag at hm
  dsimp only at hm
  have he : e.val = e'.val := by
    rcases Nat.lt_trichotomy e.val e'.val with hl | hl | hl
    · have := mag_lt (m' := m'.val) m.isLt hl
      omega
    · exact hl
    · have := mag_lt (m' := m.val) m'.isLt hl
      omega
  rw [he] at hm
  have : m.val = m'.val := by
    split at hm
    · exact hm
    · have h3 : 0 < 2 ^ (e'.val - 1) := Nat.two_pow_pos _
      have := Nat.eq_of_mul_eq_mul_right h3 hm
      omega
  rw [Fin.ext he, Fin.ext this]

theorem nan_min (a b : F64) : (minD a b).isNaN = b.isNaN := by
  unfold minD
  split
  · next hl =>
    simp only [F64.lt, Bool.and_eq_true, Bool.not_eq_true'] at hl
    rw [hl.1.1, hl.1.2]
  · rfl

theorem nan_max (a b : F64) : (maxD a b).isNaN = b.isNaN := by
  unfold maxD
  split
  · next hl =>
    simp only [F64.lt, Bool.and_eq_true, Bool.not_eq_true'] at hl
    rw [hl.1.1, hl.1.2]
  · rfl

/-- With NaNs: the result is a NaN exactly if the last number is one; the others are ignored together with what was compared
to them before. -/
theorem C148_nan (e : Expr F64) : ((e.eval minD).isNaN = true ↔ (e.nums.getLast (nums_ne_nil e)).isNaN = true) ∧
    ((e.eval maxD).isNaN = true ↔ (e.nums.getLast (nums_ne_nil e)).isNaN = true) := by
  induction e with
  | num x => simp [Expr.nums, Expr.eval]
  | app a b iha ihb =>
    have hn := nums_ne_nil b
    simp only [Expr.eval, Expr.nums, List.getLast_append_of_ne_nil _ hn]
    rw [nan_min, nan_max]
    exact ihb

def nan : F64 := ⟨false, 2047, 1⟩
def one : F64 := ⟨false, 1023, 0⟩
def two : F64 := ⟨false, 1024, 0⟩
def zero : F64 := ⟨false, 0, 0⟩
def minusZero : F64 := ⟨true, 0, 0⟩

/-- C148 is violated by a NaN: `min (1, NaN)` is not a number but `min (NaN, 1)` is 1, and of 1, NaN and 2, in this order,
2 is said to be the smallest. The sign of a zero depends on the order, too. -/
theorem C148_violated :
    minD one nan = nan ∧ minD nan one = one ∧ minD (minD one nan) two = two ∧ maxD two nan = nan ∧ maxD nan two = two ∧
    minD zero minusZero = minusZero ∧ minD minusZero zero = zero := by
  decide +kernel

/-- The hypotheses are met by numbers with an infinity and a zero; the smallest one is found. -/
example : let e : Expr F64 := .app (.app (.num two) (.num ⟨false, 2047, 0⟩)) (.app (.num minusZero) (.num one))
    (∀ x ∈ e.nums, x.isNaN = false) ∧ e.eval minD = minusZero ∧ e.eval maxD = ⟨false, 2047, 0⟩ := by
  decide +kernel

end Lolly.MinMaxProps
