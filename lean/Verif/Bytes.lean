import Verif.Basic

/-!
# Facts about bytes
-/

set_option autoImplicit false

namespace Lolly

/-- A decidable statement about bytes holds for all of them if it holds for 0, ..., 255. -/
theorem forall_byte {P : UInt8 → Prop} [DecidablePred P]
    (h : (List.range 256).all (fun n => decide (P (UInt8.ofNat n))) = true) (c : UInt8) : P c := by
  have h1 := List.all_eq_true.1 h c.toNat (List.mem_range.2 c.toNat_lt)
  have h2 : UInt8.ofNat c.toNat = c := by simp
  rw [h2] at h1
  exact of_decide_eq_true h1

/-- `'0' <= c <= '9'`. -/
def isDig (c : UInt8) : Bool := decide (48 ≤ c.toNat ∧ c.toNat ≤ 57)

theorem schar_digit (c : UInt8) : (schar c < 48 ∨ 57 < schar c) ↔ isDig c = false := by
  revert c
  exact forall_byte (by decide +kernel)

theorem isDig_schar {c : UInt8} (h : isDig c = true) : schar c = c.toNat ∧ 48 ≤ c.toNat ∧ c.toNat ≤ 57 := by
  exact forall_byte (P := fun c => isDig c = true → schar c = c.toNat ∧ 48 ≤ c.toNat ∧ c.toNat ≤ 57)
    (by decide +kernel) c h

theorem isDig_range {c : UInt8} (h : isDig c = true) : 48 ≤ c.toNat ∧ c.toNat ≤ 57 := by
  simpa [isDig] using h

/-- The byte of a digit. -/
theorem isDig_ofNat {d : Nat} (h : d < 10) : isDig (UInt8.ofNat (48 + d)) = true ∧
    (UInt8.ofNat (48 + d)).toNat = 48 + d := by
  have : (UInt8.ofNat (48 + d)).toNat = 48 + d := by simp [UInt8.toNat_ofNat']; omega
  exact ⟨by simp only [isDig, this, decide_eq_true_eq]; omega, this⟩

end Lolly
