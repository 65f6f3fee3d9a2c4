import Verif.Basic

/-!
# C-style counting loops and their proof rules
-/

namespace Lolly

variable {S R : Type}

/-- `n` iterations starting at index `i`. -/
def forN (body : Nat → S → Res S) : Nat → Nat → S → Res S
  | 0, _, s => .ok s
  | n + 1, i, s => do
    let s ← body i s
    forN body n (i + 1) s

/-- `for (i= lo; i < hi; i++) body`. -/
def forUp (lo hi : Nat) (s : S) (body : Nat → S → Res S) : Res S := forN body (hi - lo) lo s

theorem forN_spec {body : Nat → S → Res S} (I : Nat → S → Prop) {n i : Nat} {s : S}
    (h0 : I i s)
    (step : ∀ j s, i ≤ j → j < i + n → I j s → ∃ s', body j s = .ok s' ∧ I (j + 1) s') :
    ∃ s', forN body n i s = .ok s' ∧ I (i + n) s' := by
  induction n generalizing i s with
  | zero => exact ⟨s, rfl, h0⟩
  | succ n ih =>
    obtain ⟨s1, e1, h1⟩ := step i s (Nat.le_refl _) (by omega) h0
    obtain ⟨s2, e2, h2⟩ := ih h1 (fun j s hj hl => step j s (by omega) (by omega))
    exact ⟨s2, by simp [forN, e1, e2], by rw [show i + (n + 1) = i + 1 + n by omega]; exact h2⟩

theorem forUp_spec {lo hi : Nat} {s : S} {body : Nat → S → Res S} (I : Nat → S → Prop)
    (hle : lo ≤ hi) (h0 : I lo s)
    (step : ∀ i s, lo ≤ i → i < hi → I i s → ∃ s', body i s = .ok s' ∧ I (i + 1) s') :
    ∃ s', forUp lo hi s body = .ok s' ∧ I hi s' := by
  have := forN_spec (body := body) (n := hi - lo) I h0
    (fun j s hj hl => step j s hj (by omega))
  rw [show lo + (hi - lo) = hi by omega] at this
  exact this

/-- A loop that can return from inside its body. -/
def retN (body : Nat → Res (Option R)) : Nat → Nat → Res (Option R)
  | 0, _ => .ok none
  | n + 1, i => do
    match ← body i with
    | some r => .ok (some r)
    | none => retN body n (i + 1)

/-- `for (i= lo; i < hi; i++) { ... return r; ... }`. -/
def forRet (lo hi : Nat) (body : Nat → Res (Option R)) : Res (Option R) := retN body (hi - lo) lo

/-- Either the loop runs to the end with no return, or it returns at a first index. -/
theorem forRet_spec {lo hi : Nat} {body : Nat → Res (Option R)} {f : Nat → Option R}
    (hb : ∀ i, lo ≤ i → i < hi → body i = .ok (f i)) :
    (forRet lo hi body = .ok none ∧ ∀ i, lo ≤ i → i < hi → f i = none) ∨
    (∃ i r, lo ≤ i ∧ i < hi ∧ f i = some r ∧ (∀ j, lo ≤ j → j < i → f j = none) ∧
      forRet lo hi body = .ok (some r)) := by
  unfold forRet
  generalize hn : hi - lo = n
  induction n generalizing lo with
  | zero => exact .inl ⟨rfl, fun i h1 h2 => by omega⟩
  | succ n ih =>
    have hlo := hb lo (Nat.le_refl _) (by omega)
    cases hf : f lo with
    | some r =>
      exact .inr ⟨lo, r, Nat.le_refl _, by omega, hf, fun j h1 h2 => by omega,
        by simp [retN, hlo, hf]⟩
    | none =>
      have e : retN body (n + 1) lo = retN body n (lo + 1) := by simp [retN, hlo, hf]
      rcases ih (lo := lo + 1) (fun i h1 h2 => hb i (by omega) h2) (by omega) with
        ⟨h1, h2⟩ | ⟨i, r, h1, h2, h3, h4, h5⟩
      · refine .inl ⟨by rw [e, h1], fun i h3 h4 => ?_⟩
        by_cases h : i = lo
        · rw [h, hf]
        · exact h2 i (by omega) h4
      · refine .inr ⟨i, r, by omega, h2, h3, fun j h6 h7 => ?_, by rw [e, h5]⟩
        by_cases h : j = lo
        · rw [h, hf]
        · exact h4 j (by omega) h7

end Lolly
