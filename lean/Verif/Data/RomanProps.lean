import Verif.Data.Numeral
import Verif.Strings.CharsProps

/-!
# C30: Roman numerals
-/

set_option autoImplicit false

namespace Lolly.RomanProps

open Lolly.An Lolly.Numeral

/-! ## Roman numerals -/

/-- The value of a roman letter. -/
def letterValue (c : UInt8) : Option Nat :=
  if c = c! 'i' then some 1 else if c = c! 'v' then some 5 else if c = c! 'x' then some 10
  else if c = c! 'l' then some 50 else if c = c! 'c' then some 100 else if c = c! 'd' then some 500
  else if c = c! 'm' then some 1000 else none

/-- The subtractive rule: a letter before a larger one is subtracted. -/
def romanValue : Bytes → Option Int
  | [] => some 0
  | c :: r => do
    let v ← letterValue c
    let rest ← romanValue r
    match r.head? with
    | none => some (v + rest)
    | some d => do
      let w ← letterValue d
      some (if v < w then rest - v else rest + v)

/-- Every roman numeral up to 3999 is read back. -/
theorem romanNat_value : ∀ n : Nat, n < 4000 → ∃ s, romanNat n = .ok s ∧ romanValue s = some (n : Int) ∧
    (∀ c ∈ s, 97 ≤ c.toNat ∧ c.toNat ≤ 122) := by
  have h : (List.range 4000).all (fun n => match romanNat n with
      | .ok s => romanValue s == some (n : Int) && s.all (fun c => decide (97 ≤ c.toNat ∧ c.toNat ≤ 122))
      | _ => false) = true := by decide +kernel
  intro n hn
  have := List.all_eq_true.1 h n (List.mem_range.2 hn)
  split at this
  · rename_i s e
    rw [Bool.and_eq_true] at this
    exact ⟨s, e, by simpa using this.1, by simpa using this.2⟩
  · cases this

/-- `to_roman` on all integers: the numeral of `n` is read back as `n`. -/
theorem C30_roman (n : Int) :
    (n = 0 → toRoman n = .ok (b!"o")) ∧
    (1 ≤ n → n ≤ 3999 → ∃ s, toRoman n = .ok s ∧ romanValue s = some n ∧
      toRoman (-n) = .ok (c! '-' :: s)) ∧
    (n < -3999 ∨ 3999 < n → toRoman n = .ok (b!"?")) := by
  refine ⟨fun h => by subst h; rfl, fun h1 h2 => ?_, fun h => ?_⟩
  · obtain ⟨s, e, hv, _⟩ := romanNat_value n.toNat (by omega)
    refine ⟨s, ?_, by rw [hv, Int.toNat_of_nonneg (by omega)], ?_⟩
    · unfold toRoman
      rw [if_neg (by omega), if_neg (by omega), if_neg (by omega), e]
    · unfold toRoman
      rw [if_neg (by omega), if_neg (by omega), if_pos (by omega), Int.neg_neg, e]; rfl
  · unfold toRoman
    rw [if_neg (by omega), if_pos (by omega)]

/-- Different integers of the range have different numerals, and the upper-case version is the
numeral with every letter in upper case. -/
theorem C30_injective (m n : Int) (hm : -3999 ≤ m ∧ m ≤ 3999) (hn : -3999 ≤ n ∧ n ≤ 3999)
    (h : toRoman m = toRoman n) : m = n := by
  -- the numeral determines the number
  have det : ∀ k : Int, -3999 ≤ k → k ≤ 3999 → ∃ s, toRoman k = .ok s ∧
      ((k = 0 ∧ s = b!"o") ∨ (1 ≤ k ∧ romanValue s = some k ∧ s ≠ [] ∧ s.head? ≠ some (c! '-')) ∨
       (k ≤ -1 ∧ ∃ t, s = c! '-' :: t ∧ romanValue t = some (-k))) := by
    intro k h1 h2
    by_cases h0 : k = 0
    · exact ⟨_, (C30_roman k).1 h0, .inl ⟨h0, rfl⟩⟩
    by_cases hp : 1 ≤ k
    · obtain ⟨s, e, hv, _⟩ := (C30_roman k).2.1 hp h2
      refine ⟨s, e, .inr (.inl ⟨hp, hv, ?_, ?_⟩)⟩
      · rintro rfl; simp [romanValue] at hv; omega
      · intro hh
        cases s with
        | nil => simp at hh
        | cons c r =>
          simp at hh; subst hh
          simp [romanValue, letterValue] at hv
    · obtain ⟨s, e, hv, e'⟩ := (C30_roman (-k)).2.1 (by omega) (by omega)
      rw [Int.neg_neg] at e'
      exact ⟨_, e', .inr (.inr ⟨by omega, s, rfl, hv⟩)⟩
  obtain ⟨s, es, hs⟩ := det m hm.1 hm.2
  obtain ⟨t, et, ht⟩ := det n hn.1 hn.2
  rw [es, et] at h
  obtain rfl := Res.ok.inj h
  have ho : romanValue (b!"o") = none := by decide
  rcases hs with ⟨h1, h2⟩ | ⟨h1, h2, h3, h4⟩ | ⟨h1, u, h2, h3⟩ <;>
    rcases ht with ⟨g1, g2⟩ | ⟨g1, g2, g3, g4⟩ | ⟨g1, v, g2, g3⟩
  · omega
  · rw [h2, ho] at g2; cases g2
  · rw [h2] at g2; exact absurd (List.cons.inj g2).1 (by decide)
  · rw [g2, ho] at h2; cases h2
  · have := h2.symm.trans g2; simpa using this
  · rw [g2] at h4; exact absurd rfl h4
  · rw [h2] at g2; exact absurd (List.cons.inj g2).1 (by decide)
  · rw [h2] at g4; exact absurd rfl g4
  · have : u = v := (List.cons.inj (h2.symm.trans g2)).2
    subst this
    have := h3.symm.trans g3
    simp at this; omega

theorem C30_upper (n : Nat) (h1 : 1 ≤ n) (h2 : n ≤ 3999) :
    ∃ s, toRoman n = .ok s ∧ toRomanUp n = .ok (s.map fun c => UInt8.ofNat (c.toNat - 32)) := by
  obtain ⟨s, e, hv, hl⟩ := romanNat_value n (by omega)
  have e' : toRoman n = .ok s := by
    unfold toRoman
    rw [if_neg (by omega), if_neg (by omega), if_neg (by omega), show (n : Int).toNat = n from rfl, e]
  refine ⟨s, e', ?_⟩
  unfold toRomanUp
  rw [e']
  simp only [Res.ok_bind]
  unfold upcaseAll
  rw [mapBytes_eq]
  congr 1
  refine List.map_congr_left fun c hc => ?_
  exact forall_byte (P := fun c => 97 ≤ c.toNat ∧ c.toNat ≤ 122 →
    upcase c = UInt8.ofNat (c.toNat - 32)) (by decide +kernel) c (hl c hc)

/-- The standard notation, written down independently: from the largest value to the smallest, write
the letters of a value as many times as it fits in what remains. -/
def standard : List (Nat × Bytes) → Nat → Bytes
  | [], _ => []
  | (v, w) :: r, n => (List.replicate (n / v) w).flatten ++ standard r (n % v)

def standardValues : List (Nat × Bytes) :=
  [(1000, b!"m"), (900, b!"cm"), (500, b!"d"), (400, b!"cd"), (100, b!"c"), (90, b!"xc"), (50, b!"l"),
   (40, b!"xl"), (10, b!"x"), (9, b!"ix"), (5, b!"v"), (4, b!"iv"), (1, b!"i")]

/-- `to_roman` writes the standard numeral (so forty is `xl`, never `xxxx`). -/
theorem C30_standard (n : Nat) (h1 : 1 ≤ n) (h2 : n ≤ 3999) :
    toRoman n = .ok (standard standardValues n) := by
  have h : (List.range 4000).all (fun n => match romanNat n with
      | .ok s => s == standard standardValues n
      | _ => false) = true := by decide +kernel
  have := List.all_eq_true.1 h n (List.mem_range.2 (by omega))
  split at this
  · rename_i s e
    unfold toRoman
    rw [if_neg (by omega), if_neg (by omega), if_neg (by omega), show (n : Int).toNat = n from rfl, e]
    simpa using this
  · cases this

example : standard standardValues 1994 = b!"mcmxciv" := by decide

example : toRoman 1994 = .ok (b!"mcmxciv") ∧ romanValue (b!"mcmxciv") = some 1994 := by decide

end Lolly.RomanProps
