import Verif.Data.Numeral
import Verif.Strings.CharsProps

/-!
# C32: hexadecimal numerals
-/

set_option autoImplicit false

namespace Lolly.HexProps

open Lolly.An Lolly.Numeral Lolly.CharsProps

/-! ## Specification -/

/-- The digits `s` denote the number `n` in base 16 (leading zeros and both cases are allowed). `Hex c v`
(`Verif/Strings/CharsProps.lean`) says that `c` is a digit of value `v`. -/
inductive Denotes : Bytes → Nat → Prop
  | nil : Denotes [] 0
  | snoc {s n c v} : Denotes s n → Hex c v → Denotes (s ++ [c]) (16 * n + v)

/-- An upper-case digit. -/
def UpDigit (c : UInt8) : Prop := (48 ≤ c.toNat ∧ c.toNat ≤ 57) ∨ (65 ≤ c.toNat ∧ c.toNat ≤ 70)
/-- A lower-case digit. -/
def LowDigit (c : UInt8) : Prop := (48 ≤ c.toNat ∧ c.toNat ≤ 57) ∨ (97 ≤ c.toNat ∧ c.toNat ≤ 102)
instance (c : UInt8) : Decidable (UpDigit c) := by unfold UpDigit; infer_instance
instance (c : UInt8) : Decidable (LowDigit c) := by unfold LowDigit; infer_instance

/-- The numeral of `n` without leading zeros. -/
def Canonical (s : Bytes) (n : Nat) : Prop := Denotes s n ∧ s ≠ [] ∧ (s.head? = some (c! '0') → n = 0 ∧ s.length = 1)

/-! ## Lemmas -/

theorem hex_of_isHex {c : UInt8} (h : isHexDigit c = true) : Hex c (hexVal c) := (hex_iff c).1 h

/-- Horner's rule. -/
def value (s : Bytes) : Nat := s.foldl (fun n c => 16 * n + hexVal c) 0

theorem denotes_value {s : Bytes} {n : Nat} (h : Denotes s n) : n = value s ∧ ∀ c ∈ s, isHexDigit c = true := by
  induction h with
  | nil => exact ⟨rfl, by simp⟩
  | @snoc s n c v h hc ih =>
    refine ⟨?_, ?_⟩
    · rw [value, List.foldl_append, ← value, ← ih.1, (hex_val hc).2.symm]; rfl
    · intro d hd
      rcases List.mem_append.1 hd with hd | hd
      · exact ih.2 d hd
      · simp at hd; subst hd; exact (hex_val hc).1

theorem value_denotes (s : Bytes) (h : ∀ c ∈ s, isHexDigit c = true) : Denotes s (value s) := by
  have : ∀ s : Bytes, (∀ c ∈ s, isHexDigit c = true) → Denotes s.reverse (value s.reverse) := by
    intro s
    induction s with
    | nil => intro _; exact .nil
    | cons c s ih =>
      intro h
      have := Denotes.snoc (ih fun d hd => h d (by simp [hd])) (hex_of_isHex (h c (by simp)))
      rw [List.reverse_cons]
      rw [value, List.foldl_append]
      exact this
  have := this s.reverse (by simpa using h)
  simpa using this

theorem digit_spec (v : Nat) (h : v < 16) : ∃ c, rd hexString v = .ok c ∧ Hex c v ∧ UpDigit c ∧
    LowDigit (locase c) ∧ Hex (locase c) v ∧ (c = c! '0' → v = 0) ∧ (locase c = c! '0' → v = 0) := by
  have : ∀ v : Nat, v < 16 → (match rd hexString v with
      | .ok c => decide (isHexDigit c = true ∧ hexVal c = v ∧ UpDigit c ∧ LowDigit (locase c) ∧
          isHexDigit (locase c) = true ∧ hexVal (locase c) = v ∧ (c = c! '0' → v = 0) ∧ (locase c = c! '0' → v = 0))
      | _ => false) = true := by decide +kernel
  have := this v h
  split at this
  · rename_i c e
    obtain ⟨h1, h2, h3, h4, h5, h6, h7, h8⟩ := of_decide_eq_true this
    exact ⟨c, e, h2 ▸ hex_of_isHex h1, h3, h4, h6 ▸ hex_of_isHex h5, h7, h8⟩
  · cases this

theorem head?_app {a b : Bytes} (h : a ≠ []) : (a ++ b).head? = a.head? := by
  cases a with
  | nil => exact absurd rfl h
  | cons => rfl

theorem toHexPositive_spec (n : Nat) (s : Bytes) : ∃ t, toHexPositive n s = .ok (s ++ t) ∧
    Canonical t n ∧ Canonical (t.map locase) n ∧ (∀ c ∈ t, UpDigit c) ∧
    (∀ c ∈ t.map locase, LowDigit c) := by
  fun_induction toHexPositive n s with
  | case1 n h ih =>
    obtain ⟨t, e, ⟨h1, h2, h3⟩, ⟨g1, g2, g3⟩, h4, g4⟩ := ih
    obtain ⟨c, ec, c1, c2, c3, c4, _⟩ := digit_spec (n % 16) (by omega)
    rw [e]
    simp only [Res.ok_bind]
    rw [ec]
    have hn : 16 * (n / 16) + n % 16 = n := by omega
    refine ⟨t ++ [c], by rw [← List.append_assoc]; rfl, ⟨?_, by simp, ?_⟩, ⟨?_, by simp, ?_⟩, ?_, ?_⟩
    · have := Denotes.snoc h1 c1; rwa [hn] at this
    · intro hh
      rw [head?_app h2] at hh
      have := h3 hh; omega
    · have := Denotes.snoc g1 c4; rw [hn] at this; simpa using this
    · intro hh
      rw [List.map_append, head?_app g2] at hh
      have := g3 hh; omega
    · intro d hd
      rcases List.mem_append.1 hd with hd | hd
      · exact h4 d hd
      · simp at hd; subst hd; exact c2
    · intro d hd
      rw [List.map_append] at hd
      rcases List.mem_append.1 hd with hd | hd
      · exact g4 d hd
      · simp at hd; subst hd; exact c3
  | case2 n h =>
    obtain ⟨c, ec, c1, c2, c3, c4, c5, c6⟩ := digit_spec (n % 16) (by omega)
    rw [ec]
    have hn : 16 * 0 + n % 16 = n := by omega
    refine ⟨[c], rfl, ⟨?_, by simp, ?_⟩, ⟨?_, by simp, ?_⟩, ?_, ?_⟩
    · have := Denotes.snoc .nil c1; rwa [hn] at this
    · intro hh; exact ⟨by have := c5 (by simpa using hh); omega, rfl⟩
    · have := Denotes.snoc .nil c4; rw [hn] at this; simpa using this
    · intro hh; exact ⟨by have := c6 (by simpa using hh); omega, by simp⟩
    · intro d hd; simp at hd; subst hd; exact c2
    · intro d hd; simp at hd; subst hd; exact c3

/-- The loop of `from_hex` on the remaining digits. -/
def loopL : Int → Bytes → Res Int
  | r, [] => .ok r
  | r, c :: s => do
    let r ← shl4 r
    loopL (r + hexAdd c) s

theorem fromHexLoop_eq (s : Bytes) : fromHexLoop s = loopL 0 s := by
  have : ∀ k i r, i + k = s.length → forN (fun i res => do
      let res ← shl4 res
      let c ← rd s i
      .ok (res + hexAdd c)) k i r = loopL r (s.drop i) := by
    intro k
    induction k with
    | zero => intro i r hi; rw [List.drop_of_length_le (by omega)]; rfl
    | succ k ih =>
      intro i r hi
      have hi' : i < s.length := by omega
      rw [forN, List.drop_eq_getElem_cons hi', loopL, rd_ok hi']
      cases shl4 r with
      | ok x => exact ih (i + 1) _ (by omega)
      | ub => rfl
      | thrown => rfl
      | hang => rfl
  exact this s.length 0 0 (by omega)

/-- The `int` with the bit pattern of `n`. -/
def wrap (n : Nat) : Int := if n < 2 ^ 31 then n else n - 2 ^ 32

theorem hexAdd_val (c : UInt8) (h : isHexDigit c = true) : hexAdd c = hexVal c ∧ hexVal c < 16 := by
  exact forall_byte (P := fun c => isHexDigit c = true → hexAdd c = hexVal c ∧ hexVal c < 16)
    (by decide +kernel) c h

theorem value_mono (s : Bytes) (m : Nat) : m ≤ s.foldl (fun n c => 16 * n + hexVal c) m := by
  induction s generalizing m with
  | nil => exact Nat.le_refl _
  | cons c s ih => exact Nat.le_trans (by omega) (ih (16 * m + hexVal c))

theorem loopL_spec (s : Bytes) (h : ∀ c ∈ s, isHexDigit c = true) (m : Nat) (hm : m < 2 ^ 32) :
    loopL (wrap m) s = if s.foldl (fun n c => 16 * n + hexVal c) m < 2 ^ 32
      then .ok (wrap (s.foldl (fun n c => 16 * n + hexVal c) m)) else .ub := by
  induction s generalizing m with
  | nil => rw [List.foldl_nil, if_pos hm]; rfl
  | cons c s ih =>
    obtain ⟨hc, hv⟩ := hexAdd_val c (h c (by simp))
    rw [loopL, List.foldl_cons]
    by_cases h28 : m < 2 ^ 28
    · have hs : ∃ r, shl4 (wrap m) = .ok r ∧ r + hexAdd c = wrap (16 * m + hexVal c) := by
        unfold shl4
        have : wrap m = m := by unfold wrap; rw [if_pos (by omega)]
        rw [this, if_neg (by omega)]
        by_cases h31 : (m : Int) * 16 < 2 ^ 31
        · rw [if_pos h31]
          refine ⟨_, rfl, ?_⟩
          rw [hc]; unfold wrap
          rw [if_pos (by omega)]; omega
        · rw [if_neg h31, if_pos (by omega)]
          refine ⟨_, rfl, ?_⟩
          rw [hc]; unfold wrap
          rw [if_neg (by omega)]; omega
      obtain ⟨r, e, hr⟩ := hs
      rw [e]
      simp only [Res.ok_bind]
      rw [hr]
      exact ih (fun d hd => h d (by simp [hd])) _ (by omega)
    · have hs : shl4 (wrap m) = .ub := by
        unfold shl4 wrap
        by_cases h31 : m < 2 ^ 31
        · rw [if_pos h31, if_neg (by omega), if_neg (by omega), if_neg (by omega)]
        · rw [if_neg h31, if_pos (by omega)]
      have := value_mono s (16 * m + hexVal c)
      rw [hs, if_neg (by omega)]; rfl

theorem fromHex_digits (s : Bytes) (n : Nat) (h : Denotes s n) :
    fromHex s = if n < 2 ^ 32 then .ok (wrap n) else .ub := by
  obtain ⟨e, hs⟩ := denotes_value h
  have main : fromHexLoop s = if n < 2 ^ 32 then .ok (wrap n) else .ub := by
    rw [fromHexLoop_eq]
    have := loopL_spec s hs 0 (by omega)
    rw [show wrap 0 = 0 from rfl] at this
    rw [this, e]; rfl
  cases s with
  | nil => exact main
  | cons c r =>
    rw [fromHex, if_neg, main]
    intro hc
    have := hs c (by simp)
    rw [hc] at this
    exact absurd this (by decide)

/-! ## C32 -/

/-- Reading any hexadecimal numeral: values below 2^31 are read exactly, values up to 2^32 as the
negative number with the same bits, and longer numerals are undefined. A minus sign negates. -/
theorem C32_from_hex (s : Bytes) (n : Nat) (h : Denotes s n) :
    (n < 2 ^ 31 → fromHex s = .ok n ∧ fromHex (c! '-' :: s) = .ok (-(n : Int))) ∧
    (2 ^ 31 ≤ n → n < 2 ^ 32 → fromHex s = .ok (n - 2 ^ 32)) ∧
    (2 ^ 32 ≤ n → fromHex s = .ub) := by
  have e := fromHex_digits s n h
  refine ⟨fun hn => ?_, fun h1 h2 => ?_, fun hn => ?_⟩
  · have e1 : fromHex s = .ok n := by
      rw [e, if_pos (by omega)]; unfold wrap; rw [if_pos hn]
    refine ⟨e1, ?_⟩
    rw [fromHex, if_pos rfl, e1]
    simp only [Res.ok_bind]
    rw [if_neg (by omega)]
  · rw [e, if_pos h2]; unfold wrap; rw [if_neg (by omega)]
  · rw [e, if_neg (by omega)]

example : Denotes (b!"7fF") 2047 :=
  .snoc (s := b!"7f") (.snoc (s := b!"7") (.snoc (v := 7) .nil (by unfold Hex; decide)) (v := 15)
    (by unfold Hex; decide)) (v := 15) (by unfold Hex; decide)

/-- `to_Hex` and `to_hex` write the canonical numeral, with a minus sign for negative numbers. -/
theorem C32_to_hex (i : Int) (hi : -2 ^ 31 < i ∧ i < 2 ^ 31) : ∃ s t,
    Canonical s i.natAbs ∧ (∀ c ∈ s, UpDigit c) ∧ Canonical t i.natAbs ∧ (∀ c ∈ t, LowDigit c) ∧
    toHexUp i = .ok (if i < 0 then c! '-' :: s else s) ∧
    toHex i = .ok (if i < 0 then c! '-' :: t else t) := by
  unfold toHex toHexUp
  rw [if_neg (by omega)]
  by_cases h : i < 0
  · simp only [if_pos h]
    obtain ⟨s, e, h1, h2, h3, h4⟩ := toHexPositive_spec (-i).toNat (b!"-")
    rw [show (-i).toNat = i.natAbs by omega] at *
    refine ⟨s, s.map locase, h1, h3, h2, h4, e, ?_⟩
    rw [e]
    simp only [Res.ok_bind]
    unfold locaseAll
    rw [mapBytes_eq, List.map_append]; rfl
  · simp only [if_neg h]
    obtain ⟨s, e, h1, h2, h3, h4⟩ := toHexPositive_spec i.toNat []
    rw [show i.toNat = i.natAbs by omega] at *
    refine ⟨s, s.map locase, h1, h3, h2, h4, e, ?_⟩
    rw [e]
    simp only [Res.ok_bind]
    unfold locaseAll
    rw [mapBytes_eq]; rfl

/-- Reading back what was written. Missing: the smallest integer, see `C32_round_trip_violated`. -/
theorem C32_round_trip_partial (i : Int) (hi : -2 ^ 31 < i ∧ i < 2 ^ 31) :
    ∃ s t, toHexUp i = .ok s ∧ toHex i = .ok t ∧ fromHex s = .ok i ∧ fromHex t = .ok i := by
  obtain ⟨s, t, h1, _, h2, _, e1, e2⟩ := C32_to_hex i hi
  refine ⟨_, _, e1, e2, ?_, ?_⟩
  · have := (C32_from_hex s _ h1.1).1 (by omega)
    by_cases h : i < 0
    · rw [if_pos h, this.2]; congr 1; omega
    · rw [if_neg h, this.1]; congr 1; omega
  · have := (C32_from_hex t _ h2.1).1 (by omega)
    by_cases h : i < 0
    · rw [if_pos h, this.2]; congr 1; omega
    · rw [if_neg h, this.1]; congr 1; omega

/-- The smallest integer is written as `-80000000`, and reading that negates the smallest integer. -/
theorem C32_round_trip_violated :
    toHexUp (-2 ^ 31) = .ok (b!"-80000000") ∧ fromHex (b!"-80000000") = .ub := by decide

/-- Pointers and unsigned integers are written as canonical numerals. -/
theorem C32_pointer (i : Int) (hi : -2 ^ 63 < i ∧ i < 2 ^ 63) : ∃ s, Canonical s i.natAbs ∧
    (∀ c ∈ s, UpDigit c) ∧ toHexPtr i = .ok (if i < 0 then c! '-' :: s else s) := by
  unfold toHexPtr
  by_cases h : i < 0
  · simp only [if_pos h]
    rw [if_neg (by omega)]
    obtain ⟨s, e, h1, h2, h3, h4⟩ := toHexPositive_spec (-i).toNat (b!"-")
    rw [show (-i).toNat = i.natAbs by omega] at *
    exact ⟨s, h1, h3, e⟩
  · simp only [if_neg h]
    obtain ⟨s, e, h1, h2, h3, h4⟩ := toHexPositive_spec i.toNat []
    rw [show i.toNat = i.natAbs by omega] at *
    exact ⟨s, h1, h3, e⟩

theorem C32_uint32 (n : Nat) : ∃ s, uint32ToHex n = .ok s ∧ Canonical s n ∧ ∀ c ∈ s, UpDigit c := by
  obtain ⟨s, e, h1, h2, h3, h4⟩ := toHexPositive_spec n []
  exact ⟨s, e, h1, h3⟩

theorem asHexadecimalSub_spec (cur i : Nat) (s : Bytes) (h : cur < s.length) :
    ∃ t, asHexadecimalSub cur i s = .ok (t ++ s.drop (cur + 1)) ∧ t.length = cur + 1 ∧
      Denotes t (i % 16 ^ (cur + 1)) ∧ ∀ c ∈ t, UpDigit c := by
  induction cur generalizing i s with
  | zero =>
    obtain ⟨c, ec, c1, c2, _⟩ := digit_spec (i % 16) (by omega)
    refine ⟨[c], ?_, rfl, ?_, ?_⟩
    · rw [asHexadecimalSub, ec]
      simp only [Res.ok_bind]
      rw [wr_ok h]
      cases s with
      | nil => simp at h
      | cons d s => rfl
    · have := Denotes.snoc .nil c1
      simpa using this
    · intro d hd; simp at hd; subst hd; exact c2
  | succ cur ih =>
    obtain ⟨t, e, h1, h2, h3⟩ := ih (i / 16) s (by omega)
    obtain ⟨c, ec, c1, c2, _⟩ := digit_spec (i % 16) (by omega)
    refine ⟨t ++ [c], ?_, by simp [h1], ?_, ?_⟩
    · rw [asHexadecimalSub, e]
      simp only [Res.ok_bind]
      rw [ec]
      simp only [Res.ok_bind]
      rw [wr_ok (by simp; omega), List.set_append, if_neg (by omega), h1, Nat.sub_self,
        List.drop_eq_getElem_cons h, List.append_assoc]
      rfl
    · have := Denotes.snoc h2 c1
      rw [show 16 * (i / 16 % 16 ^ (cur + 1)) + i % 16 = i % 16 ^ (cur + 1 + 1) by
        rw [Nat.pow_succ 16 (cur + 1), Nat.mul_comm (16 ^ (cur + 1)) 16, Nat.mod_mul]; omega] at this
      exact this
    · intro d hd
      rcases List.mem_append.1 hd with hd | hd
      · exact h3 d hd
      · simp at hd; subst hd; exact c2

/-- `as_hexadecimal (i, len)` has exactly `len` upper-case digits and denotes the low `4 * len` bits
of `i` as an unsigned 32-bit integer; other lengths are refused. -/
theorem C32_as_hexadecimal (i : Int) (len : Nat) :
    (1 ≤ len → len ≤ 16 → ∃ s, asHexadecimal i len = .ok s ∧ s.length = len ∧ (∀ c ∈ s, UpDigit c) ∧
      Denotes s ((i % 2 ^ 32).toNat % 16 ^ len)) ∧
    (len = 0 ∨ 16 < len → asHexadecimal i len = .thrown) := by
  unfold asHexadecimal
  refine ⟨fun h1 h2 => ?_, fun h => by rw [if_neg (by omega)]⟩
  rw [if_pos ⟨h1, h2⟩]
  obtain ⟨t, e, g1, g2, g3⟩ := asHexadecimalSub_spec (len - 1) (i % 2 ^ 32).toNat (List.replicate len 0)
    (by simp; omega)
  rw [show len - 1 + 1 = len by omega] at *
  refine ⟨t, ?_, g1, g3, g2⟩
  rw [e, List.drop_of_length_le (by simp), List.append_nil]

example : asHexadecimal (-1) 3 = .ok (b!"FFF") ∧ asHexadecimal 10 4 = .ok (b!"000A") := by decide

/-- Two digits per byte. -/
theorem C32_padded (i : UInt8) : ∃ s t, toPaddedHexUp i = .ok s ∧ toPaddedHex i = .ok t ∧
    s.length = 2 ∧ t.length = 2 ∧ Denotes s i.toNat ∧ Denotes t i.toNat ∧
    (∀ c ∈ s, UpDigit c) ∧ (∀ c ∈ t, LowDigit c) := by
  have hi := i.toNat_lt
  obtain ⟨c, ec, c1, c2, c3, c4, _⟩ := digit_spec (i.toNat / 16) (by omega)
  obtain ⟨d, ed, d1, d2, d3, d4, _⟩ := digit_spec (i.toNat % 16) (by omega)
  have e : toPaddedHexUp i = .ok [c, d] := by unfold toPaddedHexUp; rw [ec, ed]; rfl
  have hn : 16 * (16 * 0 + i.toNat / 16) + i.toNat % 16 = i.toNat := by omega
  refine ⟨[c, d], [locase c, locase d], e, ?_, rfl, rfl, ?_, ?_, ?_, ?_⟩
  · unfold toPaddedHex
    rw [e]
    simp only [Res.ok_bind]
    unfold locaseAll
    rw [mapBytes_eq]; rfl
  · have := Denotes.snoc (Denotes.snoc .nil c1) d1; rwa [hn] at this
  · have := Denotes.snoc (Denotes.snoc .nil c4) d4; rwa [hn] at this
  · intro x hx
    simp at hx
    rcases hx with rfl | rfl
    · exact c2
    · exact d2
  · intro x hx
    simp at hx
    rcases hx with rfl | rfl
    · exact c3
    · exact d3

/-- `binary_to_hexadecimal` concatenates the two digits of each byte. -/
theorem binary_eq (bin : Bytes) (f : UInt8 → Bytes) (hf : ∀ c, toPaddedHexUp c = .ok (f c)) :
    binaryToHexadecimal bin = .ok (bin.flatMap f) := by
  have f2 : ∀ c, ∃ x y, f c = [x, y] ∧ rd hexString (c.toNat / 16) = .ok x ∧ rd hexString (c.toNat % 16) = .ok y := by
    intro c
    have hc := c.toNat_lt
    obtain ⟨x, ex, _⟩ := digit_spec (c.toNat / 16) (by omega)
    obtain ⟨y, ey, _⟩ := digit_spec (c.toNat % 16) (by omega)
    have h := hf c
    unfold toPaddedHexUp at h
    rw [ex, ey] at h
    exact ⟨x, y, (Res.ok.inj h).symm, ex, ey⟩
  have fl : ∀ l : Bytes, (l.flatMap f).length = 2 * l.length := by
    intro l
    induction l with
    | nil => rfl
    | cons c l ih =>
      obtain ⟨x, y, e, _⟩ := f2 c
      rw [List.flatMap_cons, e]; simp only [List.length_append, List.length_cons, List.length_nil, ih]; omega
  obtain ⟨r, e, h⟩ := forUp_spec (lo := 0) (hi := bin.length)
    (s := List.replicate (2 * bin.length) (0 : UInt8))
    (body := fun k res => do
      let ch ← rd bin k
      let hi ← rd hexString (ch.toNat / 16)
      let res ← wr res (2 * k) hi
      let lo ← rd hexString (ch.toNat % 16)
      wr res (2 * k + 1) lo)
    (fun i r => r = (bin.take i).flatMap f ++ List.replicate (2 * (bin.length - i)) 0) (by omega) (by simp)
    (fun i r _ hi h => by
      rw [rd_ok hi]
      simp only [Res.ok_bind]
      obtain ⟨x, y, exy, ex, ey⟩ := f2 bin[i]
      rw [ex]
      simp only [Res.ok_bind]
      have hl : ((bin.take i).flatMap f).length = 2 * i := by rw [fl, List.length_take]; omega
      have hr : r.length = 2 * bin.length := by rw [h, List.length_append, hl]; simp; omega
      rw [wr_ok (by omega)]
      simp only [Res.ok_bind]
      rw [ey]
      simp only [Res.ok_bind]
      refine ⟨_, wr_ok (by simp; omega), ?_⟩
      rw [take_snoc hi, List.flatMap_append, List.flatMap_singleton, exy, h,
        show 2 * (bin.length - i) = 2 * (bin.length - (i + 1)) + 1 + 1 by omega, List.replicate_succ,
        List.replicate_succ, List.set_append, if_neg (by omega), List.set_append, if_neg (by omega), hl,
        Nat.sub_self, show 2 * i + 1 - 2 * i = 1 by omega, List.append_assoc]
      rfl)
  rw [List.take_length, Nat.sub_self] at h
  unfold binaryToHexadecimal
  rw [e, h]; simp

theorem C32_binary (bin : Bytes) : ∃ s, binaryToHexadecimal bin = .ok s ∧ s.length = 2 * bin.length ∧
    (∀ i (h : i < bin.length), Denotes ((s.drop (2 * i)).take 2) bin[i].toNat) ∧
    (∀ c ∈ s, UpDigit c) ∧ ∀ b', binaryToHexadecimal b' = .ok s → b' = bin := by
  have ex : ∀ c, ∃ s, toPaddedHexUp c = .ok s ∧ s.length = 2 ∧ Denotes s c.toNat ∧ ∀ d ∈ s, UpDigit d := by
    intro c
    obtain ⟨s, t, e, _, h1, _, h2, _, h3, _⟩ := C32_padded c
    exact ⟨s, e, h1, h2, h3⟩
  let f : UInt8 → Bytes := fun c => match toPaddedHexUp c with | .ok s => s | _ => []
  have hf : ∀ c, toPaddedHexUp c = .ok (f c) ∧ (f c).length = 2 ∧ Denotes (f c) c.toNat ∧ ∀ d ∈ f c, UpDigit d := by
    intro c
    obtain ⟨s, e, h⟩ := ex c
    have : f c = s := by show (match toPaddedHexUp c with | .ok s => s | _ => []) = s; rw [e]
    rw [this]; exact ⟨e, h⟩
  have fl : ∀ l : Bytes, (l.flatMap f).length = 2 * l.length := by
    intro l
    induction l with
    | nil => rfl
    | cons c l ih => rw [List.flatMap_cons, List.length_append, ih, (hf c).2.1, List.length_cons]; omega
  have part : ∀ (l : Bytes) i (h : i < l.length), ((l.flatMap f).drop (2 * i)).take 2 = f l[i] := by
    intro l
    induction l with
    | nil => intro i h; simp at h
    | cons c l ih =>
      intro i h
      rw [List.flatMap_cons]
      cases i with
      | zero => rw [Nat.mul_zero, List.drop_zero, List.take_append_of_le_length (by rw [(hf c).2.1]; omega),
          List.take_of_length_le (by rw [(hf c).2.1]; omega)]; rfl
      | succ i =>
        have : 2 * (i + 1) = (f c).length + 2 * i := by rw [(hf c).2.1]; omega
        rw [this, List.drop_append, Nat.add_sub_cancel_left, List.drop_of_length_le (by omega),
          List.nil_append]
        have := ih i (by simpa using h)
        rw [this]; simp
  refine ⟨_, binary_eq bin f fun c => (hf c).1, fl bin, ?_, ?_, ?_⟩
  · intro i h; rw [part bin i h]; exact (hf _).2.2.1
  · intro c hc
    obtain ⟨d, _, hd⟩ := List.mem_flatMap.1 hc
    exact (hf d).2.2.2 c hd
  · intro b' h
    rw [binary_eq b' f fun c => (hf c).1] at h
    have h := Res.ok.inj h
    have hl : b'.length = bin.length := by
      have := congrArg List.length h
      rw [fl, fl] at this; omega
    apply List.ext_getElem hl
    intro i h1 h2
    have e : f b'[i] = f bin[i] := by rw [← part b' i h1, ← part bin i h2, h]
    have := (denotes_value (hf b'[i]).2.2.1).1
    rw [e, ← (denotes_value (hf bin[i]).2.2.1).1] at this
    exact UInt8.toNat_inj.1 this

example : binaryToHexadecimal [0, 255, 26] = .ok (b!"00FF1A") := by decide

end Lolly.HexProps
