import Verif.Data.Unicode
import Verif.Data.HexProps
import Verif.Strings.SearchLemmas

/-!
# C35, C36, C37: UTF-8 and unicode ranges
-/

set_option autoImplicit false

namespace Lolly.UnicodeProps

open Lolly.Unicode Lolly.An

/-! ## Specification -/

/-- The encoding of RFC 3629 (extended to 21 bits). -/
def utf8 (code : Nat) : Bytes :=
  if code < 0x80 then [UInt8.ofNat code]
  else if code < 0x800 then [UInt8.ofNat (0xC0 + code / 64), UInt8.ofNat (0x80 + code % 64)]
  else if code < 0x10000 then
    [UInt8.ofNat (0xE0 + code / 64 ^ 2), UInt8.ofNat (0x80 + code / 64 % 64), UInt8.ofNat (0x80 + code % 64)]
  else
    [UInt8.ofNat (0xF0 + code / 64 ^ 3), UInt8.ofNat (0x80 + code / 64 ^ 2 % 64),
     UInt8.ofNat (0x80 + code / 64 % 64), UInt8.ofNat (0x80 + code % 64)]

/-- A continuation byte. -/
def Cont (c : UInt8) : Prop := 0x80 ≤ c.toNat ∧ c.toNat < 0xC0
instance (c : UInt8) : Decidable (Cont c) := by unfold Cont; infer_instance

/-- The number of continuation bytes announced by a first byte and the bits it contributes. -/
def expect (c : UInt8) : Option (Nat × Nat) :=
  if c.toNat < 0xC0 then none
  else if c.toNat < 0xE0 then some (1, c.toNat - 0xC0)
  else if c.toNat < 0xF0 then some (2, c.toNat - 0xE0)
  else if c.toNat < 0xF8 then some (3, c.toNat - 0xF0)
  else none

/-- The number with the bits of `code` followed by six bits for each continuation byte. -/
def bits (code : Nat) (t : Bytes) : Nat := t.foldl (fun n c => 64 * n + c.toNat % 64) code

/-- Successive decoding from position `i` to the end of `s` gives `codes`. -/
inductive DecodesTo (s : Bytes) : Nat → List Nat → Prop
  | done : DecodesTo s s.length []
  | step {i j : Nat} {c : Nat} {cs : List Nat} : i < s.length → decode s i = .ok (c, (j : Int)) →
      DecodesTo s j cs → DecodesTo s i (c :: cs)

/-! ## Lemmas -/

theorem lead_table (c : UInt8) : (0x80 &&& c = 0 ↔ c.toNat < 0x80) ∧ (0x80 ≤ c.toNat → leadByte c = expect c) ∧
    (0xC0 &&& c = 0x80 ↔ Cont c) ∧ (c &&& 0x3F).toNat = c.toNat % 64 := by
  revert c
  exact forall_byte (by decide +kernel)

theorem expect_range {c : UInt8} {k b : Nat} (h : expect c = some (k, b)) : 0 < k ∧ k ≤ 3 := by
  unfold expect at h
  split at h
  · cases h
  split at h
  · cases h; decide
  split at h
  · cases h; decide
  split at h
  · cases h; decide
  · cases h

theorem or_bits (code x : Nat) (h : x < 64) : (code <<< 6) ||| x = 64 * code + x := by
  rw [← Nat.shiftLeft_add_eq_or_of_lt h, Nat.shiftLeft_eq]; omega

theorem trail_step {s : Bytes} {start : Int} {trail code i : Nat} (hi : i + 1 < s.length) :
    trailLoop s start (trail + 1) i code =
      if Cont s[i + 1] then trailLoop s start trail (i + 1 : Nat) (64 * code + s[i + 1].toNat % 64)
      else (rdI s (start + 1) >>= fun c => .ok (c.toNat, start + 1 + 1)) := by
  obtain ⟨_, _, h1, h2⟩ := lead_table s[i + 1]
  rw [trailLoop]
  dsimp only
  rw [if_neg (c := ((i : Int) + 1 ≥ (s.length : Int))) (by omega)]
  have : rdI s ((i : Int) + 1) = .ok s[i + 1] := by
    unfold rdI; rw [if_pos (by omega), show ((i : Int) + 1).toNat = i + 1 by omega, rd_ok hi]
  rw [this]
  simp only [Res.ok_bind, h1]
  split
  · rw [h2, or_bits _ _ (by omega)]; rfl
  · rfl

theorem trail_last {s : Bytes} {start : Int} {trail code i : Nat} (hi : i + 1 = s.length) :
    trailLoop s start (trail + 1) i code =
      if Cont s[i] then trailLoop s start trail i (64 * code + s[i].toNat % 64)
      else (rdI s (start + 1) >>= fun c => .ok (c.toNat, start + 1 + 1)) := by
  obtain ⟨_, _, h1, h2⟩ := lead_table s[i]
  rw [trailLoop]
  dsimp only
  rw [if_pos (c := ((i : Int) + 1 ≥ (s.length : Int))) (by omega), show (s.length : Int) - 1 = (i : Nat) by omega]
  have : rdI s (i : Int) = .ok s[i] := by
    unfold rdI; rw [if_pos (by omega), Int.toNat_natCast, rd_ok (by omega)]
  rw [this]
  simp only [Res.ok_bind, h1]
  split
  · rw [h2, or_bits _ _ (by omega)]
  · rfl

/-- At the end of the string the last byte is used again and again. -/
theorem trail_end {s : Bytes} {start : Int} {i : Nat} (hi : i + 1 = s.length) (hc : Cont s[i]) (trail code : Nat) :
    trailLoop s start trail i code = .ok (bits code (List.replicate trail s[i]), i + 1) := by
  induction trail generalizing code with
  | zero => rfl
  | succ t ih => rw [trail_last hi, if_pos hc, ih]; rfl

/-- The bytes that are read after position `i`. -/
def readAfter (t : Bytes) (k : Nat) : Bytes :=
  t.take k ++ List.replicate (k - t.length) (t.getLastD 0)

theorem trail_spec {s : Bytes} {start : Int} (t : Bytes) (trail code i : Nat) (hd : s.drop (i + 1) = t)
    (ht : t ≠ [] ∨ trail = 0) (hi : i < s.length) :
    trailLoop s start trail i code =
      if ∀ c ∈ t.take trail, Cont c then .ok (bits code (readAfter t trail), ((i + 1 + (t.take trail).length : Nat) : Int))
      else (rdI s (start + 1) >>= fun c => .ok (c.toNat, start + 1 + 1)) := by
  induction trail generalizing code i t with
  | zero => simp [trailLoop, bits, readAfter]
  | succ k ih =>
    cases t with
    | nil => rcases ht with h | h
             · exact absurd rfl h
             · omega
    | cons c t =>
      have hi1 : i + 1 < s.length := by
        have := congrArg List.length hd
        rw [List.length_drop, List.length_cons] at this; omega
      rw [List.drop_eq_getElem_cons hi1] at hd
      injection hd with e1 e2
      rw [trail_step hi1, e1]
      by_cases hc : Cont c
      · rw [if_pos hc]
        by_cases hkt : t ≠ [] ∨ k = 0
        · rw [ih t _ (i + 1) e2 hkt hi1]
          have hall : (∀ d ∈ (c :: t).take (k + 1), Cont d) ↔ ∀ d ∈ t.take k, Cont d := by
            rw [List.take_succ_cons]; simp [hc]
          have hb : bits code (readAfter (c :: t) (k + 1)) = bits (64 * code + c.toNat % 64) (readAfter t k) := by
            unfold readAfter
            rw [List.take_succ_cons, List.length_cons, Nat.add_sub_add_right]
            rcases hkt with h | h
            · cases t with
              | nil => exact absurd rfl h
              | cons d t => rfl
            · subst h; simp [bits]
          simp only [hall]
          rw [hb, List.take_succ_cons, List.length_cons]
          split
          · congr 2; omega
          · rfl
        · obtain rfl : t = [] := Classical.byContradiction fun h => hkt (.inl h)
          have hl : i + 1 + 1 = s.length := by
            have := congrArg List.length e2
            rw [List.length_drop, List.length_nil] at this; omega
          rw [trail_end hl (by rw [e1]; exact hc), e1, if_pos]
          · unfold readAfter
            simp [bits]
          · rw [List.take_succ_cons, List.take_nil]; simp [hc]
      · rw [if_neg hc, if_neg]
        intro h
        exact hc (h c (by simp))

theorem decode_at {s : Bytes} {i : Nat} {c : UInt8} {t : Bytes} (hd : s.drop i = c :: t) :
    decode s i = match expect c with
      | some (k, b) => if t ≠ [] ∧ ∀ d ∈ t.take k, Cont d
          then .ok (bits b (readAfter t k), ((i + 1 + (t.take k).length : Nat) : Int)) else .ok (c.toNat, ((i + 1 : Nat) : Int))
      | none => .ok (c.toNat, ((i + 1 : Nat) : Int)) := by
  have hi : i < s.length := by
    have := congrArg List.length hd
    rw [List.length_drop, List.length_cons] at this; omega
  rw [List.drop_eq_getElem_cons hi] at hd
  injection hd with e1 e2
  obtain ⟨h1, h2, h3, _⟩ := lead_table c
  have hr : rdI s (i : Int) = .ok c := by
    unfold rdI; rw [if_pos (by omega), Int.toNat_natCast, rd_ok hi, e1]
  unfold decode
  rw [hr]
  simp only [Res.ok_bind]
  by_cases h80 : c.toNat < 0x80
  · rw [if_pos (h1.2 h80), expect, if_pos (by omega)]; rfl
  rw [if_neg (fun h => h80 (h1.1 h)), h2 (by omega)]
  cases he : expect c with
  | none => rfl
  | some p =>
    obtain ⟨k, b⟩ := p
    dsimp only
    have hnc : ¬ Cont c := by
      intro hc; unfold expect Cont at *; rw [if_pos hc.2] at he; cases he
    have hk : 0 < k := (expect_range he).1
    have back : (rdI s ((i : Int) - 1 + 1) >>= fun c => Res.ok (c.toNat, (i : Int) - 1 + 1 + 1)) = .ok (c.toNat, ((i + 1 : Nat) : Int)) := by
      rw [show (i : Int) - 1 + 1 = i by omega, hr]; rfl
    by_cases ht : t = []
    · subst ht
      have hl : i + 1 = s.length := by
        have := congrArg List.length e2
        rw [List.length_drop, List.length_nil] at this; omega
      obtain ⟨k, rfl⟩ : ∃ k', k = k' + 1 := ⟨k - 1, by omega⟩
      rw [trail_last hl, if_neg (by rw [e1]; exact hnc), back, if_neg (by simp)]
    · rw [trail_spec t k b i e2 (.inl ht) hi, back]
      simp [ht]

/-! ## C36 -/

/-- Decoding terminates, stays in the string and advances. -/
theorem C36_progress (s : Bytes) (i : Nat) (hi : i < s.length) :
    ∃ code j : Nat, decode s i = .ok (code, (j : Int)) ∧ i < j ∧ j ≤ s.length ∧ j ≤ i + 4 := by
  have e := decode_at (List.drop_eq_getElem_cons hi)
  revert e
  have hlen : (s.drop (i + 1)).length = s.length - (i + 1) := List.length_drop
  split
  · rename_i k b he
    have hk : k ≤ 3 := (expect_range he).2
    split
    · intro e
      refine ⟨_, _, e, by omega, ?_, ?_⟩
      · rw [List.length_take]; omega
      · rw [List.length_take]; omega
    · intro e; exact ⟨_, _, e, by omega, by omega, by omega⟩
  · intro e; exact ⟨_, _, e, by omega, by omega, by omega⟩

/-- A byte that does not start a sequence of several bytes, or whose continuation bytes are not all
there although the string is long enough, is returned as is; a complete sequence gives its bits.
Missing: sequences cut off by the end of the string, see `C36_truncated`. -/
theorem C36_decode_partial (s : Bytes) (i : Nat) (hi : i < s.length) :
    (∀ k b, expect s[i] = some (k, b) → i + k < s.length →
      (∀ d ∈ (s.drop (i + 1)).take k, Cont d) →
        decode s i = .ok (bits b ((s.drop (i + 1)).take k), ((i + 1 + k : Nat) : Int))) ∧
    (∀ k b, expect s[i] = some (k, b) → (¬ ∀ d ∈ (s.drop (i + 1)).take k, Cont d) →
        decode s i = .ok (s[i].toNat, ((i + 1 : Nat) : Int))) ∧
    (expect s[i] = none → decode s i = .ok (s[i].toNat, ((i + 1 : Nat) : Int))) := by
  have e := decode_at (List.drop_eq_getElem_cons hi)
  have hlen : (s.drop (i + 1)).length = s.length - (i + 1) := List.length_drop
  refine ⟨fun k b he hk hc => ?_, fun k b he hc => ?_, fun he => ?_⟩
  · rw [he] at e
    dsimp only at e
    have hk0 : 0 < k := (expect_range he).1
    rw [if_pos ⟨by intro h; rw [h] at hlen; simp at hlen; omega, hc⟩] at e
    rw [e, readAfter, show k - (s.drop (i + 1)).length = 0 by omega, List.length_take,
      show min k (s.drop (i + 1)).length = k by omega]
    simp
  · rw [he] at e
    dsimp only at e
    rwa [if_neg (fun h => hc h.2)] at e
  · rw [he] at e; exact e

example : decode (b!"é!") 0 = .ok (0xE9, 2) ∧ decode [0xE4, 0xB8, 0x41] 0 = .ok (0xE4, 1) ∧
    decode [0x80, 0x80] 0 = .ok (0x80, 1) := by decide

/-- A sequence cut off by the end of the string after at least one continuation byte is accepted, the
last byte standing for the missing ones; after the first byte alone, that byte is returned. -/
theorem C36_truncated (s : Bytes) (i k b : Nat) (hi : i < s.length) (he : expect s[i] = some (k, b))
    (hk : s.length ≤ i + k) (hc : ∀ d ∈ s.drop (i + 1), Cont d) :
    decode s i = if i + 1 = s.length then .ok (s[i].toNat, ((i + 1 : Nat) : Int))
      else .ok (bits b (s.drop (i + 1) ++ List.replicate (i + 1 + k - s.length) s[s.length - 1]), (s.length : Int)) := by
  have e := decode_at (List.drop_eq_getElem_cons hi)
  have hlen : (s.drop (i + 1)).length = s.length - (i + 1) := List.length_drop
  rw [he] at e
  dsimp only at e
  have htake : (s.drop (i + 1)).take k = s.drop (i + 1) := List.take_of_length_le (by omega)
  rw [htake] at e
  by_cases h : i + 1 = s.length
  · rw [if_neg (fun g => g.1 (List.drop_of_length_le (by omega)))] at e
    rw [e, if_pos h]
  · have hne : s.drop (i + 1) ≠ [] := by intro h; rw [h] at hlen; simp at hlen; omega
    rw [if_pos ⟨hne, hc⟩] at e
    rw [e, if_neg h, readAfter, htake, hlen, show i + 1 + (s.length - (i + 1)) = s.length by omega,
      show k - (s.length - (i + 1)) = i + 1 + k - s.length by omega]
    congr 4
    rw [List.getLastD_eq_getLast?, List.getLast?_eq_getElem?, List.getElem?_drop, hlen,
      show i + 1 + (s.length - (i + 1) - 1) = s.length - 1 by omega, List.getElem?_eq_getElem (by omega)]
    rfl

/-- The last byte is used twice: two bytes are decoded as a code point of three bytes. -/
theorem C36_violated : decode [0xE4, 0xB8] 0 = .ok (0x4E38, 2) ∧ expect 0xE4 = some (2, 4) := by decide

/-! ## C35 -/

theorem or_hi (x : Nat) : (x < 32 → UInt8.ofNat (x ||| 0xC0) = UInt8.ofNat (0xC0 + x)) ∧
    (x < 16 → UInt8.ofNat (x ||| 0xE0) = UInt8.ofNat (0xE0 + x)) ∧
    (x < 8 → UInt8.ofNat (x ||| 0xF0) = UInt8.ofNat (0xF0 + x)) ∧
    (x < 64 → UInt8.ofNat (x ||| 0x80) = UInt8.ofNat (0x80 + x)) := by
  have : ∀ x : Nat, x < 64 → (x < 32 → UInt8.ofNat (x ||| 0xC0) = UInt8.ofNat (0xC0 + x)) ∧
    (x < 16 → UInt8.ofNat (x ||| 0xE0) = UInt8.ofNat (0xE0 + x)) ∧
    (x < 8 → UInt8.ofNat (x ||| 0xF0) = UInt8.ofNat (0xF0 + x)) ∧
    (x < 64 → UInt8.ofNat (x ||| 0x80) = UInt8.ofNat (0x80 + x)) := by decide +kernel
  by_cases h : x < 64
  · exact this x h
  · exact ⟨fun g => by omega, fun g => by omega, fun g => by omega, fun g => absurd g h⟩

/-- The encoding is that of RFC 3629; codes above 0x1FFFFF give the empty string. -/
theorem C35_encode (code : Nat) : encode code = if code ≤ 0x1FFFFF then utf8 code else [] := by
  have m3 : ∀ x, x &&& 0x07 = x % 8 := fun x => Nat.and_two_pow_sub_one_eq_mod x 3
  have m4 : ∀ x, x &&& 0x0F = x % 16 := fun x => Nat.and_two_pow_sub_one_eq_mod x 4
  have m5 : ∀ x, x &&& 0x1F = x % 32 := fun x => Nat.and_two_pow_sub_one_eq_mod x 5
  have m6 : ∀ x, x &&& 0x3F = x % 64 := fun x => Nat.and_two_pow_sub_one_eq_mod x 6
  unfold encode utf8 toChar
  rw [m3, m4, m5, m6, m6, m6]
  simp only [Nat.shiftRight_eq_div_pow]
  by_cases h1 : code ≤ 0x7F
  · rw [if_pos h1, if_pos (by omega), if_pos (by omega)]
  rw [if_neg h1]
  by_cases h2 : code ≤ 0x7FF
  · rw [if_pos ⟨by omega, h2⟩, if_pos (by omega), if_neg (by omega), if_pos (by omega),
      (or_hi _).1 (by omega), (or_hi _).2.2.2 (by omega), show code / 2 ^ 6 % 32 = code / 64 by omega]
  rw [if_neg (by omega)]
  by_cases h3 : code ≤ 0xFFFF
  · rw [if_pos ⟨by omega, h3⟩, if_pos (by omega), if_neg (by omega), if_neg (by omega), if_pos (by omega),
      (or_hi _).2.1 (by omega), (or_hi _).2.2.2 (by omega), (or_hi _).2.2.2 (by omega),
      show code / 2 ^ 12 % 16 = code / 64 ^ 2 by omega]
  rw [if_neg (by omega)]
  by_cases h4 : code ≤ 0x1FFFFF
  · rw [if_pos ⟨by omega, h4⟩, if_pos h4, if_neg (by omega), if_neg (by omega), if_neg (by omega),
      (or_hi _).2.2.1 (by omega), (or_hi _).2.2.2 (by omega), (or_hi _).2.2.2 (by omega), (or_hi _).2.2.2 (by omega),
      show code / 2 ^ 18 % 8 = code / 64 ^ 3 by omega]
  · rw [if_neg (by omega), if_neg h4]

theorem toNat_small {n : Nat} (h : n < 256) : (UInt8.ofNat n).toNat = n := by
  simp [UInt8.toNat_ofNat']; omega

theorem utf8_decode (pre rest : Bytes) (code : Nat) (h : code ≤ 0x1FFFFF) :
    decode (pre ++ utf8 code ++ rest) pre.length = .ok (code, ((pre.length + (utf8 code).length : Nat) : Int)) := by
  have cont : ∀ n, n < 64 → Cont (UInt8.ofNat (0x80 + n)) ∧ (UInt8.ofNat (0x80 + n)).toNat % 64 = n := by
    intro n hn
    unfold Cont
    rw [toNat_small (by omega)]; omega
  unfold utf8
  by_cases h1 : code < 0x80
  · rw [if_pos h1]
    rw [decode_at (c := UInt8.ofNat code) (t := rest) (by simp)]
    have : expect (UInt8.ofNat code) = none := by
      unfold expect; rw [toNat_small (by omega), if_pos (by omega)]
    rw [this]
    dsimp only
    rw [toNat_small (by omega)]; rfl
  rw [if_neg h1]
  by_cases h2 : code < 0x800
  · rw [if_pos h2]
    rw [decode_at (c := UInt8.ofNat (0xC0 + code / 64)) (t := UInt8.ofNat (0x80 + code % 64) :: rest) (by simp)]
    have : expect (UInt8.ofNat (0xC0 + code / 64)) = some (1, code / 64) := by
      unfold expect; rw [toNat_small (by omega), if_neg (by omega), if_pos (by omega), Nat.add_sub_cancel_left]
    rw [this]
    dsimp only
    have c1 := cont (code % 64) (by omega)
    rw [if_pos ⟨by simp, by
      intro d hd; simp only [List.take_succ_cons, List.take_zero, List.mem_cons, List.not_mem_nil, or_false] at hd; subst hd; exact c1.1⟩]
    unfold readAfter bits
    simp only [List.take_succ_cons, List.take_zero, List.length_cons, List.length_nil]
    rw [show 1 - (rest.length + 1) = 0 by omega]
    simp only [List.replicate_zero, List.append_nil, List.foldl_cons, List.foldl_nil, c1.2]
    congr 2; omega
  rw [if_neg h2]
  by_cases h3 : code < 0x10000
  · rw [if_pos h3]
    rw [decode_at (c := UInt8.ofNat (0xE0 + code / 64 ^ 2))
      (t := UInt8.ofNat (0x80 + code / 64 % 64) :: UInt8.ofNat (0x80 + code % 64) :: rest) (by simp)]
    have : expect (UInt8.ofNat (0xE0 + code / 64 ^ 2)) = some (2, code / 64 ^ 2) := by
      unfold expect; rw [toNat_small (by omega), if_neg (by omega), if_neg (by omega), if_pos (by omega), Nat.add_sub_cancel_left]
    rw [this]
    dsimp only
    have c1 := cont (code % 64) (by omega)
    have c2 := cont (code / 64 % 64) (by omega)
    rw [if_pos ⟨by simp, by
      intro d hd; simp only [List.take_succ_cons, List.take_zero, List.mem_cons, List.not_mem_nil, or_false] at hd
      exact hd.elim (fun e => e ▸ c2.1) (fun e => e ▸ c1.1)⟩]
    unfold readAfter bits
    simp only [List.take_succ_cons, List.take_zero, List.length_cons, List.length_nil]
    rw [show 2 - (rest.length + 1 + 1) = 0 by omega]
    simp only [List.replicate_zero, List.append_nil, List.foldl_cons, List.foldl_nil, c1.2, c2.2]
    congr 2; omega
  rw [if_neg h3]
  · rw [decode_at (c := UInt8.ofNat (0xF0 + code / 64 ^ 3))
      (t := UInt8.ofNat (0x80 + code / 64 ^ 2 % 64) :: UInt8.ofNat (0x80 + code / 64 % 64) :: UInt8.ofNat (0x80 + code % 64) :: rest)
      (by simp)]
    have : expect (UInt8.ofNat (0xF0 + code / 64 ^ 3)) = some (3, code / 64 ^ 3) := by
      unfold expect; rw [toNat_small (by omega), if_neg (by omega), if_neg (by omega), if_neg (by omega), if_pos (by omega), Nat.add_sub_cancel_left]
    rw [this]
    dsimp only
    have c1 := cont (code % 64) (by omega)
    have c2 := cont (code / 64 % 64) (by omega)
    have c3 := cont (code / 64 ^ 2 % 64) (by omega)
    rw [if_pos ⟨by simp, by
      intro d hd; simp only [List.take_succ_cons, List.take_zero, List.mem_cons, List.not_mem_nil, or_false] at hd
      exact hd.elim (fun e => e ▸ c3.1) fun h => h.elim (fun e => e ▸ c2.1) (fun e => e ▸ c1.1)⟩]
    unfold readAfter bits
    simp only [List.take_succ_cons, List.take_zero, List.length_cons, List.length_nil]
    rw [show 3 - (rest.length + 1 + 1 + 1) = 0 by omega]
    simp only [List.replicate_zero, List.append_nil, List.foldl_cons, List.foldl_nil, c1.2, c2.2, c3.2]
    congr 2; omega

/-- Decoding an encoded code point in the middle of any string. -/
theorem C35_round_trip (pre rest : Bytes) (code : Nat) (h : code ≤ 0x1FFFFF) :
    decode (pre ++ encode code ++ rest) pre.length =
      .ok (code, ((pre.length + (encode code).length : Nat) : Int)) := by
  rw [C35_encode, if_pos h]; exact utf8_decode pre rest code h

theorem encode_ne (code : Nat) (h : code ≤ 0x1FFFFF) : 0 < (encode code).length := by
  rw [C35_encode, if_pos h]; unfold utf8; repeat' split
  all_goals simp

/-- Decoding the concatenation of encodings gives the sequence of code points. -/
theorem C35_sequence (codes : List Nat) (h : ∀ c ∈ codes, c ≤ 0x1FFFFF) :
    DecodesTo (codes.flatMap encode) 0 codes := by
  suffices ∀ (cs : List Nat) (pre : Bytes), (∀ c ∈ cs, c ≤ 0x1FFFFF) →
      DecodesTo (pre ++ cs.flatMap encode) pre.length cs by
    have := this codes [] h; simpa using this
  intro cs
  induction cs with
  | nil => intro pre _; have := DecodesTo.done (s := pre); simpa using this
  | cons c cs ih =>
    intro pre h
    have hc := h c (by simp)
    have hl := encode_ne c hc
    refine .step (j := pre.length + (encode c).length) ?_ ?_ ?_
    · rw [List.length_append, List.flatMap_cons, List.length_append]; omega
    · rw [List.flatMap_cons, ← List.append_assoc]; exact C35_round_trip pre _ c hc
    · have := ih (pre ++ encode c) fun d hd => h d (by simp [hd])
      rw [List.length_append] at this
      rw [List.flatMap_cons, ← List.append_assoc]; exact this

theorem decodesTo_unique {s : Bytes} {i : Nat} {cs ds : List Nat} (h1 : DecodesTo s i cs) (h2 : DecodesTo s i ds) :
    cs = ds := by
  induction h1 generalizing ds with
  | done =>
    cases h2 with
    | done => rfl
    | step h => omega
  | step h e _ ih =>
    cases h2 with
    | done => omega
    | step h' e' r =>
      rw [e] at e'
      injection e' with e'
      injection e' with e1 e2
      obtain rfl := Int.ofNat.inj e2
      rw [e1, ih r]

/-- Sequences of code points are determined by their encoding, and no encoding is a prefix of another. -/
theorem C35_injective (cs ds : List Nat) (hc : ∀ c ∈ cs, c ≤ 0x1FFFFF) (hd : ∀ d ∈ ds, d ≤ 0x1FFFFF)
    (h : cs.flatMap encode = ds.flatMap encode) : cs = ds := by
  have h1 := C35_sequence cs hc
  rw [h] at h1
  exact decodesTo_unique h1 (C35_sequence ds hd)

theorem C35_prefix_free (c d : Nat) (hc : c ≤ 0x1FFFFF) (hd : d ≤ 0x1FFFFF) (rest : Bytes)
    (h : encode d = encode c ++ rest) : c = d := by
  have h1 := C35_round_trip [] rest c hc
  have h2 := C35_round_trip [] [] d hd
  rw [List.nil_append, ← h] at h1
  rw [List.nil_append, List.append_nil, h1] at h2
  injection h2 with h2
  injection h2

example : encode 0x4E2D = [0xE4, 0xB8, 0xAD] ∧ encode 0x200000 = [] := by decide

/-! ## C37 -/

/-- The blocks and their names. -/
def blocks : List (Nat × Nat × Bytes) :=
  [(0, 0x7f, b!"ascii"), (0x80, 0x36f, b!"latin"), (0x370, 0x3ff, b!"greek"), (0x400, 0x4ff, b!"cyrillic"),
   (0x2000, 0x23ff, b!"mathsymbols"), (0x2460, 0x24ff, b!"enclosed_alphanumerics"), (0x2900, 0x2e7f, b!"mathextra"),
   (0x3000, 0x303f, b!"cjk"), (0x3040, 0x309f, b!"hiragana"), (0x4e00, 0x9fcc, b!"cjk"), (0xac00, 0xd7af, b!"hangul"),
   (0xff00, 0xffef, b!"cjk"), (0x1d400, 0x1d7ff, b!"mathletters")]

/-- The name of the block of `code`. Missing: 0x370 to 0x37f, see `C37_range_violated`. -/
theorem C37_range_partial (code : Nat) (h : code < 0x370 ∨ 0x37f < code) :
    (∀ b ∈ blocks, b.1 ≤ code ∧ code ≤ b.2.1 → getRange code = b.2.2) ∧
    ((∀ b ∈ blocks, ¬ (b.1 ≤ code ∧ code ≤ b.2.1)) → getRange code = []) := by
  unfold getRange blocks
  constructor
  · intro b hb hr
    simp only [List.mem_cons, List.not_mem_nil, or_false] at hb
    rcases hb with rfl | rfl | rfl | rfl | rfl | rfl | rfl | rfl | rfl | rfl | rfl | rfl | rfl <;> dsimp only at hr ⊢ <;>
      repeat (first | rw [if_pos (by omega)] | rw [if_neg (by omega)])
  · intro hb
    simp only [List.mem_cons, List.not_mem_nil, or_false, forall_eq_or_imp, forall_eq] at hb
    repeat rw [if_neg (by omega)]

/-- The first sixteen letters of the greek block are reported as latin. -/
theorem C37_range_violated (code : Nat) (h : 0x370 ≤ code ∧ code ≤ 0x37f) : getRange code = b!"latin" := by
  unfold getRange
  rw [if_neg (by omega), if_pos (by omega)]

theorem closing_spec (s : Bytes) (i : Nat) (hi : i ≤ s.length) :
    closing s i = .ok (i + ((s.drop i).takeWhile (· != c! '>')).length) := by
  induction hk : s.length - i generalizing i with
  | zero => rw [closing, if_neg (by omega), List.drop_of_length_le (by omega)]; rfl
  | succ k ih =>
    have hi' : i < s.length := by omega
    rw [closing, if_pos hi', rd_ok hi', List.drop_eq_getElem_cons hi']
    simp only [Res.ok_bind]
    by_cases hc : s[i] = c! '>'
    · rw [if_neg (fun h => h hc), List.takeWhile_cons_of_neg (by simp [hc])]; rfl
    · rw [if_pos hc, ih (i + 1) (by omega) (by omega), List.takeWhile_cons_of_pos (by simp [hc]), List.length_cons]
      congr 1; omega

/-- A piece of text: a reference `<#...>` or a character. -/
inductive Item
  | ref (d : Bytes)
  | char (c : UInt8)

def Item.text : Item → Bytes
  | .ref d => (b!"<#") ++ d ++ (b!">")
  | .char c => [c]

/-- Four upper-case hexadecimal digits (with value `n`), or a character other than `<`. -/
def Item.Ok : Item → Prop
  | .ref d => d.length = 4 ∧ ∀ c ∈ d, HexProps.UpDigit c
  | .char c => c ≠ c! '<'

/-- The item is the reference of a CJK unified ideograph. -/
def Item.Cjk : Item → Prop
  | .ref d => ∃ n, HexProps.Denotes d n ∧ 0x4E00 ≤ n ∧ n ≤ 0x9FBF
  | .char _ => False

theorem upDigit_props (c : UInt8) (h : HexProps.UpDigit c) : c ≠ c! '>' ∧ isHexDigit c = true ∧ hexVal c < 16 := by
  exact forall_byte (P := fun c => HexProps.UpDigit c → c ≠ c! '>' ∧ isHexDigit c = true ∧ hexVal c < 16)
    (by decide +kernel) c h

theorem upDigit_order (c d : UInt8) (hc : HexProps.UpDigit c) (hd : HexProps.UpDigit d) :
    (schar c < schar d ↔ hexVal c < hexVal d) ∧ (c = d ↔ hexVal c = hexVal d) := by
  have : ∀ c, HexProps.UpDigit c → ∀ d, HexProps.UpDigit d →
      (schar c < schar d ↔ hexVal c < hexVal d) ∧ (c = d ↔ hexVal c = hexVal d) := by
    have h1 : ∀ c : UInt8, HexProps.UpDigit c → schar c = c.toNat ∧
        c.toNat = (if hexVal c < 10 then 48 + hexVal c else 55 + hexVal c) := by
      apply forall_byte; decide +kernel
    intro c hc d hd
    obtain ⟨a1, a2⟩ := h1 c hc
    obtain ⟨b1, b2⟩ := h1 d hd
    rw [a1, b1, ← UInt8.toNat_inj, a2, b2]
    split <;> split <;> omega
  exact this c hc d hd

theorem value_cons (c : UInt8) (s : Bytes) : HexProps.value (c :: s) = hexVal c * 16 ^ s.length + HexProps.value s := by
  have : ∀ (s : Bytes) m, s.foldl (fun n c => 16 * n + hexVal c) m = m * 16 ^ s.length + HexProps.value s := by
    intro s
    induction s with
    | nil => intro m; simp [HexProps.value]
    | cons d s ih =>
      intro m
      have e : HexProps.value (d :: s) = (16 * 0 + hexVal d) * 16 ^ s.length + HexProps.value s := ih _
      rw [List.foldl_cons, ih, e, List.length_cons, Nat.pow_succ,
        Nat.add_mul, Nat.add_mul, Nat.mul_zero, Nat.zero_mul, Nat.zero_add, ← Nat.add_assoc,
        Nat.mul_comm 16 m, Nat.mul_assoc m 16, Nat.mul_comm 16]
  rw [HexProps.value, List.foldl_cons, this, Nat.mul_zero, Nat.zero_add]

theorem value_lt (s : Bytes) (h : ∀ c ∈ s, HexProps.UpDigit c) : HexProps.value s < 16 ^ s.length := by
  induction s with
  | nil => decide
  | cons c s ih =>
    have h1 := (upDigit_props c (h c (by simp))).2.2
    have h2 := ih fun d hd => h d (by simp [hd])
    rw [value_cons, List.length_cons, Nat.pow_succ]
    have : (hexVal c + 1) * 16 ^ s.length ≤ 16 * 16 ^ s.length := Nat.mul_le_mul_right _ (by omega)
    rw [Nat.add_mul] at this
    omega

theorem lexLE_value : ∀ (a b : Bytes), a.length = b.length → (∀ c ∈ a, HexProps.UpDigit c) →
    (∀ c ∈ b, HexProps.UpDigit c) → (StrProps.lexLE a b = true ↔ HexProps.value a ≤ HexProps.value b)
  | [], [], _, _, _ => by simp [StrProps.lexLE]
  | [], _ :: _, h, _, _ => by simp at h
  | _ :: _, [], h, _, _ => by simp at h
  | x :: a, y :: b, h, ha, hb => by
    have ih := lexLE_value a b (by simpa using h) (fun d hd => ha d (by simp [hd])) (fun d hd => hb d (by simp [hd]))
    obtain ⟨o1, o2⟩ := upDigit_order x y (ha x (by simp)) (hb y (by simp))
    have va := value_lt a fun d hd => ha d (by simp [hd])
    have vb := value_lt b fun d hd => hb d (by simp [hd])
    have hl : a.length = b.length := by simpa using h
    rw [StrProps.lexLE, Bool.or_eq_true, Bool.and_eq_true, decide_eq_true_eq, decide_eq_true_eq, ih, o1, o2,
      value_cons, value_cons, hl]
    rw [hl] at va
    generalize 16 ^ b.length = P at *
    generalize hexVal x = u at *
    generalize hexVal y = v at *
    rcases Nat.lt_trichotomy u v with h | h | h
    · have : (u + 1) * P ≤ v * P := Nat.mul_le_mul_right _ h
      rw [Nat.add_mul] at this
      constructor
      · intro _; omega
      · intro _; exact .inl h
    · subst h; constructor
      · rintro (g | g) <;> omega
      · intro g; exact .inr ⟨rfl, by omega⟩
    · have : (v + 1) * P ≤ u * P := Nat.mul_le_mul_right _ h
      rw [Nat.add_mul] at this
      constructor
      · rintro (g | g) <;> omega
      · intro g; omega

theorem inRange_spec (d : Bytes) (hl : d.length = 4) (hd : ∀ c ∈ d, HexProps.UpDigit c) :
    inRange d = true ↔ Item.Cjk (.ref d) := by
  have e1 : HexProps.value (b!"4E00") = 0x4E00 := by decide
  have e2 : HexProps.value (b!"9FBF") = 0x9FBF := by decide
  have hv : HexProps.Denotes d (HexProps.value d) := HexProps.value_denotes d fun c hc => (upDigit_props c (hd c hc)).2.1
  unfold inRange Item.Cjk
  rw [Bool.and_eq_true, lexLE_value _ _ (by rw [hl]; rfl) (by decide) hd, lexLE_value _ _ (by rw [hl]; rfl) hd (by decide), e1, e2]
  constructor
  · intro h; exact ⟨_, hv, h⟩
  · rintro ⟨n, hn, h⟩
    rwa [← (HexProps.denotes_value hn).1]

/-- One step over an item. -/
theorem item_ref {s d t : Bytes} {i : Nat} (hd : s.drop i = Item.text (.ref d) ++ t)
    (hu : ∀ c ∈ d, HexProps.UpDigit c) : i < s.length ∧ isRef s i = .ok true ∧
    closing s (i + 2) = .ok (i + 2 + d.length) ∧ sub s (i + 2 : Nat) (i + 2 + d.length : Nat) = d ∧
    s.drop (i + 2 + d.length + 1) = t := by
  have hd' : s.drop i = (c! '<') :: (c! '#') :: (d ++ ((c! '>') :: t)) := by rw [hd]; simp [Item.text]
  have hlen : (s.drop i).length = d.length + t.length + 3 := by rw [hd']; simp; omega
  rw [List.length_drop] at hlen
  have hi : i < s.length := by omega
  have h2 : s.drop (i + 2) = d ++ ((c! '>') :: t) := by
    rw [← List.drop_drop, hd']; rfl
  have g0 : s[i]? = some (c! '<') := by
    have := congrArg (·[0]?) hd'; simpa using this
  have g1 : s[i + 1]? = some (c! '#') := by
    have := congrArg (·[1]?) hd'; simpa using this
  refine ⟨hi, ?_, ?_, ?_, ?_⟩
  · unfold isRef
    rw [rd_eq_ok.2 g0]
    simp only [Res.ok_bind]
    rw [if_pos ⟨trivial, by omega⟩, rd_eq_ok.2 g1]; rfl
  · rw [closing_spec s _ (by omega), h2, List.takeWhile_append_of_pos (by
      intro c hc; simpa using (upDigit_props c (hu c hc)).1), List.takeWhile_cons_of_neg (by decide)]
    simp
  · rw [sub_nat, List.drop_take, h2, show i + 2 + d.length - (i + 2) = d.length by omega]
    simp
  · rw [show i + 2 + d.length + 1 = i + 2 + (d.length + 1) by omega, ← List.drop_drop, h2]
    simp

theorem items_length (l : List Item) : l.length ≤ (l.flatMap Item.text).length := by
  induction l with
  | nil => simp
  | cons x l ih =>
    have : 1 ≤ x.text.length := by cases x <;> simp [Item.text]
    rw [List.flatMap_cons, List.length_append, List.length_cons]; omega

/-- References with four upper-case digits are classified by their numbers. Missing: other spellings,
see `C37_violated`. -/
theorem C37_has_partial (l : List Item) (h : ∀ x ∈ l, x.Ok) :
    ∃ b, hasCjk (l.flatMap Item.text) = .ok b ∧ (b = true ↔ ∃ x ∈ l, x.Cjk) := by
  suffices ∀ (s : Bytes) (l : List Item), (∀ x ∈ l, x.Ok) → ∀ f i, s.drop i = l.flatMap Item.text → l.length < f →
      ∃ b, hasCjkLoop s f i = .ok b ∧ (b = true ↔ ∃ x ∈ l, x.Cjk) by
    refine this _ l h _ 0 (List.drop_zero) ?_
    have := items_length l; omega
  intro s l
  induction l with
  | nil =>
    intro _ f i hd hf
    obtain ⟨f, rfl⟩ : ∃ f', f = f' + 1 := ⟨f - 1, by omega⟩
    have : s.length ≤ i := by
      have := congrArg List.length hd; rw [List.length_drop] at this; simp at this; omega
    exact ⟨false, by rw [hasCjkLoop, if_neg (by omega)], by simp⟩
  | cons x l ih =>
    intro h f i hd hf
    obtain ⟨f, rfl⟩ : ∃ f', f = f' + 1 := ⟨f - 1, by omega⟩
    have ih := ih fun y hy => h y (by simp [hy])
    have hx := h x (by simp)
    rw [List.flatMap_cons] at hd
    cases x with
    | ref d =>
      obtain ⟨h1, h2, h3, h4, h5⟩ := item_ref hd hx.2
      rw [hasCjkLoop, if_pos h1, h2]
      simp only [Res.ok_bind, if_true]
      rw [h3]
      simp only [Res.ok_bind]
      rw [h4]
      have hr := inRange_spec d hx.1 hx.2
      by_cases hc : inRange d = true
      · rw [if_pos hc]
        exact ⟨true, rfl, by simp [hr.1 hc]⟩
      · rw [if_neg hc]
        obtain ⟨b, e, hb⟩ := ih f _ h5 (by simpa using hf)
        refine ⟨b, e, hb.trans ?_⟩
        have : ¬ Item.Cjk (.ref d) := fun g => hc (hr.2 g)
        simp [this]
    | char c =>
      have hd' : s.drop i = c :: l.flatMap Item.text := hd
      have hi : i < s.length := by
        have := congrArg List.length hd'; rw [List.length_drop, List.length_cons] at this; omega
      have g0 : s[i]? = some c := by
        have := congrArg (·[0]?) hd'; simpa using this
      have h2 : isRef s i = .ok false := by
        unfold isRef; rw [rd_eq_ok.2 g0]; simp only [Res.ok_bind]
        rw [if_neg (fun g => hx g.1)]
      rw [hasCjkLoop, if_pos hi, h2]
      simp only [Res.ok_bind]
      rw [if_neg (by decide)]
      have h5 : s.drop (i + 1) = l.flatMap Item.text := by rw [← List.drop_drop, hd']; rfl
      obtain ⟨b, e, hb⟩ := ih f _ h5 (by simpa using hf)
      refine ⟨b, e, hb.trans ?_⟩
      have : ¬ Item.Cjk (.char c) := fun g => g
      simp [this]

/-- All the pieces are references of CJK ideographs. Missing: as for `C37_has_partial`. -/
theorem C37_is_partial (l : List Item) (h : ∀ x ∈ l, x.Ok) :
    ∃ b, isCjk (l.flatMap Item.text) = .ok b ∧ (b = true ↔ ∀ x ∈ l, x.Cjk) := by
  suffices ∀ (s : Bytes) (l : List Item), (∀ x ∈ l, x.Ok) → ∀ f i, s.drop i = l.flatMap Item.text → l.length < f →
      ∃ b, isCjkLoop s f i = .ok b ∧ (b = true ↔ ∀ x ∈ l, x.Cjk) by
    refine this _ l h _ 0 (List.drop_zero) ?_
    have := items_length l; omega
  intro s l
  induction l with
  | nil =>
    intro _ f i hd hf
    obtain ⟨f, rfl⟩ : ∃ f', f = f' + 1 := ⟨f - 1, by omega⟩
    have : s.length ≤ i := by
      have := congrArg List.length hd; rw [List.length_drop] at this; simp at this; omega
    exact ⟨true, by rw [isCjkLoop, if_neg (by omega)], by simp⟩
  | cons x l ih =>
    intro h f i hd hf
    obtain ⟨f, rfl⟩ : ∃ f', f = f' + 1 := ⟨f - 1, by omega⟩
    have ih := ih fun y hy => h y (by simp [hy])
    have hx := h x (by simp)
    rw [List.flatMap_cons] at hd
    cases x with
    | ref d =>
      obtain ⟨h1, h2, h3, h4, h5⟩ := item_ref hd hx.2
      rw [isCjkLoop, if_pos h1, h2]
      simp only [Res.ok_bind, if_true]
      rw [h3]
      simp only [Res.ok_bind]
      rw [h4]
      have hr := inRange_spec d hx.1 hx.2
      by_cases hc : inRange d = true
      · rw [if_pos hc]
        obtain ⟨b, e, hb⟩ := ih f _ h5 (by simpa using hf)
        refine ⟨b, e, hb.trans ?_⟩
        simp [hr.1 hc]
      · rw [if_neg hc]
        have : ¬ Item.Cjk (.ref d) := fun g => hc (hr.2 g)
        exact ⟨false, rfl, by simp [this]⟩
    | char c =>
      have hd' : s.drop i = c :: l.flatMap Item.text := hd
      have hi : i < s.length := by
        have := congrArg List.length hd'; rw [List.length_drop, List.length_cons] at this; omega
      have g0 : s[i]? = some c := by
        have := congrArg (·[0]?) hd'; simpa using this
      have h2 : isRef s i = .ok false := by
        unfold isRef; rw [rd_eq_ok.2 g0]; simp only [Res.ok_bind]
        rw [if_neg (fun g => hx g.1)]
      rw [isCjkLoop, if_pos hi, h2]
      simp only [Res.ok_bind]
      rw [if_neg (by decide)]
      have : ¬ Item.Cjk (.char c) := fun g => g
      exact ⟨false, rfl, by simp [this]⟩

example : (∀ x ∈ [Item.ref (b!"4E2D"), .char (c! 'a'), .ref (b!"0041")], x.Ok) := by
  simp [Item.Ok]; decide

/-- Shorter and longer codes are compared as strings: the code 5 and the code 0x4E00A pass, and the
lower-case spelling of 9FBF does not. -/
theorem C37_violated : isCjk (b!"<#5>") = .ok true ∧ isCjk (b!"<#4E00A>") = .ok true ∧
    isCjk (b!"<#9fbf>") = .ok false ∧ hasCjk (b!"<#5>") = .ok true ∧ HexProps.value (b!"9fbf") = 0x9FBF := by
  have c1 : closing (b!"<#5>") 2 = .ok 3 := closing_spec _ _ (by decide)
  have c2 : closing (b!"<#4E00A>") 2 = .ok 7 := closing_spec _ _ (by decide)
  have c3 : closing (b!"<#9fbf>") 2 = .ok 6 := closing_spec _ _ (by decide)
  refine ⟨?_, ?_, ?_, ?_, by decide⟩
  · unfold isCjk
    rw [isCjkLoop, if_pos (by decide), show isRef (b!"<#5>") 0 = .ok true from by decide]
    simp only [Res.ok_bind, if_true, Nat.zero_add]
    rw [c1]; decide
  · unfold isCjk
    rw [isCjkLoop, if_pos (by decide), show isRef (b!"<#4E00A>") 0 = .ok true from by decide]
    simp only [Res.ok_bind, if_true, Nat.zero_add]
    rw [c2]; decide
  · unfold isCjk
    rw [isCjkLoop, if_pos (by decide), show isRef (b!"<#9fbf>") 0 = .ok true from by decide]
    simp only [Res.ok_bind, if_true, Nat.zero_add]
    rw [c3]; decide
  · unfold hasCjk
    rw [hasCjkLoop, if_pos (by decide), show isRef (b!"<#5>") 0 = .ok true from by decide]
    simp only [Res.ok_bind, if_true, Nat.zero_add]
    rw [c1]; decide

/-! ### Any text -/

/-- The pieces of any text: `<#` begins a reference that ends at the next `>` or at the end of the text, and any other character
stands for itself. -/
def pieces : Bytes → List (Option Bytes)
  | [] => []
  | [_] => [none]
  | c :: d :: r =>
    if c = c! '<' ∧ d = c! '#' then
      some (r.takeWhile (· != c! '>')) :: pieces ((r.dropWhile (· != c! '>')).drop 1)
    else none :: pieces (d :: r)
termination_by s => s.length
decreasing_by
  · have := (List.dropWhile_sublist (l := r) (· != c! '>')).length_le
    simp only [List.length_drop, List.length_cons]; omega
  · simp

/-- What the code takes for the reference of an ideograph: a text between `4E00` and `9FBF` in the order of strings. -/
def Between : Option Bytes → Bool
  | some d => StrProps.lexLE (b!"4E00") d && StrProps.lexLE d (b!"9FBF")
  | none => false

theorem isRef_two {s r : Bytes} {i : Nat} {c d : UInt8} (h : s.drop i = c :: d :: r) :
    isRef s i = .ok (decide (c = c! '<' ∧ d = c! '#')) := by
  have hlen := congrArg List.length h
  simp only [List.length_drop, List.length_cons] at hlen
  have g0 : s[i]? = some c := by have := congrArg (·[0]?) h; simpa using this
  have g1 : s[i + 1]? = some d := by have := congrArg (·[1]?) h; simpa using this
  unfold isRef
  rw [rd_eq_ok.2 g0]
  simp only [Res.ok_bind]
  by_cases hc : c = c! '<'
  · rw [if_pos ⟨hc, by omega⟩, rd_eq_ok.2 g1]
    simp only [Res.ok_bind, hc, true_and]
    rfl
  · rw [if_neg (fun g => hc g.1)]
    simp [hc]

theorem isRef_one {s : Bytes} {i : Nat} {c : UInt8} (h : s.drop i = [c]) : isRef s i = .ok false := by
  have hlen := congrArg List.length h
  simp only [List.length_drop, List.length_cons, List.length_nil] at hlen
  have g0 : s[i]? = some c := by have := congrArg (·[0]?) h; simpa using this
  unfold isRef
  rw [rd_eq_ok.2 g0]
  simp only [Res.ok_bind]
  rw [if_neg (by omega)]

theorem ref_parts {s r : Bytes} {i : Nat} {c d : UInt8} (h : s.drop i = c :: d :: r) :
    closing s (i + 2) = .ok (i + 2 + (r.takeWhile (· != c! '>')).length) ∧
    sub s (i + 2 : Nat) (i + 2 + (r.takeWhile (· != c! '>')).length : Nat) = r.takeWhile (· != c! '>') ∧
    s.drop (i + 2 + (r.takeWhile (· != c! '>')).length + 1) = (r.dropWhile (· != c! '>')).drop 1 := by
  have hlen := congrArg List.length h
  simp only [List.length_drop, List.length_cons] at hlen
  have h2 : s.drop (i + 2) = r := by rw [← List.drop_drop, h]; rfl
  have hr := List.takeWhile_append_dropWhile (p := (· != c! '>')) (l := r)
  refine ⟨by rw [closing_spec s _ (by omega), h2], ?_, ?_⟩
  · rw [sub_nat, List.drop_take, h2, Nat.add_sub_cancel_left]
    have : (r.takeWhile (· != c! '>') ++ r.dropWhile (· != c! '>')).take (r.takeWhile (· != c! '>')).length = r.takeWhile (· != c! '>') :=
      List.take_left
    rwa [hr] at this
  · rw [Nat.add_assoc, ← List.drop_drop, h2, ← List.drop_drop]
    have : (r.takeWhile (· != c! '>') ++ r.dropWhile (· != c! '>')).drop (r.takeWhile (· != c! '>')).length = r.dropWhile (· != c! '>') :=
      List.drop_left
    rw [hr] at this
    rw [this]

/-- What `has_cjk_unified_ideographs` says for any text. -/
theorem C37_has_exact (s : Bytes) : hasCjk s = .ok ((pieces s).any Between) := by
  suffices ∀ (t : Bytes) (f i : Nat), s.drop i = t → t.length < f → hasCjkLoop s f i = .ok ((pieces t).any Between) from
    this s _ 0 rfl (by omega)
  intro t
  fun_induction pieces t with
  | case1 =>
    intro f i h hf
    obtain ⟨f, rfl⟩ : ∃ f', f = f' + 1 := ⟨f - 1, by omega⟩
    have := congrArg List.length h
    simp only [List.length_drop, List.length_nil] at this
    rw [hasCjkLoop, if_neg (by omega)]; rfl
  | case2 c =>
    intro f i h hf
    obtain ⟨f, rfl⟩ : ∃ f', f = f' + 2 := ⟨f - 2, by simp at hf; omega⟩
    have := congrArg List.length h
    simp only [List.length_drop, List.length_cons, List.length_nil] at this
    rw [hasCjkLoop, if_pos (by omega), isRef_one h, Res.ok_bind, if_neg (by decide), hasCjkLoop, if_neg (by omega)]; rfl
  | case3 c d r hc ih =>
    intro f i h hf
    obtain ⟨f, rfl⟩ : ∃ f', f = f' + 1 := ⟨f - 1, by simp at hf; omega⟩
    have hl := congrArg List.length h
    simp only [List.length_drop, List.length_cons] at hl hf
    obtain ⟨h3, h4, h5⟩ := ref_parts h
    have hdw := (List.dropWhile_sublist (l := r) (· != c! '>')).length_le
    rw [hasCjkLoop, if_pos (by omega), isRef_two h, decide_eq_true hc, Res.ok_bind, if_pos rfl, h3, Res.ok_bind, h4,
      ih f _ h5 (by rw [List.length_drop]; omega), List.any_cons]
    show (if Between (some _) = true then _ else _) = _
    cases Between (some (r.takeWhile (· != c! '>'))) <;> rfl
  | case4 c d r hc ih =>
    intro f i h hf
    obtain ⟨f, rfl⟩ : ∃ f', f = f' + 1 := ⟨f - 1, by simp at hf; omega⟩
    have hl := congrArg List.length h
    simp only [List.length_drop, List.length_cons] at hl hf
    rw [hasCjkLoop, if_pos (by omega), isRef_two h, decide_eq_false hc, Res.ok_bind, if_neg (by decide),
      ih f (i + 1) (by rw [← List.drop_drop, h]; rfl) (by simp; omega)]
    rfl

/-- What `is_cjk_unified_ideographs` says for any text. -/
theorem C37_is_exact (s : Bytes) : isCjk s = .ok ((pieces s).all Between) := by
  suffices ∀ (t : Bytes) (f i : Nat), s.drop i = t → t.length < f → isCjkLoop s f i = .ok ((pieces t).all Between) from
    this s _ 0 rfl (by omega)
  intro t
  fun_induction pieces t with
  | case1 =>
    intro f i h hf
    obtain ⟨f, rfl⟩ : ∃ f', f = f' + 1 := ⟨f - 1, by omega⟩
    have := congrArg List.length h
    simp only [List.length_drop, List.length_nil] at this
    rw [isCjkLoop, if_neg (by omega)]; rfl
  | case2 c =>
    intro f i h hf
    obtain ⟨f, rfl⟩ : ∃ f', f = f' + 1 := ⟨f - 1, by simp at hf; omega⟩
    have := congrArg List.length h
    simp only [List.length_drop, List.length_cons, List.length_nil] at this
    rw [isCjkLoop, if_pos (by omega), isRef_one h, Res.ok_bind, if_neg (by decide)]; rfl
  | case3 c d r hc ih =>
    intro f i h hf
    obtain ⟨f, rfl⟩ : ∃ f', f = f' + 1 := ⟨f - 1, by simp at hf; omega⟩
    have hl := congrArg List.length h
    simp only [List.length_drop, List.length_cons] at hl hf
    obtain ⟨h3, h4, h5⟩ := ref_parts h
    have hdw := (List.dropWhile_sublist (l := r) (· != c! '>')).length_le
    rw [isCjkLoop, if_pos (by omega), isRef_two h, decide_eq_true hc, Res.ok_bind, if_pos rfl, h3, Res.ok_bind, h4,
      ih f _ h5 (by rw [List.length_drop]; omega), List.all_cons]
    show (if Between (some _) = true then _ else _) = _
    cases Between (some (r.takeWhile (· != c! '>'))) <;> rfl
  | case4 c d r hc ih =>
    intro f i h hf
    obtain ⟨f, rfl⟩ : ∃ f', f = f' + 1 := ⟨f - 1, by simp at hf; omega⟩
    have hl := congrArg List.length h
    simp only [List.length_drop, List.length_cons] at hl hf
    rw [isCjkLoop, if_pos (by omega), isRef_two h, decide_eq_false hc, Res.ok_bind, if_neg (by decide)]
    rfl

example : pieces (b!"a<#4E2D><b<#12") = [none, some (b!"4E2D"), none, none, some (b!"12")] := by simp [pieces]

end Lolly.UnicodeProps
