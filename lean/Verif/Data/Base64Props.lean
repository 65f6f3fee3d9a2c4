import Verif.Data.Base64
import Verif.Loop
import Verif.Strings.CharsLemmas

/-!
# C33, C34: base64

The specification follows RFC 4648: three bytes form a 24-bit number, which is written with four
base-64 digits.
-/

set_option autoImplicit false

namespace Lolly.Base64Props

open Lolly.Base64

/-! ## Specification -/

/-- The character of the base-64 digit `v`. -/
def letterOf (v : Nat) : UInt8 :=
  if v < 26 then UInt8.ofNat (65 + v)
  else if v < 52 then UInt8.ofNat (97 + (v - 26))
  else if v < 62 then UInt8.ofNat (48 + (v - 52))
  else if v = 62 then c! '+' else c! '/'

/-- The value of a character of the alphabet. -/
def letterVal (c : UInt8) : Option Nat :=
  if 65 ≤ c.toNat ∧ c.toNat ≤ 90 then some (c.toNat - 65)
  else if 97 ≤ c.toNat ∧ c.toNat ≤ 122 then some (c.toNat - 97 + 26)
  else if 48 ≤ c.toNat ∧ c.toNat ≤ 57 then some (c.toNat - 48 + 52)
  else if c = c! '+' then some 62
  else if c = c! '/' then some 63
  else none

/-- Four base-64 digits of a 24-bit number. -/
def digits (n : Nat) : List Nat := [n / 64 ^ 3 % 64, n / 64 ^ 2 % 64, n / 64 % 64, n % 64]

/-- The three bytes of a 24-bit number. -/
def bytes (n : Nat) : Bytes := [UInt8.ofNat (n / 256 ^ 2), UInt8.ofNat (n / 256), UInt8.ofNat n]

/-- The encoding of RFC 4648, section 4. -/
def rfc : Bytes → Bytes
  | a :: b :: c :: r => (digits (a.toNat * 256 ^ 2 + b.toNat * 256 + c.toNat)).map letterOf ++ rfc r
  | [a, b] => ((digits (a.toNat * 256 ^ 2 + b.toNat * 256)).map letterOf).take 3 ++ [c! '=']
  | [a] => ((digits (a.toNat * 256 ^ 2)).map letterOf).take 2 ++ [c! '=', c! '=']
  | [] => []

/-- Start a new line whenever 80 characters are on the current one, which has `col`. -/
def lines (col : Nat) : Bytes → Bytes
  | [] => []
  | c :: s => if col = 80 then 10 :: c :: lines 1 s else c :: lines (col + 1) s

/-- The bytes denoted by a sequence of digits; an incomplete last group of two or three digits counts
if it is `padded`. -/
def unpack (padded : Bool) : List Nat → Bytes
  | a :: b :: c :: d :: r => bytes (a * 64 ^ 3 + b * 64 ^ 2 + c * 64 + d) ++ unpack padded r
  | [a, b, c] => if padded then (bytes (a * 64 ^ 3 + b * 64 ^ 2 + c * 64)).take 2 else []
  | [a, b] => if padded then (bytes (a * 64 ^ 3 + b * 64 ^ 2)).take 1 else []
  | _ => []

/-- The digits in `s` before the first `=`; other characters are skipped. -/
def digitsOf (s : Bytes) : List Nat := (s.takeWhile (· != c! '=')).filterMap letterVal

/-! ## Encoding -/

theorem letter_spec (x : BitVec 32) (h : x.toNat < 64) : letter x = .ok (letterOf x.toNat) := by
  have : ∀ v : Nat, v < 64 → rd intToB64 v = .ok (letterOf v) := by decide +kernel
  unfold letter rdI
  have : x.toInt = x.toNat := BitVec.toInt_eq_toNat_of_lt (by omega)
  rw [this, if_pos (by omega), Int.toNat_natCast]
  exact ‹∀ v : Nat, v < 64 → rd intToB64 v = .ok (letterOf v)› _ h

theorem parts (c : UInt8) :
    ((sx c).sshiftRight 2 &&& 0x3F#32).toNat = c.toNat / 4 ∧
    ((sx c) <<< 4 &&& 0x30#32).toNat = c.toNat % 4 * 16 ∧
    ((sx c).sshiftRight 4 &&& 0x0F#32).toNat = c.toNat / 16 ∧
    ((sx c) <<< 2 &&& 0x3C#32).toNat = c.toNat % 16 * 4 ∧
    ((sx c).sshiftRight 6 &&& 0x03#32).toNat = c.toNat / 64 ∧
    (sx c &&& 0x3F#32).toNat = c.toNat % 64 ∧
    ((sx c).msb = true ↔ 128 ≤ c.toNat) := by
  revert c
  exact forall_byte (by decide +kernel)

theorem encode3_spec (m : Shift) (a b c : UInt8) : encode3 m a b c =
    if m = .strict ∧ (128 ≤ a.toNat ∨ 128 ≤ b.toNat) then .ub
    else .ok ((digits (a.toNat * 256 ^ 2 + b.toNat * 256 + c.toNat)).map letterOf) := by
  obtain ⟨a1, a2, a3, a4, a5, a6, a7⟩ := parts a
  obtain ⟨b1, b2, b3, b4, b5, b6, b7⟩ := parts b
  obtain ⟨c1, c2, c3, c4, c5, c6, c7⟩ := parts c
  have ha := a.toNat_lt
  have hb := b.toNat_lt
  have hc := c.toNat_lt
  unfold encode3 shl
  dsimp only
  simp only [a7, b7]
  by_cases h1 : m = .strict ∧ 128 ≤ a.toNat
  · rw [if_pos h1, if_pos (c := m = .strict ∧ (_ ∨ _)) ⟨h1.1, .inl h1.2⟩]; rfl
  rw [if_neg h1]
  by_cases h2 : m = .strict ∧ 128 ≤ b.toNat
  · rw [if_pos h2, if_pos (c := m = .strict ∧ (_ ∨ _)) ⟨h2.1, .inr h2.2⟩]; rfl
  rw [if_neg h2, if_neg (fun h => h.2.elim (fun g => h1 ⟨h.1, g⟩) fun g => h2 ⟨h.1, g⟩)]
  simp only [Res.ok_bind]
  have e1 : ((sx a <<< 4 &&& 0x30#32) + ((sx b).sshiftRight 4 &&& 0x0F#32)).toNat = a.toNat % 4 * 16 + b.toNat / 16 := by
    rw [BitVec.toNat_add, a2, b3]; omega
  have e2 : ((sx b <<< 2 &&& 0x3C#32) + ((sx c).sshiftRight 6 &&& 0x03#32)).toNat = b.toNat % 16 * 4 + c.toNat / 64 := by
    rw [BitVec.toNat_add, b4, c5]; omega
  rw [letter_spec _ (by omega), letter_spec _ (by omega), letter_spec _ (by omega), letter_spec _ (by omega), a1, e1, e2, c6]
  simp only [Res.ok_bind]
  unfold digits
  simp only [List.map_cons, List.map_nil]
  rw [show (a.toNat * 256 ^ 2 + b.toNat * 256 + c.toNat) / 64 ^ 3 % 64 = a.toNat / 4 by omega,
    show (a.toNat * 256 ^ 2 + b.toNat * 256 + c.toNat) / 64 ^ 2 % 64 = a.toNat % 4 * 16 + b.toNat / 16 by omega,
    show (a.toNat * 256 ^ 2 + b.toNat * 256 + c.toNat) / 64 % 64 = b.toNat % 16 * 4 + c.toNat / 64 by omega,
    show (a.toNat * 256 ^ 2 + b.toNat * 256 + c.toNat) % 64 = c.toNat % 64 by omega]

/-- A byte that is shifted to the left is not below 128. -/
def shifted : Bytes → Bool
  | a :: b :: _ :: r => decide (128 ≤ a.toNat ∨ 128 ≤ b.toNat) || shifted r
  | [a, b] => decide (128 ≤ a.toNat ∨ 128 ≤ b.toNat)
  | [a] => decide (128 ≤ a.toNat)
  | [] => false

theorem shifted_iff (s : Bytes) : shifted s = true ↔ ∃ i c, s[i]? = some c ∧ i % 3 ≠ 2 ∧ 128 ≤ c.toNat := by
  fun_induction shifted s with
  | case1 a b c r ih =>
    rw [Bool.or_eq_true, ih, decide_eq_true_eq]
    constructor
    · rintro ((h | h) | ⟨i, c, e, h1, h2⟩)
      · exact ⟨0, a, rfl, by decide, h⟩
      · exact ⟨1, b, rfl, by decide, h⟩
      · exact ⟨i + 3, c, by simpa using e, by omega, h2⟩
    · rintro ⟨i, d, e, h1, h2⟩
      match i with
      | 0 => simp at e; subst e; exact .inl (.inl h2)
      | 1 => simp at e; subst e; exact .inl (.inr h2)
      | 2 => exact absurd rfl h1
      | i + 3 => exact .inr ⟨i, d, by simpa using e, by omega, h2⟩
  | case2 a b =>
    rw [decide_eq_true_eq]
    constructor
    · rintro (h | h)
      · exact ⟨0, a, rfl, by decide, h⟩
      · exact ⟨1, b, rfl, by decide, h⟩
    · rintro ⟨i, d, e, h1, h2⟩
      match i with
      | 0 => simp at e; subst e; exact .inl h2
      | 1 => simp at e; subst e; exact .inr h2
      | i + 2 => simp at e
  | case3 a =>
    rw [decide_eq_true_eq]
    constructor
    · intro h; exact ⟨0, a, rfl, by decide, h⟩
    · rintro ⟨i, d, e, h1, h2⟩
      match i with
      | 0 => simp at e; subst e; exact h2
      | i + 1 => simp at e
  | case4 => simp

/-- The column before group `i / 3`. -/
def colOf (i : Nat) : Nat := if i = 0 then 0 else if i % 60 = 0 then 80 else i % 60 / 3 * 4

theorem lines4 (i : Nat) (h3 : i % 3 = 0) (w x y z : UInt8) (t : Bytes) :
    lines (colOf i) (w :: x :: y :: z :: t) = newline i [] ++ [w, x, y, z] ++ lines (colOf (i + 3)) t := by
  unfold newline
  by_cases h : i > 0 ∧ i % 60 = 0
  · have : colOf i = 80 := by unfold colOf; rw [if_neg (by omega), if_pos h.2]
    have e : colOf (i + 3) = 4 := by unfold colOf; rw [if_neg (by omega), if_neg (by omega)]; omega
    rw [this, e, if_pos h]; rfl
  · have h1 : colOf i + 4 ≤ 80 := by
      unfold colOf; split
      · omega
      · rw [if_neg (by omega)]; omega
    have e : colOf (i + 3) = colOf i + 4 := by
      unfold colOf
      rw [if_neg (show ¬ i + 3 = 0 by omega)]
      by_cases h0 : i = 0
      · subst h0; rfl
      · rw [if_neg h0, if_neg (show ¬ i % 60 = 0 by omega)]
        split <;> omega
    rw [e, if_neg h, lines, if_neg (by omega), lines, if_neg (by omega), lines, if_neg (by omega), lines,
      if_neg (by omega)]
    rfl

theorem newline_app (i : Nat) (r : Bytes) : newline i r = r ++ newline i [] := by
  unfold newline; split <;> simp

theorem encodeLoop_spec (m : Shift) (s : Bytes) (i : Nat) (r : Bytes) (h3 : i % 3 = 0) (hi : i ≤ s.length) :
    (encodeLoop m s i r >>= fun p => encodeTail m s p.1 p.2) =
      if m = .strict ∧ shifted (s.drop i) = true then .ub
      else .ok (r ++ lines (colOf i) (rfc (s.drop i))) := by
  fun_induction encodeLoop m s i r with
  | case1 i r h ih =>
    have d : s.drop i = s[i] :: s[i + 1] :: s[i + 2] :: s.drop (i + 3) := by
      rw [List.drop_eq_getElem_cons (by omega : i < s.length),
        List.drop_eq_getElem_cons (by omega : i + 1 < s.length),
        List.drop_eq_getElem_cons (by omega : i + 1 + 1 < s.length)]
    rw [d, shifted, rfc, rd_ok (by omega : i < s.length), rd_ok (by omega : i + 1 < s.length), rd_ok (by omega : i + 2 < s.length)]
    simp only [Res.ok_bind]
    rw [encode3_spec]
    by_cases hb : m = .strict ∧ (128 ≤ s[i].toNat ∨ 128 ≤ s[i + 1].toNat)
    · rw [if_pos hb, if_pos ⟨hb.1, by simp [hb.2]⟩]; rfl
    · rw [if_neg hb]
      simp only [Res.ok_bind]
      rw [ih _ (by omega) (by omega)]
      by_cases hs : m = .strict ∧ shifted (s.drop (i + 3)) = true
      · rw [if_pos hs, if_pos ⟨hs.1, by simp [hs.2]⟩]
      · rw [if_neg hs, if_neg]
        · congr 1
          unfold digits
          simp only [List.map_cons, List.map_nil, List.cons_append, List.nil_append]
          rw [lines4 i h3, newline_app i r]
          simp only [List.append_assoc]
        · intro h
          have h2 := h.2
          rw [Bool.or_eq_true, decide_eq_true_eq] at h2
          exact h2.elim (fun g => hb ⟨h.1, g⟩) fun g => hs ⟨h.1, g⟩
  | case2 i r h =>
    simp only [Res.ok_bind]
    unfold encodeTail
    by_cases h1 : i + 1 = s.length
    · have d : s.drop i = [s[i]] := by
        rw [List.drop_eq_getElem_cons (by omega : i < s.length), List.drop_of_length_le (by omega)]
      rw [if_pos h1, d, shifted, rfc, rd_ok (by omega : i < s.length)]
      simp only [Res.ok_bind]
      rw [encode3_spec]
      by_cases hb : m = .strict ∧ 128 ≤ s[i].toNat
      · rw [if_pos ⟨hb.1, .inl hb.2⟩, if_pos ⟨hb.1, by simp [hb.2]⟩]; rfl
      · rw [if_neg, if_neg]
        · simp only [Res.ok_bind]
          congr 1
          unfold digits
          simp only [List.map_cons, List.map_nil, List.cons_append, List.nil_append, List.take_succ_cons, List.take_zero]
          rw [lines4 i h3, newline_app i r]
          simp [lines]
        · intro h; exact hb ⟨h.1, by simpa using h.2⟩
        · rintro ⟨h, g | g⟩
          · exact hb ⟨h, g⟩
          · exact absurd g (by decide)
    · rw [if_neg h1]
      by_cases h2 : i + 2 = s.length
      · have d : s.drop i = [s[i], s[i + 1]] := by
          rw [List.drop_eq_getElem_cons (by omega : i < s.length), List.drop_eq_getElem_cons (by omega : i + 1 < s.length),
            List.drop_of_length_le (by omega)]
        rw [if_pos h2, d, shifted, rfc, rd_ok (by omega : i < s.length), rd_ok (by omega : i + 1 < s.length)]
        simp only [Res.ok_bind]
        rw [encode3_spec]
        by_cases hb : m = .strict ∧ (128 ≤ s[i].toNat ∨ 128 ≤ s[i + 1].toNat)
        · rw [if_pos hb, if_pos ⟨hb.1, by simp [hb.2]⟩]; rfl
        · rw [if_neg hb, if_neg]
          · simp only [Res.ok_bind]
            congr 1
            unfold digits
            simp only [List.map_cons, List.map_nil, List.cons_append, List.nil_append, List.take_succ_cons, List.take_zero]
            rw [lines4 i h3, newline_app i r]
            simp [lines]
          · intro h; exact hb ⟨h.1, by simpa using h.2⟩
      · have d : s.drop i = [] := List.drop_of_length_le (by omega)
        rw [if_neg h2, d, if_neg (by simp [shifted])]
        simp [rfc, lines]

theorem encode_spec (m : Shift) (s : Bytes) : encode m s =
    if m = .strict ∧ shifted s = true then .ub else .ok (lines 0 (rfc s)) := by
  have := encodeLoop_spec m s 0 [] rfl (by omega)
  rw [List.drop_zero, List.nil_append] at this
  exact this

/-! ## Decoding -/

theorem tw_pos {c : UInt8} {s : Bytes} (h : (c != c! '=') = true) :
    (c :: s).takeWhile (· != c! '=') = c :: s.takeWhile (· != c! '=') :=
  List.takeWhile_cons_of_pos (p := (· != c! '=')) h

theorem tw_neg {c : UInt8} {s : Bytes} (h : ¬ (c != c! '=') = true) :
    (c :: s).takeWhile (· != c! '=') = [] :=
  List.takeWhile_cons_of_neg (p := (· != c! '=')) h

theorem look_spec (c : UInt8) : (128 ≤ c.toNat → look c = .ub) ∧
    (c.toNat < 128 → ∀ v, letterVal c = some v → v < 64 ∧ c ≠ c! '=' ∧ look c = .ok (UInt8.ofNat (64 + v))) ∧
    (c.toNat < 128 → letterVal c = none → look c = .ok (c! '?')) := by
  have : ∀ c : UInt8, (128 ≤ c.toNat → look c = .ub) ∧
    (c.toNat < 128 → (match letterVal c with
      | some v => decide (v < 64 ∧ c ≠ c! '=' ∧ look c = .ok (UInt8.ofNat (64 + v)))
      | none => decide (look c = .ok (c! '?'))) = true) := by
    apply forall_byte
    decide +kernel
  obtain ⟨h1, h2⟩ := this c
  refine ⟨h1, fun h v e => ?_, fun h e => ?_⟩
  · have := h2 h; rw [e] at this; exact of_decide_eq_true this
  · have := h2 h; rw [e] at this; exact of_decide_eq_true this

theorem letterVal_lt (c : UInt8) (h : (letterVal c).isSome) : c.toNat < 128 ∧ c ≠ c! '=' := by
  exact forall_byte (P := fun c => (letterVal c).isSome = true → c.toNat < 128 ∧ c ≠ c! '=') (by decide +kernel) c h

theorem sub64 (v : Nat) (h : v < 64) : sx (UInt8.ofNat (64 + v)) - 64#32 = BitVec.ofNat 32 v := by
  revert v; decide +kernel

theorem digit_spec {ac : Bytes} {k : Nat} {c : UInt8} {v : Nat} (hk : ac[k]? = some c) (hv : letterVal c = some v) :
    digit ac k = .ok (BitVec.ofNat 32 v) := by
  have hc := (letterVal_lt c (by rw [hv]; rfl)).1
  obtain ⟨h1, h2, h3⟩ := (look_spec c).2.1 hc v hv
  unfold digit
  rw [rd_eq_ok.2 hk]
  simp only [Res.ok_bind]
  rw [h3]
  simp only [Res.ok_bind]
  rw [sub64 v h1]

theorem dparts (v : Nat) (h : v < 64) :
    (BitVec.ofNat 32 v <<< 2 &&& 0xFC#32).toNat = v * 4 ∧
    ((BitVec.ofNat 32 v).sshiftRight 4 &&& 0x03#32).toNat = v / 16 ∧
    (BitVec.ofNat 32 v <<< 4 &&& 0xF0#32).toNat = v % 16 * 16 ∧
    ((BitVec.ofNat 32 v).sshiftRight 2 &&& 0x0F#32).toNat = v / 4 ∧
    (BitVec.ofNat 32 v <<< 6 &&& 0xC0#32).toNat = v % 4 * 64 ∧
    (BitVec.ofNat 32 v &&& 0x3F#32).toNat = v := by
  revert v; decide +kernel

theorem bytes_of (a b c d : Nat) (ha : a < 64) (hb : b < 64) (hc : c < 64) (hd : d < 64) :
    [toChar ((BitVec.ofNat 32 a <<< 2 &&& 0xFC#32) + ((BitVec.ofNat 32 b).sshiftRight 4 &&& 0x03#32)),
     toChar ((BitVec.ofNat 32 b <<< 4 &&& 0xF0#32) + ((BitVec.ofNat 32 c).sshiftRight 2 &&& 0x0F#32)),
     toChar ((BitVec.ofNat 32 c <<< 6 &&& 0xC0#32) + (BitVec.ofNat 32 d &&& 0x3F#32))] =
    bytes (a * 64 ^ 3 + b * 64 ^ 2 + c * 64 + d) := by
  obtain ⟨a1, a2, a3, a4, a5, a6⟩ := dparts a ha
  obtain ⟨b1, b2, b3, b4, b5, b6⟩ := dparts b hb
  obtain ⟨c1, c2, c3, c4, c5, c6⟩ := dparts c hc
  obtain ⟨d1, d2, d3, d4, d5, d6⟩ := dparts d hd
  have e : ∀ x y : Nat, x % 256 = y % 256 → UInt8.ofNat x = UInt8.ofNat y := by
    intro x y h
    apply UInt8.toNat_inj.1
    simpa using h
  unfold bytes toChar
  refine congr (congrArg _ (e _ _ ?_)) (congr (congrArg _ (e _ _ ?_)) (congr (congrArg _ (e _ _ ?_)) rfl))
  · rw [BitVec.toNat_add, a1, b2]; omega
  · rw [BitVec.toNat_add, b3, c4]; omega
  · rw [BitVec.toNat_add, c5, d6]; omega

/-- `tmp` holds characters with the values `vs`. -/
def Vals (tmp : Bytes) (vs : List Nat) : Prop := tmp.map letterVal = vs.map some

theorem vals_get {tmp : Bytes} {vs : List Nat} (h : Vals tmp vs) {k v : Nat} (hk : vs[k]? = some v) :
    digit tmp k = .ok (BitVec.ofNat 32 v) ∧ v < 64 := by
  have : (tmp.map letterVal)[k]? = some (some v) := by rw [h, List.getElem?_map, hk]; rfl
  rw [List.getElem?_map] at this
  cases hc : tmp[k]? with
  | none => rw [hc] at this; cases this
  | some c =>
    rw [hc] at this
    have e : letterVal c = some v := by simpa using this
    exact ⟨digit_spec hc e, ((look_spec c).2.1 (letterVal_lt c (by rw [e]; rfl)).1 v e).1⟩

theorem vals_length {tmp : Bytes} {vs : List Nat} (h : Vals tmp vs) : tmp.length = vs.length := by
  have := congrArg List.length h; simpa using this

theorem decode4_4 {tmp : Bytes} {a b c d : Nat} (h : Vals tmp [a, b, c, d]) :
    decode4 tmp = .ok (bytes (a * 64 ^ 3 + b * 64 ^ 2 + c * 64 + d)) := by
  have hl := vals_length h
  obtain ⟨e0, h0⟩ := vals_get h (k := 0) rfl
  obtain ⟨e1, h1⟩ := vals_get h (k := 1) rfl
  obtain ⟨e2, h2⟩ := vals_get h (k := 2) rfl
  obtain ⟨e3, h3⟩ := vals_get h (k := 3) rfl
  unfold decode4 digitOr0
  simp only [List.length_cons, List.length_nil] at hl
  rw [if_pos (by omega), if_pos (by omega), e0, e1, e2, e3]
  simp only [Res.ok_bind]
  rw [bytes_of a b c d h0 h1 h2 h3, hl]; rfl

theorem decode4_3 {tmp : Bytes} {a b c : Nat} (h : Vals tmp [a, b, c]) :
    decode4 tmp = .ok ((bytes (a * 64 ^ 3 + b * 64 ^ 2 + c * 64)).take 2) := by
  have hl := vals_length h
  obtain ⟨e0, h0⟩ := vals_get h (k := 0) rfl
  obtain ⟨e1, h1⟩ := vals_get h (k := 1) rfl
  obtain ⟨e2, h2⟩ := vals_get h (k := 2) rfl
  unfold decode4 digitOr0
  simp only [List.length_cons, List.length_nil] at hl
  rw [if_pos (by omega), if_neg (by omega), e0, e1, e2]
  simp only [Res.ok_bind]
  rw [bytes_of a b c 0 h0 h1 h2 (by decide), hl]
  simp only [Nat.add_zero]

theorem decode4_2 {tmp : Bytes} {a b : Nat} (h : Vals tmp [a, b]) :
    decode4 tmp = .ok ((bytes (a * 64 ^ 3 + b * 64 ^ 2)).take 1) := by
  have hl := vals_length h
  obtain ⟨e0, h0⟩ := vals_get h (k := 0) rfl
  obtain ⟨e1, h1⟩ := vals_get h (k := 1) rfl
  unfold decode4 digitOr0
  simp only [List.length_cons, List.length_nil] at hl
  rw [if_neg (by omega), if_neg (by omega), e0, e1]
  simp only [Res.ok_bind]
  rw [bytes_of a b 0 0 h0 h1 (by decide) (by decide), hl]
  simp only [Nat.zero_mul, Nat.add_zero]

theorem decode4_01 {tmp : Bytes} {vs : List Nat} (h : Vals tmp vs) (hl : vs.length ≤ 1) : decode4 tmp = .ub := by
  have hl' := vals_length h
  unfold decode4
  cases vs with
  | nil =>
    have : tmp = [] := List.length_eq_zero_iff.1 (by simpa using hl')
    subst this; rfl
  | cons v vs =>
    rw [(vals_get h (k := 0) rfl).1]
    simp only [Res.ok_bind]
    have : digit tmp 1 = .ub := by
      unfold digit; rw [rd_ub (by omega)]; rfl
    rw [this]; rfl

/-- What remains to be done when the digits in hand are `vs`, the digits to come are `ds` and the input
ends with or without padding. -/
theorem decodeLoop_spec (s : Bytes) (i : Nat) (tmp r : Bytes) (vs : List Nat) (hv : Vals tmp vs) (hl : vs.length < 4)
    (hi : i ≤ s.length) :
    decodeLoop s i tmp r =
      if ((s.drop i).takeWhile (· != c! '=')).any (fun c => decide (128 ≤ c.toNat)) = true then .ub
      else if (c! '=') ∈ s.drop i then
        if (vs ++ digitsOf (s.drop i)).length % 4 ≤ 1 then .ub
        else .ok (r ++ unpack true (vs ++ digitsOf (s.drop i)))
      else .ok (r ++ unpack false (vs ++ digitsOf (s.drop i))) := by
  induction hk : s.length - i generalizing i tmp r vs with
  | zero =>
    have d : s.drop i = [] := List.drop_of_length_le (by omega)
    rw [decodeLoop, if_neg (by omega), d]
    rw [if_neg (by simp), if_neg (by simp)]
    have : unpack false (vs ++ digitsOf []) = [] := by
      rw [show digitsOf [] = [] from rfl, List.append_nil]
      match vs, hl with
      | [], _ => rfl
      | [_], _ => rfl
      | [_, _], _ => rfl
      | [_, _, _], _ => rfl
    rw [this, List.append_nil]
  | succ k ih =>
    have hi' : i < s.length := by omega
    rw [decodeLoop, if_pos hi', rd_ok hi', List.drop_eq_getElem_cons hi']
    generalize s[i] = c
    simp only [Res.ok_bind]
    unfold decodeStep
    by_cases h128 : 128 ≤ c.toNat
    · rw [(look_spec c).1 h128, if_pos]
      · rfl
      · have : (c != c! '=') = true := by
          rw [bne_iff_ne]; intro e; subst e; exact absurd h128 (by decide)
        rw [tw_pos this, List.any_cons]; simp [h128]
    cases hvc : letterVal c with
    | some v =>
      obtain ⟨hv64, hne, hlk⟩ := (look_spec c).2.1 (by omega) v hvc
      have hq : UInt8.ofNat (64 + v) ≠ c! '?' := by
        intro e
        have := congrArg UInt8.toNat e
        simp [UInt8.toNat_ofNat'] at this
        omega
      have hne' : (c != c! '=') = true := by simpa using hne
      have hmem : ((c! '=') ∈ c :: s.drop (i + 1)) = ((c! '=') ∈ s.drop (i + 1)) := by
        rw [List.mem_cons, propext_iff]
        exact ⟨fun h => h.elim (fun e => absurd e.symm hne) id, .inr⟩
      have hdig : digitsOf (c :: s.drop (i + 1)) = v :: digitsOf (s.drop (i + 1)) := by
        unfold digitsOf; rw [tw_pos hne', List.filterMap_cons, hvc]
      have hany : ((c :: s.drop (i + 1)).takeWhile (· != c! '=')).any (fun c => decide (128 ≤ c.toNat)) =
          ((s.drop (i + 1)).takeWhile (· != c! '=')).any (fun c => decide (128 ≤ c.toNat)) := by
        rw [tw_pos hne', List.any_cons]; simp [h128]
      rw [hlk]
      simp only [Res.ok_bind]
      rw [if_pos hq]
      simp only [Res.ok_bind]
      have hv' : Vals (tmp ++ [c]) (vs ++ [v]) := by
        unfold Vals at *; rw [List.map_append, List.map_append, hv]; simp [hvc]
      have hll := vals_length hv'
      rw [List.length_append (as := vs)] at hll
      simp only [List.length_cons, List.length_nil] at hll
      simp only [hmem]
      rw [hany, hdig]
      by_cases h4 : vs.length = 3
      · rw [if_pos (.inl (by omega))]
        obtain ⟨a, b, d, rfl⟩ : ∃ a b d, vs = [a, b, d] := by
          match vs, h4 with
          | [a, b, d], _ => exact ⟨a, b, d, rfl⟩
        rw [decode4_4 hv']
        simp only [Res.ok_bind]
        rw [if_neg (by decide), ih (i + 1) [] _ [] rfl (by decide) (by omega) (by omega)]
        simp only [List.nil_append, List.cons_append, List.length_cons]
        rw [unpack, unpack]
        simp only [List.append_assoc]
        rw [show ((digitsOf (s.drop (i + 1))).length + 1 + 1 + 1 + 1) % 4 = (digitsOf (s.drop (i + 1))).length % 4 by omega]
      · have hno : ¬ ((tmp ++ [c]).length = 4 ∨ false = true) := by
          rintro (h | h)
          · omega
          · cases h
        rw [if_neg hno,
          ih (i + 1) _ _ (vs ++ [v]) hv' (by simp; omega) (by omega) (by omega)]
        simp only [List.append_assoc, List.cons_append, List.nil_append]
    | none =>
      rw [(look_spec c).2.2 (by omega) hvc]
      simp only [Res.ok_bind]
      rw [if_neg (fun h => h rfl)]
      simp only [Res.ok_bind]
      by_cases he : c = c! '='
      · subst he
        rw [if_pos (.inr rfl), if_neg (by simp), if_pos (by simp)]
        have hdig : digitsOf ((c! '=') :: s.drop (i + 1)) = [] := rfl
        rw [hdig, List.append_nil]
        match vs, hv, hl with
        | [], hv, _ => rw [decode4_01 hv (by decide)]; rfl
        | [_], hv, _ => rw [decode4_01 hv (Nat.le_refl 1)]; rfl
        | [a, b], hv, _ => rw [decode4_2 hv]; rfl
        | [a, b, d], hv, _ => rw [decode4_3 hv]; rfl
      · have hne' : (c != c! '=') = true := by simpa using he
        have hmem : ((c! '=') ∈ c :: s.drop (i + 1)) = ((c! '=') ∈ s.drop (i + 1)) := by
          rw [List.mem_cons, propext_iff]
          exact ⟨fun h => h.elim (fun e => absurd e.symm he) id, .inr⟩
        have hdig : digitsOf (c :: s.drop (i + 1)) = digitsOf (s.drop (i + 1)) := by
          unfold digitsOf; rw [tw_pos hne', List.filterMap_cons, hvc]
        have hany : ((c :: s.drop (i + 1)).takeWhile (· != c! '=')).any (fun c => decide (128 ≤ c.toNat)) =
            ((s.drop (i + 1)).takeWhile (· != c! '=')).any (fun c => decide (128 ≤ c.toNat)) := by
          rw [tw_pos hne', List.any_cons]; simp [h128]
        have hll := vals_length hv
        simp only [hmem]
        rw [if_neg, ih (i + 1) _ _ vs hv hl (by omega) (by omega), hany, hdig]
        rintro (h | h)
        · omega
        · exact he (by simpa using h)

/-! ## C34 -/

/-- What `decode_base64` does on every input. Missing from C34: the inputs with a byte above 127
before the first `=`, or with a first `=` after 0 or 1 digits of a group; these are undefined. -/
theorem C34_partial (s : Bytes)
    (h1 : ∀ c ∈ s.takeWhile (· != c! '='), c.toNat < 128)
    (h2 : (c! '=') ∈ s → 2 ≤ (digitsOf s).length % 4) :
    decode s = .ok (unpack (decide ((c! '=') ∈ s)) (digitsOf s)) := by
  unfold decode
  rw [decodeLoop_spec s 0 [] [] [] rfl (by decide) (by omega), List.drop_zero, if_neg]
  · by_cases h : (c! '=') ∈ s
    · rw [if_pos h, List.nil_append, if_neg (by have := h2 h; omega)]; simp [h]
    · rw [if_neg h]; simp [h]
  · rw [List.any_eq_true]
    rintro ⟨c, hc, h⟩
    have := h1 c hc
    simp at h; omega

example : decode (b!"aGV sbG8=") = .ok (b!"hello") := by decide +kernel

/-- The other inputs are undefined. -/
theorem C34_undefined (s : Bytes)
    (h : (∃ c ∈ s.takeWhile (· != c! '='), 128 ≤ c.toNat) ∨ ((c! '=') ∈ s ∧ (digitsOf s).length % 4 ≤ 1)) :
    decode s = .ub := by
  unfold decode
  rw [decodeLoop_spec s 0 [] [] [] rfl (by decide) (by omega), List.drop_zero]
  split
  · rfl
  · rename_i hn
    rcases h with ⟨c, hc, h⟩ | ⟨h1, h2⟩
    · exact absurd (List.any_eq_true.2 ⟨c, hc, by simpa using h⟩) hn
    · rw [if_pos h1, List.nil_append, if_pos h2]

/-- Short witnesses: `=`, a group followed by `=`, and a byte above 127. -/
theorem C34_violated : decode (b!"=") = .ub ∧ decode (b!"AAAA=") = .ub ∧ decode (b!"A=") = .ub ∧
    decode [200] = .ub := by
  decide +kernel

/-! ## C33 -/

/-- The encoding is that of RFC 4648 in lines of 80 characters (with the usual meaning of shifts). -/
theorem C33_encode (s : Bytes) : encode .wrap s = .ok (lines 0 (rfc s)) := by
  rw [encode_spec, if_neg (by simp)]

theorem letterVal_letterOf (v : Nat) (h : v < 64) : letterVal (letterOf v) = some v := by
  revert v; decide +kernel

theorem letterOf_ne (v : Nat) (h : v < 64) : letterOf v ≠ c! '=' := by
  intro e
  have := letterVal_letterOf v h
  rw [e, show letterVal (c! '=') = none from by decide] at this
  cases this

theorem digitsOf_lines (s : Bytes) (col : Nat) : digitsOf (lines col s) = digitsOf s := by
  induction s generalizing col with
  | nil => rfl
  | cons c s ih =>
    have step : ∀ (c : UInt8) (s t : Bytes), digitsOf s = digitsOf t → digitsOf (c :: s) = digitsOf (c :: t) := by
      intro c s t h
      unfold digitsOf at *
      by_cases hc : (c != c! '=') = true
      · rw [tw_pos hc, tw_pos hc, List.filterMap_cons, List.filterMap_cons, h]
      · rw [tw_neg hc, tw_neg hc]
    rw [lines]
    split
    · have : digitsOf (10 :: c :: lines 1 s) = digitsOf (c :: lines 1 s) := rfl
      rw [this]; exact step c _ _ (ih 1)
    · exact step c _ _ (ih _)

theorem mem_lines (s : Bytes) (col : Nat) (c : UInt8) : c ∈ lines col s → c = 10 ∨ c ∈ s := by
  induction s generalizing col with
  | nil => intro h; cases h
  | cons d s ih =>
    rw [lines]
    split
    · rintro (_ | ⟨_, _ | ⟨_, h⟩⟩)
      · exact .inl rfl
      · exact .inr (by simp)
      · exact (ih _ h).imp id (by simp; exact .inr)
    · rintro (_ | ⟨_, h⟩)
      · exact .inr (by simp)
      · exact (ih _ h).imp id (by simp; exact .inr)

theorem lines_mem (s : Bytes) (col : Nat) (c : UInt8) (hc : c ∈ s) : c ∈ lines col s := by
  induction s generalizing col with
  | nil => cases hc
  | cons d s ih =>
    rw [lines]
    rcases List.mem_cons.1 hc with rfl | h
    · split <;> simp
    · split
      · have := ih 1 h; simp [this]
      · have := ih (col + 1) h; simp [this]

theorem digits_lt (n : Nat) : ∀ v ∈ digits n, v < 64 := by
  unfold digits; intro v hv; simp at hv; omega

theorem digitsOf_letters (vs : List Nat) (h : ∀ v ∈ vs, v < 64) (t : Bytes) :
    digitsOf (vs.map letterOf ++ t) = vs ++ digitsOf t := by
  induction vs with
  | nil => rfl
  | cons v vs ih =>
    have hv := h v (by simp)
    have hn : (letterOf v != c! '=') = true := by simpa using letterOf_ne v hv
    have := ih fun w hw => h w (by simp [hw])
    unfold digitsOf at *
    rw [List.map_cons, List.cons_append, tw_pos hn, List.filterMap_cons, letterVal_letterOf v hv,
      this]
    rfl

theorem bytes_eq (a b c : UInt8) : bytes (a.toNat * 256 ^ 2 + b.toNat * 256 + c.toNat) = [a, b, c] := by
  have ha := a.toNat_lt
  have hb := b.toNat_lt
  have hc := c.toNat_lt
  unfold bytes
  have e : ∀ (x : Nat) (y : UInt8), x % 256 = y.toNat → UInt8.ofNat x = y := by
    intro x y h
    apply UInt8.toNat_inj.1
    simpa using h
  rw [e _ a (by omega), e _ b (by omega), e _ c (by omega)]

theorem undigits (n : Nat) (h : n < 2 ^ 24) :
    n / 64 ^ 3 % 64 * 64 ^ 3 + n / 64 ^ 2 % 64 * 64 ^ 2 + n / 64 % 64 * 64 + n % 64 = n := by omega

theorem digitsOf_rfc (s : Bytes) : ∃ ds, digitsOf (rfc s) = ds ∧
    unpack (decide ((c! '=') ∈ rfc s)) ds = s ∧ ((c! '=') ∈ rfc s → 2 ≤ ds.length % 4) := by
  fun_induction rfc s with
  | case1 a b c r ih =>
    obtain ⟨ds, e1, e2, e3⟩ := ih
    have ha := a.toNat_lt
    have hb := b.toNat_lt
    have hc := c.toNat_lt
    have hm : ((c! '=') ∈ (digits (a.toNat * 256 ^ 2 + b.toNat * 256 + c.toNat)).map letterOf ++ rfc r) =
        ((c! '=') ∈ rfc r) := by
      rw [List.mem_append, propext_iff]
      refine ⟨fun h => h.elim (fun h => ?_) id, .inr⟩
      obtain ⟨v, hv, e⟩ := List.mem_map.1 h
      exact absurd e (letterOf_ne v (digits_lt _ v hv))
    refine ⟨_, digitsOf_letters _ (digits_lt _) _, ?_, ?_⟩
    · simp only [hm]
      rw [e1]
      unfold digits
      rw [List.cons_append, List.cons_append, List.cons_append, List.cons_append, List.nil_append, unpack,
        undigits _ (by omega), bytes_eq, e2]; rfl
    · rw [hm, e1]
      intro h
      have := e3 h
      simp [digits]; omega
  | case2 a b =>
    have ha := a.toNat_lt
    have hb := b.toNat_lt
    rw [← List.map_take]
    refine ⟨_, digitsOf_letters _ (fun v hv => digits_lt _ v (List.mem_of_mem_take hv)) _, ?_, ?_⟩
    · have : digitsOf [c! '='] = [] := rfl
      rw [this, List.append_nil]
      have hd : decide ((c! '=') ∈ List.map letterOf ((digits (a.toNat * 256 ^ 2 + b.toNat * 256)).take 3) ++ [c! '=']) = true := by simp
      rw [hd]
      unfold digits
      simp only [List.take_succ_cons, List.take_zero]
      rw [unpack, if_pos rfl]
      have := undigits (a.toNat * 256 ^ 2 + b.toNat * 256) (by omega)
      rw [show (a.toNat * 256 ^ 2 + b.toNat * 256) % 64 = 0 by omega, Nat.add_zero] at this
      rw [this]
      have := bytes_eq a b 0
      rw [show (0 : UInt8).toNat = 0 from rfl, Nat.add_zero] at this
      rw [this]; rfl
    · intro _; simp [digits, digitsOf]
  | case3 a =>
    have ha := a.toNat_lt
    rw [← List.map_take]
    refine ⟨_, digitsOf_letters _ (fun v hv => digits_lt _ v (List.mem_of_mem_take hv)) _, ?_, ?_⟩
    · have : digitsOf [c! '=', c! '='] = [] := rfl
      rw [this, List.append_nil]
      have hd : decide ((c! '=') ∈ List.map letterOf ((digits (a.toNat * 256 ^ 2)).take 2) ++ [c! '=', c! '=']) = true := by simp
      rw [hd]
      unfold digits
      simp only [List.take_succ_cons, List.take_zero]
      rw [unpack, if_pos rfl]
      have := undigits (a.toNat * 256 ^ 2) (by omega)
      rw [show (a.toNat * 256 ^ 2) % 64 = 0 by omega, show (a.toNat * 256 ^ 2) / 64 % 64 = 0 by omega] at this
      simp only [Nat.zero_mul, Nat.add_zero] at this
      rw [this]
      have := bytes_eq a 0 0
      rw [show (0 : UInt8).toNat = 0 from rfl, Nat.zero_mul, Nat.add_zero] at this
      rw [this]; rfl
    · intro _; simp [digits, digitsOf]
  | case4 => exact ⟨[], rfl, rfl, fun h => by cases h⟩

/-- The characters of the encoding. -/
theorem rfc_chars (s : Bytes) : ∀ c ∈ rfc s, (letterVal c).isSome ∨ c = c! '=' := by
  have l : ∀ n c, c ∈ (digits n).map letterOf → (letterVal c).isSome ∨ c = c! '=' := by
    intro n c h
    obtain ⟨v, hv, rfl⟩ := List.mem_map.1 h
    left; rw [letterVal_letterOf v (digits_lt _ v hv)]; rfl
  fun_induction rfc s with
  | case1 a b c r ih =>
    intro d hd
    exact (List.mem_append.1 hd).elim (l _ d) (ih d)
  | case2 a b =>
    intro d hd
    exact (List.mem_append.1 hd).elim (fun h => l _ d (List.mem_of_mem_take h)) (fun h => by simp at h; exact .inr h)
  | case3 a =>
    intro d hd
    exact (List.mem_append.1 hd).elim (fun h => l _ d (List.mem_of_mem_take h)) (fun h => by simp at h; exact .inr h)
  | case4 => intro d hd; cases hd

/-- Decoding the encoding gives the string back. -/
theorem C33_round_trip (s : Bytes) : ∃ e, encode .wrap s = .ok e ∧ decode e = .ok s := by
  refine ⟨_, C33_encode s, ?_⟩
  obtain ⟨ds, e1, e2, e3⟩ := digitsOf_rfc s
  have hm : ((c! '=') ∈ lines 0 (rfc s)) = ((c! '=') ∈ rfc s) := by
    rw [propext_iff]
    exact ⟨fun h => (mem_lines _ _ _ h).elim (fun e => absurd e (by decide)) id, lines_mem _ _ _⟩
  rw [C34_partial, digitsOf_lines, e1]
  · simp only [hm]; rw [e2]
  · intro c hc
    rcases mem_lines _ _ _ (List.takeWhile_prefix _ |>.mem hc) with rfl | h
    · decide
    · rcases rfc_chars s c h with h | rfl
      · exact (letterVal_lt c h).1
      · decide
  · rw [hm, digitsOf_lines, e1]; exact e3

/-- The lines of a text. -/
def splitLines : Bytes → List Bytes
  | [] => [[]]
  | c :: s => if c = 10 then [] :: splitLines s else
    match splitLines s with
    | l :: ls => (c :: l) :: ls
    | [] => [[c]]

theorem rfc_length (s : Bytes) : (rfc s).length = 4 * ((s.length + 2) / 3) := by
  fun_induction rfc s with
  | case1 a b c r ih => simp [digits, ih]; omega
  | case2 a b => simp [digits]
  | case3 a => simp [digits]
  | case4 => rfl

theorem lines_filter (s : Bytes) (h : ∀ c ∈ s, c ≠ 10) (col : Nat) : (lines col s).filter (· != 10) = s := by
  induction s generalizing col with
  | nil => rfl
  | cons c s ih =>
    have hc : (c != 10) = true := by simpa using h c (by simp)
    have := ih fun d hd => h d (by simp [hd])
    rw [lines]
    split
    · rw [List.filter_cons_of_neg (by decide), List.filter_cons_of_pos (p := (· != 10)) hc, this]
    · rw [List.filter_cons_of_pos (p := (· != 10)) hc, this]

theorem splitLines_lines (s : Bytes) (h : ∀ c ∈ s, c ≠ 10) (col : Nat) (hcol : col ≤ 80) :
    (∃ l ls, splitLines (lines col s) = l :: ls ∧ col + l.length ≤ 80) ∧
    ∀ l ∈ splitLines (lines col s), l.length ≤ 80 := by
  induction s generalizing col with
  | nil => exact ⟨⟨[], [], rfl, hcol⟩, fun l hl => by simp [lines, splitLines] at hl; subst hl; decide⟩
  | cons c s ih =>
    have hc := h c (by simp)
    have hs : ∀ c ∈ s, c ≠ 10 := fun d hd => h d (by simp [hd])
    rw [lines]
    split
    · rename_i e
      obtain ⟨⟨l, ls, e1, h1⟩, h2⟩ := ih hs 1 (by omega)
      rw [splitLines, if_pos rfl, splitLines, if_neg hc, e1]
      refine ⟨⟨_, _, rfl, by simpa using hcol⟩, ?_⟩
      intro x hx
      simp only [List.mem_cons] at hx
      rcases hx with rfl | rfl | hx
      · decide
      · simp; omega
      · exact h2 x (by rw [e1]; simp [hx])
    · obtain ⟨⟨l, ls, e1, h1⟩, h2⟩ := ih hs (col + 1) (by omega)
      rw [splitLines, if_neg hc, e1]
      refine ⟨⟨_, _, rfl, by simp; omega⟩, ?_⟩
      intro x hx
      simp only [List.mem_cons] at hx
      rcases hx with rfl | hx
      · simp; omega
      · exact h2 x (by rw [e1]; simp [hx])

/-- The shape of the encoding: the alphabet, the length without newlines, the length of lines. -/
theorem C33_shape (s e : Bytes) (h : encode .wrap s = .ok e) :
    (∀ c ∈ e, (letterVal c).isSome ∨ c = c! '=' ∨ c = 10) ∧
    (e.filter (· != 10)).length = 4 * ((s.length + 2) / 3) ∧
    ∀ l ∈ splitLines e, l.length ≤ 80 := by
  rw [C33_encode] at h
  obtain rfl := Res.ok.inj h
  have nn : ∀ c ∈ rfc s, c ≠ 10 := by
    intro c hc e
    subst e
    rcases rfc_chars s 10 hc with h | h <;> exact absurd h (by decide)
  refine ⟨fun c hc => ?_, ?_, (splitLines_lines _ nn 0 (by omega)).2⟩
  · rcases mem_lines _ _ _ hc with rfl | h
    · exact .inr (.inr rfl)
    · exact (rfc_chars s c h).imp id .inl
  · rw [lines_filter _ nn, rfc_length]

/-- Under the letter of C++17, where shifting a negative number to the left is undefined: the calls that
are undefined are those with a byte above 127 at a position that is not 2 modulo 3. -/
theorem C33_strict (s : Bytes) :
    ((∃ i c, s[i]? = some c ∧ i % 3 ≠ 2 ∧ 128 ≤ c.toNat) → encode .strict s = .ub) ∧
    ((∀ i c, s[i]? = some c → i % 3 ≠ 2 → c.toNat < 128) → encode .strict s = encode .wrap s) := by
  rw [encode_spec, encode_spec, if_neg (c := Shift.wrap = .strict ∧ _) (by simp)]
  refine ⟨fun h => if_pos ⟨rfl, (shifted_iff s).2 h⟩, fun h => if_neg fun g => ?_⟩
  obtain ⟨i, c, h1, h2, h3⟩ := (shifted_iff s).1 g.2
  have := h i c h1 h2
  omega

example : encode .wrap (b!"hello") = .ok (b!"aGVsbG8=") ∧ encode .strict [0, 0, 200] = encode .wrap [0, 0, 200] ∧
    encode .strict [0, 200, 0] = .ub := by
  refine ⟨?_, ?_, ?_⟩
  · rw [C33_encode]; decide +kernel
  · exact (C33_strict _).2 (by
      intro i c h1 h2
      match i with
      | 0 => simp at h1; subst h1; decide
      | 1 => simp at h1; subst h1; decide
      | 2 => exact absurd rfl h2
      | i + 3 => simp at h1)
  · exact (C33_strict _).1 ⟨1, 200, rfl, by decide, by decide⟩

end Lolly.Base64Props
