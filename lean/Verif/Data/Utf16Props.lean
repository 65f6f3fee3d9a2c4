import Verif.Data.Utf16
import Verif.Data.UnicodeProps

/-!
# C114: conversions between UTF-8 and UTF-16
-/

set_option autoImplicit false

namespace Lolly.Utf16Props

open Lolly.Utf16 Lolly.UnicodeProps

/-! ## Specification -/

/-- A unicode scalar value: a code point that is no surrogate. -/
def Scalar (c : Nat) : Prop := c < 0xD800 ∨ (0xE000 ≤ c ∧ c < 0x110000)
instance (c : Nat) : Decidable (Scalar c) := by unfold Scalar; infer_instance

/-- The units of a scalar value in UTF-16 (RFC 2781): itself, or a surrogate pair. -/
def units (c : Nat) : List Nat :=
  if c < 0x10000 then [c] else [0xD800 + (c - 0x10000) / 1024, 0xDC00 + (c - 0x10000) % 1024]

/-- A unit of 16 bits, most significant byte first. -/
def bigEndian (u : Nat) : Bytes := [UInt8.ofNat (u / 256), UInt8.ofNat (u % 256)]

/-- A text in UTF-8. -/
def text8 (cs : List Nat) : Bytes := cs.flatMap utf8

/-- A text in UTF-16, big endian. -/
def text16 (cs : List Nat) : Bytes := (cs.flatMap units).flatMap bigEndian

/-- A text in the given encoding. -/
def text : Charset → List Nat → Bytes
  | .utf8 => text8
  | .utf16 => text16

/-- What is assumed of tbox: a non-empty well-formed text whose conversion fits into the buffer is
converted. Nothing is assumed about the rest of the buffer, about other input or about buffers that are
too small. -/
def Converts (conv : Conv) : Prop :=
  ∀ (f t : Charset) (cs : List Nat) (size : Nat), cs ≠ [] → (∀ c ∈ cs, Scalar c) →
    (text t cs).length ≤ size →
    ∃ rest : Bytes, conv f t (text f cs) size = (((text t cs).length : Int), text t cs ++ rest)

/-- The input begins with no scalar value in UTF-16. -/
def NoScalar16 (s : Bytes) : Prop := ∀ c rest, Scalar c → s ≠ text16 [c] ++ rest

/-- What the documentation says about invalid UTF-16: the part before the first place where no scalar
value can be read is converted. -/
def ConvertsPart (conv : Conv) : Prop :=
  ∀ (cs : List Nat) (bad : Bytes) (size : Nat), (∀ c ∈ cs, Scalar c) → cs ≠ [] ∨ bad ≠ [] → NoScalar16 bad →
    (text8 cs).length ≤ size →
    ∃ rest : Bytes, conv .utf16 .utf8 (text16 cs ++ bad) size = (((text8 cs).length : Int), text8 cs ++ rest)

/-! ## Lemmas -/

theorem copy_loop (src : Bytes) (n : Nat) (hn : n ≤ src.length) :
    forUp 0 n (List.replicate n 0) (fun i ret => do let c ← rd src i; wr ret i c) = .ok (src.take n) := by
  obtain ⟨s', e, h⟩ := forUp_spec (body := fun i (ret : Bytes) => do let c ← rd src i; wr ret i c) (lo := 0) (hi := n)
    (s := List.replicate n 0)
    (fun i ret => ret = src.take i ++ List.replicate (n - i) 0) (by omega) (by simp)
    (fun i ret _ hi hr => by
      refine ⟨src.take (i + 1) ++ List.replicate (n - (i + 1)) 0, ?_, rfl⟩
      rw [rd_ok (by omega)]
      show wr ret i _ = _
      subst hr
      rw [wr_ok (by rw [List.length_append, List.length_take, List.length_replicate]; omega)]
      congr 1
      rw [List.set_append_right _ _ (by rw [List.length_take]; omega), List.length_take, Nat.min_eq_left (by omega),
        Nat.sub_self, show n - i = (n - (i + 1)) + 1 by omega, List.replicate_succ, List.set_cons_zero,
        List.take_succ_eq_append_getElem (by omega), List.append_assoc]
      rfl)
  rw [e, h, Nat.sub_self]; simp

theorem take_ok (out rest : Bytes) (h : out.length ≤ 2 ^ 30) : take (out.length : Int) (out ++ rest) = .ok out := by
  unfold take
  have h1 : ¬ ((2 ^ 30 : Int) < out.length ∧ (out.length : Int) < 2 ^ 31) := by omega
  rw [if_neg h1, if_pos (by omega), Int.toNat_natCast, copy_loop _ _ (by rw [List.length_append]; omega), List.take_left]

theorem take_neg (n : Int) (b : Bytes) (h : n < 0) : take n b = .ub := by
  have h1 : ¬ (2 ^ 30 < n ∧ n < 2 ^ 31) := by omega
  unfold take; rw [if_neg h1, if_neg (by omega)]

theorem utf8_length (c : Nat) : (utf8 c).length =
    if c < 0x80 then 1 else if c < 0x800 then 2 else if c < 0x10000 then 3 else 4 := by
  unfold utf8; repeat' split
  all_goals rfl

theorem text16_cons (c : Nat) (cs : List Nat) : text16 (c :: cs) = text16 [c] ++ text16 cs := by
  simp [text16]

theorem text8_cons (c : Nat) (cs : List Nat) : text8 (c :: cs) = utf8 c ++ text8 cs := rfl

theorem text16_one (c : Nat) : (text16 [c]).length = if c < 0x10000 then 2 else 4 := by
  simp only [text16, List.flatMap_cons, List.flatMap_nil, List.append_nil, units]
  split <;> rfl

/-- UTF-16 needs at most twice as many bytes as UTF-8, and UTF-8 at most half as many again. -/
theorem lengths (cs : List Nat) :
    (text16 cs).length ≤ 2 * (text8 cs).length ∧ 2 * (text8 cs).length ≤ 3 * (text16 cs).length := by
  induction cs with
  | nil => simp [text16, text8]
  | cons c cs ih =>
    rw [text16_cons, text8_cons, List.length_append, List.length_append, text16_one, utf8_length]
    split <;> rename_i h <;> repeat' split
    all_goals omega

theorem utf8_no_nul (c : Nat) (h : c ≠ 0) (hc : c < 0x110000) : ∀ b ∈ utf8 c, b ≠ 0 := by
  have key : ∀ n : Nat, 0 < n → n < 256 → UInt8.ofNat n ≠ 0 := by
    intro n h0 h1 e
    have := congrArg UInt8.toNat e
    rw [toNat_small h1] at this
    have z : (0 : UInt8).toNat = 0 := rfl
    omega
  intro b hb
  unfold utf8 at hb
  split at hb
  · rw [List.mem_singleton] at hb; subst hb; exact key _ (by omega) (by omega)
  split at hb
  · simp only [List.mem_cons, List.not_mem_nil, or_false] at hb
    rcases hb with rfl | rfl <;> exact key _ (by omega) (by omega)
  split at hb
  · simp only [List.mem_cons, List.not_mem_nil, or_false] at hb
    rcases hb with rfl | rfl | rfl <;> exact key _ (by omega) (by omega)
  · simp only [List.mem_cons, List.not_mem_nil, or_false] at hb
    rcases hb with rfl | rfl | rfl | rfl <;> exact key _ (by omega) (by omega)

theorem scalar_lt {c : Nat} (h : Scalar c) : c < 0x110000 := by unfold Scalar at h; omega

theorem text8_no_nul (cs : List Nat) (hs : ∀ c ∈ cs, Scalar c) (hz : 0 ∉ cs) : ∀ b ∈ text8 cs, b ≠ 0 := by
  intro b hb
  obtain ⟨c, hc, hb⟩ := List.mem_flatMap.mp hb
  exact utf8_no_nul c (fun e => hz (e ▸ hc)) (scalar_lt (hs c hc)) b hb

theorem takeWhile_all (s : Bytes) (h : ∀ b ∈ s, b ≠ 0) (t : Bytes) (ht : t = [] ∨ t.head? = some 0) :
    (s ++ t).takeWhile (· ≠ 0) = s := by
  induction s with
  | nil =>
    rcases ht with rfl | ht
    · rfl
    · cases t with
      | nil => rfl
      | cons a t => cases ht; rfl
  | cons a s ih =>
    have ha : a ≠ 0 := h a (List.mem_cons_self ..)
    rw [List.cons_append, List.takeWhile_cons, if_pos (by simpa using ha), ih (fun b hb => h b (List.mem_cons_of_mem _ hb))]

theorem text8_ne {cs : List Nat} (h : cs ≠ []) : 0 < (text8 cs).length := by
  cases cs with
  | nil => exact absurd rfl h
  | cons c cs => rw [text8_cons, List.length_append, utf8_length]; repeat' split
                 all_goals omega

/-! ## C114 -/

/-- From UTF-8 to UTF-16: a text without NUL. -/
theorem C114_to_utf16_partial (conv : Conv) (hc : Converts conv) (cs : List Nat) (hs : ∀ c ∈ cs, Scalar c) (hne : cs ≠ [])
    (hz : 0 ∉ cs) (hlen : (text8 cs).length < 2 ^ 29) :
    utf8ToUtf16 conv (text8 cs) = .ok (text16 cs) := by
  have hl := lengths cs
  have h4 : (text8 cs).length <<< 2 = 4 * (text8 cs).length := by rw [Nat.shiftLeft_eq]; omega
  unfold utf8ToUtf16
  have hw := takeWhile_all _ (text8_no_nul cs hs hz) [] (.inl rfl)
  rw [List.append_nil] at hw
  obtain ⟨rest, e⟩ := hc .utf8 .utf16 cs ((text8 cs).length <<< 2) hne hs (by rw [h4]; show (text16 cs).length ≤ _; omega)
  rw [if_pos hlen, hw]
  change conv .utf8 .utf16 (text8 cs) _ = (((text16 cs).length : Int), text16 cs ++ rest) at e
  rw [e]
  exact take_ok _ _ (by omega)

/-- From UTF-16 to UTF-8: any text, if the result fits into a string. -/
theorem C114_to_utf8_partial (conv : Conv) (hc : Converts conv) (cs : List Nat) (hs : ∀ c ∈ cs, Scalar c) (hne : cs ≠ [])
    (hlen : (text8 cs).length ≤ 2 ^ 30) :
    utf16ToUtf8 conv (text16 cs) = .ok (text8 cs) := by
  have hl := lengths cs
  have h4 : (text16 cs).length <<< 2 = 4 * (text16 cs).length := by rw [Nat.shiftLeft_eq]; omega
  unfold utf16ToUtf8
  dsimp only
  rw [copy_loop _ _ (Nat.le_refl _), List.take_length, Res.ok_bind]
  obtain ⟨rest, e⟩ := hc .utf16 .utf8 cs ((text16 cs).length <<< 2) hne hs (by rw [h4]; show (text8 cs).length ≤ _; omega)
  change conv .utf16 .utf8 (text16 cs) _ = (((text8 cs).length : Int), text8 cs ++ rest) at e
  rw [e]
  exact take_ok _ _ hlen

/-- A text of more than 2^30 bytes in UTF-8 is never returned. -/
theorem C114_long_violated (conv : Conv) (hc : Converts conv) (cs : List Nat) (hs : ∀ c ∈ cs, Scalar c)
    (h1 : 2 ^ 30 < (text8 cs).length) (h2 : (text8 cs).length < 2 ^ 31) : utf16ToUtf8 conv (text16 cs) = .hang := by
  have hl := lengths cs
  have hne : cs ≠ [] := by
    intro e
    subst e
    have : (text8 []).length = 0 := rfl
    omega
  have h4 : (text16 cs).length <<< 2 = 4 * (text16 cs).length := by rw [Nat.shiftLeft_eq]; omega
  unfold utf16ToUtf8
  dsimp only
  rw [copy_loop _ _ (Nat.le_refl _), List.take_length, Res.ok_bind]
  obtain ⟨rest, e⟩ := hc .utf16 .utf8 cs ((text16 cs).length <<< 2) hne hs (by rw [h4]; show (text8 cs).length ≤ _; omega)
  change conv .utf16 .utf8 (text16 cs) _ = (((text8 cs).length : Int), text8 cs ++ rest) at e
  rw [e]
  dsimp only
  unfold take
  rw [if_pos (by omega)]

example : ∃ cs : List Nat, (∀ c ∈ cs, Scalar c) ∧ 2 ^ 30 < (text8 cs).length ∧ (text8 cs).length < 2 ^ 31 := by
  have e : ∀ n, (text8 (List.replicate n 0x41)).length = n := by
    intro n
    induction n with
    | zero => rfl
    | succ n ih =>
      have : text8 (List.replicate (n + 1) 0x41) = utf8 0x41 ++ text8 (List.replicate n 0x41) := by
        simp [text8, List.replicate_succ]
      rw [this, List.length_append, ih, utf8_length, if_pos (by decide), Nat.add_comm]
  refine ⟨List.replicate (2 ^ 30 + 1) 0x41, fun c hc => ?_, ?_, ?_⟩
  · rw [(List.mem_replicate.1 hc).2]; unfold Scalar; decide
  · rw [e]; decide
  · rw [e]; decide

/-- There and back again. -/
theorem C114_round_trip_partial (conv : Conv) (hc : Converts conv) (cs : List Nat) (hs : ∀ c ∈ cs, Scalar c) (hne : cs ≠ [])
    (hz : 0 ∉ cs) (hlen : (text8 cs).length < 2 ^ 29) :
    (utf8ToUtf16 conv (text8 cs) >>= utf16ToUtf8 conv) = .ok (text8 cs) ∧
    (utf16ToUtf8 conv (text16 cs) >>= utf8ToUtf16 conv) = .ok (text16 cs) := by
  rw [C114_to_utf16_partial conv hc cs hs hne hz hlen, C114_to_utf8_partial conv hc cs hs hne (by omega)]
  exact ⟨C114_to_utf8_partial conv hc cs hs hne (by omega), C114_to_utf16_partial conv hc cs hs hne hz hlen⟩

/-- One character in UTF-16 becomes what `encode_as_utf8` makes of its code. -/
theorem C114_encode (conv : Conv) (hc : Converts conv) (c : Nat) (h : Scalar c) :
    utf16ToUtf8 conv (text16 [c]) = .ok (Unicode.encode c) := by
  have hl : (text8 [c]).length ≤ 2 ^ 30 := by
    have : text8 [c] = utf8 c := by simp [text8]
    rw [this, utf8_length]; repeat' split
    all_goals decide
  rw [C114_to_utf8_partial conv hc [c] (by simpa using h) (by simp) hl, C35_encode,
    if_pos (by have := scalar_lt h; omega)]
  simp [text8]

/-- Invalid UTF-16: the valid part at the beginning is converted. -/
theorem C114_invalid_partial (conv : Conv) (hc : ConvertsPart conv) (cs : List Nat) (bad : Bytes) (hs : ∀ c ∈ cs, Scalar c)
    (hne : cs ≠ [] ∨ bad ≠ []) (hb : NoScalar16 bad) (hlen : (text8 cs).length ≤ 2 ^ 30) :
    utf16ToUtf8 conv (text16 cs ++ bad) = .ok (text8 cs) := by
  have hl := lengths cs
  have h4 : (text16 cs ++ bad).length <<< 2 = 4 * ((text16 cs).length + bad.length) := by
    rw [Nat.shiftLeft_eq, List.length_append]; omega
  unfold utf16ToUtf8
  dsimp only
  rw [copy_loop _ _ (Nat.le_refl _), List.take_length, Res.ok_bind]
  obtain ⟨rest, e⟩ := hc cs bad ((text16 cs ++ bad).length <<< 2) hs hne hb (by rw [h4]; omega)
  rw [e]
  exact take_ok _ _ hlen

/-! ### Wide characters -/

theorem be_unit (u : Nat) (h : u < 65536) :
    [((UInt16.ofNat u) >>> 8).toUInt8, ((UInt16.ofNat u) &&& 0x00FF).toUInt8] = bigEndian u := by
  have e : (UInt16.ofNat u).toNat = u := by rw [UInt16.toNat_ofNat']; omega
  unfold bigEndian
  congr 1
  · apply UInt8.toNat_inj.mp
    rw [UInt16.toNat_toUInt8, UInt16.toNat_shiftRight, e, UInt8.toNat_ofNat',
      show (UInt16.toNat 8 % 16) = 8 from rfl, Nat.shiftRight_eq_div_pow]
  · congr 1
    apply UInt8.toNat_inj.mp
    rw [UInt16.toNat_toUInt8, UInt16.toNat_and, e, UInt8.toNat_ofNat',
      show (UInt16.toNat 0x00FF) = 2 ^ 8 - 1 from rfl, Nat.and_two_pow_sub_one_eq_mod]

/-- The two bytes that the loop stores for a unit. -/
def be (u : UInt16) : Bytes := [(u >>> 8).toUInt8, (u &&& 0x00FF).toUInt8]

theorem be_length (s : List UInt16) : (s.flatMap be).length = 2 * s.length := by
  induction s with
  | nil => rfl
  | cons u s ih => rw [List.flatMap_cons, List.length_append, ih, List.length_cons]; show 2 + _ = _; omega

theorem wide_loop (s : List UInt16) :
    forUp 0 s.length (List.replicate (s.length * 2) (0 : UInt8)) (fun i idata => do
      let bytes ← rd s i
      let high := (bytes >>> 8).toUInt8
      let low := (bytes &&& 0x00FF).toUInt8
      let idata ← wr idata (2 * i) high
      wr idata (2 * i + 1) low) = .ok (s.flatMap be) := by
  obtain ⟨s', e, h⟩ := forUp_spec (body := fun i (idata : Bytes) => do
      let bytes ← rd s i
      let high := (bytes >>> 8).toUInt8
      let low := (bytes &&& 0x00FF).toUInt8
      let idata ← wr idata (2 * i) high
      wr idata (2 * i + 1) low) (lo := 0) (hi := s.length) (s := List.replicate (s.length * 2) (0 : UInt8))
    (fun i r => r = (s.take i).flatMap be ++ List.replicate (2 * (s.length - i)) 0) (by omega)
    (by simp [Nat.mul_comm])
    (fun i r _ hi hr => by
      refine ⟨(s.take (i + 1)).flatMap be ++ List.replicate (2 * (s.length - (i + 1))) 0, ?_, rfl⟩
      have hl : ((s.take i).flatMap be).length = 2 * i := by
        rw [be_length, List.length_take, Nat.min_eq_left (by omega)]
      have hr2 : List.replicate (2 * (s.length - i)) (0 : UInt8) =
          0 :: 0 :: List.replicate (2 * (s.length - (i + 1))) 0 := by
        rw [show 2 * (s.length - i) = 2 * (s.length - (i + 1)) + 1 + 1 by omega, List.replicate_succ, List.replicate_succ]
      subst hr
      rw [hr2]
      generalize hA : (s.take i).flatMap be = A at hl
      generalize List.replicate (2 * (s.length - (i + 1))) (0 : UInt8) = Z
      rw [rd_ok hi]
      show (wr _ _ _ >>= fun x => wr x _ _) = _
      rw [wr_ok (by simp; omega), Res.ok_bind, wr_ok (by simp; omega)]
      congr 1
      rw [List.set_append_right _ _ (by omega), hl, Nat.sub_self, List.set_cons_zero, List.set_append_right _ _ (by omega), hl,
        show 2 * i + 1 - 2 * i = 1 by omega, List.take_succ_eq_append_getElem (by omega), List.flatMap_append, hA,
        List.append_assoc]
      rfl)
  rw [e, h, Nat.sub_self]; simp

theorem units_lt {c : Nat} (h : c < 0x110000) : ∀ u ∈ units c, u < 65536 := by
  intro u hu
  unfold units at hu
  split at hu
  · rw [List.mem_singleton] at hu; omega
  · simp only [List.mem_cons, List.not_mem_nil, or_false] at hu
    rcases hu with e | e <;> omega

theorem units_ne {c : Nat} (h : c ≠ 0) : ∀ u ∈ units c, u ≠ 0 := by
  intro u hu
  unfold units at hu
  split at hu
  · rw [List.mem_singleton] at hu; omega
  · simp only [List.mem_cons, List.not_mem_nil, or_false] at hu
    rcases hu with e | e <;> omega

/-- A text of wide characters up to the terminating zero. -/
theorem C114_wchar (conv : Conv) (hc : Converts conv) (cs : List Nat) (hs : ∀ c ∈ cs, Scalar c) (hne : cs ≠ [])
    (hz : 0 ∉ cs) (hlen : (text8 cs).length ≤ 2 ^ 30) (after : List UInt16) :
    wcharToUtf8 conv ((cs.flatMap units).map UInt16.ofNat ++ 0 :: after) = .ok (text8 cs) := by
  have hlt : ∀ u ∈ cs.flatMap units, u < 65536 ∧ u ≠ 0 := by
    intro u hu
    obtain ⟨c, hc, hu⟩ := List.mem_flatMap.mp hu
    exact ⟨units_lt (scalar_lt (hs c hc)) u hu, units_ne (fun e => hz (e ▸ hc)) u hu⟩
  have hb : ((cs.flatMap units).map UInt16.ofNat).flatMap be = text16 cs := by
    unfold text16
    generalize cs.flatMap units = us at hlt
    induction us with
    | nil => rfl
    | cons u us ih =>
      rw [List.map_cons, List.flatMap_cons, List.flatMap_cons, ih (fun v hv => hlt v (List.mem_cons_of_mem _ hv))]
      congr 1
      exact be_unit u (hlt u (List.mem_cons_self ..)).1
  have hw : ((cs.flatMap units).map UInt16.ofNat ++ 0 :: after).takeWhile (· ≠ 0) = (cs.flatMap units).map UInt16.ofNat := by
    generalize cs.flatMap units = us at hlt
    induction us with
    | nil => rfl
    | cons u us ih =>
      have hu := hlt u (List.mem_cons_self ..)
      have : UInt16.ofNat u ≠ 0 := by
        intro e
        have := congrArg UInt16.toNat e
        rw [UInt16.toNat_ofNat'] at this
        have z : (0 : UInt16).toNat = 0 := rfl
        omega
      rw [List.map_cons, List.cons_append, List.takeWhile_cons, if_pos (by simpa using this),
        ih (fun v hv => hlt v (List.mem_cons_of_mem _ hv))]
  unfold wcharToUtf8
  dsimp only
  rw [hw]
  generalize hS : (cs.flatMap units).map UInt16.ofNat = S at hb
  have hSl : S.length * 2 = (text16 cs).length := by rw [← hb, be_length]; omega
  have hw2 := wide_loop S
  dsimp only at hw2
  rw [hw2, Res.ok_bind, hb, hSl]
  have hl := lengths cs
  have h4 : (text16 cs).length <<< 2 = 4 * (text16 cs).length := by rw [Nat.shiftLeft_eq]; omega
  obtain ⟨rest, e⟩ := hc .utf16 .utf8 cs ((text16 cs).length <<< 2) hne hs (by rw [h4]; show (text8 cs).length ≤ _; omega)
  change conv .utf16 .utf8 (text16 cs) _ = (((text8 cs).length : Int), text8 cs ++ rest) at e
  rw [e]
  exact take_ok _ _ hlen

/-! ### Violations -/

/-- Everything from a NUL on is lost on the way to UTF-16, although NUL is a character of both encodings. -/
theorem C114_nul_violated (conv : Conv) (hc : Converts conv) (cs ds : List Nat) (hs : ∀ c ∈ cs, Scalar c) (hne : cs ≠ [])
    (hz : 0 ∉ cs) (hlen : (text8 (cs ++ 0 :: ds)).length < 2 ^ 29) :
    utf8ToUtf16 conv (text8 (cs ++ 0 :: ds)) = .ok (text16 cs) ∧ text16 cs ≠ text16 (cs ++ 0 :: ds) := by
  have hl := lengths cs
  have h8 : text8 (cs ++ 0 :: ds) = text8 cs ++ 0 :: text8 ds := by
    simp [text8, utf8]
  constructor
  · rw [h8] at hlen ⊢
    unfold utf8ToUtf16
    rw [if_pos hlen, takeWhile_all _ (text8_no_nul cs hs hz) _ (.inr rfl)]
    have h4 : (text8 cs ++ 0 :: text8 ds).length <<< 2 = 4 * ((text8 cs).length + ((text8 ds).length + 1)) := by
      rw [Nat.shiftLeft_eq, List.length_append, List.length_cons]; omega
    rw [List.length_append] at hlen
    obtain ⟨rest, e⟩ := hc .utf8 .utf16 cs ((text8 cs ++ 0 :: text8 ds).length <<< 2) hne hs
      (by rw [h4]; show (text16 cs).length ≤ _; omega)
    change conv .utf8 .utf16 (text8 cs) _ = (((text16 cs).length : Int), text16 cs ++ rest) at e
    rw [e]
    exact take_ok _ _ (by omega)
  · intro e
    have := congrArg List.length e
    unfold text16 at this
    rw [List.flatMap_append, List.flatMap_append, List.length_append, List.flatMap_cons, List.flatMap_append,
      List.length_append] at this
    have h2 : ((units 0).flatMap bigEndian).length = 2 := rfl
    omega

/-- If the converter reports an error (a negative number) the behaviour is undefined. -/
theorem C114_error_violated (conv : Conv) (s : Bytes) :
    (∀ n b, conv .utf16 .utf8 s (s.length <<< 2) = (n, b) → n < 0 → utf16ToUtf8 conv s = .ub) ∧
    (∀ n b, conv .utf8 .utf16 (s.takeWhile (· ≠ 0)) (s.length <<< 2) = (n, b) → n < 0 → utf8ToUtf16 conv s = .ub) := by
  constructor
  · intro n b e h
    unfold utf16ToUtf8
    dsimp only
    rw [copy_loop _ _ (Nat.le_refl _), List.take_length, Res.ok_bind, e]
    exact take_neg n b h
  · intro n b e h
    unfold utf8ToUtf16
    split
    · rw [e]; exact take_neg n b h
    · rfl

/-- Texts of 2^29 bytes and more cannot be converted to UTF-16. -/
theorem C114_large_violated (conv : Conv) (s : Bytes) (h : 2 ^ 29 ≤ s.length) : utf8ToUtf16 conv s = .ub := by
  unfold utf8ToUtf16; rw [if_neg (by omega)]

/-! ## A converter of this kind exists -/

theorem bigEndian_inj {u v : Nat} (hu : u < 65536) (hv : v < 65536) {x y : Bytes} (h : bigEndian u ++ x = bigEndian v ++ y) :
    u = v ∧ x = y := by
  unfold bigEndian at h
  injection h with h1 h
  injection h with h2 h
  have e1 := congrArg UInt8.toNat h1
  have e2 := congrArg UInt8.toNat h2
  rw [toNat_small (by omega), toNat_small (by omega)] at e1 e2
  exact ⟨by omega, h⟩

/-- The beginning of a text in UTF-16 determines its first character. -/
theorem scalar16_inj {c d : Nat} (hc : Scalar c) (hd : Scalar d) {x y : Bytes} (h : text16 [c] ++ x = text16 [d] ++ y) :
    c = d ∧ x = y := by
  have lc := units_lt (scalar_lt hc)
  have ld := units_lt (scalar_lt hd)
  have tc := scalar_lt hc
  have td := scalar_lt hd
  unfold Scalar at hc hd
  simp only [text16, List.flatMap_cons, List.flatMap_nil, List.append_nil] at h
  unfold units at h lc ld
  split at h <;> split at h
  · simp only [List.flatMap_cons, List.flatMap_nil, List.append_nil] at h
    exact bigEndian_inj (by omega) (by omega) h
  · simp only [List.flatMap_cons, List.flatMap_nil, List.append_nil, List.append_assoc] at h
    have := (bigEndian_inj (by omega) (by omega) h).1
    omega
  · simp only [List.flatMap_cons, List.flatMap_nil, List.append_nil, List.append_assoc] at h
    have := (bigEndian_inj (by omega) (by omega) h).1
    omega
  · simp only [List.flatMap_cons, List.flatMap_nil, List.append_nil, List.append_assoc] at h
    obtain ⟨e1, h⟩ := bigEndian_inj (by omega) (by omega) h
    obtain ⟨e2, h⟩ := bigEndian_inj (by omega) (by omega) h
    exact ⟨by omega, h⟩

theorem part_unique (cs ds : List Nat) (a b : Bytes) (hc : ∀ c ∈ cs, Scalar c) (hd : ∀ d ∈ ds, Scalar d)
    (ha : NoScalar16 a) (hb : NoScalar16 b) (h : text16 cs ++ a = text16 ds ++ b) : cs = ds := by
  induction cs generalizing ds with
  | nil =>
    cases ds with
    | nil => rfl
    | cons d ds =>
      rw [text16_cons, List.append_assoc] at h
      exact absurd h (ha d _ (hd d (List.mem_cons_self ..)))
  | cons c cs ih =>
    cases ds with
    | nil =>
      rw [text16_cons, List.append_assoc] at h
      exact absurd h.symm (hb c _ (hc c (List.mem_cons_self ..)))
    | cons d ds =>
      rw [text16_cons, text16_cons d, List.append_assoc, List.append_assoc] at h
      obtain ⟨e, h⟩ := scalar16_inj (hc c (List.mem_cons_self ..)) (hd d (List.mem_cons_self ..)) h
      rw [e, ih ds (fun x hx => hc x (List.mem_cons_of_mem _ hx)) (fun x hx => hd x (List.mem_cons_of_mem _ hx)) h]

theorem noScalar_nil : NoScalar16 [] := by
  intro c rest _ h
  have := congrArg List.length h
  rw [List.length_append, text16_one] at this
  split at this <;> simp at this <;> omega

theorem text8_inj (cs ds : List Nat) (hc : ∀ c ∈ cs, Scalar c) (hd : ∀ d ∈ ds, Scalar d) (h : text8 cs = text8 ds) :
    cs = ds := by
  have key : ∀ es : List Nat, (∀ c ∈ es, Scalar c) → text8 es = es.flatMap Unicode.encode := by
    intro es he
    unfold text8
    induction es with
    | nil => rfl
    | cons e es ih =>
      rw [List.flatMap_cons, List.flatMap_cons, ih (fun x hx => he x (List.mem_cons_of_mem _ hx)), C35_encode,
        if_pos (by have := scalar_lt (he e (List.mem_cons_self ..)); omega)]
  rw [key cs hc, key ds hd] at h
  exact C35_injective cs ds (fun c h => by have := scalar_lt (hc c h); omega)
    (fun c h => by have := scalar_lt (hd c h); omega) h

/-- The texts that `s` can be read as. -/
def Reads (f : Charset) (s : Bytes) (cs : List Nat) : Prop :=
  (∀ c ∈ cs, Scalar c) ∧ match f with
    | .utf8 => s = text8 cs
    | .utf16 => ∃ bad, NoScalar16 bad ∧ s = text16 cs ++ bad

theorem reads_unique {f : Charset} {s : Bytes} {cs ds : List Nat} (h1 : Reads f s cs) (h2 : Reads f s ds) : cs = ds := by
  obtain ⟨hc, h1⟩ := h1
  obtain ⟨hd, h2⟩ := h2
  cases f with
  | utf8 => exact text8_inj cs ds hc hd (h1.symm.trans h2)
  | utf16 =>
    obtain ⟨a, ha, e1⟩ := h1
    obtain ⟨b, hb, e2⟩ := h2
    exact part_unique cs ds a b hc hd ha hb (e1.symm.trans e2)

open Classical in
/-- A converter that does what is assumed. -/
noncomputable def model : Conv := fun f t s _ =>
  if h : ∃ cs, Reads f s cs then (((text t h.choose).length : Int), text t h.choose) else (-1, [])

theorem model_reads {f t : Charset} {s : Bytes} {cs : List Nat} {n : Nat} (h : Reads f s cs) :
    model f t s n = (((text t cs).length : Int), text t cs ++ []) := by
  have hx : ∃ cs, Reads f s cs := ⟨cs, h⟩
  unfold model
  rw [dif_pos hx, reads_unique hx.choose_spec h, List.append_nil]

theorem model_converts : Converts model ∧ ConvertsPart model := by
  constructor
  · intro f t cs size _ hs _
    refine ⟨[], model_reads ⟨hs, ?_⟩⟩
    cases f with
    | utf8 => rfl
    | utf16 => exact ⟨[], noScalar_nil, (List.append_nil _).symm⟩
  · intro cs bad size hs _ hb _
    exact ⟨[], model_reads (f := .utf16) (t := .utf8) ⟨hs, bad, hb, rfl⟩⟩

/-! ## Examples -/

/-- The texts of the tests, and a surrogate pair (U+1F600). -/
example : text16 [0x4E2D] = [0x4E, 0x2D] ∧ text8 [0x4E2D] = b!"中" ∧ text16 [0x61, 0x62] = [0, 0x61, 0, 0x62] ∧
    text16 [0x1F600] = [0xD8, 0x3D, 0xDE, 0x00] ∧ text8 [0x1F600] = b!"😀" := by decide +kernel

example : utf8ToUtf16 model (text8 [0x61, 0x1F600]) = .ok (text16 [0x61, 0x1F600]) :=
  C114_to_utf16_partial model model_converts.1 _ (by decide) (by decide) (by decide) (by decide +kernel)

/-- A lone byte, and a lone second half of a pair, are no character. -/
example : NoScalar16 [0] ∧ NoScalar16 [0xDC, 0x00] := by
  constructor
  · intro c rest _ h
    have := congrArg List.length h
    rw [List.length_append, text16_one] at this
    split at this <;> simp at this <;> omega
  · intro c rest hc h
    have tc := scalar_lt hc
    unfold Scalar at hc
    simp only [text16, List.flatMap_cons, List.flatMap_nil, List.append_nil] at h
    unfold units at h
    split at h
    · simp only [List.flatMap_cons, List.flatMap_nil, List.append_nil] at h
      have := (bigEndian_inj (u := 0xDC00) (x := []) (by omega) (by omega) h).1
      omega
    · simp only [List.flatMap_cons, List.flatMap_nil, List.append_nil, List.append_assoc] at h
      have := (bigEndian_inj (u := 0xDC00) (x := []) (by omega) (by omega) h).1
      omega

end Lolly.Utf16Props
