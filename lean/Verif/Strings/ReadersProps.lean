import Verif.Strings.Readers
import Verif.Strings.ConvertProps
import Verif.Strings.CharsProps
import Verif.Strings.SearchLemmas

/-!
# C38, C39, C76, C77: readers, binary data, lengths

In the statements `pre` is the text before the position, which is `pre.length`.
-/

set_option autoImplicit false

namespace Lolly.ReadersProps

open Lolly.An
open Lolly.Readers hiding read
open Lolly.Base64 (Shift)
open Lolly.ConvProps (Digit Digits numeral digits_all)

/-- The text `r` does not start with a character in `p`. -/
def NotAt (p : UInt8 → Prop) (r : Bytes) : Prop := ∀ c t, r = c :: t → ¬ p c

/-! ## Lemmas -/

theorem tw_split {p : UInt8 → Bool} {w r : Bytes} (hw : ∀ c ∈ w, p c = true) (hr : NotAt (fun c => p c = true) r) :
    (w ++ r).takeWhile p = w := by
  rw [List.takeWhile_append_of_pos hw]
  cases r with
  | nil => simp
  | cons c t => rw [List.takeWhile_cons_of_neg (hr c t rfl), List.append_nil]

theorem skipWhile_spec (p : UInt8 → Bool) (s : Bytes) (i : Nat) (hi : i ≤ s.length) :
    skipWhile p s i = .ok (i + ((s.drop i).takeWhile p).length) := by
  induction hk : s.length - i generalizing i with
  | zero => rw [skipWhile, if_neg (by omega), List.drop_of_length_le (by omega)]; rfl
  | succ k ih =>
    have hi' : i < s.length := by omega
    rw [skipWhile, if_pos hi', rd_ok hi', List.drop_eq_getElem_cons hi']
    simp only [Res.ok_bind]
    by_cases hc : p s[i] = true
    · rw [if_pos hc, ih (i + 1) (by omega) (by omega), List.takeWhile_cons_of_pos hc, List.length_cons]
      congr 1; omega
    · rw [if_neg hc, List.takeWhile_cons_of_neg hc]; rfl

theorem drop_pre (pre t : Bytes) : (pre ++ t).drop pre.length = t := List.drop_left

theorem skipWhile_at {p : UInt8 → Bool} (pre w r : Bytes) (hw : ∀ c ∈ w, p c = true)
    (hr : NotAt (fun c => p c = true) r) :
    skipWhile p (pre ++ (w ++ r)) pre.length = .ok (pre.length + w.length) := by
  rw [skipWhile_spec _ _ _ (by simp), drop_pre, tw_split hw hr]

theorem rd_at (pre : Bytes) (c : UInt8) (t : Bytes) : rd (pre ++ c :: t) pre.length = .ok c := by
  rw [rd_ok (by simp)]; simp

theorem rd_at1 (pre : Bytes) (c d : UInt8) (t : Bytes) : rd (pre ++ c :: d :: t) (pre.length + 1) = .ok d := by
  have := rd_at (pre ++ [c]) d t
  simpa using this

theorem sub_at (pre w r : Bytes) : sub (pre ++ (w ++ r)) pre.length ((pre.length + w.length : Nat) : Int) = w := by
  rw [sub_nat, ← List.append_assoc, show pre.length + w.length = (pre ++ w).length by simp, List.take_left, List.drop_left]

theorem isDigit_iff (c : UInt8) : isDigit c = true ↔ Digit c := by
  have : ∀ c : UInt8, isDigit c = decide (48 ≤ c.toNat ∧ c.toNat ≤ 57) := by apply forall_byte; decide +kernel
  rw [this, decide_eq_true_eq]; rfl

theorem isNumeric_iff (c : UInt8) : isNumeric c = true ↔ Digit c ∨ c = c! '.' := by
  have : ∀ c : UInt8, isNumeric c = (decide (48 ≤ c.toNat ∧ c.toNat ≤ 57) || c == c! '.') := by
    apply forall_byte; decide +kernel
  rw [this, Bool.or_eq_true, decide_eq_true_eq, beq_iff_eq]; rfl

/-- A letter. -/
def Letter (c : UInt8) : Prop := (65 ≤ c.toNat ∧ c.toNat ≤ 90) ∨ (97 ≤ c.toNat ∧ c.toNat ≤ 122)

theorem isAlpha_iff (c : UInt8) : isAlpha c = true ↔ Letter c := by
  have : ∀ c : UInt8, isAlpha c = decide ((65 ≤ c.toNat ∧ c.toNat ≤ 90) ∨ (97 ≤ c.toNat ∧ c.toNat ≤ 122)) := by
    apply forall_byte; decide +kernel
  rw [this, decide_eq_true_eq]; rfl

/-! ## C38 -/

theorem readLoop_spec (s t : Bytes) (k : Nat) (hk : k ≤ s.length) :
    readLoop s k t = .ok (if t <+: s.drop k then some (k + t.length) else none) := by
  induction t generalizing k with
  | nil => simp [readLoop]
  | cons c t ih =>
    rw [readLoop]
    by_cases h : k ≥ s.length
    · rw [if_pos h, List.drop_of_length_le h, if_neg (by simp)]
    · have h' : k < s.length := by omega
      rw [if_neg h, rd_ok h', List.drop_eq_getElem_cons h']
      simp only [Res.ok_bind]
      by_cases hc : s[k] = c
      · rw [if_neg (fun g => g hc), ih _ (by omega)]
        simp only [List.cons_prefix_cons, hc, true_and, List.length_cons]
        split
        · congr 2; omega
        · rfl
      · rw [if_pos hc, if_neg]
        rw [List.cons_prefix_cons]
        exact fun g => hc g.1.symm

/-- `read` advances over `t` if the text at the position starts with it, and does nothing otherwise. -/
theorem C38_read (pre t rest : Bytes) :
    Readers.read (pre ++ t ++ rest) pre.length t = .ok (true, pre.length + t.length) ∧
    (¬ t <+: rest → Readers.read (pre ++ rest) pre.length t = .ok (false, pre.length)) := by
  constructor
  · unfold Readers.read
    rw [readLoop_spec _ _ _ (by simp), List.append_assoc, drop_pre, if_pos (List.prefix_append _ _)]; rfl
  · intro h
    unfold Readers.read
    rw [readLoop_spec _ _ _ (by simp), drop_pre, if_neg h]; rfl

/-- The variants of `read`. -/
theorem C38_read_variants (s t junk : Bytes) (i : Nat) (h : ∀ c ∈ t, c ≠ 0) :
    readC s i (t ++ 0 :: junk) = Readers.read s i t ∧ readStart s t = .ok (decide (t <+: s)) := by
  constructor
  · unfold readC
    rw [List.takeWhile_append_of_pos (by intro c hc; simpa using h c hc), List.takeWhile_cons_of_neg (by decide),
      List.append_nil]
  · unfold readStart Readers.read
    rw [readLoop_spec _ _ _ (by omega), List.drop_zero]
    by_cases g : t <+: s
    · rw [if_pos g]; simp [g]
    · rw [if_neg g]; simp [g]

theorem readLineLoop_spec (s : Bytes) (start i : Nat) (hi : i ≤ s.length) :
    readLineLoop s start i =
      let e := i + ((s.drop i).takeWhile (· != 10)).length
      if e < s.length then .ok (true, e + 1, sub s start e) else .ok (false, e, sub s start e) := by
  induction hk : s.length - i generalizing i with
  | zero =>
    rw [readLineLoop, if_neg (by omega), List.drop_of_length_le (by omega)]
    have e : i = s.length := by omega
    subst e
    simp
  | succ k ih =>
    have hi' : i < s.length := by omega
    rw [readLineLoop, if_pos hi', rd_ok hi', List.drop_eq_getElem_cons hi']
    simp only [Res.ok_bind]
    by_cases hc : s[i] = 10
    · rw [if_pos hc, List.takeWhile_cons_of_neg (by simp [hc])]
      simp [hi']
    · rw [if_neg hc, ih (i + 1) (by omega) (by omega), List.takeWhile_cons_of_pos (by simp [hc]), List.length_cons]
      dsimp only
      rw [show i + 1 + ((s.drop (i + 1)).takeWhile (· != 10)).length =
        i + (((s.drop (i + 1)).takeWhile (· != 10)).length + 1) by omega]

/-- `read_line` reads up to and including the first newline; the last line has none. -/
theorem C38_read_line (pre l r : Bytes) (hl : ∀ c ∈ l, c ≠ 10) :
    readLine (pre ++ l ++ 10 :: r) pre.length = .ok (true, pre.length + l.length + 1, l) ∧
    readLine (pre ++ l) pre.length = .ok (false, pre.length + l.length, l) := by
  have hw : ∀ c ∈ l, (c != 10) = true := fun c hc => by simpa using hl c hc
  constructor
  · unfold readLine
    rw [readLineLoop_spec _ _ _ (by simp), List.append_assoc, drop_pre, tw_split hw (by
      intro c t e; injection e with e1 e2; subst e1; decide)]
    dsimp only
    rw [if_pos (by simp), sub_at]
  · unfold readLine
    rw [readLineLoop_spec _ _ _ (by simp), drop_pre]
    have := tw_split (r := []) hw (by intro c t e; cases e)
    rw [List.append_nil] at this
    rw [this]
    dsimp only
    rw [if_neg (by simp)]
    have := sub_at pre l []
    rw [List.append_nil] at this
    rw [this]

theorem readSign_spec {p : UInt8 → Bool} (hp : p (c! '-') = false) (pre rest : Bytes) :
    (∀ sg c t, (sg = [] ∨ sg = b!"-") → p c = true → rest = sg ++ c :: t →
      readSign p (pre ++ rest) pre.length = .ok (some (pre.length + sg.length))) ∧
    ((¬ ∃ sg c t, (sg = [] ∨ sg = b!"-") ∧ p c = true ∧ rest = sg ++ c :: t) →
      readSign p (pre ++ rest) pre.length = .ok none) := by
  constructor
  · rintro sg c t (rfl | rfl) hc rfl
    · unfold readSign
      rw [if_neg (by simp)]
      rw [List.nil_append, rd_at]
      simp only [Res.ok_bind]
      rw [if_neg (by rintro rfl; rw [hp] at hc; cases hc), if_pos hc]; rfl
    · unfold readSign
      rw [if_neg (by simp)]
      rw [List.cons_append, List.nil_append, rd_at]
      simp only [Res.ok_bind]
      rw [if_pos trivial, if_neg (by simp), rd_at1]
      simp only [Res.ok_bind]
      rw [if_pos hc]; rfl
  · intro h
    unfold readSign
    cases rest with
    | nil => rw [if_pos (by simp)]
    | cons c t =>
      rw [if_neg (by simp), rd_at]
      simp only [Res.ok_bind]
      by_cases hc : c = c! '-'
      · rw [if_pos hc]
        cases t with
        | nil => rw [if_pos (by simp)]
        | cons d t =>
          rw [if_neg (by simp), rd_at1]
          simp only [Res.ok_bind]
          rw [if_neg]
          intro hd
          exact h ⟨b!"-", d, t, .inr rfl, hd, by rw [hc]; rfl⟩
      · rw [if_neg hc, if_neg]
        intro hd
        exact h ⟨[], c, t, .inl rfl, hd, rfl⟩

/-- `read_int` reads an optional minus sign and the maximal run of digits that follows, and returns the
number that they denote, provided that its absolute value is below 2^31; without a digit it fails. -/
theorem C38_read_int (pre : Bytes) :
    (∀ sg ds r, (sg = [] ∨ sg = b!"-") → ds ≠ [] → Digits ds → NotAt Digit r →
      readInt (pre ++ (sg ++ ds ++ r)) pre.length =
        if numeral ds < 2 ^ 31 then
          .ok (true, pre.length + (sg ++ ds).length, if sg = [] then (numeral ds : Int) else -(numeral ds : Int))
        else .ub) ∧
    (∀ rest, (¬ ∃ sg c t, (sg = [] ∨ sg = b!"-") ∧ Digit c ∧ rest = sg ++ c :: t) →
      readInt (pre ++ rest) pre.length = .ok (false, pre.length, 0)) := by
  constructor
  · intro sg ds r hsg hne hd hr
    obtain ⟨c, t, rfl⟩ : ∃ c t, ds = c :: t := by
      cases ds with
      | nil => exact absurd rfl hne
      | cons c t => exact ⟨c, t, rfl⟩
    unfold readInt
    rw [(readSign_spec (by decide) pre _).1 sg c (t ++ r) hsg ((isDigit_iff c).2 (hd c (by simp))) (by simp)]
    simp only [Res.ok_bind]
    have e : pre ++ (sg ++ (c :: t) ++ r) = (pre ++ sg) ++ ((c :: t) ++ r) := by simp
    have sk : skipWhile isDigit (pre ++ (sg ++ (c :: t) ++ r)) (pre.length + sg.length) =
        .ok (pre.length + (sg ++ c :: t).length) := by
      rw [e]
      have := skipWhile_at (p := isDigit) (pre ++ sg) (c :: t) r (fun d h => (isDigit_iff d).2 (hd d h))
        (fun d u h g => hr d u h ((isDigit_iff d).1 g))
      rw [List.length_append] at this
      rw [this]; congr 1; simp; omega
    rw [sk]
    simp only [Res.ok_bind]
    rw [sub_at]
    have := ConvProps.C16_prefix (lim := 2 ^ 31) (by decide) sg (c :: t) [] (hsg.elim .inl fun h => .inr (.inr h)) hd
      (by intro c r h; cases h) (by intro _ h; cases h)
    rw [List.append_nil] at this
    rw [this]
    by_cases hn : numeral (c :: t) < 2 ^ 31
    · rw [if_pos (by omega), if_pos hn]
      simp only [Res.ok_bind]
      rcases hsg with rfl | rfl <;> rfl
    · rw [if_neg (by omega), if_neg hn]; rfl
  · intro rest h
    unfold readInt
    rw [(readSign_spec (by decide) pre rest).2 (by
      rintro ⟨sg, c, t, h1, h2, h3⟩
      exact h ⟨sg, c, t, h1, (isDigit_iff c).1 h2, h3⟩)]
    rfl

example : readInt (b!"x=-12;") 2 = .ok (true, 5, -12) :=
  ((C38_read_int (b!"x=")).1 (b!"-") (b!"12") (b!";") (.inr rfl) (by decide) (by unfold Digits Digit; decide)
    (by intro c t e; injection e with e1 e2; subst e1; unfold Digit; decide)).trans (by decide)

theorem skipOne_hit {p : UInt8 → Bool} (pre : Bytes) (c : UInt8) (t : Bytes) (h : p c = true) :
    skipOne p (pre ++ c :: t) pre.length = .ok (pre.length + 1) := by
  unfold skipOne
  rw [if_pos (by simp), rd_at]
  simp only [Res.ok_bind]
  rw [if_pos h]

theorem skipOne_miss {p : UInt8 → Bool} (pre t : Bytes) (h : NotAt (fun c => p c = true) t) :
    skipOne p (pre ++ t) pre.length = .ok pre.length := by
  unfold skipOne
  cases t with
  | nil => rw [if_neg (by simp)]
  | cons c t =>
    rw [if_pos (by simp), rd_at]
    simp only [Res.ok_bind]
    rw [if_neg (h c t rfl)]

/-- An exponent: the letter, an optional minus sign and at least one digit. -/
def IsExp (e : Bytes) : Prop := ∃ l sg ds, (l = c! 'e' ∨ l = c! 'E') ∧ (sg = [] ∨ sg = b!"-") ∧ ds ≠ [] ∧
  Digits ds ∧ e = l :: sg ++ ds

/-- A decimal number without exponent: digits, optionally a point and digits; not empty. -/
def IsFixed (m : Bytes) : Prop := m ≠ [] ∧ ∃ a b, Digits a ∧ Digits b ∧ (m = a ∨ m = a ++ c! '.' :: b)

theorem readExponent_spec (pre r : Bytes) :
    (∀ e t, IsExp e → NotAt Digit t → r = e ++ t → readExponent (pre ++ r) pre.length = .ok (some (pre.length + e.length))) ∧
    (NotAt (fun c => c = c! 'e' ∨ c = c! 'E') r → readExponent (pre ++ r) pre.length = .ok (some pre.length)) ∧
    (∀ l t, (l = c! 'e' ∨ l = c! 'E') → r = l :: t →
      (¬ ∃ sg c u, (sg = [] ∨ sg = b!"-") ∧ Digit c ∧ t = sg ++ c :: u) → readExponent (pre ++ r) pre.length = .ok none) := by
  have hl : ∀ l : UInt8, (l = c! 'e' ∨ l = c! 'E') ↔ (l == c! 'e' || l == c! 'E') = true := by
    intro l; rw [Bool.or_eq_true, beq_iff_eq, beq_iff_eq]
  refine ⟨?_, ?_, ?_⟩
  · rintro e t ⟨l, sg, ds, h1, h2, h3, h4, rfl⟩ ht rfl
    obtain ⟨c, u, rfl⟩ : ∃ c t, ds = c :: t := by
      cases ds with
      | nil => exact absurd rfl h3
      | cons c t => exact ⟨c, t, rfl⟩
    unfold readExponent
    rw [List.append_assoc, List.cons_append, skipOne_hit pre l _ ((hl l).1 h1)]
    simp only [Res.ok_bind]
    rw [if_neg (by omega)]
    have hk : skipOne (· == c! '-') (pre ++ l :: (sg ++ ((c :: u) ++ t))) (pre.length + 1) = .ok (pre.length + 1 + sg.length) := by
      have e : pre ++ l :: (sg ++ ((c :: u) ++ t)) = (pre ++ [l]) ++ (sg ++ ((c :: u) ++ t)) := by simp
      rw [e, show pre.length + 1 = (pre ++ [l]).length by simp]
      rcases h2 with rfl | rfl
      · have hcd := h4 c (by simp)
        exact skipOne_miss _ _ (by
          intro d v h g
          injection h with h _
          have : c = c! '-' := by rw [h]; simpa using g
          rw [this] at hcd
          exact absurd hcd (by unfold Digit; decide))
      · exact skipOne_hit _ (c! '-') _ rfl
    rw [hk]
    simp only [Res.ok_bind]
    rw [if_neg (by simp; omega)]
    have e2 : pre ++ l :: (sg ++ ((c :: u) ++ t)) = (pre ++ l :: sg) ++ (c :: u ++ t) := by simp
    have hlen : pre.length + 1 + sg.length = (pre ++ l :: sg).length := by simp; omega
    rw [e2, hlen, List.cons_append, rd_at]
    simp only [Res.ok_bind]
    have hcd := (isDigit_iff c).2 (h4 c (by simp))
    rw [hcd, if_neg (by decide), ← List.cons_append, skipWhile_at _ (c :: u) t (fun d h => (isDigit_iff d).2 (h4 d h))
      (fun d v h g => ht d v h ((isDigit_iff d).1 g))]
    simp only [Res.ok_bind]
    congr 2
    simp; omega
  · intro h
    unfold readExponent
    rw [skipOne_miss _ _ (fun c t e g => h c t e ((hl c).2 g))]
    simp only [Res.ok_bind]
    rw [if_pos trivial]
  · rintro l t h1 rfl hno
    unfold readExponent
    rw [skipOne_hit pre l _ ((hl l).1 h1)]
    simp only [Res.ok_bind]
    rw [if_neg (by omega)]
    have e : pre ++ l :: t = (pre ++ [l]) ++ t := by simp
    rw [e, show pre.length + 1 = (pre ++ [l]).length by simp]
    have fin : ∀ (sg u : Bytes), (sg = [] ∨ sg = b!"-") → t = sg ++ u →
        (if (pre ++ [l] ++ sg).length = ((pre ++ [l]) ++ t).length then Res.ok (none : Option Nat)
          else do
            let c ← rd ((pre ++ [l]) ++ t) (pre ++ [l] ++ sg).length
            if (!isDigit c) = true then .ok none
            else do
              let e ← skipWhile isDigit ((pre ++ [l]) ++ t) (pre ++ [l] ++ sg).length
              .ok (some e)) = .ok none := by
      intro sg u hs ht
      cases u with
      | nil => rw [if_pos (by rw [ht]; simp)]
      | cons c u =>
        rw [if_neg (by rw [ht]; simp)]
        rw [ht, ← List.append_assoc, rd_at]
        simp only [Res.ok_bind]
        rw [if_pos]
        have : ¬ isDigit c = true := fun g => hno ⟨sg, c, u, hs, (isDigit_iff c).1 g, ht⟩
        simpa using this
    cases t with
    | nil =>
      rw [skipOne_miss _ _ (by intro c t e; cases e)]
      simp only [Res.ok_bind]
      have := fin [] [] (.inl rfl) rfl
      simpa using this
    | cons c u =>
      by_cases hc : c = c! '-'
      · rw [skipOne_hit _ _ _ (by rw [hc]; rfl)]
        simp only [Res.ok_bind]
        have := fin (b!"-") u (.inr rfl) (by rw [hc]; rfl)
        rw [List.length_append (as := pre ++ [l])] at this
        exact this
      · rw [skipOne_miss _ _ (by intro d v e g; injection e with e _; subst e; exact hc (by simpa using g))]
        simp only [Res.ok_bind]
        have := fin [] (c :: u) (.inl rfl) rfl
        rw [List.append_nil] at this
        exact this

theorem fixed_split {m : Bytes} (h : IsFixed m) : ∃ c t, m = c :: t ∧ isNumeric c = true := by
  obtain ⟨hne, a, b, ha, hb, h | h⟩ := h
  · cases m with
    | nil => exact absurd rfl hne
    | cons c t => exact ⟨c, t, rfl, (isNumeric_iff c).2 (.inl (ha c (by rw [← h]; simp)))⟩
  · cases a with
    | nil => exact ⟨_, _, h, by decide⟩
    | cons c t => exact ⟨c, _, h, (isNumeric_iff c).2 (.inl (ha c (by simp)))⟩

/-- The three scanning steps over a number without exponent. -/
theorem scan_fixed (pre m r : Bytes) (hm : IsFixed m)
    (hr : NotAt (fun c => Digit c ∨ (c = c! '.' ∧ c! '.' ∉ m)) r) :
    (do
      let j ← skipWhile isDigit (pre ++ (m ++ r)) pre.length
      let j ← skipOne (· == c! '.') (pre ++ (m ++ r)) j
      skipWhile isDigit (pre ++ (m ++ r)) j) = .ok (pre.length + m.length) := by
  have hrd : NotAt (fun c => isDigit c = true) r := fun c t e g => hr c t e (.inl ((isDigit_iff c).1 g))
  have ndot : ∀ a : Bytes, Digits a → c! '.' ∉ a := by
    intro a ha h
    exact absurd (ha _ h) (by unfold Digit; decide)
  obtain ⟨hne, a, b, ha, hb, h | h⟩ := hm
  · subst h
    rw [skipWhile_at pre m r (fun c h => (isDigit_iff c).2 (ha c h)) hrd]
    simp only [Res.ok_bind]
    have e : pre ++ (m ++ r) = (pre ++ m) ++ r := by simp
    rw [e, show pre.length + m.length = (pre ++ m).length by simp,
      skipOne_miss _ _ (fun c t e g => hr c t e (.inr ⟨by simpa using g, ndot m ha⟩))]
    simp only [Res.ok_bind]
    have := skipWhile_at (p := isDigit) (pre ++ m) [] r (by simp) hrd
    simpa using this
  · subst h
    have e0 : pre ++ (a ++ c! '.' :: b ++ r) = pre ++ (a ++ c! '.' :: (b ++ r)) := by simp
    rw [e0, skipWhile_at pre a _ (fun c h => (isDigit_iff c).2 (ha c h)) (by
      intro c t e g; injection e with e _; subst e; exact absurd g (by decide))]
    simp only [Res.ok_bind]
    have e : pre ++ (a ++ c! '.' :: (b ++ r)) = (pre ++ a) ++ c! '.' :: (b ++ r) := by simp
    rw [e, show pre.length + a.length = (pre ++ a).length by simp, skipOne_hit _ _ _ rfl]
    simp only [Res.ok_bind]
    have e2 : (pre ++ a) ++ c! '.' :: (b ++ r) = (pre ++ a ++ [c! '.']) ++ (b ++ r) := by simp
    rw [e2, show (pre ++ a).length + 1 = (pre ++ a ++ [c! '.']).length by simp; omega,
      skipWhile_at _ b r (fun c h => (isDigit_iff c).2 (hb c h)) hrd]
    congr 1
    simp; omega

theorem readDouble_aux (pre sg m r : Bytes) (hsg : sg = [] ∨ sg = b!"-") (hm : IsFixed m)
    (hr : NotAt (fun c => Digit c ∨ (c = c! '.' ∧ c! '.' ∉ m)) r) :
    readDouble (pre ++ (sg ++ m ++ r)) pre.length =
      (readExponent ((pre ++ sg ++ m) ++ r) (pre ++ sg ++ m).length >>= fun x => match x with
        | none => .ok (false, pre.length, [])
        | some e => .ok (true, e, sub (pre ++ (sg ++ m ++ r)) pre.length e)) := by
  obtain ⟨c, t, e1, e2⟩ := fixed_split hm
  unfold readDouble
  rw [(readSign_spec (by decide) pre _).1 sg c (t ++ r) hsg e2 (by rw [e1]; simp)]
  simp only [Res.ok_bind]
  have e : pre ++ (sg ++ m ++ r) = (pre ++ sg) ++ (m ++ r) := by simp
  have sc := scan_fixed (pre ++ sg) m r hm hr
  rw [show pre.length + sg.length = (pre ++ sg).length by simp]
  rw [← e] at sc
  obtain ⟨j1, h1, sc⟩ := Res.bind_eq_ok.1 sc
  obtain ⟨j2, h2, sc⟩ := Res.bind_eq_ok.1 sc
  rw [h1]
  simp only [Res.ok_bind]
  rw [h2]
  simp only [Res.ok_bind]
  rw [sc]
  simp only [Res.ok_bind]
  rw [show pre ++ sg ++ m ++ r = pre ++ (sg ++ m ++ r) by simp, show (pre ++ sg).length + m.length = (pre ++ sg ++ m).length by simp; omega]
  rfl

/-- `read_double` reads an optional minus sign, a decimal number and an optional exponent; an `e` that is
not followed by an exponent makes it fail, and so does a text that does not start with a number. -/
theorem C38_read_double (pre : Bytes) :
    (∀ sg m r, (sg = [] ∨ sg = b!"-") → IsFixed m → NotAt (fun c => Digit c ∨ (c = c! '.' ∧ c! '.' ∉ m)) r →
      NotAt (fun c => c = c! 'e' ∨ c = c! 'E') r →
        readDouble (pre ++ (sg ++ m ++ r)) pre.length = .ok (true, pre.length + (sg ++ m).length, sg ++ m)) ∧
    (∀ sg m x r, (sg = [] ∨ sg = b!"-") → IsFixed m → IsExp x → NotAt Digit r →
        readDouble (pre ++ (sg ++ m ++ (x ++ r))) pre.length =
          .ok (true, pre.length + (sg ++ m ++ x).length, sg ++ m ++ x)) ∧
    (∀ sg m l t, (sg = [] ∨ sg = b!"-") → IsFixed m → (l = c! 'e' ∨ l = c! 'E') →
      (¬ ∃ sg c u, (sg = [] ∨ sg = b!"-") ∧ Digit c ∧ t = sg ++ c :: u) →
        readDouble (pre ++ (sg ++ m ++ (l :: t))) pre.length = .ok (false, pre.length, [])) ∧
    (∀ rest, (¬ ∃ sg c t, (sg = [] ∨ sg = b!"-") ∧ (Digit c ∨ c = c! '.') ∧ rest = sg ++ c :: t) →
        readDouble (pre ++ rest) pre.length = .ok (false, pre.length, [])) := by
  refine ⟨?_, ?_, ?_, ?_⟩
  · intro sg m r h1 h2 h3 h4
    rw [readDouble_aux pre sg m r h1 h2 h3, (readExponent_spec _ r).2.1 h4]
    simp only [Res.ok_bind]
    have := sub_at pre (sg ++ m) r
    rw [show (pre ++ sg ++ m).length = pre.length + (sg ++ m).length by simp, this]
  · intro sg m x r h1 h2 h3 h4
    have hx : ∃ l y, (l = c! 'e' ∨ l = c! 'E') ∧ x = l :: y := by
      obtain ⟨l, s, d, g1, _, _, _, rfl⟩ := h3; exact ⟨l, _, g1, rfl⟩
    obtain ⟨l, y, g1, g2⟩ := hx
    rw [readDouble_aux pre sg m (x ++ r) h1 h2 (by
      intro c t e g
      rw [g2] at e
      injection e with e _
      subst e
      rcases g with g | g
      · rcases g1 with rfl | rfl <;> exact absurd g (by unfold Digit; decide)
      · rcases g1 with rfl | rfl <;> exact absurd g.1 (by decide)),
      (readExponent_spec _ _).1 x r h3 h4 rfl]
    simp only [Res.ok_bind]
    have := sub_at pre (sg ++ m ++ x) r
    rw [show (pre ++ sg ++ m).length + x.length = pre.length + (sg ++ m ++ x).length by simp; omega]
    rw [← List.append_assoc (sg ++ m) x r, this]
  · intro sg m l t h1 h2 h3 h4
    rw [readDouble_aux pre sg m (l :: t) h1 h2 (by
      intro c u e g
      injection e with e _
      subst e
      rcases g with g | g
      · rcases h3 with rfl | rfl <;> exact absurd g (by unfold Digit; decide)
      · rcases h3 with rfl | rfl <;> exact absurd g.1 (by decide)),
      (readExponent_spec _ _).2.2 l t h3 rfl h4]
    rfl
  · intro rest h
    unfold readDouble
    rw [(readSign_spec (by decide) pre rest).2 (by
      rintro ⟨sg, c, t, h1, h2, h3⟩
      exact h ⟨sg, c, t, h1, (isNumeric_iff c).1 h2, h3⟩)]
    rfl

example : readDouble (b!"-1.5e-3 ") 0 = .ok (true, 7, b!"-1.5e-3") := by
  have := (C38_read_double []).2.1 (b!"-") (b!"1.5") (b!"e-3") (b!" ") (.inr rfl)
    ⟨by decide, b!"1", b!"5", by unfold Digits Digit; decide, by unfold Digits Digit; decide, .inr rfl⟩
    ⟨_, b!"-", b!"3", .inl rfl, .inr rfl, by decide, by unfold Digits Digit; decide, rfl⟩
    (by intro c t e; injection e with e _; subst e; unfold Digit; decide)
  exact this

/-- `read_word` reads the maximal run of letters. -/
theorem C38_read_word (pre w r : Bytes) (hw : ∀ c ∈ w, Letter c) (hr : NotAt Letter r) :
    readWord (pre ++ (w ++ r)) pre.length = .ok (decide (w ≠ []), pre.length + w.length, w) := by
  unfold readWord
  rw [skipWhile_at pre w r (fun c h => (isAlpha_iff c).2 (hw c h)) (fun c t e g => hr c t e ((isAlpha_iff c).1 g))]
  simp only [Res.ok_bind]
  rw [sub_at]
  congr 2
  cases w with
  | nil => simp
  | cons c w => simp

/-- The `skip_...` functions advance over the maximal run of their characters. -/
theorem C38_skip (pre w r : Bytes) :
    ((∀ c ∈ w, c = c! ' ' ∨ c = 9) → NotAt (fun c => c = c! ' ' ∨ c = 9) r →
      skipSpaces (pre ++ (w ++ r)) pre.length = .ok (pre.length + w.length)) ∧
    ((∀ c ∈ w, c = c! ' ' ∨ c = 9 ∨ c = 10) → NotAt (fun c => c = c! ' ' ∨ c = 9 ∨ c = 10) r →
      skipWhitespace (pre ++ (w ++ r)) pre.length = .ok (pre.length + w.length)) := by
  have h1 : ∀ c : UInt8, (c == c! ' ' || c == 9) = true ↔ c = c! ' ' ∨ c = 9 := by
    intro c; rw [Bool.or_eq_true, beq_iff_eq, beq_iff_eq]
  have h2 : ∀ c : UInt8, (c == c! ' ' || c == 9 || c == 10) = true ↔ c = c! ' ' ∨ c = 9 ∨ c = 10 := by
    intro c; rw [Bool.or_eq_true, Bool.or_eq_true, beq_iff_eq, beq_iff_eq, beq_iff_eq, or_assoc]
  exact ⟨fun hw hr => skipWhile_at pre w r (fun c h => (h1 c).2 (hw c h)) (fun c t e g => hr c t e ((h1 c).1 g)),
    fun hw hr => skipWhile_at pre w r (fun c h => (h2 c).2 (hw c h)) (fun c t e g => hr c t e ((h2 c).1 g))⟩

/-- `skip_line` advances to the start of the next line, or to the end. -/
theorem C38_skip_line (pre l r : Bytes) (hl : ∀ c ∈ l, c ≠ 10) :
    skipLine (pre ++ (l ++ 10 :: r)) pre.length = .ok (pre.length + l.length + 1) ∧
    skipLine (pre ++ l) pre.length = .ok (pre.length + l.length) := by
  have hw : ∀ c ∈ l, (c != 10) = true := fun c hc => by simpa using hl c hc
  constructor
  · unfold skipLine
    rw [skipWhile_at pre l _ hw (by intro c t e; injection e with e1 e2; subst e1; decide)]
    simp only [Res.ok_bind]
    rw [if_pos (by simp)]
  · unfold skipLine
    have := skipWhile_at pre l [] hw (by intro c t e; cases e)
    rw [List.append_nil] at this
    rw [this]
    simp only [Res.ok_bind]
    rw [if_neg (by simp)]

theorem symbolLoop_spec (s : Bytes) (i : Nat) (h0 : 0 < i) (hi : i ≤ s.length) :
    symbolLoop s i = .ok (if c! '>' ∈ s.drop (i - 1) then i + ((s.drop (i - 1)).takeWhile (· != c! '>')).length
      else s.length) := by
  induction hk : s.length - i generalizing i with
  | zero =>
    have : i = s.length := by omega
    rw [symbolLoop, if_neg (by omega), this]
    rw [List.drop_eq_getElem_cons (by omega : s.length - 1 < s.length), List.drop_of_length_le (by omega)]
    generalize s[s.length - 1] = c
    by_cases hc : c = c! '>'
    · subst hc; simp
    · rw [if_neg (by simpa using fun h => hc h.symm)]
  | succ k ih =>
    have hi' : i - 1 < s.length := by omega
    rw [symbolLoop, if_pos (by omega), rd_ok hi', List.drop_eq_getElem_cons hi']
    simp only [Res.ok_bind]
    by_cases hc : s[i - 1] = c! '>'
    · rw [if_pos hc, hc]; simp
    · rw [if_neg hc, ih (i + 1) (by omega) (by omega) (by omega), Nat.add_sub_cancel, show i - 1 + 1 = i by omega,
        List.takeWhile_cons_of_pos (by simpa using hc), List.length_cons]
      have : (c! '>' ∈ s[i - 1] :: s.drop i) ↔ c! '>' ∈ s.drop i := by
        rw [List.mem_cons]
        exact ⟨fun h => h.elim (fun e => absurd e.symm hc) id, .inr⟩
      simp only [this]
      split
      · congr 1; omega
      · rfl

/-- `skip_symbol` advances over one character, or over `<...>`, or to the end if it is not closed. -/
theorem C38_skip_symbol (pre : Bytes) :
    skipSymbol pre pre.length = .ok pre.length ∧
    (∀ c t, c ≠ c! '<' → skipSymbol (pre ++ c :: t) pre.length = .ok (pre.length + 1)) ∧
    (∀ w t, c! '>' ∉ w → skipSymbol (pre ++ c! '<' :: (w ++ c! '>' :: t)) pre.length = .ok (pre.length + w.length + 2)) ∧
    (∀ w, c! '>' ∉ w → skipSymbol (pre ++ c! '<' :: w) pre.length = .ok (pre.length + w.length + 1)) := by
  refine ⟨?_, ?_, ?_, ?_⟩
  · unfold skipSymbol; rw [if_neg (by omega)]
  · intro c t h
    unfold skipSymbol
    rw [if_pos (by simp), rd_at]
    simp only [Res.ok_bind]
    rw [if_neg h]
  · intro w t h
    unfold skipSymbol
    rw [if_pos (by simp), rd_at]
    simp only [Res.ok_bind]
    rw [if_pos trivial, symbolLoop_spec _ _ (by omega) (by simp), Nat.add_sub_cancel, drop_pre, if_pos (by simp),
      List.takeWhile_cons_of_pos (by decide), tw_split (by intro c hc; simp; rintro rfl; exact h hc)
        (by intro c u e; injection e with e _; subst e; decide), List.length_cons]
    congr 1; omega
  · intro w h
    unfold skipSymbol
    rw [if_pos (by simp), rd_at]
    simp only [Res.ok_bind]
    rw [if_pos trivial, symbolLoop_spec _ _ (by omega) (by simp), Nat.add_sub_cancel, drop_pre, if_neg (by
      rw [List.mem_cons]; rintro (h' | h')
      · exact absurd h' (by decide)
      · exact h h')]
    simp; omega

example : skipSymbol (b!"a<alpha>b") 1 = .ok 8 := (C38_skip_symbol (b!"a")).2.2.1 (b!"alpha") (b!"b") (by decide)

/-! ## C39 -/

/-- The number with the big-endian bytes `bs`. -/
def bigEndian : Bytes → Nat
  | [] => 0
  | c :: bs => c.toNat * 256 ^ bs.length + bigEndian bs

/-- The signed integer of `k` bits with the same bits as `n`. -/
def signed (k n : Nat) : Int := if n < 2 ^ (k - 1) then n else n - 2 ^ k

theorem signed_spec (k n : Nat) (x : Int) (h : n < 2 ^ (k - 1) → x = n) (h' : ¬ n < 2 ^ (k - 1) → x = n - 2 ^ k) :
    x = signed k n := by
  unfold signed
  by_cases g : n < 2 ^ (k - 1)
  · rw [if_pos g]; exact h g
  · rw [if_neg g]; exact h' g

theorem schar_eq (c : UInt8) : schar c = if c.toNat < 128 then (c.toNat : Int) else c.toNat - 256 := by
  revert c; exact forall_byte (by decide +kernel)

theorem bmod_small (x : Int) (h : -2 ^ 31 ≤ x ∧ x < 2 ^ 31) : Int.bmod x (2 ^ 32) = x := by
  have e : (((2 ^ 32 : Nat)) : Int) = 4294967296 := rfl
  rw [Int.bmod_def, e]
  split <;> omega

theorem bmod_small16 (x : Int) (h : -2 ^ 15 ≤ x ∧ x < 2 ^ 15) : Int.bmod x (2 ^ 16) = x := by
  have e : (((2 ^ 16 : Nat)) : Int) = 65536 := rfl
  rw [Int.bmod_def, e]
  split <;> omega

/-- Reading at a position with enough bytes, with the usual meaning of shifts. -/
theorem C39_parse (pre r : Bytes) :
    (∀ a, parseQI (pre ++ a :: r) pre.length = .ok (signed 8 (bigEndian [a]), pre.length + 1)) ∧
    (∀ a, parseQN (pre ++ a :: r) pre.length = .ok (bigEndian [a], pre.length + 1)) ∧
    (∀ a b, parseHI .wrap (pre ++ a :: b :: r) pre.length = .ok (signed 16 (bigEndian [a, b]), pre.length + 2)) ∧
    (∀ a b, parseHN .wrap (pre ++ a :: b :: r) pre.length = .ok (bigEndian [a, b], pre.length + 2)) ∧
    (∀ a b c d, parseSI .wrap (pre ++ a :: b :: c :: d :: r) pre.length =
      .ok (signed 32 (bigEndian [a, b, c, d]), pre.length + 4)) := by
  have r2 : ∀ (a b c : UInt8) t, rd (pre ++ a :: b :: c :: t) (pre.length + 2) = .ok c := by
    intro a b c t; have := rd_at (pre ++ [a, b]) c t; simpa using this
  have r3 : ∀ (a b c d : UInt8) t, rd (pre ++ a :: b :: c :: d :: t) (pre.length + 3) = .ok d := by
    intro a b c d t; have := rd_at (pre ++ [a, b, c]) d t; simpa using this
  have sh : ∀ x : Int, -2 ^ 23 ≤ x ∧ x < 2 ^ 23 → shl8 .wrap x = .ok (x * 256) := by
    intro x hx
    unfold shl8
    rw [if_neg (by simp), bmod_small _ (by omega)]
  refine ⟨?_, ?_, ?_, ?_, ?_⟩
  · intro a
    unfold parseQI signed bigEndian bigEndian
    rw [rd_at]
    simp only [Res.ok_bind]
    have := schar_eq a
    have := a.toNat_lt
    simp only [List.length_nil, Nat.pow_zero, Nat.mul_one, Nat.add_zero]
    rw [schar_eq]
    rfl
  · intro a
    unfold parseQN bigEndian bigEndian
    rw [rd_at]
    simp
  · intro a b
    have ha := a.toNat_lt
    have hb := b.toNat_lt
    have hs := schar_eq a
    unfold parseHI
    rw [rd_at, rd_at1]
    simp only [Res.ok_bind]
    rw [sh _ (by split at hs <;> omega)]
    simp only [Res.ok_bind]
    rw [bmod_small16 _ (by split at hs <;> omega)]
    congr 2
    simp only [bigEndian, List.length_cons, List.length_nil]
    apply signed_spec
    · intro h; split at hs <;> omega
    · intro h; split at hs <;> omega
  · intro a b
    have ha := a.toNat_lt
    have hb := b.toNat_lt
    unfold parseHN
    rw [rd_at, rd_at1]
    simp only [Res.ok_bind]
    rw [sh _ (by omega)]
    simp only [Res.ok_bind]
    congr 2
    simp only [bigEndian, List.length_cons, List.length_nil]
    omega
  · intro a b c d
    have ha := a.toNat_lt
    have hb := b.toNat_lt
    have hc := c.toNat_lt
    have hd := d.toNat_lt
    have hs := schar_eq a
    unfold parseSI
    rw [rd_at, rd_at1, r2, r3]
    simp only [Res.ok_bind]
    rw [sh _ (by split at hs <;> omega)]
    simp only [Res.ok_bind]
    rw [sh _ (by split at hs <;> omega)]
    simp only [Res.ok_bind]
    rw [sh _ (by split at hs <;> omega)]
    simp only [Res.ok_bind]
    congr 2
    simp only [bigEndian, List.length_cons, List.length_nil]
    apply signed_spec
    · intro h; split at hs <;> omega
    · intro h; split at hs <;> omega

/-- Reading with too few bytes left is undefined. -/
theorem C39_short (m : Shift) (s : Bytes) (pos : Nat) :
    (s.length < pos + 1 → parseQI s pos = .ub ∧ parseQN s pos = .ub) ∧
    (s.length < pos + 2 → parseHI m s pos = .ub ∧ parseHN m s pos = .ub) ∧
    (s.length < pos + 4 → parseSI m s pos = .ub) := by
  have h : ∀ i, (s.length ≤ i ∧ rd s i = .ub) ∨ (i < s.length ∧ ∃ c, rd s i = .ok c) := by
    intro i
    by_cases h : i < s.length
    · exact .inr ⟨h, _, rd_ok h⟩
    · exact .inl ⟨by omega, rd_ub (by omega)⟩
  refine ⟨fun g => ?_, fun g => ?_, fun g => ?_⟩
  · unfold parseQI parseQN
    rcases h pos with ⟨_, e⟩ | ⟨h, _⟩
    · rw [e]; exact ⟨rfl, rfl⟩
    · omega
  · unfold parseHI parseHN
    rcases h pos with ⟨_, e⟩ | ⟨_, c, e⟩
    · rw [e]; exact ⟨rfl, rfl⟩
    · rw [e]
      simp only [Res.ok_bind]
      rcases h (pos + 1) with ⟨_, e⟩ | ⟨h, _⟩
      · rw [e]; exact ⟨rfl, rfl⟩
      · omega
  · unfold parseSI
    rcases h pos with ⟨_, e⟩ | ⟨_, c, e⟩
    · rw [e]; rfl
    rw [e]
    simp only [Res.ok_bind]
    rcases h (pos + 1) with ⟨_, e⟩ | ⟨_, c, e⟩
    · rw [e]; rfl
    rw [e]
    simp only [Res.ok_bind]
    rcases h (pos + 2) with ⟨_, e⟩ | ⟨_, c, e⟩
    · rw [e]; rfl
    rw [e]
    simp only [Res.ok_bind]
    rcases h (pos + 3) with ⟨_, e⟩ | ⟨h, _⟩
    · rw [e]; rfl
    · omega

/-- By the letter of C++17: undefined exactly when a negative number is shifted, that is when the first
byte of a signed integer of several bytes is above 127. -/
theorem C39_strict (pre r : Bytes) (a b c d : UInt8) :
    parseHI .strict (pre ++ a :: b :: r) pre.length =
      (if 128 ≤ a.toNat then .ub else parseHI .wrap (pre ++ a :: b :: r) pre.length) ∧
    parseHN .strict (pre ++ a :: b :: r) pre.length = parseHN .wrap (pre ++ a :: b :: r) pre.length ∧
    parseSI .strict (pre ++ a :: b :: c :: d :: r) pre.length =
      (if 128 ≤ a.toNat then .ub else parseSI .wrap (pre ++ a :: b :: c :: d :: r) pre.length) := by
  have r2 : ∀ (a b c : UInt8) t, rd (pre ++ a :: b :: c :: t) (pre.length + 2) = .ok c := by
    intro a b c t; have := rd_at (pre ++ [a, b]) c t; simpa using this
  have r3 : ∀ (a b c d : UInt8) t, rd (pre ++ a :: b :: c :: d :: t) (pre.length + 3) = .ok d := by
    intro a b c d t; have := rd_at (pre ++ [a, b, c]) d t; simpa using this
  have ha := a.toNat_lt
  have hb := b.toNat_lt
  have hc := c.toNat_lt
  have hd := d.toNat_lt
  have hs := schar_eq a
  have pos : ∀ x : Int, 0 ≤ x → shl8 .strict x = shl8 .wrap x := by
    intro x hx; unfold shl8; rw [if_neg (by omega), if_neg (by simp)]
  have neg : ∀ x : Int, x < 0 → shl8 .strict x = .ub := by
    intro x hx; unfold shl8; rw [if_pos ⟨rfl, hx⟩]
  have sh : ∀ x : Int, -2 ^ 23 ≤ x ∧ x < 2 ^ 23 → shl8 .wrap x = .ok (x * 256) := by
    intro x hx
    unfold shl8
    rw [if_neg (by simp), bmod_small _ (by omega)]
  refine ⟨?_, ?_, ?_⟩
  · unfold parseHI
    rw [rd_at, rd_at1]
    simp only [Res.ok_bind]
    by_cases h : 128 ≤ a.toNat
    · rw [if_pos h, neg _ (by split at hs <;> omega)]; rfl
    · rw [if_neg h, pos _ (by split at hs <;> omega)]
  · unfold parseHN
    rw [rd_at, rd_at1]
    simp only [Res.ok_bind]
    rw [pos _ (by omega)]
  · unfold parseSI
    rw [rd_at, rd_at1, r2, r3]
    simp only [Res.ok_bind]
    by_cases h : 128 ≤ a.toNat
    · rw [if_pos h, neg _ (by split at hs <;> omega)]; rfl
    · rw [if_neg h, pos _ (by split at hs <;> omega), sh _ (by split at hs <;> omega)]
      simp only [Res.ok_bind]
      rw [pos _ (by split at hs <;> omega), sh _ (by split at hs <;> omega)]
      simp only [Res.ok_bind]
      rw [pos _ (by split at hs <;> omega)]

/-- The four big-endian bytes of an `int` in two's complement. -/
def intBytes (v : Int) : Bytes :=
  let n := (v % 2 ^ 32).toNat
  [UInt8.ofNat (n / 2 ^ 24), UInt8.ofNat (n / 2 ^ 16), UInt8.ofNat (n / 2 ^ 8), UInt8.ofNat n]

theorem parseSI_bytes (pre r : Bytes) (v : Int) (hv : -2 ^ 31 ≤ v ∧ v < 2 ^ 31) :
    parseSI .wrap (pre ++ (intBytes v ++ r)) pre.length = .ok (v, pre.length + 4) := by
  unfold intBytes
  dsimp only
  rw [show ∀ a b c d : UInt8, [a, b, c, d] ++ r = a :: b :: c :: d :: r from fun _ _ _ _ => rfl, (C39_parse pre r).2.2.2.2]
  congr 2
  have h0 : ∀ x, (UInt8.ofNat x).toNat = x % 256 := by intro x; simp [UInt8.toNat_ofNat']
  simp only [bigEndian, List.length_cons, List.length_nil, h0]
  symm
  apply signed_spec
  · intro h; omega
  · intro h; omega

/-- Writing any integers in big-endian bytes and parsing them as an array gives them back. -/
theorem C39_array (vs : List Int) (hv : ∀ v ∈ vs, -2 ^ 31 ≤ v ∧ v < 2 ^ 31) (pre r : Bytes) :
    parseArray .wrap (pre ++ (vs.flatMap intBytes ++ r)) vs.length pre.length =
      .ok (vs, pre.length + 4 * vs.length) := by
  induction vs generalizing pre with
  | nil => rfl
  | cons v vs ih =>
    rw [List.length_cons, parseArray, List.flatMap_cons, List.append_assoc, parseSI_bytes _ _ _ (hv v (by simp))]
    simp only [Res.ok_bind]
    have := ih (fun w hw => hv w (by simp [hw])) (pre ++ intBytes v)
    rw [List.length_append, show (intBytes v).length = 4 from rfl, List.append_assoc] at this
    rw [this]
    simp only [Res.ok_bind]
    congr 2; omega

example : intBytes (-2) = [255, 255, 255, 254] := by decide

/-! ## C76: `find_non_alpha` -/

/-- Forwards: the first position from `pos` on that is not a letter, or -1. -/
theorem C76_forward (pre w : Bytes) (hw : ∀ c ∈ w, Letter c) :
    (∀ c r, ¬ Letter c → nonAlphaForward (pre ++ (w ++ c :: r)) pre.length = .ok ((pre.length + w.length : Nat) : Int)) ∧
    nonAlphaForward (pre ++ w) pre.length = .ok (-1) := by
  induction w generalizing pre with
  | nil =>
    constructor
    · intro c r hc
      rw [nonAlphaForward, if_pos (by simp), List.nil_append, rd_at]
      simp only [Res.ok_bind]
      rw [if_neg (fun g => hc ((isAlpha_iff c).1 g))]; rfl
    · rw [nonAlphaForward, if_neg (by simp)]
  | cons d w ih =>
    have ih := ih (pre ++ [d]) fun c hc => hw c (by simp [hc])
    have hd := (isAlpha_iff d).2 (hw d (by simp))
    constructor
    · intro c r hc
      rw [nonAlphaForward, if_pos (by simp), List.cons_append, rd_at]
      simp only [Res.ok_bind]
      rw [if_pos hd]
      have := ih.1 c r hc
      simp only [List.length_append, List.length_cons, List.length_nil, List.append_assoc, List.cons_append, List.nil_append] at this
      rw [this]; congr 2; simp; omega
    · rw [nonAlphaForward, if_pos (by simp), rd_at]
      simp only [Res.ok_bind]
      rw [if_pos hd]
      have := ih.2
      simpa using this

/-- Backwards: the last position before `pos` that is not a letter, or -1. -/
theorem C76_backward (pre w r : Bytes) (hw : ∀ c ∈ w, Letter c) :
    (∀ c, ¬ Letter c → nonAlphaBackward (pre ++ (c :: w) ++ r) (pre.length + 1 + w.length) = .ok pre.length) ∧
    nonAlphaBackward (w ++ r) w.length = .ok (-1) := by
  have step : ∀ (s : Bytes) k c, s[k]? = some c → Letter c → nonAlphaBackward s (k + 1) = nonAlphaBackward s k := by
    intro s k c hk hc
    rw [nonAlphaBackward, rd_eq_ok.2 hk]
    simp only [Res.ok_bind]
    rw [if_pos ((isAlpha_iff c).2 hc)]
  have run : ∀ (k : Nat) (s : Bytes) (j : Nat), (∀ i, j ≤ i → i < j + k → ∃ c, s[i]? = some c ∧ Letter c) →
      nonAlphaBackward s (j + k) = nonAlphaBackward s j := by
    intro k
    induction k with
    | zero => intro s j _; rfl
    | succ k ih =>
      intro s j h
      obtain ⟨c, h1, h2⟩ := h (j + k) (by omega) (by omega)
      rw [← Nat.add_assoc, step s (j + k) c h1 h2]
      exact ih s j fun i a b => h i a (by omega)
  constructor
  · intro c hc
    rw [run w.length _ (pre.length + 1)]
    · rw [nonAlphaBackward]
      have : (pre ++ c :: w ++ r)[pre.length]? = some c := by simp
      rw [rd_eq_ok.2 this]
      simp only [Res.ok_bind]
      rw [if_neg (fun g => hc ((isAlpha_iff c).1 g))]
    · intro i h1 h2
      refine ⟨w[i - (pre.length + 1)], ?_, hw _ (List.getElem_mem _)⟩
      rw [List.append_assoc, List.getElem?_append_right (by omega), List.cons_append,
        show i - pre.length = i - (pre.length + 1) + 1 by omega, List.getElem?_cons_succ, List.getElem?_append_left (by omega),
        List.getElem?_eq_getElem (by omega)]
  · have := run w.length (w ++ r) 0 (by
      intro i _ h
      refine ⟨w[i], ?_, hw _ (List.getElem_mem _)⟩
      rw [List.getElem?_append_left (by omega), List.getElem?_eq_getElem (by omega)])
    rw [Nat.zero_add] at this
    rw [this]; rfl

example : nonAlphaBackward (b!"a b") 3 = .ok 1 := (C76_backward (b!"a") (b!"b") [] (by unfold Letter; decide)).1 (c! ' ') (by unfold Letter; decide)

/-! ## C77: `parse_length` -/

/-- A lower-case letter. -/
def Low (c : UInt8) : Prop := 97 ≤ c.toNat ∧ c.toNat ≤ 122

instance : DecidablePred Low := fun c => by unfold Low; infer_instance

theorem isLocase_iff (c : UInt8) : isLocase c = true ↔ Low c := by
  have : ∀ c : UInt8, isLocase c = decide (97 ≤ c.toNat ∧ c.toNat ≤ 122) := by apply forall_byte; decide +kernel
  rw [this, decide_eq_true_eq]; rfl

theorem parseLength_split (x u : Bytes) (hx : ∀ c ∈ x, ¬ Low c) (hu : ∀ c t, u = c :: t → Low c) :
    parseLength (x ++ u) = (Conv.isDouble (rd x) x.length >>= fun d =>
      .ok (if d = true ∧ ∀ c ∈ u, Low c then some (x, u) else none)) := by
  have sk := skipWhile_at (p := fun c => !isLocase c) [] x u
    (by intro c hc; have := hx c hc; rw [← isLocase_iff] at this; simpa using this)
    (by intro c t e g; have := hu c t e; rw [← isLocase_iff] at this; simp [this] at g)
  rw [List.nil_append, List.length_nil, Nat.zero_add] at sk
  unfold parseLength
  rw [sk]
  simp only [Res.ok_bind]
  have e1 : sub (x ++ u) 0 (x.length : Nat) = x := by
    have := sub_at [] x u; simpa using this
  have e2 : sub (x ++ u) (x.length : Nat) ((x ++ u).length : Nat) = u := by
    have := sub_at x u []; simpa using this
  rw [e1, e2]
  congr 1
  funext d
  cases d with
  | false => simp
  | true =>
    rw [if_pos rfl, (CharsProps.C75_classes u).2.1]
    simp only [Res.ok_bind]
    congr 1
    cases u with
    | nil => simp
    | cons c u => simp [Low]

/-- A number without exponent followed by lower-case letters is split into the two. -/
theorem C77_length (sg a b x u : Bytes) (hsg : sg = [] ∨ sg = b!"+" ∨ sg = b!"-") (ha : Digits a) (hb : Digits b)
    (hx : (x = sg ++ a ∧ a ≠ []) ∨ (x = sg ++ a ++ c! '.' :: b ∧ b ≠ [])) (hu : ∀ c ∈ u, Low c) :
    parseLength (x ++ u) = .ok (some (x, u)) := by
  have dig : ∀ w : Bytes, Digits w → ∀ c ∈ w, ¬ Low c := by
    intro w h c hc; have := h c hc; unfold Digit at this; unfold Low; omega
  have sgn : ∀ c ∈ sg, ¬ Low c := by
    intro c hc
    rcases hsg with rfl | rfl | rfl
    · simp at hc
    · simp at hc; subst hc; unfold Low; decide
    · simp at hc; subst hc; unfold Low; decide
  have nolow : ∀ c ∈ x, ¬ Low c := by
    intro c hc
    rcases hx with ⟨rfl, _⟩ | ⟨rfl, _⟩
    · rw [List.mem_append] at hc
      exact hc.elim (sgn c) (dig a ha c)
    · rw [List.mem_append, List.mem_append, List.mem_cons] at hc
      rcases hc with (hc | hc) | hc | hc
      · exact sgn c hc
      · exact dig a ha c hc
      · subst hc; unfold Low; decide
      · exact dig b hb c hc
  have acc : Conv.isDouble (rd x) x.length = .ok true := by
    rw [ConvProps.C71_accepts]
    have hs : ConvProps.SkippedSign sg := by
      rcases hsg with h | h | h
      · exact .inl h
      · exact .inr (.inl h)
      · exact .inr (.inr (.inl h))
    rcases hx with ⟨rfl, h⟩ | ⟨rfl, h⟩
    · exact ⟨sg, a, [], [], hs, ha, .inl rfl, by simpa using h, .inl rfl, by simp⟩
    · exact ⟨sg, a, c! '.' :: b, [], hs, ha, .inr ⟨b, rfl, hb, by simpa using h⟩, by simp, .inl rfl, by simp⟩
  rw [parseLength_split x u nolow (fun c t e => hu c (by rw [e]; simp)), acc]
  simp only [Res.ok_bind]
  rw [if_pos ⟨trivial, hu⟩]

/-- Whatever is accepted has that form, up to the sign "+-", which is accepted as well; and the only
reads outside of the text happen when the part before the first lower-case letter is "+". -/
theorem C77_only (s : Bytes) :
    (∀ x u, parseLength s = .ok (some (x, u)) → s = x ++ u ∧ (∀ c ∈ u, Low c) ∧
      ∃ sg a b, ConvProps.SkippedSign sg ∧ Digits a ∧ Digits b ∧
        ((x = sg ++ a ∧ a ≠ []) ∨ (x = sg ++ a ++ c! '.' :: b ∧ b ≠ []))) ∧
    (parseLength s = .ub ↔ s = b!"+" ∨ ∃ c t, Low c ∧ s = b!"+" ++ c :: t) := by
  obtain ⟨x, u, rfl, hx, hu⟩ : ∃ x u, s = x ++ u ∧ (∀ c ∈ x, ¬ Low c) ∧ ∀ c t, u = c :: t → Low c := by
    refine ⟨s.takeWhile (fun c => !isLocase c), s.dropWhile (fun c => !isLocase c), List.takeWhile_append_dropWhile.symm, ?_, ?_⟩
    · intro c hc
      have := (List.all_eq_true.1 (List.all_takeWhile (l := s) (p := fun c => !isLocase c))) c hc
      rw [← isLocase_iff]; simpa using this
    · intro c t e
      have := List.head?_dropWhile_not (fun c => !isLocase c) s
      rw [e] at this
      rw [← isLocase_iff]; simpa using this
  rw [parseLength_split x u hx hu]
  have noe : c! 'e' ∉ x := fun h => hx _ h (by unfold Low; decide)
  constructor
  · intro x' u' h
    obtain ⟨d, h1, h2⟩ := Res.bind_eq_ok.1 h
    injection h2 with h2
    split at h2
    · rename_i g
      injection h2 with h2
      injection h2 with h3 h4
      subst h3 h4
      refine ⟨rfl, g.2, ?_⟩
      rw [g.1, ConvProps.C71_accepts] at h1
      obtain ⟨sg, ds, fr, ex, a1, a2, a3, a4, a5, e⟩ := h1
      have hex : ex = [] := by
        rcases a5 with h | ⟨_, _, h, _⟩
        · exact h
        · exact absurd (by rw [e, h]; simp) noe
      subst hex
      rcases a3 with h | ⟨fs, h, h', h''⟩
      · subst h
        exact ⟨sg, ds, [], a1, a2, (fun c hc => by cases hc), .inl ⟨by rw [e]; simp, by simpa using a4⟩⟩
      · subst h
        exact ⟨sg, ds, fs, a1, a2, h', .inr ⟨by rw [e]; simp, by simpa using h''⟩⟩
    · cases h2
  · have hub : (Conv.isDouble (rd x) x.length >>= fun d =>
        Res.ok (if d = true ∧ ∀ c ∈ u, Low c then some (x, u) else none)) = .ub ↔ x = b!"+" := by
      constructor
      · intro h
        apply Classical.byContradiction
        intro hne
        obtain ⟨b, hb⟩ := (ConvProps.C17_partial x).2.2.2 (by
          rintro (h | ⟨sg, ds, fr, _, _, _, h | h⟩)
          · exact hne h
          · exact noe (by rw [h]; simp)
          · exact noe (by rw [h]; simp))
        rw [hb] at h
        cases h
      · intro h
        rw [(ConvProps.C17_partial x).2.1.2 (.inl h)]; rfl
    rw [hub]
    constructor
    · rintro rfl
      cases u with
      | nil => exact .inl (by simp)
      | cons c t => exact .inr ⟨c, t, hu c t rfl, rfl⟩
    · have cut : ∀ v : Bytes, x ++ u = b!"+" ++ v → (∀ c t, v = c :: t → Low c) → x = b!"+" := by
        intro v e hv
        have h1 : (x ++ u).takeWhile (fun c => !isLocase c) = x := tw_split
          (by intro c hc; have := hx c hc; rw [← isLocase_iff] at this; simpa using this)
          (by intro c t e g; have := hu c t e; rw [← isLocase_iff] at this; simp [this] at g)
        rw [e, tw_split (by decide) (by intro c t e g; have := hv c t e; rw [← isLocase_iff] at this; simp [this] at g)] at h1
        exact h1.symm
      rintro (h | ⟨c, t, hc, h⟩)
      · exact cut [] (by simpa using h) (by intro c t e; cases e)
      · exact cut (c :: t) h (by intro c' t' e; injection e with e _; subst e; exact hc)

example : parseLength (b!"-1.5cm") = .ok (some (b!"-1.5", b!"cm")) :=
  C77_length (b!"-") (b!"1") (b!"5") (b!"-1.5") (b!"cm") (.inr (.inr rfl)) (by unfold Digits Digit; decide)
    (by unfold Digits Digit; decide) (.inr ⟨rfl, by decide⟩) (by unfold Low; decide)

end Lolly.ReadersProps
