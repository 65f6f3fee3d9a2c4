import Verif.Strings.ConvertLemmas
import Verif.Strings.StrProps

/-!
# Properties C16, C17, C71, C72: conversions between strings and numbers
-/

set_option autoImplicit false

namespace Lolly.ConvProps

open Lolly.Conv

/-! ## Specification -/

/-- One of the bytes '0', ..., '9'. -/
def Digit (c : UInt8) : Prop := 48 ≤ c.toNat ∧ c.toNat ≤ 57

/-- A possibly empty run of digits. -/
def Digits (ds : Bytes) : Prop := ∀ c ∈ ds, Digit c

/-- The number written by a run of digits: each digit counts with its power of ten. -/
def numeral : Bytes → Nat
  | [] => 0
  | c :: cs => (c.toNat - 48) * 10 ^ cs.length + numeral cs

/-- `s` is an optional sign followed by at least one digit, and denotes `v`. -/
def Denotes (s : Bytes) (v : Int) : Prop :=
  ∃ ds, ds ≠ [] ∧ Digits ds ∧
    ((s = ds ∧ v = numeral ds) ∨ (s = c! '+' :: ds ∧ v = numeral ds) ∨
      (s = c! '-' :: ds ∧ v = -(numeral ds : Int)))

/-- What the recognisers skip as a sign. -/
def SkippedSign (sg : Bytes) : Prop := sg = [] ∨ sg = b!"+" ∨ sg = b!"-" ∨ sg = b!"+-"

/-! ## Bridges -/

theorem digits_all {ds : Bytes} : Digits ds ↔ ds.all isDig = true := by
  simp [Digits, Digit, List.all_eq_true, isDig]

theorem foldl_numeral (ds : Bytes) (v : Nat) :
    ds.foldl (fun v c => v * 10 + (c.toNat - 48)) v = v * 10 ^ ds.length + numeral ds := by
  induction ds generalizing v with
  | nil => simp [numeral]
  | cons c ds ih =>
    rw [List.foldl_cons, ih, numeral, List.length_cons, Nat.pow_succ, Nat.add_mul]
    rw [Nat.mul_comm (10 ^ ds.length) 10, Nat.mul_assoc, Nat.add_assoc]

theorem value_numeral (ds : Bytes) : value ds = numeral ds := by
  rw [value, foldl_numeral]; simp

theorem skipped_signs {sg : Bytes} : SkippedSign sg ↔ sg ∈ signs := by
  simp [SkippedSign, signs]

theorem nonDigitHead_nil : NonDigitHead [] := fun c r h => by simp at h

theorem denotes_asInt {lim : Int} (hlim : 0 < lim) {s : Bytes} {v : Int} (h : Denotes s v) :
    asInt lim s = if -lim < v ∧ v < lim then .ok v else .ub := by
  obtain ⟨ds, hne, hd, h⟩ := h
  have hd' := digits_all.1 hd
  have key := fun (sg : Bytes) hs => asInt_spec hlim sg ds [] hs hd' nonDigitHead_nil
    (fun _ e => absurd e hne)
  rw [value_numeral] at key
  rcases h with ⟨rfl, rfl⟩ | ⟨rfl, rfl⟩ | ⟨rfl, rfl⟩
  · have := key [] (.inl rfl)
    rw [List.nil_append, List.append_nil] at this
    rw [this]
    by_cases hv : (numeral s : Int) < lim
    · rw [if_pos hv, if_neg (by decide), if_pos ⟨by omega, hv⟩]
    · rw [if_neg hv, if_neg (fun h => hv h.2)]
  · have := key (b!"+") (.inr (.inl rfl))
    rw [List.append_nil] at this
    refine Eq.trans this ?_
    by_cases hv : (numeral ds : Int) < lim
    · rw [if_pos hv, if_neg (by decide), if_pos ⟨by omega, hv⟩]
    · rw [if_neg hv, if_neg (fun h => hv h.2)]
  · have := key (b!"-") (.inr (.inr rfl))
    rw [List.append_nil] at this
    refine Eq.trans this ?_
    by_cases hv : (numeral ds : Int) < lim
    · rw [if_pos hv, if_pos rfl, if_pos ⟨by omega, by omega⟩]
    · rw [if_neg hv, if_neg (fun h => hv (by omega))]

theorem isIntL_true {s : Bytes} : isIntL s = .ok true ↔
    ∃ sg ds, SkippedSign sg ∧ ds ≠ [] ∧ Digits ds ∧ s = sg ++ ds := by
  constructor
  · intro h
    unfold isIntL at h
    by_cases hs : s = []
    · rw [if_pos hs] at h; simp at h
    · rw [if_neg hs, Res.bind_eq_ok] at h
      obtain ⟨r, h1, h2⟩ := h
      obtain ⟨sg, h3, h4⟩ := signL_ok h1
      simp only [Res.ok.injEq, Bool.and_eq_true, Bool.not_eq_true', List.isEmpty_eq_false_iff] at h2
      exact ⟨sg, r, skipped_signs.2 h3, h2.1, digits_all.2 h2.2, h4⟩
  · rintro ⟨sg, ds, h1, h2, h3, rfl⟩
    unfold isIntL
    rw [if_neg (by simp [h2])]
    cases ds with
    | nil => exact absurd rfl h2
    | cons c r =>
      have hd := digits_all.1 h3
      have hc : isDig c = true := by rw [List.all_cons, Bool.and_eq_true] at hd; exact hd.1
      rw [signL_append (skipped_signs.1 h1) r (digit_not_sign hc).1 (digit_not_sign hc).2.1]
      simp only [Res.ok_bind, hd]; rfl

theorem isIntL_ub {s : Bytes} : isIntL s = .ub ↔ s = b!"+" := by
  unfold isIntL
  by_cases hs : s = []
  · simp [hs]
  · rw [if_neg hs]
    constructor
    · intro h
      cases hr : signL s with
      | ub => rcases (signL_ub s).1 hr with h | h
              · exact absurd h hs
              · exact h
      | ok r => rw [hr] at h; simp at h
      | thrown => exact absurd hr (signL_not_thrown s).1
      | hang => exact absurd hr (signL_not_thrown s).2
    · intro h
      rw [(signL_ub s).2 (.inr h)]; rfl

theorem isIntL_cases (s : Bytes) : isIntL s = .ub ∨ ∃ b, isIntL s = .ok b := by
  unfold isIntL
  by_cases hs : s = []
  · simp [hs]
  · rw [if_neg hs]
    cases hr : signL s with
    | ub => exact .inl rfl
    | ok r => exact .inr ⟨_, rfl⟩
    | thrown => exact absurd hr (signL_not_thrown s).1
    | hang => exact absurd hr (signL_not_thrown s).2

/-! ## C16 -/

theorem asString_denotes (i : Int) : Denotes (asString i) i := by
  unfold asString
  by_cases h : i < 0
  · rw [if_pos h]
    obtain ⟨h1, h2, h3⟩ := natDec_spec (-i).toNat
    exact ⟨_, h2, digits_all.2 h1, .inr (.inr ⟨rfl, by rw [← value_numeral, h3]; omega⟩)⟩
  · rw [if_neg h]
    obtain ⟨h1, h2, h3⟩ := natDec_spec i.toNat
    exact ⟨_, h2, digits_all.2 h1, .inl ⟨rfl, by rw [← value_numeral, h3]; omega⟩⟩

theorem denotes_isInt {s : Bytes} {v : Int} (h : Denotes s v) : isInt (rd s) s.length = .ok true := by
  rw [isInt_eq, isIntL_true]
  obtain ⟨ds, h1, h2, h | h | h⟩ := h
  · exact ⟨[], ds, .inl rfl, h1, h2, h.1⟩
  · exact ⟨b!"+", ds, .inr (.inl rfl), h1, h2, h.1⟩
  · exact ⟨b!"-", ds, .inr (.inr (.inl rfl)), h1, h2, h.1⟩

/-- C16, first part, for every integer but the smallest: `as_string (i)` is a decimal representation
of `i`, `is_int` accepts it and `as_int` (with `lim` = 2^31) or `as_long_int` (with `lim` = 2^63)
gives `i` back. The first conjunct also holds of the unsigned `as_string`.
Missing for the full statement: the smallest integer, see `C16_minimum_violated`. -/
theorem C16_round_trip_partial {lim : Int} (i : Int) (h1 : -lim < i) (h2 : i < lim) :
    Denotes (asString i) i ∧ isInt (rd (asString i)) (asString i).length = .ok true ∧
      asInt lim (asString i) = .ok i := by
  refine ⟨asString_denotes i, denotes_isInt (asString_denotes i), ?_⟩
  rw [denotes_asInt (by omega) (asString_denotes i), if_pos ⟨h1, h2⟩]

example : asString (-2147483647) = b!"-2147483647" ∧ asString 120 = b!"120" ∧ asString 0 = b!"0" := by
  decide +kernel

/-- The round trip of the smallest integer overflows: the digits are accumulated as a positive value
before they are negated. -/
theorem C16_minimum_violated :
    asString (-2 ^ 31) = b!"-2147483648" ∧ asInt (2 ^ 31) (asString (-2 ^ 31)) = .ub ∧
    asInt (2 ^ 63) (asString (-2 ^ 63)) = .ub := by
  refine ⟨by decide +kernel, ?_, ?_⟩
  · rw [denotes_asInt (by decide) (asString_denotes _), if_neg (by decide)]
  · rw [denotes_asInt (by decide) (asString_denotes _), if_neg (by decide)]

/-- The printed form is canonical: no leading zero, and no two integers print alike. -/
theorem C16_canonical (i j : Int) :
    (asString i = asString j → i = j) ∧
    (∀ r, asString i = c! '0' :: r → i = 0 ∧ r = []) ∧ (∀ r, asString i ≠ c! '+' :: r) ∧
    (∀ r, asString i ≠ c! '-' :: c! '0' :: r) := by
  have head : ∀ n : Nat, ∃ c r, natDec n = c :: r ∧ isDig c = true ∧ (c = c! '0' → n = 0 ∧ r = []) := by
    intro n
    induction n using Nat.strongRecOn with
    | ind n ih =>
      rw [natDec]
      by_cases h : n < 10
      · rw [if_pos h]
        obtain ⟨h1, h2⟩ := isDig_ofNat h
        refine ⟨_, _, rfl, h1, fun e => ⟨?_, rfl⟩⟩
        have := congrArg UInt8.toNat e
        rw [h2] at this
        have h48 : (c! '0').toNat = 48 := rfl
        omega
      · rw [if_neg h]
        obtain ⟨c, r, e1, e2, e3⟩ := ih (n / 10) (by omega)
        refine ⟨c, r ++ [UInt8.ofNat (48 + n % 10)], by rw [e1]; rfl, e2, fun e => ?_⟩
        have := (e3 e).1
        omega
  refine ⟨?_, ?_, ?_, ?_⟩
  · intro h
    have hi := asString_denotes i
    have hj := asString_denotes j
    have a := denotes_asInt (lim := (i.natAbs + j.natAbs + 1 : Nat)) (by omega) hi
    have b := denotes_asInt (lim := (i.natAbs + j.natAbs + 1 : Nat)) (by omega) hj
    rw [if_pos (by omega)] at a b
    rw [h, b] at a
    simpa using a.symm
  all_goals
    intro r
    unfold asString
    by_cases h : i < 0
    · rw [if_pos h]
      obtain ⟨c, r', e1, e2, e3⟩ := head (-i).toNat
      rw [e1]
      intro e
      simp only [List.cons.injEq] at e
      first
        | exact absurd e.1 (by decide)
        | (have := (e3 e.2.1).1; omega)
    · rw [if_neg h]
      obtain ⟨c, r', e1, e2, e3⟩ := head i.toNat
      rw [e1]
      intro e
      simp only [List.cons.injEq] at e
      first
        | (have := e3 e.1; exact ⟨by omega, by rw [← e.2]; exact this.2⟩)
        | (rw [e.1] at e2; exact absurd e2 (by decide))

/-- C16, second part. Strings of the form [+|-]digits are accepted, and read as the integer they
denote exactly when that integer is above the smallest and at most the largest one; otherwise the
computation overflows. -/
theorem C16_reading {lim : Int} (hlim : 0 < lim) {s : Bytes} {v : Int} (h : Denotes s v) :
    isInt (rd s) s.length = .ok true ∧
    asInt lim s = if -lim < v ∧ v < lim then .ok v else .ub :=
  ⟨denotes_isInt h, denotes_asInt hlim h⟩

example : Denotes (b!"-00120") (-120) :=
  ⟨b!"00120", by decide, by unfold Digits Digit; decide, .inr (.inr ⟨rfl, by decide⟩)⟩

/-- What `is_int` accepts: a string that denotes an integer, or "+-" followed by digits. -/
theorem C16_accepts_partial {lim : Int} (hlim : 0 < lim) (s : Bytes)
    (h : isInt (rd s) s.length = .ok true) :
    (∃ v, Denotes s v ∧ (-lim < v → v < lim → asInt lim s = .ok v)) ∨
      ∃ ds, ds ≠ [] ∧ Digits ds ∧ s = b!"+-" ++ ds := by
  rw [isInt_eq, isIntL_true] at h
  obtain ⟨sg, ds, h1, h2, h3, rfl⟩ := h
  rcases h1 with rfl | rfl | rfl | rfl
  · have d : Denotes ([] ++ ds) (numeral ds) := ⟨ds, h2, h3, .inl ⟨rfl, rfl⟩⟩
    exact .inl ⟨_, d, fun a b => by rw [denotes_asInt hlim d, if_pos ⟨a, b⟩]⟩
  · have d : Denotes (b!"+" ++ ds) (numeral ds) := ⟨ds, h2, h3, .inr (.inl ⟨rfl, rfl⟩)⟩
    exact .inl ⟨_, d, fun a b => by rw [denotes_asInt hlim d, if_pos ⟨a, b⟩]⟩
  · have d : Denotes (b!"-" ++ ds) (-(numeral ds : Int)) := ⟨ds, h2, h3, .inr (.inr ⟨rfl, rfl⟩)⟩
    exact .inl ⟨_, d, fun a b => by rw [denotes_asInt hlim d, if_pos ⟨a, b⟩]⟩
  · exact .inr ⟨ds, h2, h3, rfl⟩

/-- Every string "+-" ++ digits is accepted by `is_int`, denotes nothing, and is read as 0. -/
theorem C16_sign_violated {lim : Int} (hlim : 0 < lim) (ds : Bytes) (h1 : ds ≠ []) (h2 : Digits ds) :
    isInt (rd (b!"+-" ++ ds)) (b!"+-" ++ ds).length = .ok true ∧
    (∀ v, ¬ Denotes (b!"+-" ++ ds) v) ∧ asInt lim (b!"+-" ++ ds) = .ok 0 := by
  refine ⟨?_, ?_, ?_⟩
  · rw [isInt_eq, isIntL_true]
    exact ⟨_, ds, .inr (.inr (.inr rfl)), h1, h2, rfl⟩
  · rintro v ⟨es, he, hd, h | h | h⟩
    · have := hd (c! '+') (by rw [← h.1]; simp)
      exact absurd this (by unfold Digit; decide)
    · have e : c! '-' :: ds = es := by simpa using h.1
      have := hd (c! '-') (by rw [← e]; simp)
      exact absurd this (by unfold Digit; decide)
    · simp at h
  · have := asInt_spec hlim (b!"+") [] (c! '-' :: ds) (.inr (.inl rfl)) rfl
      (fun c r e => by simp only [List.cons.injEq] at e; rw [← e.1]; decide) (fun e => by simp at e)
    simpa [value, hlim] using this

example : isInt (rd (b!"+-5")) 3 = .ok true ∧ asInt (2 ^ 31) (b!"+-5") = .ok 0 := by decide

/-- What as_int does on any other string: it reads one optional sign and the digits that follow, and
ignores the rest. -/
theorem C16_prefix {lim : Int} (hlim : 0 < lim) (sg ds rest : Bytes)
    (hs : sg = [] ∨ sg = b!"+" ∨ sg = b!"-") (hd : Digits ds)
    (hr : ∀ c r, rest = c :: r → ¬ Digit c)
    (h0 : sg = [] → ds = [] → ∀ c r, rest = c :: r → c ≠ c! '+' ∧ c ≠ c! '-') :
    asInt lim (sg ++ ds ++ rest) =
      if (numeral ds : Int) < lim then
        .ok (if sg = b!"-" then -(numeral ds : Int) else numeral ds) else .ub := by
  rw [← value_numeral]
  refine asInt_spec hlim sg ds rest hs (digits_all.1 hd) (fun c r e => ?_) h0
  have := hr c r e
  cases hh : isDig c with
  | false => rfl
  | true => exact absurd (isDig_range hh) this

example : asInt (2 ^ 31) (b!"-12ab") = .ok (-12) ∧ asInt (2 ^ 31) (b!"ab") = .ok 0 := by decide

/-! ## C17 -/

/-- The strings on which `is_double` reads past the end. -/
def CutExponent (s : Bytes) : Prop :=
  s = b!"+" ∨ ∃ sg ds fr, SkippedSign sg ∧ Digits ds ∧
    (fr = [] ∨ ∃ fs, fr = c! '.' :: fs ∧ Digits fs) ∧
    (s = sg ++ ds ++ fr ++ b!"e" ∨ s = sg ++ ds ++ fr ++ b!"e+")

theorem exponentL_ub {r : Bytes} : exponentL r = .ub ↔ r = b!"e" ∨ r = b!"e+" := by
  cases r with
  | nil => simp [exponentL]
  | cons c r =>
    rw [exponentL]
    by_cases hc : c = c! 'e'
    · subst hc
      rw [if_neg (by simp)]
      constructor
      · intro h
        cases hr : signL r with
        | ub => rcases (signL_ub r).1 hr with h | h <;> simp [h]
        | ok r' => rw [hr] at h; simp at h
        | thrown => exact absurd hr (signL_not_thrown r).1
        | hang => exact absurd hr (signL_not_thrown r).2
      · intro h
        have : signL r = .ub := (signL_ub r).2 (by
          rcases h with h | h
          · exact .inl (by simpa using h)
          · exact .inr (by simpa using h))
        rw [this]; rfl
    · rw [if_pos (by simpa using hc)]
      simp [hc]

theorem exponentL_cases (r : Bytes) : exponentL r = .ub ∨ ∃ b, exponentL r = .ok b := by
  cases r with
  | nil => exact .inr ⟨_, rfl⟩
  | cons c r =>
    rw [exponentL]
    split
    · exact .inr ⟨_, rfl⟩
    · cases hr : signL r with
      | ub => exact .inl rfl
      | ok r' => exact .inr ⟨_, rfl⟩
      | thrown => exact absurd hr (signL_not_thrown r).1
      | hang => exact absurd hr (signL_not_thrown r).2

theorem isDoubleL_cases (s : Bytes) : isDoubleL s = .ub ∨ ∃ b, isDoubleL s = .ok b := by
  unfold isDoubleL
  split
  · exact .inr ⟨_, rfl⟩
  · cases hr : signL s with
    | ub => exact .inl rfl
    | thrown => exact absurd hr (signL_not_thrown s).1
    | hang => exact absurd hr (signL_not_thrown s).2
    | ok r =>
      simp only [Res.ok_bind]
      split
      · exact .inr ⟨_, rfl⟩
      · unfold fracL
        split
        · exact .inr ⟨_, rfl⟩
        · split
          · split
            · exact .inr ⟨_, rfl⟩
            · exact exponentL_cases _
          · exact exponentL_cases _

theorem digits_nil : Digits [] := fun _ h => by simp at h

/-- The common shape of all strings accepted by `is_double` or over-read by it. -/
theorem isDoubleL_shape (s : Bytes) {o : Res Bool} (h : isDoubleL s = o) (ho : o = .ub ∨ o = .ok true) :
    s = b!"+" ∨ ∃ sg ds fr r, SkippedSign sg ∧ Digits ds ∧ sg ++ ds ++ fr ++ r = s ∧
      ds ++ fr ++ r ≠ [] ∧ (fr = [] ∨ ∃ fs, fr = c! '.' :: fs ∧ Digits fs ∧ fs ++ r ≠ []) ∧
      exponentL r = o := by
  unfold isDoubleL at h
  by_cases hs : s = []
  · rw [if_pos hs] at h; rcases ho with rfl | rfl <;> simp at h
  · rw [if_neg hs] at h
    cases hr : signL s with
    | ub =>
      rcases (signL_ub s).1 hr with h | h
      · exact absurd h hs
      · exact .inl h
    | thrown => exact absurd hr (signL_not_thrown s).1
    | hang => exact absurd hr (signL_not_thrown s).2
    | ok r =>
      right
      rw [hr] at h
      simp only [Res.ok_bind] at h
      by_cases hre : r = []
      · rw [if_pos hre] at h; rcases ho with rfl | rfl <;> simp at h
      · rw [if_neg hre] at h
        obtain ⟨sg, hsg, hs'⟩ := signL_ok hr
        obtain ⟨ds, hd1, hd2, hd3⟩ := span_digits r
        cases hq : r.dropWhile isDig with
        | nil =>
          rw [hq, List.append_nil] at hd2
          rw [hq] at h
          refine ⟨sg, ds, [], [], skipped_signs.2 hsg, digits_all.2 hd1, ?_, ?_, .inl rfl, h⟩
          · rw [hs', hd2]; simp
          · rw [← hd2]; simpa using hre
        | cons c q =>
          rw [hq, fracL] at h
          rw [hq] at hd2
          by_cases hc : c = c! '.'
          · rw [if_pos hc] at h
            by_cases hq0 : q = []
            · rw [if_pos hq0] at h; rcases ho with rfl | rfl <;> simp at h
            · rw [if_neg hq0] at h
              obtain ⟨fs, hf1, hf2, hf3⟩ := span_digits q
              refine ⟨sg, ds, c! '.' :: fs, q.dropWhile isDig, skipped_signs.2 hsg,
                digits_all.2 hd1, ?_, by simp, .inr ⟨fs, rfl, digits_all.2 hf1, ?_⟩, h⟩
              · rw [hs', hd2, hc]
                conv => rhs; rw [hf2]
                simp
              · rw [← hf2]; exact hq0
          · rw [if_neg hc] at h
            refine ⟨sg, ds, [], c :: q, skipped_signs.2 hsg, digits_all.2 hd1, ?_, by simp, .inl rfl, h⟩
            rw [hs', hd2]; simp

/-- Conversely, `is_double` reaches the exponent test. -/
theorem isDoubleL_reaches {sg ds fr r : Bytes} (h1 : SkippedSign sg) (h2 : Digits ds)
    (h3 : fr = [] ∨ ∃ fs, fr = c! '.' :: fs ∧ Digits fs ∧ fs ++ r ≠ [])
    (h4 : ds ++ fr ++ r ≠ []) (h5 : r = [] ∨ ∃ q, r = c! 'e' :: q) :
    isDoubleL (sg ++ ds ++ fr ++ r) = exponentL r := by
  have hnd : NonDigitHead r := by
    intro c q e
    rcases h5 with h5 | ⟨q', h5⟩
    · rw [h5] at e; simp at e
    · rw [h5] at e; simp only [List.cons.injEq] at e; rw [← e.1]; decide
  have hnd' : NonDigitHead (fr ++ r) := by
    rcases h3 with h3 | ⟨fs, h3, _⟩
    · rw [h3]; exact hnd
    · intro c q e
      rw [h3] at e; simp only [List.cons_append, List.cons.injEq] at e; rw [← e.1]; decide
  have hsign : signL (sg ++ (ds ++ fr ++ r)) = .ok (ds ++ fr ++ r) := by
    cases hc : ds ++ fr ++ r with
    | nil => exact absurd hc h4
    | cons c q =>
      have : c ≠ c! '+' ∧ c ≠ c! '-' := by
        cases hds : ds with
        | cons d ds' =>
          rw [hds] at hc h2
          simp only [List.cons_append, List.cons.injEq] at hc
          rw [← hc.1]
          have := digits_all.1 h2
          rw [List.all_cons, Bool.and_eq_true] at this
          exact ⟨(digit_not_sign this.1).1, (digit_not_sign this.1).2.1⟩
        | nil =>
          rw [hds, List.nil_append] at hc
          rcases h3 with h3 | ⟨fs, h3, _⟩
          · rw [h3, List.nil_append] at hc
            rcases h5 with h5 | ⟨q', h5⟩
            · rw [h5] at hc; simp at hc
            · rw [h5] at hc; simp only [List.cons.injEq] at hc; rw [← hc.1]; decide
          · rw [h3] at hc; simp only [List.cons_append, List.cons.injEq] at hc; rw [← hc.1]; decide
      exact signL_append (skipped_signs.1 h1) q this.1 this.2
  have e0 : sg ++ ds ++ fr ++ r = sg ++ (ds ++ fr ++ r) := by simp
  rw [e0]
  unfold isDoubleL
  rw [if_neg (by intro e; exact h4 (List.append_eq_nil_iff.1 e).2), hsign]
  simp only [Res.ok_bind]
  rw [if_neg h4, List.append_assoc, dropWhile_append (digits_all.1 h2) hnd']
  rcases h3 with h3 | ⟨fs, h3, h6, h7⟩
  · rw [h3, List.nil_append]
    rcases h5 with h5 | ⟨q, h5⟩
    · rw [h5]; rfl
    · rw [h5, fracL, if_neg (by decide)]
  · rw [h3, List.cons_append, fracL, if_pos rfl, if_neg h7, dropWhile_append (digits_all.1 h6) hnd]

/-- C17: exactly where the recognisers read past the end of the string. `is_int` does so for the
string "+" only, `is_double` for "+" and for number prefixes cut after the exponent mark or its plus
sign. On every other string both return an answer and read only the bytes of the string.
Missing for the full statement: those strings, see `C17_violated`. -/
theorem C17_partial (s : Bytes) :
    (isInt (rd s) s.length = .ub ↔ s = b!"+") ∧
    (isDouble (rd s) s.length = .ub ↔ CutExponent s) ∧
    (s ≠ b!"+" → ∃ b, isInt (rd s) s.length = .ok b) ∧
    (¬ CutExponent s → ∃ b, isDouble (rd s) s.length = .ok b) := by
  have hd : isDouble (rd s) s.length = .ub ↔ CutExponent s := by
    rw [isDouble_eq]
    constructor
    · intro h
      rcases isDoubleL_shape s h (.inl rfl) with
        h | ⟨sg, ds, fr, r, h1, h2, h3, _, h5, h6⟩
      · exact .inl h
      · refine .inr ⟨sg, ds, fr, h1, h2, ?_, ?_⟩
        · rcases h5 with h5 | ⟨fs, h5, h7, _⟩
          · exact .inl h5
          · exact .inr ⟨fs, h5, h7⟩
        · rcases exponentL_ub.1 h6 with h | h
          · exact .inl (by rw [← h3, h])
          · exact .inr (by rw [← h3, h])
    · rintro (h | ⟨sg, ds, fr, h1, h2, h3, h4⟩)
      · subst h; decide
      · have h3' : ∀ r : Bytes, r ≠ [] →
            (fr = [] ∨ ∃ fs, fr = c! '.' :: fs ∧ Digits fs ∧ fs ++ r ≠ []) := by
          intro r hr
          rcases h3 with h | ⟨fs, h, h'⟩
          · exact .inl h
          · exact .inr ⟨fs, h, h', by simp [hr]⟩
        rcases h4 with h4 | h4
        · rw [h4, isDoubleL_reaches h1 h2 (h3' _ (by simp)) (by simp) (.inr ⟨[], rfl⟩)]
          exact exponentL_ub.2 (.inl rfl)
        · rw [h4, isDoubleL_reaches h1 h2 (h3' _ (by simp)) (by simp) (.inr ⟨b!"+", rfl⟩)]
          exact exponentL_ub.2 (.inr rfl)
  refine ⟨by rw [isInt_eq]; exact isIntL_ub, hd, ?_, ?_⟩
  · intro h
    rw [isInt_eq]
    rcases isIntL_cases s with h' | h'
    · exact absurd (isIntL_ub.1 h') h
    · exact h'
  · intro h
    rcases isDoubleL_cases s with h' | h'
    · exact absurd (hd.1 (by rw [isDouble_eq]; exact h')) h
    · rw [isDouble_eq]; exact h'

example : CutExponent (b!"-12.5e+") :=
  .inr ⟨b!"-", b!"12", b!".5", .inr (.inr (.inl rfl)), by unfold Digits Digit; decide,
    .inr ⟨b!"5", rfl, by unfold Digits Digit; decide⟩, .inr rfl⟩

/-- Both recognisers read past the end of a string; for a four-byte string such as "123e" the byte
read lies outside the allocated block, and after shrinking "+-" to "+" the answer of `is_int` comes
from the byte that was cut off: it accepts "+". -/
theorem C17_violated :
    isInt (rd (b!"+")) 1 = .ub ∧ isDouble (rd (b!"1e")) 2 = .ub ∧
    (∃ a, Str.ofBytes (b!"123e") = .ok a ∧ isDouble (Str.get a) a.n = .ub) ∧
    (∃ a b, Str.ofBytes (b!"+-") = .ok a ∧ a.resize 1 = .ok b ∧ b.toList = b!"+" ∧
      isInt (Str.get b) b.n = .ok true) := by
  refine ⟨by decide, by decide, ?_, ?_⟩
  · exact ⟨_, rfl, by decide⟩
  · exact ⟨_, _, rfl, rfl, by decide, by decide⟩

/-! ## C71 -/

/-- A decimal floating-point literal: an optional sign, digits with at least one digit before the
point or after it, an optional fraction, an optional exponent. -/
def DoubleLiteral (s : Bytes) : Prop :=
  ∃ sg ds fr ex, (sg = [] ∨ sg = b!"+" ∨ sg = b!"-") ∧ Digits ds ∧
    ((fr = [] ∧ ds ≠ []) ∨ ∃ fs, fr = c! '.' :: fs ∧ Digits fs ∧ (ds ≠ [] ∨ fs ≠ [])) ∧
    (ex = [] ∨ ∃ sg' es, ex = c! 'e' :: (sg' ++ es) ∧ (sg' = [] ∨ sg' = b!"+" ∨ sg' = b!"-") ∧
      es ≠ [] ∧ Digits es) ∧
    s = sg ++ ds ++ fr ++ ex

/-- What `is_double` accepts. -/
def Accepted (s : Bytes) : Prop :=
  ∃ sg ds fr ex, SkippedSign sg ∧ Digits ds ∧
    (fr = [] ∨ ∃ fs, fr = c! '.' :: fs ∧ Digits fs ∧ fs ++ ex ≠ []) ∧ ds ++ fr ++ ex ≠ [] ∧
    (ex = [] ∨ ∃ sg' es, ex = c! 'e' :: (sg' ++ es) ∧ SkippedSign sg' ∧ es ≠ [] ∧ Digits es) ∧
    s = sg ++ ds ++ fr ++ ex

theorem exponentL_true {r : Bytes} : exponentL r = .ok true ↔
    r = [] ∨ ∃ sg es, r = c! 'e' :: (sg ++ es) ∧ SkippedSign sg ∧ es ≠ [] ∧ Digits es := by
  cases r with
  | nil => simp [exponentL]
  | cons c r =>
    rw [exponentL]
    by_cases hc : c = c! 'e'
    · subst hc
      rw [if_neg (by simp), Res.bind_eq_ok]
      constructor
      · rintro ⟨q, h1, h2⟩
        simp only [Res.ok.injEq, Bool.and_eq_true, Bool.not_eq_true', List.isEmpty_eq_false_iff] at h2
        obtain ⟨sg, h3, h4⟩ := signL_ok h1
        exact .inr ⟨sg, q, by rw [h4], skipped_signs.2 h3, h2.1, digits_all.2 h2.2⟩
      · rintro (h | ⟨sg, es, h1, h2, h3, h4⟩)
        · simp at h
        · have h1 : r = sg ++ es := by simpa using h1
          cases es with
          | nil => exact absurd rfl h3
          | cons d es =>
            have hd := digits_all.1 h4
            have hc : isDig d = true := by rw [List.all_cons, Bool.and_eq_true] at hd; exact hd.1
            refine ⟨d :: es, ?_, ?_⟩
            · rw [h1]
              exact signL_append (skipped_signs.1 h2) es (digit_not_sign hc).1 (digit_not_sign hc).2.1
            · rw [hd]; rfl
    · rw [if_pos (by simpa using hc)]
      simp [hc]

/-- C71: the exact set of strings accepted by `is_double`. -/
theorem C71_accepts (s : Bytes) : isDouble (rd s) s.length = .ok true ↔ Accepted s := by
  rw [isDouble_eq]
  constructor
  · intro h
    rcases isDoubleL_shape s h (.inr rfl) with
      h' | ⟨sg, ds, fr, r, h1, h2, h3, h4, h5, h6⟩
    · subst h'; exact absurd h (by decide)
    · exact ⟨sg, ds, fr, r, h1, h2, h5, h4, exponentL_true.1 h6, h3.symm⟩
  · rintro ⟨sg, ds, fr, ex, h1, h2, h3, h4, h5, rfl⟩
    rw [isDoubleL_reaches h1 h2 h3 h4 (by
      rcases h5 with h | ⟨_, _, h, _⟩
      · exact .inl h
      · exact .inr ⟨_, h⟩)]
    exact exponentL_true.2 h5

/-- C71, positive part: every decimal literal is accepted, except those that end in a point.
Missing for the full statement: those, and the strings of `C71_violated`, which are accepted
although they are no literals. -/
theorem C71_literals_partial (s : Bytes) (h : DoubleLiteral s) (hp : ∀ r, s ≠ r ++ b!".") :
    isDouble (rd s) s.length = .ok true := by
  rw [C71_accepts]
  obtain ⟨sg, ds, fr, ex, h1, h2, h3, h4, rfl⟩ := h
  refine ⟨sg, ds, fr, ex, ?_, h2, ?_, ?_, ?_, rfl⟩
  · rcases h1 with h | h | h
    · exact .inl h
    · exact .inr (.inl h)
    · exact .inr (.inr (.inl h))
  · rcases h3 with h | ⟨fs, h, h', _⟩
    · exact .inl h.1
    · refine .inr ⟨fs, h, h', fun e => ?_⟩
      rw [List.append_eq_nil_iff] at e
      refine hp (sg ++ ds) ?_
      rw [h, e.1, e.2]; simp
  · rcases h3 with ⟨_, h⟩ | ⟨fs, h, _⟩
    · simp [h]
    · simp [h]
  · rcases h4 with h | ⟨sg', es, h, h', h''⟩
    · exact .inl h
    · refine .inr ⟨sg', es, h, ?_, h''⟩
      rcases h' with h | h | h
      · exact .inl h
      · exact .inr (.inl h)
      · exact .inr (.inr (.inl h))

/-- C71, negative part: an accepted string with a digit in front of the exponent, and signs that are
not "+-", is a decimal literal. -/
theorem C71_sound_partial (s : Bytes) (h : isDouble (rd s) s.length = .ok true)
    (h1 : ∀ p q, s ≠ p ++ b!"+-" ++ q) (h2 : ∀ p q, s = p ++ c! 'e' :: q → ∃ c ∈ p, Digit c) :
    DoubleLiteral s := by
  rw [C71_accepts] at h
  obtain ⟨sg, ds, fr, ex, a1, a2, a3, a4, a5, rfl⟩ := h
  refine ⟨sg, ds, fr, ex, ?_, a2, ?_, ?_, rfl⟩
  · rcases a1 with h | h | h | h
    · exact .inl h
    · exact .inr (.inl h)
    · exact .inr (.inr h)
    · exact absurd (by rw [h]; simp) (h1 [] (ds ++ fr ++ ex))
  · have nodigit : ∀ (sg : Bytes), SkippedSign sg → ∀ c ∈ sg, ¬ Digit c := by
      intro sg hs c hc
      rcases hs with h | h | h | h <;> subst h <;>
        simp only [List.mem_cons, List.not_mem_nil, or_false] at hc
      · subst hc; unfold Digit; decide
      · subst hc; unfold Digit; decide
      · rcases hc with hc | hc <;> subst hc <;> (unfold Digit; decide)
    rcases a3 with h | ⟨fs, h, h', h''⟩
    · refine .inl ⟨h, ?_⟩
      rintro rfl
      subst h
      rcases a5 with h | ⟨sg', es, h, _⟩
      · subst h; exact a4 rfl
      · subst h
        obtain ⟨c, hc, hd⟩ := h2 sg (sg' ++ es) (by simp)
        exact nodigit sg a1 c hc hd
    · refine .inr ⟨fs, h, h', ?_⟩
      by_cases hds : ds = []
      · right
        rintro rfl
        subst hds h
        rcases a5 with h | ⟨sg', es, h, _⟩
        · subst h; exact h'' rfl
        · subst h
          obtain ⟨c, hc, hd⟩ := h2 (sg ++ b!".") (sg' ++ es) (by simp)
          rcases List.mem_append.1 hc with hc | hc
          · exact nodigit sg a1 c hc hd
          · simp only [List.mem_cons, List.not_mem_nil, or_false] at hc
            subst hc; revert hd; unfold Digit; decide
      · exact .inl hds
  · rcases a5 with h | ⟨sg', es, h, h', h''⟩
    · exact .inl h
    · refine .inr ⟨sg', es, h, ?_, h''⟩
      rcases h' with h3 | h3 | h3 | h3
      · exact .inl h3
      · exact .inr (.inl h3)
      · exact .inr (.inr h3)
      · refine absurd ?_ (h1 (sg ++ ds ++ fr ++ b!"e") es)
        rw [h, h3]; simp

/-- The full statement fails in both directions: "e5", ".e5" and "+-1" are accepted, "5." is not. -/
theorem C71_violated :
    (isDouble (rd (b!"e5")) 2 = .ok true ∧ isDouble (rd (b!".e5")) 3 = .ok true ∧
      isDouble (rd (b!"+-1")) 3 = .ok true ∧ ¬ DoubleLiteral (b!"+-1")) ∧
    (isDouble (rd (b!"5.")) 2 = .ok false ∧ DoubleLiteral (b!"5.")) := by
  refine ⟨⟨by decide, by decide, by decide, ?_⟩, by decide, ?_⟩
  · rintro ⟨sg, ds, fr, ex, h1, h2, h3, h4, h5⟩
    have hds : ∀ c r, ds ++ fr ++ ex = c :: r → c ≠ c! '-' ∧ c ≠ c! '+' := by
      intro c r e
      cases ds with
      | cons d ds =>
        simp only [List.cons_append, List.cons.injEq] at e
        have := h2 d (by simp)
        rw [← e.1]
        constructor <;> (rintro rfl; revert this; unfold Digit; decide)
      | nil =>
        rcases h3 with ⟨_, h3⟩ | ⟨fs, rfl, _⟩
        · exact absurd rfl h3
        · simp only [List.nil_append, List.cons_append, List.cons.injEq] at e
          rw [← e.1]; decide
    rcases h1 with rfl | rfl | rfl
    · have h5 : ds ++ fr ++ ex = c! '+' :: b!"-1" := by simpa using h5.symm
      exact (hds _ _ h5).2 rfl
    · have h5 : ds ++ fr ++ ex = c! '-' :: b!"1" := by simpa using h5.symm
      exact (hds _ _ h5).1 rfl
    · simp at h5
  · exact ⟨[], b!"5", b!".", [], .inl rfl, by unfold Digits Digit; decide,
      .inr ⟨[], rfl, digits_nil, .inl (by simp)⟩, .inl rfl, rfl⟩

example : DoubleLiteral (b!"-12.5e+07") ∧ DoubleLiteral (b!".5") := by
  refine ⟨⟨b!"-", b!"12", b!".5", b!"e+07", .inr (.inr rfl), by unfold Digits Digit; decide,
    .inr ⟨b!"5", rfl, by unfold Digits Digit; decide, .inl (by simp)⟩,
    .inr ⟨b!"+", b!"07", rfl, .inr (.inl rfl), by simp, by unfold Digits Digit; decide⟩, rfl⟩,
    ⟨[], [], b!".5", [], .inl rfl, digits_nil, .inr ⟨b!"5", rfl, by unfold Digits Digit; decide,
      .inr (by simp)⟩, .inl rfl, rfl⟩⟩

/-! ## C72 -/

/-- A letter or an underscore. -/
def Letter (c : UInt8) : Prop :=
  (97 ≤ c.toNat ∧ c.toNat ≤ 122) ∨ (65 ≤ c.toNat ∧ c.toNat ≤ 90) ∨ c = c! '_'

instance (c : UInt8) : Decidable (Letter c) := by unfold Letter; infer_instance
instance (c : UInt8) : Decidable (Digit c) := by unfold Digit; infer_instance

/-- C72: `is_id` accepts exactly the nonempty strings of letters, digits and underscores that do not
start with a digit, and never reads outside the string. -/
theorem C72_is_id (s : Bytes) :
    ∃ b, isId s = .ok b ∧ (b = true ↔
      ∃ c r, s = c :: r ∧ Letter c ∧ ∀ d ∈ r, Letter d ∨ Digit d) := by
  have t1 : ∀ c : UInt8, (if schar c ≥ 97 ∧ schar c ≤ 122 then none
        else if schar c ≥ 65 ∧ schar c ≤ 90 then none
        else if c = c! '_' then none
        else some ()) = (if Letter c then none else some ()) :=
    fun c => forall_byte (P := fun c => (if schar c ≥ 97 ∧ schar c ≤ 122 then none
        else if schar c ≥ 65 ∧ schar c ≤ 90 then none
        else if c = c! '_' then none
        else some ()) = (if Letter c then none else some ())) (by decide +kernel) c
  have t2 : ∀ c : UInt8, (schar c ≥ 48 ∧ schar c ≤ 57) ↔ Digit c :=
    fun c => forall_byte (P := fun c => (schar c ≥ 48 ∧ schar c ≤ 57) ↔ Digit c)
      (by decide +kernel) c
  unfold isId
  by_cases hs : s.length = 0
  · rw [if_pos hs]
    have : s = [] := by simpa using hs
    exact ⟨false, rfl, by subst this; simp⟩
  · rw [if_neg hs]
    have body : ∀ i (hi : i < s.length), (do
        let c ← rd s i
        Res.ok (if i > 0 ∧ schar c ≥ 48 ∧ schar c ≤ 57 then none
          else if schar c ≥ 97 ∧ schar c ≤ 122 then none
          else if schar c ≥ 65 ∧ schar c ≤ 90 then none
          else if c = c! '_' then none
          else some ())) =
        .ok (if Letter s[i] ∨ (0 < i ∧ Digit s[i]) then none else some ()) := by
      intro i hi
      rw [rd_ok hi]
      simp only [Res.ok_bind, t1, t2]
      congr 1
      by_cases h1 : i > 0 ∧ Digit s[i]
      · rw [if_pos h1, if_pos (.inr h1)]
      · rw [if_neg h1]
        by_cases h2 : Letter s[i]
        · rw [if_pos h2, if_pos (.inl h2)]
        · rw [if_neg h2, if_neg (fun h => h.elim h2 h1)]
    rcases forRet_spec (lo := 0) (hi := s.length) (f := fun i => if h : i < s.length then
        (if Letter s[i] ∨ (0 < i ∧ Digit s[i]) then none else some ()) else none)
        (fun i _ hi => (body i hi).trans (by rw [dif_pos hi])) with ⟨e, h⟩ | ⟨i, r, _, hi, h, _, e⟩
    · rw [e]
      refine ⟨true, rfl, fun _ => ?_, fun _ => rfl⟩
      have h' : ∀ i (hi : i < s.length), Letter s[i] ∨ (0 < i ∧ Digit s[i]) := by
        intro i hi
        have := h i (by omega) hi
        rw [dif_pos hi] at this
        refine Classical.byContradiction fun hn => ?_
        rw [if_neg hn] at this; simp at this
      cases s with
      | nil => simp at hs
      | cons c r =>
        refine ⟨c, r, rfl, ?_, fun d hd => ?_⟩
        · rcases h' 0 (by simp) with h | h
          · exact h
          · omega
        · obtain ⟨k, hk, rfl⟩ := List.mem_iff_getElem.1 hd
          rcases h' (k + 1) (by simpa using hk) with h | h
          · exact .inl (by simpa using h)
          · exact .inr (by simpa using h.2)
    · rw [e]
      refine ⟨false, rfl, fun e => by simp at e, ?_⟩
      rintro ⟨c, r', rfl, h1, h2⟩
      rw [dif_pos hi] at h
      have : Letter (c :: r')[i] ∨ (0 < i ∧ Digit (c :: r')[i]) := by
        cases i with
        | zero => exact .inl h1
        | succ i =>
          rcases h2 (r'[i]'(by simpa using hi)) (List.getElem_mem _) with h | h
          · exact .inl (by simpa using h)
          · exact .inr ⟨by omega, by simpa using h⟩
      rw [if_pos this] at h; simp at h

example : isId (b!"_a1") = .ok true ∧ isId (b!"1a") = .ok false ∧ isId (b!"a-b") = .ok false := by decide

end Lolly.ConvProps
