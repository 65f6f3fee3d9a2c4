import Verif.Strings.Convert

/-!
# Lemmas on the conversions: the recognisers on suffixes instead of positions
-/

set_option autoImplicit false

namespace Lolly.Conv

theorem nonDigit_eq (c : UInt8) : nonDigit c = !isDig c := by
  have := schar_digit c
  unfold nonDigit
  cases h : isDig c with
  | true =>
    simp only [h] at this
    have : ¬ (schar c < 48 ∨ 57 < schar c) := by simpa using this
    simp; omega
  | false =>
    rw [h] at this
    have := this.2 rfl
    simp; omega

theorem rd_drop (s : Bytes) (i : Nat) : rd s i = rd (s.drop i) 0 := by
  simp [rd]

/-- `sign` on a suffix. -/
def signL : Bytes → Res Bytes
  | [] => .ub
  | c :: r =>
    if c = c! '+' then
      match r with
      | [] => .ub
      | d :: r' => .ok (if d = c! '-' then r' else d :: r')
    else .ok (if c = c! '-' then r else c :: r)

theorem drop_succ_of {α : Type} {s : List α} {i : Nat} {c : α} {r : List α} (h : s.drop i = c :: r) :
    s.drop (i + 1) = r := by
  rw [← List.drop_drop, h]; rfl

theorem sign_eq (s : Bytes) (i : Nat) (hi : i ≤ s.length) :
    (sign (rd s) i = .ub ∧ signL (s.drop i) = .ub) ∨
    (∃ j, sign (rd s) i = .ok j ∧ i ≤ j ∧ j ≤ s.length ∧ signL (s.drop i) = .ok (s.drop j)) := by
  unfold sign
  cases h : s.drop i with
  | nil => left; rw [rd_drop, h]; exact ⟨rfl, rfl⟩
  | cons c r =>
    have hil : i < s.length := by
      rcases Nat.lt_or_ge i s.length with h' | h'
      · exact h'
      · rw [List.drop_of_length_le h'] at h; simp at h
    have e0 : rd s i = .ok c := by rw [rd_drop, h]; rfl
    rw [e0]
    simp only [Res.ok_bind, signL]
    have h1 := drop_succ_of h
    by_cases hc : c = c! '+'
    · rw [if_pos hc, if_pos hc, rd_drop, h1]
      cases r with
      | nil => left; exact ⟨rfl, rfl⟩
      | cons d r =>
        have h2 := drop_succ_of h1
        right
        have hil2 : i + 1 < s.length := by
          rcases Nat.lt_or_ge (i + 1) s.length with h' | h'
          · exact h'
          · rw [List.drop_of_length_le h'] at h1; simp at h1
        by_cases hd : d = c! '-'
        · exact ⟨i + 2, by simp [rd, hd], by omega, by omega, by simp [hd, h2]⟩
        · exact ⟨i + 1, by simp [rd, hd], by omega, by omega, by simp [hd, h1]⟩
    · rw [if_neg hc, if_neg hc, e0]
      right
      by_cases hd : c = c! '-'
      · exact ⟨i + 1, by simp [hd], by omega, by omega, by simp [hd, h1]⟩
      · exact ⟨i, by simp [hd], by omega, by omega, by simp [hd, h]⟩

theorem skip_eq (s : Bytes) (k i : Nat) (h : i + k = s.length) :
    ∃ j, skip (rd s) k i = .ok j ∧ i ≤ j ∧ j ≤ s.length ∧ s.drop j = (s.drop i).dropWhile isDig := by
  induction k generalizing i with
  | zero =>
    refine ⟨i, rfl, Nat.le_refl _, by omega, ?_⟩
    rw [List.drop_of_length_le (by omega)]; rfl
  | succ k ih =>
    have hi : i < s.length := by omega
    rw [skip, rd_ok hi, List.drop_eq_getElem_cons hi, List.dropWhile_cons]
    simp only [Res.ok_bind, nonDigit_eq]
    cases hd : isDig s[i] with
    | true =>
      obtain ⟨j, e, h1, h2, h3⟩ := ih (i + 1) (by omega)
      exact ⟨j, by simpa using e, by omega, h2, by simpa using h3⟩
    | false =>
      exact ⟨i, by simp, Nat.le_refl _, by omega, by simp⟩

theorem allDigits_eq (s : Bytes) (k i : Nat) (h : i + k = s.length) :
    allDigits (rd s) k i = .ok ((s.drop i).all isDig) := by
  induction k generalizing i with
  | zero =>
    rw [List.drop_of_length_le (by omega)]; rfl
  | succ k ih =>
    have hi : i < s.length := by omega
    rw [allDigits, rd_ok hi, List.drop_eq_getElem_cons hi, List.all_cons]
    simp only [Res.ok_bind, nonDigit_eq]
    cases hd : isDig s[i] with
    | true => simpa using ih (i + 1) (by omega)
    | false => simp

/-- `is_int` on the bytes. -/
def isIntL (s : Bytes) : Res Bool :=
  if s = [] then .ok false
  else do
    let r ← signL s
    .ok (!r.isEmpty && r.all isDig)

theorem drop_eq_nil_iff' {s : Bytes} {i : Nat} (h : i ≤ s.length) : i = s.length ↔ s.drop i = [] := by
  rw [List.drop_eq_nil_iff]; omega

theorem isInt_eq (s : Bytes) : isInt (rd s) s.length = isIntL s := by
  unfold isInt isIntL
  by_cases h : s = []
  · subst h; rfl
  · rw [if_neg (by simpa using h), if_neg h]
    rcases sign_eq s 0 (by omega) with ⟨e1, e2⟩ | ⟨j, e1, _, h2, e2⟩
    · rw [e1]; rw [List.drop_zero] at e2; rw [e2]; rfl
    · rw [e1]; rw [List.drop_zero] at e2; rw [e2]
      simp only [Res.ok_bind]
      by_cases hj : j = s.length
      · rw [if_pos hj, (drop_eq_nil_iff' h2).1 hj]; rfl
      · rw [if_neg hj, allDigits_eq s _ j (by omega)]
        have : s.drop j ≠ [] := fun e => hj ((drop_eq_nil_iff' h2).2 e)
        cases hd : s.drop j with
        | nil => exact absurd hd this
        | cons c r => rfl

/-- The exponent part on a suffix. -/
def exponentL : Bytes → Res Bool
  | [] => .ok true
  | c :: r =>
    if c ≠ c! 'e' then .ok false
    else do
      let r ← signL r
      .ok (!r.isEmpty && r.all isDig)

/-- What follows the integer digits. -/
def fracL : Bytes → Res Bool
  | [] => .ok true
  | c :: r =>
    if c = c! '.' then if r = [] then .ok false else exponentL (r.dropWhile isDig)
    else exponentL (c :: r)

/-- `is_double` on the bytes. -/
def isDoubleL (s : Bytes) : Res Bool :=
  if s = [] then .ok false
  else do
    let r ← signL s
    if r = [] then .ok false else fracL (r.dropWhile isDig)

theorem exponent_eq (s : Bytes) (i : Nat) (hi : i ≤ s.length) :
    (if i = s.length then Res.ok true
      else do
        let c ← rd s i
        let i := i + 1
        if c ≠ c! 'e' then .ok false
        else do
          let i ← sign (rd s) i
          if i = s.length then .ok false else allDigits (rd s) (s.length - i) i) =
    exponentL (s.drop i) := by
  by_cases h : i = s.length
  · rw [if_pos h, (drop_eq_nil_iff' hi).1 h]; rfl
  · rw [if_neg h]
    have hi' : i < s.length := by omega
    rw [rd_ok hi', List.drop_eq_getElem_cons hi', exponentL]
    simp only [Res.ok_bind]
    by_cases hc : s[i] ≠ c! 'e'
    · rw [if_pos hc, if_pos hc]
    · rw [if_neg hc, if_neg hc]
      rcases sign_eq s (i + 1) (by omega) with ⟨e1, e2⟩ | ⟨j, e1, _, h2, e2⟩
      · rw [e1, e2]; rfl
      · rw [e1, e2]
        simp only [Res.ok_bind]
        by_cases hj : j = s.length
        · rw [if_pos hj, (drop_eq_nil_iff' h2).1 hj]; rfl
        · rw [if_neg hj, allDigits_eq s _ j (by omega)]
          have : s.drop j ≠ [] := fun e => hj ((drop_eq_nil_iff' h2).2 e)
          cases hd : s.drop j with
          | nil => exact absurd hd this
          | cons c r => rfl

theorem isDouble_eq (s : Bytes) : isDouble (rd s) s.length = isDoubleL s := by
  unfold isDouble isDoubleL
  by_cases h : s = []
  · subst h; rfl
  · rw [if_neg (by simpa using h), if_neg h]
    rcases sign_eq s 0 (by omega) with ⟨e1, e2⟩ | ⟨j, e1, _, h2, e2⟩
    · rw [e1]; rw [List.drop_zero] at e2; rw [e2]; rfl
    · rw [e1]; rw [List.drop_zero] at e2; rw [e2]
      simp only [Res.ok_bind]
      by_cases hj : j = s.length
      · rw [if_pos hj, if_pos ((drop_eq_nil_iff' h2).1 hj)]
      · have hj' : s.drop j ≠ [] := fun e => hj ((drop_eq_nil_iff' h2).2 e)
        rw [if_neg hj, if_neg hj']
        obtain ⟨p, e3, _, h4, h5⟩ := skip_eq s (s.length - j) j (by omega)
        rw [e3, ← h5]
        simp only [Res.ok_bind]
        by_cases hp : p = s.length
        · rw [if_pos hp, (drop_eq_nil_iff' h4).1 hp]; rfl
        · rw [if_neg hp]
          have hp' : p < s.length := by omega
          rw [rd_ok hp', List.drop_eq_getElem_cons hp', fracL]
          simp only [Res.ok_bind]
          by_cases hc : s[p] = c! '.'
          · rw [if_pos hc, if_pos hc]
            by_cases hq : p + 1 = s.length
            · rw [if_pos hq, if_pos ((drop_eq_nil_iff' (by omega)).1 hq)]
            · rw [if_neg hq, if_neg (fun e => hq ((drop_eq_nil_iff' (by omega)).2 e))]
              obtain ⟨q, e6, _, h7, h8⟩ := skip_eq s (s.length - (p + 1)) (p + 1) (by omega)
              rw [e6, ← h8]
              exact exponent_eq s q h7
          · rw [if_neg hc, if_neg hc, ← List.drop_eq_getElem_cons hp']
            have := exponent_eq s p h4
            rw [rd_ok hp'] at this
            exact this

/-! ## The grammar of signs and digits -/

/-- The sign parts that `is_int` and `is_double` skip. -/
def signs : List Bytes := [[], b!"+", b!"-", b!"+-"]

theorem signL_ub (l : Bytes) : signL l = .ub ↔ l = [] ∨ l = b!"+" := by
  match l with
  | [] => simp [signL]
  | [c] =>
    by_cases h : c = c! '+'
    · subst h; simp [signL]
    · simp [signL, h]
  | c :: d :: r =>
    by_cases h : c = c! '+'
    · subst h; simp [signL]
    · simp [signL, h]

theorem signL_ok {l r : Bytes} (h : signL l = .ok r) : ∃ sg ∈ signs, l = sg ++ r := by
  match l with
  | [] => simp [signL] at h
  | [c] =>
    by_cases hc : c = c! '+'
    · subst hc; simp [signL] at h
    · by_cases hd : c = c! '-'
      · subst hd
        simp [signL] at h; subst h; exact ⟨b!"-", by simp [signs], rfl⟩
      · simp [signL, hc, hd] at h; subst h; exact ⟨[], by simp [signs], rfl⟩
  | c :: d :: r' =>
    by_cases hc : c = c! '+'
    · subst hc
      by_cases hd : d = c! '-'
      · subst hd; simp [signL] at h; subst h; exact ⟨b!"+-", by simp [signs], rfl⟩
      · simp [signL, hd] at h; subst h; exact ⟨b!"+", by simp [signs], rfl⟩
    · by_cases hd : c = c! '-'
      · subst hd; simp [signL] at h; subst h; exact ⟨b!"-", by simp [signs], rfl⟩
      · simp [signL, hc, hd] at h; subst h; exact ⟨[], by simp [signs], rfl⟩

/-- A first byte that is not a sign. -/
theorem signL_append {sg : Bytes} (hs : sg ∈ signs) {c : UInt8} (r : Bytes) (h1 : c ≠ c! '+')
    (h2 : c ≠ c! '-') : signL (sg ++ c :: r) = .ok (c :: r) := by
  simp only [signs, List.mem_cons, List.not_mem_nil, or_false] at hs
  rcases hs with rfl | rfl | rfl | rfl <;> simp [signL, h1, h2]

theorem signL_not_thrown (l : Bytes) : signL l ≠ .thrown ∧ signL l ≠ .hang := by
  unfold signL; split
  · simp
  · split
    · split <;> simp
    · simp

/-- A byte that is not a digit, or no byte. -/
def NonDigitHead (r : Bytes) : Prop := ∀ c r', r = c :: r' → isDig c = false

theorem dropWhile_append {ds r : Bytes} (hd : ds.all isDig = true) (hr : NonDigitHead r) :
    (ds ++ r).dropWhile isDig = r := by
  induction ds with
  | nil =>
    cases r with
    | nil => rfl
    | cons c r => rw [List.nil_append, List.dropWhile_cons, hr c r rfl]; rfl
  | cons d ds ih =>
    rw [List.all_cons, Bool.and_eq_true] at hd
    rw [List.cons_append, List.dropWhile_cons, hd.1]
    exact ih hd.2

theorem span_digits (l : Bytes) : ∃ ds, ds.all isDig = true ∧ l = ds ++ l.dropWhile isDig ∧
    NonDigitHead (l.dropWhile isDig) := by
  induction l with
  | nil => exact ⟨[], rfl, rfl, fun c r h => by simp at h⟩
  | cons c l ih =>
    rw [List.dropWhile_cons]
    cases hd : isDig c with
    | true =>
      obtain ⟨ds, h1, h2, h3⟩ := ih
      exact ⟨c :: ds, by simp [hd, h1], by simpa using h2, h3⟩
    | false => exact ⟨[], rfl, by simp, fun c' r h => by simp at h; rw [← h.1]; exact hd⟩

theorem digit_not_sign {c : UInt8} (h : isDig c = true) :
    c ≠ c! '+' ∧ c ≠ c! '-' ∧ c ≠ c! '.' ∧ c ≠ c! 'e' := by
  refine ⟨?_, ?_, ?_, ?_⟩ <;> (rintro rfl; revert h; decide)

/-! ## Values -/

/-- The number denoted by a list of digits. -/
def value (ds : Bytes) : Nat := ds.foldl (fun v c => v * 10 + (c.toNat - 48)) 0

theorem foldl_value_le (ds : Bytes) (v : Nat) :
    v ≤ ds.foldl (fun v c => v * 10 + (c.toNat - 48)) v := by
  induction ds generalizing v with
  | nil => exact Nat.le_refl _
  | cons c ds ih => exact Nat.le_trans (show v ≤ v * 10 + (c.toNat - 48) by omega) (ih _)

theorem digitLoop_spec {lim : Int} (ds rest : Bytes) (hd : ds.all isDig = true)
    (hr : NonDigitHead rest) (v : Nat) (hv : (v : Int) < lim) :
    digitLoop lim (ds ++ rest) v =
      if (ds.foldl (fun v c => v * 10 + (c.toNat - 48)) v : Nat) < lim then
        .ok (ds.foldl (fun v c => v * 10 + (c.toNat - 48)) v : Nat) else .ub := by
  induction ds generalizing v with
  | nil =>
    rw [List.nil_append, List.foldl_nil, if_pos hv]
    cases rest with
    | nil => rfl
    | cons c r =>
      have := (schar_digit c).2 (hr c r rfl)
      rw [digitLoop]
      rcases this with h | h
      · rw [if_pos h]
      · rw [if_neg (by omega), if_pos h]
  | cons c ds ih =>
    rw [List.all_cons, Bool.and_eq_true] at hd
    obtain ⟨h1, h2, h3⟩ := isDig_schar hd.1
    rw [List.cons_append, digitLoop, if_neg (by omega), if_neg (by omega), List.foldl_cons]
    have hle := foldl_value_le ds (v * 10 + (c.toNat - 48))
    dsimp only
    by_cases a1 : (v : Int) * 10 < lim
    · rw [if_neg (by omega)]
      by_cases a2 : (v : Int) * 10 + (schar c - 48) < lim
      · rw [if_neg (by omega)]
        have e : (v : Int) * 10 + (schar c - 48) = ((v * 10 + (c.toNat - 48) : Nat) : Int) := by
          rw [h1]; omega
        rw [e]
        exact ih hd.2 _ (by omega)
      · rw [if_pos (by omega), if_neg (by omega)]
    · rw [if_pos (by omega), if_neg (by omega)]

theorem value_append (ds : Bytes) (c : UInt8) : value (ds ++ [c]) = value ds * 10 + (c.toNat - 48) := by
  simp [value]

theorem natDec_spec (n : Nat) : (natDec n).all isDig = true ∧ natDec n ≠ [] ∧ value (natDec n) = n := by
  induction n using Nat.strongRecOn with
  | ind n ih =>
    rw [natDec]
    by_cases h : n < 10
    · rw [if_pos h]
      obtain ⟨h1, h2⟩ := isDig_ofNat h
      refine ⟨by rw [List.all_cons, h1]; rfl, by simp, ?_⟩
      simp only [value, List.foldl_cons, List.foldl_nil, h2]; omega
    · rw [if_neg h]
      obtain ⟨i1, i2, i3⟩ := ih (n / 10) (by omega)
      obtain ⟨h1, h2⟩ := isDig_ofNat (show n % 10 < 10 by omega)
      refine ⟨by rw [List.all_append, i1, List.all_cons, h1]; rfl, by simp, ?_⟩
      rw [value_append, i3, h2]; omega

theorem asInt_spec {lim : Int} (hlim : 0 < lim) (sg ds rest : Bytes) (hs : sg = [] ∨ sg = b!"+" ∨ sg = b!"-")
    (hd : ds.all isDig = true) (hr : NonDigitHead rest)
    (h0 : sg = [] → ds = [] → ∀ c r, rest = c :: r → c ≠ c! '+' ∧ c ≠ c! '-') :
    asInt lim (sg ++ ds ++ rest) =
      if (value ds : Int) < lim then .ok (if sg = b!"-" then -(value ds : Int) else value ds) else .ub := by
  have hdl := digitLoop_spec (lim := lim) ds rest hd hr 0 hlim
  simp only [Int.cast_ofNat_Int] at hdl
  change digitLoop lim (ds ++ rest) 0 = if (value ds : Int) < lim then .ok (value ds : Int) else .ub at hdl
  unfold asInt
  rcases hs with rfl | rfl | rfl
  · rw [List.nil_append]
    cases hl : ds ++ rest with
    | nil =>
      rw [List.append_eq_nil_iff] at hl
      obtain ⟨rfl, rfl⟩ := hl
      simp [value, hlim]
    | cons c r =>
      have hc : c ≠ c! '+' ∧ c ≠ c! '-' := by
        cases ds with
        | nil => exact h0 rfl rfl c r (by simpa using hl)
        | cons d ds =>
          simp only [List.cons_append, List.cons.injEq] at hl
          rw [← hl.1]
          have : isDig d = true := by rw [List.all_cons, Bool.and_eq_true] at hd; exact hd.1
          exact ⟨(digit_not_sign this).1, (digit_not_sign this).2.1⟩
      rw [hl] at hdl
      rw [if_neg (by simp), rd_ok (by simp)]
      simp only [List.getElem_cons_zero, Res.ok_bind, hc.1, hc.2, if_false, List.drop_zero, hdl]
      split <;> simp
  · rw [if_neg (by simp), rd_ok (by simp)]
    simp only [List.cons_append, List.nil_append, List.getElem_cons_zero, Res.ok_bind, if_true,
      List.drop_succ_cons, List.drop_zero]
    rw [if_neg (by decide), List.drop_succ_cons, List.drop_zero, hdl]
    split <;> simp
  · rw [if_neg (by simp), rd_ok (by simp)]
    simp only [List.cons_append, List.nil_append, List.getElem_cons_zero, Res.ok_bind, if_true]
    rw [if_neg (by decide)]
    simp only [Nat.zero_add, List.drop_succ_cons, List.drop_zero, hdl]
    split
    · simp only [Res.ok_bind]
      rw [if_neg (by omega)]
    · rfl

end Lolly.Conv
