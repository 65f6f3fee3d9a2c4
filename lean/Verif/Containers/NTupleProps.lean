import Verif.Containers.NTuple

/-!
# Properties C68 (tuples) and C70 (hashes of scalars agree with `==`)
-/

namespace Lolly.NTupleProps

open NTuple ScalarHash

variable {A B C D E F : Type}

/-- The contract a component type has to meet. -/
structure Lawful (c : Comp A) : Prop where
  ne : ∀ x y, c.ne x y = !c.eq x y
  hash : ∀ x y, c.eq x y = true → c.hash x = c.hash y

/-- C68: pairs. -/
theorem C68_pair {a : Comp A} {b : Comp B} (ha : Lawful a) (hb : Lawful b) :
    (∀ x y x' y', (pair a b).eq (x, y) (x', y') = true ↔ a.eq x x' = true ∧ b.eq y y' = true) ∧
    Lawful (pair a b) := by
  refine ⟨by simp [pair], ⟨?_, ?_⟩⟩
  · rintro ⟨x, y⟩ ⟨x', y'⟩; simp [pair, ha.ne, hb.ne]
  · rintro ⟨x, y⟩ ⟨x', y'⟩ h
    simp only [pair, Bool.and_eq_true] at h ⊢
    rw [ha.hash _ _ h.1, hb.hash _ _ h.2]

/-- C68: triples. -/
theorem C68_triple {a : Comp A} {b : Comp B} {c : Comp C}
    (ha : Lawful a) (hb : Lawful b) (hc : Lawful c) :
    (∀ x y z x' y' z', (triple a b c).eq (x, y, z) (x', y', z') = true ↔
      a.eq x x' = true ∧ b.eq y y' = true ∧ c.eq z z' = true) ∧
    Lawful (triple a b c) := by
  refine ⟨by simp [triple, and_assoc], ⟨?_, ?_⟩⟩
  · rintro ⟨x, y, z⟩ ⟨x', y', z'⟩; simp [triple, ha.ne, hb.ne, hc.ne]
  · rintro ⟨x, y, z⟩ ⟨x', y', z'⟩ h
    simp only [triple, Bool.and_eq_true] at h ⊢
    rw [ha.hash _ _ h.1.1, hb.hash _ _ h.1.2, hc.hash _ _ h.2]

/-- C68: quartets. -/
theorem C68_quartet {a : Comp A} {b : Comp B} {c : Comp C} {d : Comp D}
    (ha : Lawful a) (hb : Lawful b) (hc : Lawful c) (hd : Lawful d) :
    (∀ x y z t x' y' z' t', (quartet a b c d).eq (x, y, z, t) (x', y', z', t') = true ↔
      a.eq x x' = true ∧ b.eq y y' = true ∧ c.eq z z' = true ∧ d.eq t t' = true) ∧
    Lawful (quartet a b c d) := by
  refine ⟨by simp [quartet, and_assoc], ⟨?_, ?_⟩⟩
  · rintro ⟨x, y, z, t⟩ ⟨x', y', z', t'⟩; simp [quartet, ha.ne, hb.ne, hc.ne, hd.ne]
  · rintro ⟨x, y, z, t⟩ ⟨x', y', z', t'⟩ h
    simp only [quartet, Bool.and_eq_true] at h ⊢
    rw [ha.hash _ _ h.1.1.1, hb.hash _ _ h.1.1.2, hc.hash _ _ h.1.2, hd.hash _ _ h.2]

/-- C68: quintuples. -/
theorem C68_quintuple {a : Comp A} {b : Comp B} {c : Comp C} {d : Comp D} {e : Comp E}
    (ha : Lawful a) (hb : Lawful b) (hc : Lawful c) (hd : Lawful d) (he : Lawful e) :
    (∀ x y z t u x' y' z' t' u',
      (quintuple a b c d e).eq (x, y, z, t, u) (x', y', z', t', u') = true ↔
      a.eq x x' = true ∧ b.eq y y' = true ∧ c.eq z z' = true ∧ d.eq t t' = true ∧
        e.eq u u' = true) ∧
    Lawful (quintuple a b c d e) := by
  refine ⟨by simp [quintuple, and_assoc], ⟨?_, ?_⟩⟩
  · rintro ⟨x, y, z, t, u⟩ ⟨x', y', z', t', u'⟩
    simp [quintuple, ha.ne, hb.ne, hc.ne, hd.ne, he.ne]
  · rintro ⟨x, y, z, t, u⟩ ⟨x', y', z', t', u'⟩ h
    simp only [quintuple, Bool.and_eq_true] at h ⊢
    rw [ha.hash _ _ h.1.1.1.1, hb.hash _ _ h.1.1.1.2, hc.hash _ _ h.1.1.2, hd.hash _ _ h.1.2,
      he.hash _ _ h.2]

/-- C68: sextuples. -/
theorem C68_sextuple {a : Comp A} {b : Comp B} {c : Comp C} {d : Comp D} {e : Comp E} {f : Comp F}
    (ha : Lawful a) (hb : Lawful b) (hc : Lawful c) (hd : Lawful d) (he : Lawful e)
    (hf : Lawful f) :
    (∀ x y z t u v x' y' z' t' u' v',
      (sextuple a b c d e f).eq (x, y, z, t, u, v) (x', y', z', t', u', v') = true ↔
      a.eq x x' = true ∧ b.eq y y' = true ∧ c.eq z z' = true ∧ d.eq t t' = true ∧
        e.eq u u' = true ∧ f.eq v v' = true) ∧
    Lawful (sextuple a b c d e f) := by
  refine ⟨by simp [sextuple, and_assoc], ⟨?_, ?_⟩⟩
  · rintro ⟨x, y, z, t, u, v⟩ ⟨x', y', z', t', u', v'⟩
    simp [sextuple, ha.ne, hb.ne, hc.ne, hd.ne, he.ne, hf.ne]
  · rintro ⟨x, y, z, t, u, v⟩ ⟨x', y', z', t', u', v'⟩ h
    simp only [sextuple, Bool.and_eq_true] at h ⊢
    rw [ha.hash _ _ h.1.1.1.1.1, hb.hash _ _ h.1.1.1.1.2, hc.hash _ _ h.1.1.1.2,
      hd.hash _ _ h.1.1.2, he.hash _ _ h.1.2, hf.hash _ _ h.2]

theorem mix_bit (h k : BitVec 32) (i : Nat) (hi : i < 32) : (mix h k).getLsbD i =
    ((if i < 11 then h.getLsbD (21 + i) else h.getLsbD (i - 11) ^^ h.getLsbD 31) ^^ k.getLsbD i) := by
  unfold mix
  rw [BitVec.getLsbD_xor, BitVec.getLsbD_xor, BitVec.getLsbD_shiftLeft, BitVec.getLsbD_sshiftRight]
  by_cases h1 : i < 11
  · simp [h1, show 21 + i < 32 by omega]
    omega
  · rw [BitVec.msb_eq_getLsbD_last]
    simp [h1, show ¬ 21 + i < 32 by omega, hi]

theorem mix_left {h h' k : BitVec 32} (e : mix h k = mix h' k) : h = h' := by
  have hb : ∀ i, i < 32 → (if i < 11 then h.getLsbD (21 + i) else h.getLsbD (i - 11) ^^ h.getLsbD 31) =
      (if i < 11 then h'.getLsbD (21 + i) else h'.getLsbD (i - 11) ^^ h'.getLsbD 31) := by
    intro i hi
    have := congrArg (fun x => x.getLsbD i) e
    simp only [mix_bit _ _ i hi] at this
    exact Bool.xor_left_inj.1 this
  have h31 := hb 10 (by omega)
  simp only [show 10 < 11 by omega, if_true] at h31
  apply BitVec.eq_of_getLsbD_eq
  intro i hi
  by_cases h1 : 21 ≤ i
  · have := hb (i - 21) (by omega)
    rw [if_pos (by omega), if_pos (by omega), show 21 + (i - 21) = i by omega] at this
    exact this
  · have := hb (i + 11) (by omega)
    rw [if_neg (by omega), if_neg (by omega), show i + 11 - 11 = i by omega, h31] at this
    exact Bool.xor_left_inj.1 this

theorem mix_right {h k k' : BitVec 32} (e : mix h k = mix h k') : k = k' := by
  unfold mix at e
  have := congrArg (fun x => (h <<< 11 ^^^ h.sshiftRight 21) ^^^ x) e
  simpa [← BitVec.xor_assoc] using this

/-- At most one of the pairs has different components. -/
def AtMostOne (ds : List (BitVec 32 × BitVec 32)) : Prop := (ds.filter fun d => d.1 ≠ d.2).length ≤ 1

theorem mix_all (ds : List (BitVec 32 × BitVec 32)) (h h' : BitVec 32) (h1 : AtMostOne ((h, h') :: ds))
    (e : ds.foldl (fun a d => mix a d.1) h = ds.foldl (fun a d => mix a d.2) h') : ∀ d ∈ (h, h') :: ds, d.1 = d.2 := by
  induction ds generalizing h h' with
  | nil => simpa using e
  | cons d ds ih =>
    obtain ⟨k, k'⟩ := d
    have hc : AtMostOne ((mix h k, mix h' k') :: ds) := by
      unfold AtMostOne at h1 ⊢
      simp only [List.filter_cons] at h1 ⊢
      by_cases a : h = h' <;> by_cases b : k = k'
      · subst a; subst b; simpa using h1
      · have h2 : (ds.filter fun d => d.1 ≠ d.2).length = 0 := by simpa [a, b] using h1
        split
        · rw [List.length_cons]; omega
        · omega
      · have h2 : (ds.filter fun d => d.1 ≠ d.2).length = 0 := by simpa [a, b] using h1
        split
        · rw [List.length_cons]; omega
        · omega
      · simp [a, b] at h1
    have hall := ih _ _ hc e
    have hm : mix h k = mix h' k' := hall (mix h k, mix h' k') (by simp)
    have hd : h = h' ∧ k = k' := by
      by_cases a : h = h'
      · subst a; exact ⟨rfl, mix_right hm⟩
      · by_cases b : k = k'
        · subst b; exact absurd (mix_left hm) a
        · simp [AtMostOne, a, b] at h1
    intro x hx
    simp only [List.mem_cons] at hx
    rcases hx with rfl | rfl | hx
    · exact hd.1
    · exact hd.2
    · exact hall x (by simp [hx])

/-- C68: tuples that differ in one component, whose hashes differ there, have different hashes: if all but at most one
of the hashes of the components agree, and the hashes of the tuples agree, then all of them agree. -/
theorem C68_spread (a : Comp A) (b : Comp B) (c : Comp C) (d : Comp D) (e : Comp E) (f : Comp F) (x1 y1 : A) (x2 y2 : B)
    (x3 y3 : C) (x4 y4 : D) (x5 y5 : E) (x6 y6 : F) :
    let ds := [(a.hash x1, a.hash y1), (b.hash x2, b.hash y2), (c.hash x3, c.hash y3), (d.hash x4, d.hash y4),
      (e.hash x5, e.hash y5), (f.hash x6, f.hash y6)]
    (AtMostOne (ds.take 2) → (pair a b).hash (x1, x2) = (pair a b).hash (y1, y2) → ∀ d ∈ ds.take 2, d.1 = d.2) ∧
    (AtMostOne (ds.take 3) → (triple a b c).hash (x1, x2, x3) = (triple a b c).hash (y1, y2, y3) →
      ∀ d ∈ ds.take 3, d.1 = d.2) ∧
    (AtMostOne (ds.take 4) → (quartet a b c d).hash (x1, x2, x3, x4) = (quartet a b c d).hash (y1, y2, y3, y4) →
      ∀ d ∈ ds.take 4, d.1 = d.2) ∧
    (AtMostOne (ds.take 5) →
      (quintuple a b c d e).hash (x1, x2, x3, x4, x5) = (quintuple a b c d e).hash (y1, y2, y3, y4, y5) →
      ∀ d ∈ ds.take 5, d.1 = d.2) ∧
    (AtMostOne ds →
      (sextuple a b c d e f).hash (x1, x2, x3, x4, x5, x6) = (sextuple a b c d e f).hash (y1, y2, y3, y4, y5, y6) →
      ∀ d ∈ ds, d.1 = d.2) :=
  ⟨mix_all [_] _ _, mix_all [_, _] _ _, mix_all [_, _, _] _ _, mix_all [_, _, _, _] _ _, mix_all [_, _, _, _, _] _ _⟩

/-- The hypothesis is met by pairs that differ in one place. -/
example : AtMostOne [(1#32, 2#32), (3#32, 3#32)] := by unfold AtMostOne; decide

/-- Non-vacuity: machine integers are a lawful component, and hashes do depend on the order. -/
def intComp : Comp (BitVec 32) := ⟨(· == ·), (· != ·), hInt⟩

theorem intComp_lawful : Lawful intComp :=
  ⟨fun _ _ => rfl, fun x y h => by simp [intComp, hInt] at *; exact h⟩

example : Lawful (pair intComp (pair intComp intComp)) :=
  (C68_pair intComp_lawful (C68_pair intComp_lawful intComp_lawful).2).2

example : (pair intComp intComp).hash (1#32, 2#32) ≠ (pair intComp intComp).hash (2#32, 1#32) := by
  decide

/-! ## C70: a type can be a key of a hash table when equal values have equal hashes -/

/-- C70, violated for `double`: `0.0 == -0.0`, but their hashes differ. -/
theorem C70_double_violated : ∃ x y, doubleEq x y = true ∧ hDouble x ≠ hDouble y :=
  ⟨0#64, 0x8000000000000000#64, by decide, by decide⟩

/-- C70, violated for `float` in the same way. -/
theorem C70_float_violated : ∃ x y, floatEq x y = true ∧ hFloat x ≠ hFloat y :=
  ⟨0#32, 0x80000000#32, by decide, by decide⟩

/-- C70 holds for doubles other than the two zeros. -/
theorem C70_double_partial (x y : BitVec 64) (h : doubleEq x y = true)
    (hz : x ≠ 0x8000000000000000#64 ∧ y ≠ 0x8000000000000000#64) : hDouble x = hDouble y := by
  suffices x = y by rw [this]
  simp only [doubleEq, Bool.and_eq_true, Bool.or_eq_true, beq_iff_eq] at h
  rcases h.2 with h | ⟨h1, h2⟩
  · exact h
  · have key : ∀ z : BitVec 64, z &&& 0x7fffffffffffffff#64 = 0#64 → z ≠ 0x8000000000000000#64 →
        z = 0#64 := by
      intro z hz hne
      have : ∀ i, i < 63 → z.getLsbD i = false := by
        intro i hi
        have := congrArg (fun b => b.getLsbD i) hz
        simp only [BitVec.getLsbD_and, BitVec.getLsbD_zero] at this
        have hm : (0x7fffffffffffffff#64).getLsbD i = true := by
          have : ∀ i : Fin 63, (0x7fffffffffffffff#64).getLsbD i = true := by decide
          exact this ⟨i, hi⟩
        simpa [hm] using this
      cases h63 : z.getLsbD 63 with
      | false =>
        apply BitVec.eq_of_getLsbD_eq
        intro i hi
        rw [BitVec.getLsbD_zero]
        by_cases h : i < 63
        · exact this i h
        · rw [show i = 63 by omega]; exact h63
      | true =>
        exfalso; apply hne
        apply BitVec.eq_of_getLsbD_eq
        intro i hi
        have hm : ∀ i : Fin 64, (0x8000000000000000#64).getLsbD i = decide (i.val = 63) := by decide
        rw [hm ⟨i, hi⟩]
        by_cases h : i < 63
        · rw [this i h]; simp; omega
        · obtain rfl : i = 63 := by omega
          simpa using h63
    rw [key x h1 hz.1, key y h2 hz.2]

/-- C70 holds for floats other than the two zeros. -/
theorem C70_float_partial (x y : BitVec 32) (h : floatEq x y = true)
    (hz : x ≠ 0x80000000#32 ∧ y ≠ 0x80000000#32) : hFloat x = hFloat y := by
  suffices x = y by rw [this]
  simp only [floatEq, Bool.and_eq_true, Bool.or_eq_true, beq_iff_eq] at h
  rcases h.2 with h | ⟨h1, h2⟩
  · exact h
  · have key : ∀ z : BitVec 32, z &&& 0x7fffffff#32 = 0#32 → z ≠ 0x80000000#32 → z = 0#32 := by
      intro z hz hne
      have h0 := congrArg BitVec.toNat hz
      rw [BitVec.toNat_and, show (0x7fffffff#32).toNat = 2 ^ 31 - 1 from rfl, Nat.and_two_pow_sub_one_eq_mod] at h0
      have hl := z.isLt
      have hne' : z.toNat ≠ 2147483648 := fun e => hne (BitVec.eq_of_toNat_eq (by simpa using e))
      apply BitVec.eq_of_toNat_eq
      simp only [BitVec.toNat_ofNat] at h0 ⊢
      omega
    rw [key x h1 hz.1, key y h2 hz.2]

example : floatEq 0x3f800000#32 0x3f800000#32 = true := by decide

/-- What `==` of floats and doubles means in these theorems: a value equals itself unless it is not a number (exponent
all ones and mantissa not zero), the zeros are equal, and nothing else is. -/
theorem C70_float_eq (x y : BitVec 32) : floatEq x y = true ↔
    (x = y ∧ ¬ (x.toNat % 2 ^ 31 > 255 * 2 ^ 23)) ∨ (x.toNat % 2 ^ 31 = 0 ∧ y.toNat % 2 ^ 31 = 0) := by
  have hm : ∀ z : BitVec 32, (z &&& 0x7fffffff#32).toNat = z.toNat % 2 ^ 31 := by
    intro z
    rw [BitVec.toNat_and, show (0x7fffffff#32).toNat = 2 ^ 31 - 1 from rfl, Nat.and_two_pow_sub_one_eq_mod]
  have hz : ∀ z : BitVec 32, z &&& 0x7fffffff#32 = 0#32 ↔ z.toNat % 2 ^ 31 = 0 := by
    intro z
    rw [← hm z, ← BitVec.toNat_inj]
    rfl
  simp only [floatEq, Bool.and_eq_true, Bool.or_eq_true, beq_iff_eq, Bool.not_eq_true', decide_eq_false_iff_not, hm, hz]
  constructor
  · rintro ⟨⟨h1, h2⟩, rfl | h⟩
    · exact .inl ⟨rfl, h1⟩
    · exact .inr h
  · rintro (⟨rfl, h⟩ | ⟨h1, h2⟩)
    · exact ⟨⟨h, h⟩, .inl rfl⟩
    · exact ⟨⟨by omega, by omega⟩, .inr ⟨h1, h2⟩⟩

theorem C70_double_eq (x y : BitVec 64) : doubleEq x y = true ↔
    (x = y ∧ ¬ (x.toNat % 2 ^ 63 > 2047 * 2 ^ 52)) ∨ (x.toNat % 2 ^ 63 = 0 ∧ y.toNat % 2 ^ 63 = 0) := by
  have hm : ∀ z : BitVec 64, (z &&& 0x7fffffffffffffff#64).toNat = z.toNat % 2 ^ 63 := by
    intro z
    rw [BitVec.toNat_and, show (0x7fffffffffffffff#64).toNat = 2 ^ 63 - 1 from rfl, Nat.and_two_pow_sub_one_eq_mod]
  have hz : ∀ z : BitVec 64, z &&& 0x7fffffffffffffff#64 = 0#64 ↔ z.toNat % 2 ^ 63 = 0 := by
    intro z
    rw [← hm z, ← BitVec.toNat_inj]
    rfl
  simp only [doubleEq, Bool.and_eq_true, Bool.or_eq_true, beq_iff_eq, Bool.not_eq_true', decide_eq_false_iff_not, hm, hz]
  constructor
  · rintro ⟨⟨h1, h2⟩, rfl | h⟩
    · exact .inl ⟨rfl, h1⟩
    · exact .inr h
  · rintro (⟨rfl, h⟩ | ⟨h1, h2⟩)
    · exact ⟨⟨h, h⟩, .inl rfl⟩
    · exact ⟨⟨by omega, by omega⟩, .inr ⟨h1, h2⟩⟩

/-- Two 64-bit integers collide exactly when they agree modulo 2^32. -/
theorem C70_long (x y : BitVec 64) : hLong x = hLong y ↔ x.toNat % 2 ^ 32 = y.toNat % 2 ^ 32 := by
  simp [hLong, ← BitVec.toNat_inj]

/-- C70 for pointers: the sum overflows `int` for some addresses. -/
theorem C70_pointer_violated : ∃ p, hPointer p = .ub := ⟨0x7fffffff#64, by decide⟩

/-- It is defined for every address whose low 32 bits, as a signed integer, are not within 18 of
the limits of `int`. -/
theorem C70_pointer_partial (p : BitVec 64)
    (h : -2147483630 ≤ (p.truncate 32).toInt ∧ (p.truncate 32).toInt ≤ 2147483629) :
    ∃ k, hPointer p = .ok k := by
  have h1 : ((p.truncate 32).toInt).tmod 19 < 19 := by
    exact Int.tmod_lt_of_pos _ (by omega)
  have h2 : -19 < ((p.truncate 32).toInt).tmod 19 := by
    have := Int.tmod_lt_of_pos (-(p.truncate 32).toInt) (b := 19) (by omega)
    rw [Int.neg_tmod] at this; omega
  simp only [hPointer]
  rw [if_pos (by omega)]
  exact ⟨_, rfl⟩

/-- The low halves of addresses for which it is undefined, exactly: these eighteen. -/
theorem C70_pointer_exact (p : BitVec 64) (i : Int) (hi : (p.truncate 32).toInt = i) :
    hPointer p = .ub ↔
      (2147483637 ≤ i ∧ i ≤ 2147483644) ∨ i = 2147483647 ∨
      (-2147483644 ≤ i ∧ i ≤ -2147483638) ∨ i = -2147483647 ∨ i = -2147483648 := by
  have h1 : -2147483648 ≤ i ∧ i ≤ 2147483647 := by
    have := BitVec.le_toInt (p.truncate 32)
    have := BitVec.toInt_lt (x := p.truncate 32)
    rw [hi] at *
    constructor <;> omega
  have h2 : hPointer p = .ub ↔ ¬ (-2147483648 ≤ i + i.tmod 19 ∧ i + i.tmod 19 ≤ 2147483647) := by
    simp only [hPointer, hi]
    split <;> simp_all
  rw [h2]
  clear h2 hi
  rcases Int.le_total 0 i with h | h
  · rw [Int.tmod_eq_emod_of_nonneg h]
    constructor
    · intro h'; omega
    · rintro (h' | h' | h' | h' | h') h''
      · have : i = 2147483637 ∨ i = 2147483638 ∨ i = 2147483639 ∨ i = 2147483640 ∨ i = 2147483641 ∨ i = 2147483642 ∨ i = 2147483643 ∨ i = 2147483644 := by omega
        rcases this with rfl | rfl | rfl | rfl | rfl | rfl | rfl | rfl <;> omega
      all_goals omega
  · have : i.tmod 19 = -((-i) % 19) := by
      rw [← Int.tmod_eq_emod_of_nonneg (by omega : (0 : Int) ≤ -i), Int.neg_tmod]; omega
    rw [this]
    clear this
    constructor
    · intro h'; omega
    · rintro (h' | h' | h' | h' | h') h''
      · omega
      · omega
      · have : i = -2147483644 ∨ i = -2147483643 ∨ i = -2147483642 ∨ i = -2147483641 ∨ i = -2147483640 ∨ i = -2147483639 ∨ i = -2147483638 := by omega
        rcases this with rfl | rfl | rfl | rfl | rfl | rfl | rfl <;> omega
      all_goals omega

example : hPointer 0x7ffff80000000#64 = .ub :=
  (C70_pointer_exact _ (-2147483648) (by decide)).2 (by omega)

example : -2147483630 ≤ ((0x7ffd12345678#64).truncate 32).toInt ∧
    ((0x7ffd12345678#64).truncate 32).toInt ≤ 2147483629 := by decide

end Lolly.NTupleProps
