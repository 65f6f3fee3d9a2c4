import Verif.Strings.Positions
import Verif.Strings.ReadersProps
import Verif.Strings.SearchProps

/-!
# C173: positions that are any `int`

`C173_same`: at positions from 0 on the functions do what the models of C20, C38 and C76 say, and nothing overflows.
`C173_beyond_partial`: beyond the end there is nothing to be read. `C173_beyond_violated`: `read_int`, `read_double`,
`find_non_alpha` backwards and `search_forwards` do not keep to this. `C173_negative_partial`: the functions that can be given
negative positions. `C173_negative_violated`: all others read in front of the string.
-/

set_option autoImplicit false

namespace Lolly.PosProps

open Lolly.Pos

/-- A result with a position that is a natural number. -/
def up (r : Res Nat) : Res Int := r.bind fun n => .ok (n : Int)
def up2 {α : Type} (r : Res (α × Nat)) : Res (α × Int) := r.bind fun x => .ok (x.1, (x.2 : Int))
def up3 {α β : Type} (r : Res (α × Nat × β)) : Res (α × Int × β) := r.bind fun x => .ok (x.1, (x.2.1 : Int), x.2.2)
def upO (r : Res (Option Nat)) : Res (Option Int) := r.bind fun x => .ok (x.map fun n => (n : Int))

/-! ## Lemmas -/

theorem up_ok (j : Nat) : up (.ok j) = .ok (j : Int) := rfl

theorem rdI_nat {α : Type} (s : List α) (i : Nat) : rdI s (i : Int) = rd s i := by
  rw [rdI, if_pos (by omega), Int.toNat_natCast]

theorem rdI_neg {α : Type} (s : List α) {i : Int} (h : i < 0) : rdI s i = .ub := by
  rw [rdI, if_neg (by omega)]

theorem plus_one {i : Nat} (h : i < 2147483647) : plus (i : Int) 1 = .ok ((i + 1 : Nat) : Int) := by
  rw [plus, if_pos (by omega)]
  rfl

theorem plus_ok {a b : Int} (h : -2147483648 ≤ a + b) (h' : a + b ≤ 2147483647) : plus a b = .ok (a + b) := by
  rw [plus, if_pos ⟨h, h'⟩]

theorem test_nat {s : Bytes} (hs : s.length ≤ 2147483647) : ∀ (t : Bytes) (i : Nat), Pos.test s (i : Int) t = An.test s i t
  | [], _ => rfl
  | c :: t, i => by
    rw [Pos.test, An.test]
    by_cases h : i ≥ s.length
    · rw [if_pos (by omega), if_pos h]
    · rw [if_neg (by omega), if_neg h, rdI_nat, rd_ok (by omega)]
      simp only [Res.ok_bind]
      split
      · rfl
      · rw [plus_one (by omega), Res.ok_bind, test_nat hs t]

theorem readLoop_nat {s : Bytes} (hs : s.length ≤ 2147483647) : ∀ (t : Bytes) (i : Nat),
    Pos.readLoop s (i : Int) t = upO (Readers.readLoop s i t)
  | [], _ => rfl
  | c :: t, i => by
    rw [Pos.readLoop, Readers.readLoop]
    by_cases h : i ≥ s.length
    · rw [if_pos (by omega), if_pos h]; rfl
    · rw [if_neg (by omega), if_neg h, rdI_nat, rd_ok (by omega)]
      simp only [Res.ok_bind]
      split
      · rfl
      · rw [plus_one (by omega), Res.ok_bind, readLoop_nat hs t]

theorem skipF_nat {p : UInt8 → Bool} {s : Bytes} (hs : s.length ≤ 2147483647) : ∀ (f i : Nat), s.length - i < f →
    skipF p s f (i : Int) = up (Readers.skipWhile p s i)
  | 0, _, h => by omega
  | f + 1, i, h => by
    rw [skipF, Readers.skipWhile]
    by_cases hi : i < s.length
    · rw [if_pos (by omega), if_pos hi, rdI_nat, rd_ok hi]
      simp only [Res.ok_bind]
      split
      · rw [plus_one (by omega), Res.ok_bind, skipF_nat hs f (i + 1) (by omega)]
      · rfl
    · rw [if_neg (by omega), if_neg hi]; rfl

theorem skipWhile_nat {p : UInt8 → Bool} {s : Bytes} (hs : s.length ≤ 2147483647) (i : Nat) :
    Pos.skipWhile p s (i : Int) = up (Readers.skipWhile p s i) :=
  skipF_nat hs _ _ (by unfold rounds; omega)

theorem symbolF_nat {s : Bytes} (hs : s.length ≤ 2147483647) : ∀ (f i : Nat), 0 < i → s.length - i < f →
    symbolF s f (i : Int) = up (Readers.symbolLoop s i)
  | 0, _, _, h => by omega
  | f + 1, i, h0, h => by
    rw [symbolF, Readers.symbolLoop]
    by_cases hi : i < s.length
    · have e : (i : Int) - 1 = ((i - 1 : Nat) : Int) := by omega
      rw [if_pos (by omega), if_pos hi, e, rdI_nat, rd_ok (by omega : i - 1 < s.length)]
      simp only [Res.ok_bind]
      split
      · rfl
      · rw [plus_one (by omega), Res.ok_bind, symbolF_nat hs f (i + 1) (by omega) (by omega)]
    · rw [if_neg (by omega), if_neg hi]; rfl

theorem readLineF_nat {s : Bytes} (hs : s.length ≤ 2147483647) (start : Nat) : ∀ (f i : Nat), s.length - i < f →
    readLineF s (start : Int) f (i : Int) = up3 (Readers.readLineLoop s start i)
  | 0, _, h => by omega
  | f + 1, i, h => by
    rw [readLineF, Readers.readLineLoop]
    by_cases hi : i < s.length
    · rw [if_pos (by omega), if_pos hi, rdI_nat, rd_ok hi]
      rw [Res.ok_bind, Res.ok_bind, plus_one (by omega), Res.ok_bind]
      by_cases hc : s[i] = 10
      · rw [if_pos hc, if_pos hc]; rfl
      · rw [if_neg hc, if_neg hc, readLineF_nat hs start f (i + 1) (by omega)]
    · rw [if_neg (by omega), if_neg hi]; rfl

theorem readSign_nat {p : UInt8 → Bool} {s : Bytes} (hs : s.length ≤ 2147483647) (i : Nat) :
    Pos.readSign p s (i : Int) = upO (Readers.readSign p s i) := by
  rw [Pos.readSign, Readers.readSign]
  by_cases h : i = s.length
  · rw [if_pos (by omega), if_pos h]; rfl
  · rw [if_neg (by omega), if_neg h, rdI_nat]
    by_cases hi : i < s.length
    · rw [rd_ok hi]
      simp only [Res.ok_bind]
      split
      · rw [plus_one (by omega), Res.ok_bind]
        by_cases h1 : i + 1 = s.length
        · rw [if_pos (by omega), if_pos h1]; rfl
        · rw [if_neg (by omega), if_neg h1, rdI_nat, rd_ok (by omega : i + 1 < s.length)]
          simp only [Res.ok_bind]
          split <;> rfl
      · split <;> rfl
    · rw [rd_ub (by omega)]; rfl

theorem skipOne_nat {p : UInt8 → Bool} {s : Bytes} (hs : s.length ≤ 2147483647) (i : Nat) :
    Pos.skipOne p s (i : Int) = up (Readers.skipOne p s i) := by
  rw [Pos.skipOne, Readers.skipOne]
  by_cases hi : i < s.length
  · rw [if_pos (by omega), if_pos hi, rdI_nat, rd_ok hi]
    simp only [Res.ok_bind]
    split
    · rw [plus_one (by omega)]; rfl
    · rfl
  · rw [if_neg (by omega), if_neg hi]; rfl

theorem skipOne_cases {p : UInt8 → Bool} {s : Bytes} (i : Nat) : ∃ j, Readers.skipOne p s i = .ok j := by
  rw [Readers.skipOne]
  split
  · next h => rw [rd_ok h]; exact ⟨_, rfl⟩
  · exact ⟨_, rfl⟩

theorem skipWhile_ok {p : UInt8 → Bool} {s : Bytes} (i : Nat) : ∃ j, Readers.skipWhile p s i = .ok j := by
  by_cases h : i ≤ s.length
  · exact ⟨_, ReadersProps.skipWhile_spec p s i h⟩
  · rw [Readers.skipWhile, if_neg (by omega)]; exact ⟨_, rfl⟩

theorem readExponent_nat {s : Bytes} (hs : s.length ≤ 2147483647) (i : Nat) :
    Pos.readExponent s (i : Int) = upO (Readers.readExponent s i) := by
  rw [Pos.readExponent, Readers.readExponent, skipOne_nat hs]
  obtain ⟨j, hj⟩ := skipOne_cases (p := fun c => c == c! 'e' || c == c! 'E') (s := s) i
  simp only [hj, up_ok, Res.ok_bind]
  by_cases h : j = i
  · rw [if_pos (by omega), if_pos h]; rfl
  · rw [if_neg (by omega), if_neg h, skipOne_nat hs]
    obtain ⟨k, hk⟩ := skipOne_cases (p := (· == c! '-')) (s := s) j
    simp only [hk, up_ok, Res.ok_bind]
    by_cases h1 : k = s.length
    · rw [if_pos (by omega), if_pos h1]; rfl
    · rw [if_neg (by omega), if_neg h1, rdI_nat]
      by_cases hk : k < s.length
      · rw [rd_ok hk]
        simp only [Res.ok_bind]
        split
        · rfl
        · rw [skipWhile_nat hs]
          obtain ⟨e, he⟩ := skipWhile_ok (p := An.isDigit) (s := s) k
          simp only [he, up_ok, Res.ok_bind]
          rfl
      · rw [rd_ub (by omega)]; rfl

theorem testHead_nat {inn : Bytes} (hs : inn.length ≤ 2147483647) (c : UInt8) (t : Bytes) (i : Nat) :
    Pos.testHead inn (i : Int) c t = An.testHead (rd inn) inn i c t := by
  rw [Pos.testHead, An.testHead, rdI_nat, test_nat hs]

theorem forwardsF_nat {s inn : Bytes} {c : UInt8} (hn : inn.length ≤ 1073741824) (h0 : 0 < s.length) :
    ∀ (f i : Nat), i + s.length ≤ 2147483647 → inn.length - i < f → inn.length ≤ i + f →
      (i ≤ inn.length → s.length ≤ 1073741824) →
      forwardsF s c inn f (i : Int) = An.forwardsLoop s c inn i
  | 0, _, _, h, _, _ => by omega
  | f + 1, i, h, h1, h2, h3 => by
    rw [forwardsF, An.forwardsLoop, plus_ok (by omega) (by omega), Res.ok_bind]
    by_cases hi : i + s.length ≤ inn.length
    · rw [if_pos (by omega), if_pos hi, testHead_nat (by omega)]
      refine congrArg (Res.bind _) (funext fun t => ?_)
      split
      · rfl
      · rw [plus_one (by omega), Res.ok_bind, forwardsF_nat hn h0 f (i + 1) (by omega) (by omega) (by omega) (fun h => h3 (by omega))]
    · rw [if_neg (by omega), if_neg hi]

theorem anyAt_nat {inn : Bytes} (hs : inn.length ≤ 2147483647) (i : Nat) : ∀ a : List Bytes,
    Pos.anyAt inn (i : Int) a = An.anyAt (rd inn) inn i a
  | [] => rfl
  | [] :: a => by
    rw [Pos.anyAt, An.anyAt]
    exact anyAt_nat hs i a
  | (c :: p) :: a => by
    rw [Pos.anyAt, An.anyAt, testHead_nat hs]
    refine congrArg (Res.bind _) (funext fun t => ?_)
    rw [anyAt_nat hs i a]

theorem anyF_nat {a : List Bytes} {inn : Bytes} (hs : inn.length ≤ 1073741824) : ∀ (f i : Nat), inn.length + 1 - i < f →
    anyF a inn f (i : Int) = An.forwardsAny (rd inn) a i inn
  | 0, _, h => by omega
  | f + 1, i, h => by
    rw [anyF, An.forwardsAny]
    by_cases hi : i ≤ inn.length
    · rw [if_pos (by omega), if_pos hi, anyAt_nat (by omega)]
      refine congrArg (Res.bind _) (funext fun t => ?_)
      split
      · rfl
      · rw [plus_one (by omega), Res.ok_bind, anyF_nat hs f (i + 1) (by omega)]
    · rw [if_neg (by omega), if_neg hi]

theorem backwardsF_nat {s inn : Bytes} (hs : inn.length ≤ 2147483647) : ∀ (f i : Nat), i ≤ 2147483648 → i < f →
    backwardsF s inn f ((i : Int) - 1) = An.backwardsLoop s inn i
  | 0, _, _, h => by omega
  | f + 1, 0, _, _ => by rw [backwardsF, if_neg (by omega), An.backwardsLoop]
  | f + 1, i + 1, hi, h => by
    have e : ((i + 1 : Nat) : Int) - 1 = (i : Nat) := by omega
    rw [backwardsF, e, if_pos (by omega), An.backwardsLoop, test_nat hs]
    refine congrArg (Res.bind _) (funext fun t => ?_)
    split
    · rfl
    · rw [plus_ok (by omega) (by omega), Res.ok_bind]
      exact backwardsF_nat hs f i (by omega) (by omega)

theorem alphaF_nat {s : Bytes} (hs : s.length ≤ 2147483647) : ∀ (f i : Nat), s.length - i < f →
    alphaF s f (i : Int) = An.nonAlphaForward s i
  | 0, _, h => by omega
  | f + 1, i, h => by
    rw [alphaF, An.nonAlphaForward]
    by_cases hi : i < s.length
    · rw [if_pos (by omega), if_pos hi, rdI_nat, rd_ok hi]
      simp only [Res.ok_bind]
      cases An.isAlpha s[i] with
      | false => simp only [Bool.not_false, if_true, Bool.false_eq_true, if_false]
      | true =>
        simp only [Bool.not_true, Bool.false_eq_true, if_false, if_true]
        rw [plus_one (by omega), Res.ok_bind, alphaF_nat hs f (i + 1) (by omega)]
    · rw [if_neg (by omega), if_neg hi]

theorem alphaB_nat {s : Bytes} : ∀ (f i : Nat), i ≤ 2147483647 → i < f → alphaB s f (i : Int) = An.nonAlphaBackward s i
  | 0, _, _, h => by omega
  | f + 1, 0, _, _ => by rw [alphaB, if_neg (by omega), An.nonAlphaBackward]
  | f + 1, i + 1, hi, h => by
    have e : ((i + 1 : Nat) : Int) - 1 = (i : Nat) := by omega
    rw [alphaB, if_pos (by omega), e, rdI_nat, An.nonAlphaBackward]
    refine congrArg (Res.bind _) (funext fun c => ?_)
    cases An.isAlpha c with
    | false => simp only [Bool.not_false, if_true, Bool.false_eq_true, if_false]
    | true =>
      simp only [Bool.not_true, Bool.false_eq_true, if_false, if_true]
      rw [plus_ok (by omega) (by omega), Res.ok_bind]
      have : ((i + 1 : Nat) : Int) + -1 = (i : Nat) := by omega
      rw [this]
      exact alphaB_nat f i (by omega) (by omega)

/-! ## From the beginning on -/

/-- **C173, positions from 0 on.** All the functions do what the models of C20, C38 and C76 say, in which numbers have no bound: nothing
overflows. For `search_forwards` the end of the pattern must be an `int` as well. Strings have at most `2 ^ 30` characters (C172). -/
theorem C173_same {s : Bytes} (hs : s.length ≤ 1073741824) (i : Nat) (hi : i ≤ 2147483647) (t : Bytes) (a : List Bytes) :
    Pos.test s i t = An.test s i t ∧ Pos.read s i t = up2 (Readers.read s i t) ∧
    Pos.skipSpaces s i = up (Readers.skipSpaces s i) ∧ Pos.skipWhitespace s i = up (Readers.skipWhitespace s i) ∧
    Pos.skipLine s i = up (Readers.skipLine s i) ∧ Pos.skipSymbol s i = up (Readers.skipSymbol s i) ∧
    Pos.readLine s i = up3 (Readers.readLine s i) ∧ Pos.readWord s i = up3 (Readers.readWord s i) ∧
    Pos.readInt s i = up3 (Readers.readInt s i) ∧ Pos.readDouble s i = up3 (Readers.readDouble s i) ∧
    (t = [] ∨ i + t.length ≤ 2147483647 → Pos.forwards t i s = An.forwards t i s) ∧
    Pos.forwardsAny a i s = An.forwardsAny (rd s) a i s ∧ Pos.backwards t i s = An.backwards t i s ∧
    Pos.nonAlphaForward s i = An.nonAlphaForward s i ∧ Pos.nonAlphaBackward s i = An.nonAlphaBackward s i := by
  have hs' : s.length ≤ 2147483647 := by omega
  refine ⟨test_nat hs' t i, ?_, skipWhile_nat hs' i, skipWhile_nat hs' i, ?_, ?_, readLineF_nat hs' i _ _ (by unfold rounds; omega), ?_,
    ?_, ?_, ?_, anyF_nat hs _ _ (by unfold rounds; omega), ?_, alphaF_nat hs' _ _ (by unfold rounds; omega), ?_⟩
  · rw [Pos.read, Readers.read, readLoop_nat hs' t i]
    cases Readers.readLoop s i t with
    | ok o => cases o <;> rfl
    | _ => rfl
  · rw [Pos.skipLine, Readers.skipLine, skipWhile_nat hs' i]
    obtain ⟨j, hj⟩ := skipWhile_ok (p := (· != 10)) (s := s) i
    rw [hj, up_ok, Res.ok_bind, Res.ok_bind]
    by_cases h : j < s.length
    · rw [if_pos (by omega), if_pos h, plus_one (by omega)]; rfl
    · rw [if_neg (by omega), if_neg h]; rfl
  · rw [Pos.skipSymbol, Readers.skipSymbol]
    by_cases h : i < s.length
    · rw [if_pos (by omega), if_pos h, rdI_nat, rd_ok h, Res.ok_bind, Res.ok_bind, plus_one (by omega), Res.ok_bind]
      by_cases hc : s[i] = c! '<'
      · rw [if_pos hc, if_pos hc, symbolF_nat hs' _ _ (by omega) (by unfold rounds; omega)]
      · rw [if_neg hc, if_neg hc]; rfl
    · rw [if_neg (by omega), if_neg h]; rfl
  · rw [Pos.readWord, Readers.readWord, skipWhile_nat hs' i]
    obtain ⟨j, hj⟩ := skipWhile_ok (p := An.isAlpha) (s := s) i
    rw [hj, up_ok, Res.ok_bind, Res.ok_bind]
    show Res.ok (decide ((j : Int) > (i : Int)), (j : Int), An.sub s i j) = Res.ok (decide (j > i), (j : Int), An.sub s i j)
    have : decide ((j : Int) > (i : Int)) = decide (j > i) := by
      by_cases h : j > i
      · rw [decide_eq_true h, decide_eq_true (by omega)]
      · rw [decide_eq_false h, decide_eq_false (by omega)]
    rw [this]
  · rw [Pos.readInt, Readers.readInt, readSign_nat hs' i]
    cases Readers.readSign An.isDigit s i with
    | ok o =>
      cases o with
      | none => rfl
      | some j =>
        obtain ⟨e, he⟩ := skipWhile_ok (p := An.isDigit) (s := s) j
        show (Pos.skipWhile An.isDigit s (j : Int)).bind _ = up3 ((Readers.skipWhile An.isDigit s j).bind _)
        rw [skipWhile_nat hs' j, he]
        show (Conv.asInt (2 ^ 31) (An.sub s i e)).bind _ = up3 ((Conv.asInt (2 ^ 31) (An.sub s i e)).bind _)
        cases Conv.asInt (2 ^ 31) (An.sub s i e) <;> rfl
    | _ => rfl
  · rw [Pos.readDouble, Readers.readDouble, readSign_nat hs' i]
    cases Readers.readSign An.isNumeric s i with
    | ok o =>
      cases o with
      | none => rfl
      | some j =>
        obtain ⟨e, he⟩ := skipWhile_ok (p := An.isDigit) (s := s) j
        obtain ⟨k, hk⟩ := skipOne_cases (p := (· == c! '.')) (s := s) e
        obtain ⟨m, hm⟩ := skipWhile_ok (p := An.isDigit) (s := s) k
        show (Pos.skipWhile An.isDigit s (j : Int)).bind _ = up3 ((Readers.skipWhile An.isDigit s j).bind _)
        rw [skipWhile_nat hs' j, he]
        show (Pos.skipOne (· == c! '.') s (e : Int)).bind _ = up3 ((Readers.skipOne (· == c! '.') s e).bind _)
        rw [skipOne_nat hs' e, hk]
        show (Pos.skipWhile An.isDigit s (k : Int)).bind _ = up3 ((Readers.skipWhile An.isDigit s k).bind _)
        rw [skipWhile_nat hs' k, hm]
        show (Pos.readExponent s (m : Int)).bind _ = up3 ((Readers.readExponent s m).bind _)
        rw [readExponent_nat hs' m]
        cases Readers.readExponent s m with
        | ok o => cases o <;> rfl
        | _ => rfl
    | _ => rfl
  · intro h
    rw [Pos.forwards, An.forwards]
    by_cases h0 : t.length = 0
    · rw [if_pos h0, if_pos h0]
    · have ht : i + t.length ≤ 2147483647 := by
        rcases h with rfl | h
        · exact (h0 rfl).elim
        · exact h
      rw [if_neg h0, if_neg h0, rd_ok (by omega), Res.ok_bind, Res.ok_bind, if_neg (by omega), Int.toNat_natCast]
      by_cases hle : t.length ≤ 1073741824
      · exact forwardsF_nat hs (by omega) _ _ ht (by unfold rounds; omega) (by unfold rounds; omega) fun _ => hle
      · rw [show rounds s (i : Int) = (s.length - i + 1) + 1 by unfold rounds; omega, forwardsF, An.forwardsLoop,
          plus_ok (by omega) (by omega), Res.ok_bind, if_neg (by omega), if_neg (by omega)]
  · have := backwardsF_nat (s := t) hs' (i + 2) (i + 1) (by omega) (by omega)
    rw [show ((i + 1 : Nat) : Int) - 1 = (i : Int) by omega] at this
    rw [Pos.backwards, An.backwards, show ((i : Int) + 1).toNat = i + 1 by omega, this]
  · rw [Pos.nonAlphaBackward, Int.toNat_natCast]
    exact alphaB_nat _ _ hi (by omega)

/-! ## Beyond the end -/

theorem rounds_pos (s : Bytes) (i : Int) : ∃ f, rounds s i = f + 1 := ⟨(s.length - i).toNat + 1, rfl⟩

theorem skipWhile_beyond {p : UInt8 → Bool} {s : Bytes} {i : Int} (h : s.length ≤ i) : Pos.skipWhile p s i = .ok i := by
  obtain ⟨f, hf⟩ := rounds_pos s i
  rw [Pos.skipWhile, hf, skipF, if_neg (by omega)]

theorem sub_self (s : Bytes) (i : Int) : An.sub s i i = [] := by
  rw [An.sub, List.drop_eq_nil_of_le]
  rw [List.length_take]
  omega

theorem test_beyond {s : Bytes} {i : Int} (h : s.length ≤ i) (t : Bytes) : Pos.test s i t = .ok (decide (t = [])) := by
  cases t with
  | nil => rfl
  | cons c t => rw [Pos.test, if_pos h]; rfl

theorem backwards_beyond {t s : Bytes} (ht : t ≠ []) : ∀ k, An.backwardsLoop t s (s.length + k) = An.backwardsLoop t s s.length
  | 0 => rfl
  | k + 1 => by
    rw [← Nat.add_assoc, An.backwardsLoop, An.test_eq, List.drop_eq_nil_of_le (by omega)]
    cases t with
    | nil => exact (ht rfl).elim
    | cons c t => exact backwards_beyond ht k

/-- **C173 beyond the end.** There is nothing to be read there, and the position stays. Missing: `read_int`, `read_double`, `find_non_alpha`
backwards, and `search_forwards` if the end of the pattern is not an `int`, see `C173_beyond_violated`. -/
theorem C173_beyond_partial {s : Bytes} (hs : s.length ≤ 1073741824) (i : Int) (hi : s.length ≤ i) (hm : i ≤ 2147483647) (t : Bytes)
    (a : List Bytes) :
    Pos.test s i t = .ok (decide (t = [])) ∧ Pos.read s i t = .ok (decide (t = []), i) ∧
    Pos.skipSpaces s i = .ok i ∧ Pos.skipWhitespace s i = .ok i ∧ Pos.skipLine s i = .ok i ∧ Pos.skipSymbol s i = .ok i ∧
    Pos.readLine s i = .ok (false, i, []) ∧ Pos.readWord s i = .ok (false, i, []) ∧
    (t ≠ [] → i + t.length ≤ 2147483647 → Pos.forwards t i s = .ok (-1)) ∧
    (s.length < i → Pos.forwardsAny a i s = .ok (-1)) ∧
    (t ≠ [] → Pos.backwards t i s = Pos.backwards t s.length s) ∧
    Pos.nonAlphaForward s i = .ok (-1) := by
  obtain ⟨f, hf⟩ := rounds_pos s i
  refine ⟨test_beyond hi t, ?_, skipWhile_beyond hi, skipWhile_beyond hi, ?_, ?_, ?_, ?_, ?_, ?_, ?_, ?_⟩
  · rw [Pos.read]
    cases t with
    | nil => rfl
    | cons c t => rw [Pos.readLoop, if_pos hi]; rfl
  · rw [Pos.skipLine, skipWhile_beyond hi, Res.ok_bind, if_neg (by omega)]
  · rw [Pos.skipSymbol, if_neg (by omega)]
  · rw [Pos.readLine, hf, readLineF, if_neg (by omega), sub_self]
  · rw [Pos.readWord, skipWhile_beyond hi, Res.ok_bind, sub_self, decide_eq_false (by omega)]
  · intro ht hl
    have h0 : 0 < t.length := List.length_pos_iff.2 ht
    rw [Pos.forwards, if_neg (by omega), rd_ok h0, Res.ok_bind, hf, forwardsF, plus_ok (by omega) (by omega), Res.ok_bind,
      if_neg (by omega)]
  · intro h
    rw [Pos.forwardsAny, hf, anyF, if_neg (by omega)]
  · intro ht
    obtain ⟨n, rfl⟩ := Int.eq_ofNat_of_zero_le (by omega : 0 ≤ i)
    have e1 := (C173_same hs n (by omega) t a).2.2.2.2.2.2.2.2.2.2.2.2.1
    have e2 := (C173_same hs s.length (by omega) t a).2.2.2.2.2.2.2.2.2.2.2.2.1
    rw [e1, e2, An.backwards, An.backwards, show ((n : Int) + 1).toNat = s.length + (n + 1 - s.length) by omega,
      show ((s.length : Int) + 1).toNat = s.length + 1 by omega, backwards_beyond ht, backwards_beyond ht]
  · rw [Pos.nonAlphaForward, hf, alphaF, if_neg (by omega)]

theorem rdI_beyond {s : Bytes} {i : Int} (h : s.length ≤ i) : rdI s i = .ub := by
  rw [rdI, if_pos (by omega), rd_ub (by omega)]

theorem readSign_beyond {p : UInt8 → Bool} {s : Bytes} {i : Int} (h : s.length < i) : Pos.readSign p s i = .ub := by
  rw [Pos.readSign, if_neg (by omega), rdI_beyond (by omega)]
  rfl

/-- **C173 is violated beyond the end** by `read_int` and `read_double`, which only compare the position with the end, by `find_non_alpha`
backwards, and by `search_forwards`, where the end of the pattern overflows. -/
theorem C173_beyond_violated {s : Bytes} (i : Int) (hi : s.length < i) (t : Bytes) :
    Pos.readInt s i = .ub ∧ Pos.readDouble s i = .ub ∧ Pos.nonAlphaBackward s i = .ub ∧
    (t ≠ [] → 2147483647 < i + t.length → Pos.forwards t i s = .ub) := by
  refine ⟨?_, ?_, ?_, ?_⟩
  · rw [Pos.readInt, readSign_beyond hi]; rfl
  · rw [Pos.readDouble, readSign_beyond hi]; rfl
  · rw [Pos.nonAlphaBackward, alphaB, if_pos (by omega), rdI_beyond (by omega)]; rfl
  · intro ht hl
    have h0 : 0 < t.length := List.length_pos_iff.2 ht
    obtain ⟨f, hf⟩ := rounds_pos s i
    rw [Pos.forwards, if_neg (by omega), rd_ok h0, Res.ok_bind, hf, forwardsF, plus, if_neg (by omega)]
    rfl

/-! ## In front of the beginning -/

/-- **C173 for negative positions**: going backwards there is nothing, a part `s (i, j)` begins with the first character, and a pattern that does
not fit is not found. Missing: all other functions, see `C173_negative_violated`. -/
theorem C173_negative_partial (s : Bytes) (i : Int) (hi : i < 0) (hm : -2147483648 ≤ i) (t : Bytes) (j : Int) :
    Pos.backwards t i s = .ok (-1) ∧ Pos.nonAlphaBackward s i = .ok (-1) ∧ An.sub s i j = An.sub s 0 j ∧
    Pos.test s i [] = .ok true ∧ Pos.read s i [] = .ok (true, i) ∧
    (s.length < i + t.length → i + t.length ≤ 2147483647 → Pos.forwards t i s = .ok (-1)) := by
  refine ⟨?_, ?_, ?_, rfl, rfl, ?_⟩
  · rw [Pos.backwards, backwardsF, if_neg (by omega)]
  · rw [Pos.nonAlphaBackward, alphaB, if_neg (by omega)]
  · rw [An.sub, An.sub, show i.toNat = 0 by omega]; rfl
  · intro h hl
    obtain ⟨f, hf⟩ := rounds_pos s i
    rw [Pos.forwards, if_neg (by omega), rd_ok (by omega), Res.ok_bind, hf, forwardsF, plus_ok (by omega) (by omega), Res.ok_bind,
      if_neg (by omega)]

theorem skipWhile_negative {p : UInt8 → Bool} {s : Bytes} {i : Int} (h : i < 0) : Pos.skipWhile p s i = .ub := by
  obtain ⟨f, hf⟩ := rounds_pos s i
  rw [Pos.skipWhile, hf, skipF, if_pos (by omega), rdI_neg s h]
  rfl

theorem readSign_negative {p : UInt8 → Bool} {s : Bytes} {i : Int} (h : i < 0) : Pos.readSign p s i = .ub := by
  rw [Pos.readSign, if_neg (by omega), rdI_neg s h]
  rfl

theorem anyAt_negative {s : Bytes} {i : Int} (h : i < 0) : ∀ a : List Bytes, (∃ x ∈ a, x ≠ []) → Pos.anyAt s i a = .ub
  | [], ⟨_, hx, _⟩ => by cases hx
  | [] :: a, ⟨x, hx, hn⟩ => by
    rw [Pos.anyAt]
    rcases List.mem_cons.1 hx with rfl | hx
    · exact (hn rfl).elim
    · exact anyAt_negative h a ⟨x, hx, hn⟩
  | (c :: p) :: a, _ => by
    rw [Pos.anyAt, Pos.testHead, rdI_neg s h]
    rfl

/-- **C173 is violated for negative positions**: the character in front of the string is read, of the empty string as well. -/
theorem C173_negative_violated (s : Bytes) (i : Int) (hi : i < 0) (hm : -2147483648 ≤ i) (t : Bytes) (ht : t ≠ [])
    (a : List Bytes) (ha : t ∈ a) :
    Pos.test s i t = .ub ∧ Pos.read s i t = .ub ∧ Pos.skipSpaces s i = .ub ∧ Pos.skipWhitespace s i = .ub ∧ Pos.skipLine s i = .ub ∧
    Pos.skipSymbol s i = .ub ∧ Pos.readLine s i = .ub ∧ Pos.readWord s i = .ub ∧ Pos.readInt s i = .ub ∧ Pos.readDouble s i = .ub ∧
    (i + t.length ≤ s.length → Pos.forwards t i s = .ub) ∧ Pos.forwardsAny a i s = .ub ∧ Pos.nonAlphaForward s i = .ub := by
  obtain ⟨f, hf⟩ := rounds_pos s i
  refine ⟨?_, ?_, skipWhile_negative hi, skipWhile_negative hi, ?_, ?_, ?_, ?_, ?_, ?_, ?_, ?_, ?_⟩
  · cases t with
    | nil => exact (ht rfl).elim
    | cons c t => rw [Pos.test, if_neg (by omega), rdI_neg s hi]; rfl
  · cases t with
    | nil => exact (ht rfl).elim
    | cons c t => rw [Pos.read, Pos.readLoop, if_neg (by omega), rdI_neg s hi]; rfl
  · rw [Pos.skipLine, skipWhile_negative hi]; rfl
  · rw [Pos.skipSymbol, if_pos (by omega), rdI_neg s hi]; rfl
  · rw [Pos.readLine, hf, readLineF, if_pos (by omega), rdI_neg s hi]; rfl
  · rw [Pos.readWord, skipWhile_negative hi]; rfl
  · rw [Pos.readInt, readSign_negative hi]; rfl
  · rw [Pos.readDouble, readSign_negative hi]; rfl
  · intro h
    by_cases hb : i + t.length ≤ 2147483647
    · have h0 : 0 < t.length := List.length_pos_iff.2 ht
      rw [Pos.forwards, if_neg (by omega), rd_ok h0, Res.ok_bind, hf, forwardsF, plus_ok (by omega) hb, Res.ok_bind, if_pos h,
        Pos.testHead, rdI_neg s hi]
      rfl
    · have h0 : 0 < t.length := List.length_pos_iff.2 ht
      rw [Pos.forwards, if_neg (by omega), rd_ok h0, Res.ok_bind, hf, forwardsF, plus, if_neg (by omega)]
      rfl
  · rw [Pos.forwardsAny, hf, anyF, if_pos (by omega), anyAt_negative hi a ⟨t, ha, ht⟩]; rfl
  · rw [Pos.nonAlphaForward, hf, alphaF, if_pos (by omega), rdI_neg s hi]; rfl

/-! ## The hypotheses hold for real calls -/

example : Pos.readInt (b!"a-12b") 1 = .ok (true, 4, -12) ∧ Pos.readLine (b!"ab\ncd") 4 = .ok (false, 5, b!"d") ∧
    Pos.skipSymbol (b!"<alpha>x") 0 = .ok 7 ∧ Pos.forwards (b!"cd") 1 (b!"abcd") = .ok 2 ∧
    Pos.backwards (b!"b") 7 (b!"abcd") = .ok 1 ∧ Pos.nonAlphaBackward (b!"1ab") 3 = .ok 0 := by decide +kernel
example : Pos.readDouble (b!"x2.5e-3y") 1 = .ok (true, 7, b!"2.5e-3") := by decide +kernel
example : Pos.read (b!"abc") 5 (b!"c") = .ok (false, 5) ∧ Pos.readInt (b!"abc") 5 = .ub := by decide +kernel
example : Pos.forwards (b!"xy") 2147483646 (b!"abc") = .ub ∧ Pos.forwards (b!"xy") 2147483645 (b!"abc") = .ok (-1) := by decide +kernel
example : Pos.skipSpaces [] (-1) = .ub ∧ Pos.backwards (b!"a") (-1) (b!"a") = .ok (-1) := by decide +kernel

end Lolly.PosProps
