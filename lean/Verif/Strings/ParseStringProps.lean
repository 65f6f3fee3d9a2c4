import Verif.Strings.ParseString
import Verif.Strings.SearchLemmas

/-!
# C40: `parse_string` is a pushback reader
-/

set_option autoImplicit false

namespace Lolly.ParseStringProps

open Lolly.An
open Lolly.ParseString hiding read test

/-! ## Specification: a flat string -/

/-- What one call returns and leaves if the object is the flat string `t`. -/
def flatStep (t : Bytes) : Op → Out × Bytes
  | .advance n => (.none, t.drop n)
  | .read n => (.bytes (t.take n), t.drop n)
  | .write s => (.none, s ++ t)
  | .char n => (.char (t[n]?.getD 0), t)
  | .string n => (.bytes (t.take n), t)
  | .test s => (.bool (decide (s <+: t)), t)
  | .print => (.bytes t, t)

def flatRun : Bytes → List Op → List Out × Bytes
  | t, [] => ([], t)
  | t, o :: os => let (x, t) := flatStep t o; let (xs, t) := flatRun t os; (x :: xs, t)

/-! ## Proof -/

/-- The text left. -/
def text : Rep → Bytes
  | [] => []
  | (s, p) :: l => s.drop p ++ text l

/-- Positions are inside of their strings. -/
def Inv (r : Rep) : Prop := ∀ x ∈ r, x.2 ≤ x.1.length

theorem inv_cons {s : Bytes} {p : Nat} {l : Rep} : Inv ((s, p) :: l) ↔ p ≤ s.length ∧ Inv l := by
  simp [Inv]

theorem advance_spec (r : Rep) (n : Nat) (h : Inv r) : Inv (advance r n) ∧ text (advance r n) = (text r).drop n := by
  induction r generalizing n with
  | nil => simp [advance, text, Inv]
  | cons x l ih =>
    obtain ⟨s, p⟩ := x
    rw [inv_cons] at h
    rw [advance]
    by_cases hn : n = 0
    · rw [if_pos hn, hn, List.drop_zero]; exact ⟨inv_cons.2 h, rfl⟩
    · rw [if_neg hn]
      by_cases hp : p + n ≥ s.length
      · rw [if_pos hp]
        have := ih (p + n - s.length) h.2
        refine ⟨this.1, ?_⟩
        rw [this.2, text, List.drop_append, List.drop_of_length_le (l := s.drop p) (by simp; omega), List.nil_append,
          List.length_drop]
        congr 1; omega
      · rw [if_neg hp]
        refine ⟨inv_cons.2 ⟨by omega, h.2⟩, ?_⟩
        rw [text, text, List.drop_append, List.drop_drop, List.length_drop,
          show n - (s.length - p) = 0 by omega, List.drop_zero]

theorem sub_take (s : Bytes) (p m : Nat) : sub s p (p + m : Nat) = (s.drop p).take m := by
  rw [sub_nat, List.take_drop]

theorem read_spec (r : Rep) (n : Nat) (h : Inv r) :
    (ParseString.read r n).1 = (text r).take n ∧ Inv (ParseString.read r n).2 ∧ text (ParseString.read r n).2 = (text r).drop n := by
  induction r generalizing n with
  | nil => simp [ParseString.read, text, Inv]
  | cons x l ih =>
    obtain ⟨s, p⟩ := x
    rw [inv_cons] at h
    rw [ParseString.read]
    by_cases hp : p + n > s.length
    · rw [if_pos hp]
      dsimp only
      have := ih (n - (s.length - p)) h.2
      refine ⟨?_, this.2.1, ?_⟩
      · rw [this.1, text, List.take_append, List.take_of_length_le (l := s.drop p) (by simp; omega), List.length_drop]
        congr 1
        have := sub_take s p (s.length - p)
        rw [show p + (s.length - p) = s.length by omega, List.take_of_length_le (by simp)] at this
        exact this
      · rw [this.2.2, text, List.drop_append, List.drop_of_length_le (l := s.drop p) (by simp; omega), List.nil_append,
          List.length_drop]
    · rw [if_neg hp]
      dsimp only
      refine ⟨?_, ?_⟩
      · rw [sub_take, text, List.take_append, List.length_drop, show n - (s.length - p) = 0 by omega, List.take_zero,
          List.append_nil]
      · have e : (text ((s, p) :: l)).drop n = s.drop (p + n) ++ text l := by
          rw [text, List.drop_append, List.drop_drop, List.length_drop, show n - (s.length - p) = 0 by omega, List.drop_zero]
        by_cases hq : p + n ≥ s.length
        · rw [if_pos hq, e, List.drop_of_length_le hq]; exact ⟨h.2, rfl⟩
        · rw [if_neg hq, e]; exact ⟨inv_cons.2 ⟨by omega, h.2⟩, rfl⟩

theorem write_spec (r : Rep) (s : Bytes) (h : Inv r) : Inv (write r s) ∧ text (write r s) = s ++ text r := by
  unfold write
  by_cases hs : s.length > 0
  · rw [if_pos hs]; exact ⟨inv_cons.2 ⟨by omega, h⟩, rfl⟩
  · have e : s = [] := List.length_eq_zero_iff.1 (by omega)
    rw [if_neg hs, e]; exact ⟨h, rfl⟩

theorem charLoop_spec (r : Rep) (n : Nat) (h : Inv r) : charLoop r n = .ok ((text r)[n]?.getD 0) := by
  induction r generalizing n with
  | nil => simp [charLoop, text]
  | cons x l ih =>
    obtain ⟨s, p⟩ := x
    rw [inv_cons] at h
    rw [charLoop, text]
    by_cases hp : p + n ≥ s.length
    · rw [if_pos hp, ih _ h.2, List.getElem?_append_right (by simp; omega), List.length_drop]
    · rw [if_neg hp, rd_ok (by omega), List.getElem?_append_left (by simp; omega), List.getElem?_drop,
        List.getElem?_eq_getElem (by omega)]
      rfl

theorem getChar_spec (r : Rep) (n : Nat) (h : Inv r) : getChar r n = .ok ((text r)[n]?.getD 0) := by
  cases r with
  | nil => simp [getChar, text]
  | cons x l =>
    obtain ⟨s, p⟩ := x
    rw [getChar]
    by_cases hp : p + n < s.length
    · rw [if_pos hp, ← charLoop_spec _ _ h, charLoop, if_neg (by omega)]
    · rw [if_neg hp, charLoop_spec _ _ h]

theorem stringLoop_spec (r : Rep) (n : Nat) (h : Inv r) : stringLoop r n = (text r).take n := by
  induction r generalizing n with
  | nil => simp [stringLoop, text]
  | cons x l ih =>
    obtain ⟨s, p⟩ := x
    rw [inv_cons] at h
    rw [stringLoop, text]
    rw [ih _ h.2, sub_take, List.take_append, List.length_drop]
    congr 1
    · by_cases hn : n ≤ s.length - p
      · rw [Nat.min_eq_right hn]
      · rw [Nat.min_eq_left (by omega), List.take_of_length_le (by simp), List.take_of_length_le (by simp; omega)]
    · congr 1; omega

theorem getString_spec (r : Rep) (n : Nat) (h : Inv r) : getString r n = (text r).take n := by
  cases r with
  | nil => simp [getString, text]
  | cons x l =>
    obtain ⟨s, p⟩ := x
    rw [getString]
    by_cases hp : p + n ≤ s.length
    · rw [if_pos hp, sub_take, text, List.take_append, List.length_drop, show n - (s.length - p) = 0 by omega, List.take_zero,
        List.append_nil]
    · rw [if_neg hp, stringLoop_spec _ _ h]

theorem test_spec (r : Rep) (t : Bytes) (h : Inv r) : ParseString.test r t = .ok (decide (t <+: text r)) := by
  have key : (text r).take t.length = t ↔ t <+: text r := by
    rw [List.prefix_iff_eq_take]; exact eq_comm
  cases r with
  | nil => simp [ParseString.test, text]
  | cons x l =>
    obtain ⟨s, p⟩ := x
    rw [ParseString.test]
    rw [inv_cons] at h
    by_cases hp : p + t.length ≤ s.length
    · rw [if_pos hp, test_eq]
      congr 1
      rw [Bool.eq_iff_iff, List.isPrefixOf_iff_prefix, decide_eq_true_eq, text]
      exact ⟨fun h => h.trans (List.prefix_append _ _), fun h => List.prefix_of_prefix_length_le h (List.prefix_append _ _)
        (by simp; omega)⟩
    · rw [if_neg hp, getString_spec _ _ (inv_cons.2 h)]
      congr 1
      rw [Bool.eq_iff_iff, beq_iff_eq, decide_eq_true_eq, key]

theorem print_spec (r : Rep) (h : Inv r) : print r = text r := by
  induction r with
  | nil => rfl
  | cons x l ih =>
    obtain ⟨s, p⟩ := x
    rw [inv_cons] at h
    rw [print, text, ih h.2, sub_nat, List.take_length]

theorem step_spec (r : Rep) (o : Op) (h : Inv r) :
    ∃ x r', step r o = .ok (x, r') ∧ Inv r' ∧ (x, text r') = flatStep (text r) o := by
  cases o with
  | advance n => exact ⟨_, _, rfl, (advance_spec r n h).1, by rw [(advance_spec r n h).2]; rfl⟩
  | read n =>
    have := read_spec r n h
    exact ⟨_, _, rfl, this.2.1, by rw [this.2.2, this.1]; rfl⟩
  | write s => exact ⟨_, _, rfl, (write_spec r s h).1, by rw [(write_spec r s h).2]; rfl⟩
  | char n => exact ⟨_, r, by rw [step, getChar_spec r n h]; rfl, h, rfl⟩
  | string n => exact ⟨_, r, rfl, h, by rw [getString_spec r n h]; rfl⟩
  | test s => exact ⟨_, r, by rw [step, test_spec r s h]; rfl, h, rfl⟩
  | print => exact ⟨_, r, rfl, h, by rw [print_spec r h]; rfl⟩

theorem run_spec (os : List Op) (r : Rep) (h : Inv r) :
    ∃ xs r', run r os = .ok (xs, r') ∧ Inv r' ∧ (xs, text r') = flatRun (text r) os := by
  induction os generalizing r with
  | nil => exact ⟨[], r, rfl, h, rfl⟩
  | cons o os ih =>
    obtain ⟨x, r1, e1, h1, f1⟩ := step_spec r o h
    obtain ⟨xs, r2, e2, h2, f2⟩ := ih r1 h1
    refine ⟨x :: xs, r2, ?_, h2, ?_⟩
    · rw [run, e1]
      simp only [Res.ok_bind]
      rw [e2]; rfl
    · rw [flatRun, ← f1]
      dsimp only
      rw [← f2]

/-- C40: whatever the history, all results are those of a flat string. -/
theorem C40_flat (s : Bytes) (os : List Op) :
    (∃ r, run (ofString s) os = .ok ((flatRun s os).1, r)) ∧ (∃ r, run empty os = .ok ((flatRun [] os).1, r)) := by
  constructor
  · obtain ⟨xs, r, e, _, f⟩ := run_spec os (ofString s) (by simp [Inv, ofString])
    rw [show text (ofString s) = s by simp [text, ofString]] at f
    exact ⟨r, by rw [e, ← f]⟩
  · obtain ⟨xs, r, e, _, f⟩ := run_spec os empty (by simp [Inv, empty])
    rw [show text empty = [] from rfl] at f
    exact ⟨r, by rw [e, ← f]⟩

/-- Every piece has text left. -/
def Full (r : Rep) : Prop := ∀ x ∈ r, x.2 < x.1.length

theorem full_cons {s : Bytes} {p : Nat} {l : Rep} : Full ((s, p) :: l) ↔ p < s.length ∧ Full l := by
  simp [Full]

theorem full_inv {r : Rep} (h : Full r) : Inv r := fun x hx => Nat.le_of_lt (h x hx)

theorem full_text {r : Rep} (h : Full r) : toBool r = decide (text r ≠ []) := by
  cases r with
  | nil => simp [ParseString.toBool, text]
  | cons x l =>
    obtain ⟨s, p⟩ := x
    rw [full_cons] at h
    have : text ((s, p) :: l) ≠ [] := by
      rw [text]
      intro e
      have := congrArg List.length e
      simp at this
      omega
    simp [ParseString.toBool, this]

theorem full_advance (r : Rep) (n : Nat) (h : Full r) : Full (advance r n) := by
  induction r generalizing n with
  | nil => exact h
  | cons x l ih =>
    obtain ⟨s, p⟩ := x
    rw [advance]
    have h' := full_cons.1 h
    by_cases hn : n = 0
    · rw [if_pos hn]; exact h
    · rw [if_neg hn]
      by_cases hp : p + n ≥ s.length
      · rw [if_pos hp]; exact ih _ h'.2
      · rw [if_neg hp]; exact full_cons.2 ⟨by omega, h'.2⟩

theorem full_read (r : Rep) (n : Nat) (h : Full r) : Full (ParseString.read r n).2 := by
  induction r generalizing n with
  | nil => exact h
  | cons x l ih =>
    obtain ⟨s, p⟩ := x
    rw [ParseString.read]
    have h' := full_cons.1 h
    by_cases hp : p + n > s.length
    · rw [if_pos hp]; exact ih _ h'.2
    · rw [if_neg hp]
      dsimp only
      by_cases hq : p + n ≥ s.length
      · rw [if_pos hq]; exact h'.2
      · rw [if_neg hq]; exact full_cons.2 ⟨by omega, h'.2⟩

theorem full_step {r r' : Rep} {o : Op} {x : Out} (h : Full r) (e : step r o = .ok (x, r')) : Full r' := by
  cases o with
  | advance n =>
    simp only [step, Res.ok.injEq, Prod.mk.injEq] at e
    rw [← e.2]; exact full_advance r n h
  | read n =>
    simp only [step, Res.ok.injEq, Prod.mk.injEq] at e
    rw [← e.2]; exact full_read r n h
  | write s =>
    simp only [step, Res.ok.injEq, Prod.mk.injEq] at e
    rw [← e.2]
    unfold write
    by_cases hs : s.length > 0
    · rw [if_pos hs]; exact full_cons.2 ⟨hs, h⟩
    · rw [if_neg hs]; exact h
  | char n =>
    obtain ⟨c, _, e⟩ := Res.bind_eq_ok.1 e
    simp only [Res.ok.injEq, Prod.mk.injEq] at e
    rw [← e.2]; exact h
  | string n =>
    simp only [step, Res.ok.injEq, Prod.mk.injEq] at e
    rw [← e.2]; exact h
  | test s =>
    obtain ⟨c, _, e⟩ := Res.bind_eq_ok.1 e
    simp only [Res.ok.injEq, Prod.mk.injEq] at e
    rw [← e.2]; exact h
  | print =>
    simp only [step, Res.ok.injEq, Prod.mk.injEq] at e
    rw [← e.2]; exact h

theorem full_run (os : List Op) {r r' : Rep} {xs : List Out} (h : Full r) (e : run r os = .ok (xs, r')) : Full r' := by
  induction os generalizing r xs with
  | nil =>
    simp only [run, Res.ok.injEq, Prod.mk.injEq] at e
    rw [← e.2]; exact h
  | cons o os ih =>
    rw [run] at e
    obtain ⟨⟨x, r1⟩, e1, e⟩ := Res.bind_eq_ok.1 e
    obtain ⟨⟨ys, r2⟩, e2, e⟩ := Res.bind_eq_ok.1 e
    simp only [Res.ok.injEq, Prod.mk.injEq] at e
    rw [e.2] at e2
    exact ih (full_step h e1) e2

/-- The boolean conversion tells whether text is left, after any history that starts with a nonempty
string or with none. -/
theorem C40_bool (s : Bytes) (os : List Op) (xs : List Out) (r : Rep) :
    (s ≠ [] → run (ofString s) os = .ok (xs, r) → toBool r = decide ((flatRun s os).2 ≠ [])) ∧
    (run empty os = .ok (xs, r) → toBool r = decide ((flatRun [] os).2 ≠ [])) := by
  have gen : ∀ r0 : Rep, Full r0 → run r0 os = .ok (xs, r) → toBool r = decide ((flatRun (text r0) os).2 ≠ []) := by
    intro r0 h e
    obtain ⟨ys, r', e', _, f⟩ := run_spec os r0 (full_inv h)
    rw [e] at e'
    simp only [Res.ok.injEq, Prod.mk.injEq] at e'
    rw [full_text (full_run os h e), e'.2, ← f]
  constructor
  · intro hs e
    have := gen (ofString s) (by simpa [Full, ofString] using List.length_pos_iff.2 hs) e
    rwa [show text (ofString s) = s by simp [text, ofString]] at this
  · intro e
    exact gen empty (by simp [Full, empty]) e

/-- Made from the empty string it converts to true although nothing is left. -/
theorem C40_bool_empty : toBool (ofString []) = true ∧ print (ofString []) = [] := ⟨rfl, rfl⟩

example : run (ofString (b!"a&lt;b")) [.read 1, .test (b!"&lt;"), .advance 4, .write (b!"<"), .string 3, .char 1, .char 5] =
    .ok ([.bytes (b!"a"), .bool true, .none, .none, .bytes (b!"<b"), .char (c! 'b'), .char 0], [(b!"<", 0), (b!"a&lt;b", 5)]) := by
  decide

end Lolly.ParseStringProps
