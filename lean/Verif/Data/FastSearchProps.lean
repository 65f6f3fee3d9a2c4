import Verif.Data.CommonThird

/-!
# C41, C42, C43: indexed search and longest common substring
-/

set_option autoImplicit false

namespace Lolly.FastSearchProps

open Lolly.FastSearch
open Lolly.An (OccursAt)

/-- A pattern that is not longer than the text is looked up in a level that exists. -/
theorem level_exists (s what : Bytes) (h : what.length ≤ s.length) (hne : what ≠ []) :
    ∃ j, 2 ^ j ≤ what.length ∧ what.length < 2 ^ (j + 1) ∧ 2 ^ j ≤ s.length := by
  have hpos : what.length ≠ 0 := by intro e; exact hne (List.length_eq_zero_iff.1 e)
  exact ⟨Nat.log2 what.length, Nat.log2_self_le hpos, Nat.lt_log2_self,
    Nat.le_trans (Nat.log2_self_le hpos) h⟩

theorem all_of_candidates (s what : Bytes) (S : Searcher) (hS : build s = .ok S)
    (hl : what = [] ∨ ∃ j, 2 ^ j ≤ what.length ∧ what.length < 2 ^ (j + 1) ∧ 2 ^ j ≤ s.length) :
    ∃ ps, searchAll S what = .ok ps ∧ ps.Pairwise (· < ·) ∧ ∀ p, p ∈ ps ↔ OccursAt what s p := by
  classical
  have hs : S.s = s := by
    obtain ⟨S', e, hs, _⟩ := build_spec s
    rw [hS] at e; rw [Res.ok.inj e]; exact hs
  obtain ⟨ps, e, ho, hb, hall⟩ := searchSub_spec s what S hS hl
  refine ⟨ps.filter fun p => decide (OccursAt what s p), ?_, ho.sublist List.filter_sublist, fun p => ?_⟩
  · unfold searchAll; rw [e, Res.ok_bind, hs, allLoop_spec _ _ _ hb]
  · rw [List.mem_filter, decide_eq_true_iff]
    exact ⟨fun h => h.2, fun h => ⟨hall p h, h⟩⟩

/-- A searcher can be built on every text. -/
theorem C41_build (s : Bytes) : ∃ S, build s = .ok S := by
  obtain ⟨S, e, _⟩ := build_spec s
  exact ⟨S, e⟩

/-- `search_all` returns exactly the positions of the pattern, in increasing order. -/
theorem C41_all (s what : Bytes) (S : Searcher) (hS : build s = .ok S) (hl : what.length ≤ s.length) :
    ∃ ps, searchAll S what = .ok ps ∧ ps.Pairwise (· < ·) ∧ ∀ p, p ∈ ps ↔ OccursAt what s p := by
  apply all_of_candidates s what S hS
  by_cases h : what = []
  · exact .inl h
  · exact .inr (level_exists s what hl h)

/-- `search_next` returns the first position of the pattern that is at least `pos`, or -1. -/
theorem C41_next (s what : Bytes) (S : Searcher) (hS : build s = .ok S) (hl : what.length ≤ s.length)
    (pos : Int) :
    (∃ p : Nat, searchNext S what pos = .ok p ∧ pos ≤ p ∧ OccursAt what s p ∧
      ∀ q : Nat, pos ≤ q → q < p → ¬ OccursAt what s q) ∨
    (searchNext S what pos = .ok (-1) ∧ ∀ q : Nat, pos ≤ q → ¬ OccursAt what s q) := by
  have hs : S.s = s := by
    obtain ⟨S', e, hs, _⟩ := build_spec s
    rw [hS] at e; rw [Res.ok.inj e]; exact hs
  obtain ⟨ps, e, ho, hb, hall⟩ := searchSub_spec s what S hS (by
    by_cases h : what = []
    · exact .inl h
    · exact .inr (level_exists s what hl h))
  have e' : searchNext S what pos = nextLoop s what pos ps := by
    unfold searchNext; rw [e, Res.ok_bind, hs]
  rw [e']
  rcases nextLoop_spec s what pos ps hb ho with ⟨h1, h2⟩ | ⟨p, hp, h1, h2, h3, h4⟩
  · exact .inr ⟨h1, fun q hq ho => h2 q (hall q ho) hq ho⟩
  · exact .inl ⟨p, h1, h2, h3, fun q hq hlt ho => h4 q (hall q ho) hq hlt ho⟩

example : (b!"ana").length ≤ (b!"banana").length ∧ OccursAt (b!"ana") (b!"banana") 1 ∧
    OccursAt (b!"ana") (b!"banana") 3 :=
  ⟨by decide, ⟨b!"b", b!"na", rfl, rfl⟩, ⟨b!"ban", [], rfl, rfl⟩⟩

/-- Two different blocks with the same code: the answers above do not depend on the absence of
collisions. -/
example : fastHash (b!"aaaa") = fastHash (b!"caa!") ∧ b!"aaaa" ≠ b!"caa!" := by
  decide

/-- A pattern longer than the text, looked up in a level that exists, is not found. -/
theorem C42_partial (s what : Bytes) (S : Searcher) (hS : build s = .ok S) (hl : s.length < what.length)
    (j : Nat) (h1 : 2 ^ j ≤ s.length) (h2 : what.length < 2 ^ (j + 1)) :
    searchAll S what = .ok [] ∧ ∀ pos, searchNext S what pos = .ok (-1) := by
  have no : ∀ p, ¬ OccursAt what s p := by
    rintro p ⟨a, b, rfl, _⟩
    simp at hl; omega
  have hl' : what = [] ∨ ∃ j, 2 ^ j ≤ what.length ∧ what.length < 2 ^ (j + 1) ∧ 2 ^ j ≤ s.length :=
    .inr ⟨j, by omega, h2, h1⟩
  constructor
  · obtain ⟨ps, e, _, h⟩ := all_of_candidates s what S hS hl'
    rw [e]; congr 1
    exact List.eq_nil_iff_forall_not_mem.2 fun p hp => no p ((h p).1 hp)
  · intro pos
    have hs : S.s = s := by
      obtain ⟨S', e, hs, _⟩ := build_spec s
      rw [hS] at e; rw [Res.ok.inj e]; exact hs
    obtain ⟨ps, e, ho, hb, hall⟩ := searchSub_spec s what S hS hl'
    unfold searchNext
    rw [e, Res.ok_bind, hs]
    rcases nextLoop_spec s what pos ps hb ho with ⟨h1, h2⟩ | ⟨p, hp, h1, h2, h3, h4⟩
    · exact h1
    · exact (no p h3).elim

example : (b!"abcde").length < (b!"abcdef").length ∧ 2 ^ 2 ≤ (b!"abcde").length ∧
    (b!"abcdef").length < 2 ^ (2 + 1) := by decide

/-- All other longer patterns read the array of levels out of bounds: whenever a power of two lies
between the lengths; in particular for every non-empty pattern on an empty text, and for every pattern
at least twice as long as the text. -/
theorem C42_violated (s what : Bytes) (S : Searcher) (hS : build s = .ok S) (j : Nat)
    (h1 : s.length < 2 ^ j) (h2 : 2 ^ j ≤ what.length) :
    searchAll S what = .ub ∧ ∀ pos, searchNext S what pos = .ub := by
  obtain ⟨S', e, hs, _, hlen⟩ := build_spec s
  obtain rfl : S' = S := by rw [hS] at e; exact (Res.ok.inj e).symm
  have hp : 1 ≤ 2 ^ j := Nat.one_le_two_pow
  have sub : searchSub S' what = .ub := by
    unfold searchSub
    rw [if_neg (by omega)]
    obtain ⟨g1, g2, g3⟩ := levelOf_spec what.length what.length 1 0 rfl (by omega) (by omega)
    generalize levelOf what.length what.length 1 0 = kl at *
    obtain ⟨k, l⟩ := kl
    simp only at g1 g2 g3
    subst g1
    have : 2 ^ j < 2 ^ (l + 1) := by rw [Nat.pow_succ]; omega
    have hjl := (Nat.pow_lt_pow_iff_right (a := 2) (by decide)).1 this
    have hn : ¬ l < S'.a.length := by
      rw [hlen]
      have := Nat.pow_le_pow_right (n := 2) (by decide) (show j ≤ l by omega)
      omega
    simp only []
    rw [rd_ub (by omega)]; rfl
  constructor
  · unfold searchAll; rw [sub]; rfl
  · intro pos; unfold searchNext; rw [sub]; rfl

example : (b!"").length < 2 ^ 0 ∧ 2 ^ 0 ≤ (b!"a").length ∧ (b!"abc").length < 2 ^ 2 ∧ 2 ^ 2 ≤ (b!"abcd").length := by
  decide

/-! ## Longest common substring -/

/-- `s (b, e)`. -/
def slice (s : Bytes) (b e : Nat) : Bytes := (s.take e).drop b

theorem slice_eq {s1 s2 : Bytes} {y : Best} (h : Common s1 s2 y) :
    slice s1 y.b1 y.e1 = slice s2 y.b2 y.e2 := by
  unfold slice
  have l1 := h.le1; have l2 := h.in1; have l3 := h.le2; have l4 := h.in2; have l5 := h.len
  apply List.ext_getElem?
  intro j
  simp only [List.getElem?_drop, List.getElem?_take]
  by_cases hj : j < y.e1 - y.b1
  · rw [if_pos (by omega), if_pos (by omega)]; exact h.same j hj
  · rw [if_neg (by omega), if_neg (by omega)]

theorem common_of_slice {s1 s2 : Bytes} {y : Best} (l1 : y.b1 ≤ y.e1) (l2 : y.e1 ≤ s1.length)
    (l3 : y.b2 ≤ y.e2) (l4 : y.e2 ≤ s2.length) (h : slice s1 y.b1 y.e1 = slice s2 y.b2 y.e2) :
    Common s1 s2 y := by
  have hl := congrArg List.length h
  simp [slice] at hl
  refine ⟨l1, l2, l3, l4, by omega, fun j hj => ?_⟩
  have := congrArg (fun l => l[j]?) h
  simp only [slice, List.getElem?_drop, List.getElem?_take] at this
  rw [if_pos (by omega), if_pos (by omega)] at this
  exact this

theorem init_good (s1 s2 : Bytes) : Good s1 s2 ⟨0, 0, 0, 0⟩ :=
  ⟨⟨by simp, by simp, by simp, by simp, by simp, by simp⟩, .inl rfl⟩

/-- What the loops guarantee. -/
theorem longest_spec (s1 s2 : Bytes) : ∃ b, longestCommon s1 s2 = .ok b ∧ Good s1 s2 b ∧
    (b.e1 - b.b1 = 0 → ∀ k, 2 ^ k ≤ s1.length → 2 ^ k ≤ s2.length →
      ∀ p1, p1 < s1.length + 1 - 2 ^ k → ∀ p2, p2 < s2.length + 1 - 2 ^ k →
        codeAt s2 k p2 = codeAt s1 k p1 → ∀ y, Through s1 s2 p1 p2 y → Ge b y) ∧
    (∀ k, 2 ^ k ≤ s1.length → 2 ^ k ≤ s2.length → (s1.length < 2 ^ (k + 1) ∨ s2.length < 2 ^ (k + 1)) →
      (∃ p1 p2, p1 < s1.length + 1 - 2 ^ k ∧ p2 < s2.length + 1 - 2 ^ k ∧ codeAt s2 k p2 = codeAt s1 k p1) →
      ∃ p1, p1 < s1.length + 1 - 2 ^ k ∧ ∀ p2, p2 < s2.length + 1 - 2 ^ k →
          codeAt s2 k p2 = codeAt s1 k p1 → ∀ y, Through s1 s2 p1 p2 y → Ge b y) := by
  obtain ⟨S1, e1, f1, L1, N1⟩ := build_spec s1
  obtain ⟨S2, e2, f2, L2, N2⟩ := build_spec s2
  obtain ⟨b, e, G, _, H1, H2⟩ := levelLoop_spec f1 f2 L1 L2 (min S1.a.length S2.a.length)
    (Nat.min_le_left _ _) (Nat.min_le_right _ _) ⟨0, 0, 0, 0⟩ (init_good s1 s2)
  refine ⟨b, by unfold longestCommon; rw [e1, Res.ok_bind, e2, Res.ok_bind]; exact e, G,
    fun h0 k h1 h2 => ?_, fun k h1 h2 hk => ?_⟩
  · have := (N1 k).2 h1
    have := (N2 k).2 h2
    exact H1 h0 k (by omega)
  · have a1 := (N1 k).2 h1
    have a2 := (N2 k).2 h2
    apply H2 rfl k
    rcases hk with hk | hk
    · have : ¬ k + 1 < S1.a.length := by rw [N1]; omega
      omega
    · have : ¬ k + 1 < S2.a.length := by rw [N2]; omega
      omega

/-- The result is always a pair of equal ranges of the two strings, and neither end can be moved
outwards. That no other common substring is longer does not hold (`C43_longest_violated`: the loop
skips positions inside of the best range found so far). -/
theorem C43_common_partial (s1 s2 : Bytes) : ∃ b, longestCommon s1 s2 = .ok b ∧
    b.b1 ≤ b.e1 ∧ b.e1 ≤ s1.length ∧ b.b2 ≤ b.e2 ∧ b.e2 ≤ s2.length ∧
    slice s1 b.b1 b.e1 = slice s2 b.b2 b.e2 ∧
    (b.b1 < b.e1 → 0 < b.b1 → 0 < b.b2 → s1[b.b1 - 1]? ≠ s2[b.b2 - 1]?) ∧
    (b.b1 < b.e1 → b.e1 < s1.length → b.e2 < s2.length → s1[b.e1]? ≠ s2[b.e2]?) := by
  obtain ⟨b, e, ⟨hc, hg⟩, _⟩ := longest_spec s1 s2
  have l1 := hc.le1; have l2 := hc.in1; have l3 := hc.le2; have l4 := hc.in2; have l5 := hc.len
  refine ⟨b, e, l1, l2, l3, l4, slice_eq hc, fun hlt h1 h2 heq => ?_, fun hlt h1 h2 heq => ?_⟩
  · rcases hg with hg | ⟨p1, p2, T, M⟩
    · omega
    · have g1 := T.ge; have g2 := T.le; have g3 := T.al
      have := (M ⟨b.b1 - 1, b.e1, b.b2 - 1, b.e2⟩ ⟨⟨by simp; omega, l2, by simp; omega, l4, by simp; omega, ?_⟩,
        by simp; omega, g2, by simp; omega⟩).len
      · simp only at this; omega
      · intro j hj
        simp only at hj ⊢
        by_cases hj0 : j = 0
        · subst hj0; exact heq
        · have := hc.same (j - 1) (by omega)
          rw [show b.b1 + (j - 1) = b.b1 - 1 + j by omega, show b.b2 + (j - 1) = b.b2 - 1 + j by omega] at this
          exact this
  · rcases hg with hg | ⟨p1, p2, T, M⟩
    · omega
    · have g1 := T.ge; have g2 := T.le; have g3 := T.al
      have := (M ⟨b.b1, b.e1 + 1, b.b2, b.e2 + 1⟩ ⟨⟨by simp; omega, by simp; omega, by simp; omega, by simp; omega,
        by simp; omega, ?_⟩, g1, by simp; omega, g3⟩).len
      · simp only at this; omega
      · intro j hj
        simp only at hj ⊢
        by_cases hj0 : j < b.e1 - b.b1
        · exact hc.same j hj0
        · rw [show b.b1 + j = b.e1 by omega, show b.b2 + j = b.e2 by omega]; exact heq

/-- The result is empty only if the strings have no character in common. -/
theorem C43_nonempty_partial (s1 s2 : Bytes) (c : UInt8) (h1 : c ∈ s1) (h2 : c ∈ s2) :
    ∃ b, longestCommon s1 s2 = .ok b ∧ b.b1 < b.e1 := by
  obtain ⟨b, e, ⟨hc, _⟩, H, _⟩ := longest_spec s1 s2
  refine ⟨b, e, ?_⟩
  obtain ⟨p1, q1, hp1⟩ := List.getElem_of_mem h1
  obtain ⟨p2, q2, hp2⟩ := List.getElem_of_mem h2
  apply Classical.byContradiction
  intro hn
  have hT : Through s1 s2 p1 p2 ⟨p1, p1 + 1, p2, p2 + 1⟩ := by
    refine ⟨⟨by simp, q1, by simp, q2, by simp, fun j hj => ?_⟩, by simp, by simp, by simp; omega⟩
    simp only at hj ⊢
    have : j = 0 := by omega
    subst this
    simp only [Nat.add_zero]
    rw [List.getElem?_eq_getElem q1, List.getElem?_eq_getElem q2, hp1, hp2]
  have hcode : codeAt s2 0 p2 = codeAt s1 0 p1 := by
    unfold codeAt
    rw [List.drop_eq_getElem_cons q1, List.drop_eq_getElem_cons q2, hp1, hp2]
    simp
  have := (H (by omega) 0 (by simp; omega) (by simp; omega) p1 (by simp; omega) p2 (by simp; omega) hcode _ hT).len
  simp only at this
  omega

example : (c! 'a') ∈ b!"banana" ∧ (c! 'a') ∈ b!"cat" := by decide

/-- If the first string occurs in the second one, it is found in full, at its first occurrence; in
particular the longest common substring of a string and itself is the whole string. -/
theorem C43_whole_partial (s1 s2 : Bytes) (hne : s1 ≠ []) (q : Nat) (hq : OccursAt s1 s2 q) :
    ∃ b, longestCommon s1 s2 = .ok b ∧ b.b1 = 0 ∧ b.e1 = s1.length ∧ OccursAt s1 s2 b.b2 ∧
      b.e2 = b.b2 + s1.length ∧ ∀ q', OccursAt s1 s2 q' → b.b2 ≤ q' := by
  obtain ⟨b, e, ⟨hc, _⟩, _, H⟩ := longest_spec s1 s2
  have hpos : s1.length ≠ 0 := by intro e; exact hne (List.length_eq_zero_iff.1 e)
  obtain ⟨j, j1, j2, -⟩ := level_exists s1 s1 (Nat.le_refl _) hne
  -- an occurrence, as a common range
  have occ : ∀ q, OccursAt s1 s2 q → q + s1.length ≤ s2.length ∧
      (∀ i, i < s1.length → s2[q + i]? = s1[i]?) ∧
      ∀ p k, p + k ≤ s1.length → (s2.drop (q + p)).take k = (s1.drop p).take k := by
    rintro q ⟨a, t, rfl, rfl⟩
    have key : ∀ i, i < s1.length → (a ++ s1 ++ t)[a.length + i]? = s1[i]? := by
      intro i hi
      rw [List.append_assoc, List.getElem?_append_right (by omega), Nat.add_sub_cancel_left,
        List.getElem?_append_left hi]
    refine ⟨by simp, key, fun p k hk => ?_⟩
    apply List.ext_getElem?
    intro i
    simp only [List.getElem?_take, List.getElem?_drop]
    split
    · rw [Nat.add_assoc]; exact key (p + i) (by omega)
    · rfl
  have codes : ∀ q, OccursAt s1 s2 q → ∀ p, p < s1.length + 1 - 2 ^ j →
      codeAt s2 j (q + p) = codeAt s1 j p := by
    intro q hq p hp
    unfold codeAt
    rw [(occ q hq).2.2 p (2 ^ j) (by omega)]
  have through : ∀ q, OccursAt s1 s2 q → ∀ p, p ≤ s1.length →
      Through s1 s2 p (q + p) ⟨0, s1.length, q, q + s1.length⟩ := by
    intro q hq p hp
    refine ⟨⟨by simp, by simp, by simp, (occ q hq).1, by simp, fun i hi => ?_⟩, by simp, hp, by simp; omega⟩
    simp only at hi ⊢
    rw [Nat.zero_add]
    exact ((occ q hq).2.1 i (by omega)).symm
  have hq2 := (occ q hq).1
  obtain ⟨p1, hp1, hall⟩ := H j j1 (by omega) (.inl j2)
    ⟨0, q + 0, by omega, by omega, codes q hq 0 (by omega)⟩
  have ge : ∀ q', OccursAt s1 s2 q' → Ge b ⟨0, s1.length, q', q' + s1.length⟩ := fun q' hq' =>
    hall (q' + p1) (by have := (occ q' hq').1; omega) (codes q' hq' p1 hp1) _
      (through q' hq' p1 (by omega))
  have l1 := hc.le1; have l2 := hc.in1; have l3 := hc.le2; have l4 := hc.in2; have l5 := hc.len
  have glen := (ge q hq).len
  simp only at glen
  have hb1 : b.b1 = 0 := by omega
  have he1 : b.e1 = s1.length := by omega
  have he2 : b.e2 = b.b2 + s1.length := by omega
  refine ⟨b, e, hb1, he1, ?_, he2, fun q' hq' => ?_⟩
  · have hsl := slice_eq hc
    rw [hb1, he1, he2] at hsl
    have hsl : s1 = (s2.take (b.b2 + s1.length)).drop b.b2 := by simpa [slice] using hsl
    refine ⟨s2.take b.b2, s2.drop (b.b2 + s1.length), ?_, by simp; omega⟩
    have h1 : (s2.drop b.b2).take s1.length = s1 := by
      rw [List.drop_take, Nat.add_sub_cancel_left] at hsl; exact hsl.symm
    have h2 : s2.take (b.b2 + s1.length) = s2.take b.b2 ++ s1 := by rw [List.take_add, h1]
    rw [← h2, List.take_append_drop]
  · have := ge q' hq'
    unfold Ge at this
    simp only at this
    omega

example : b!"na" ≠ [] ∧ OccursAt (b!"na") (b!"banana") 2 := ⟨by decide, ⟨b!"ba", b!"na", rfl, rfl⟩⟩

/-- No common substring is three times as long as the result: a common substring of length `n` comes
with a result of length at least `(n + 2) / 3`. -/
theorem C43_third_partial (s1 s2 w : Bytes) (hw : w ≠ []) (q1 q2 : Nat) (h1 : OccursAt w s1 q1)
    (h2 : OccursAt w s2 q2) :
    ∃ b, longestCommon s1 s2 = .ok b ∧ w.length + 2 ≤ 3 * (b.e1 - b.b1) := by
  have hpos : w.length ≠ 0 := by intro e; exact hw (List.length_eq_zero_iff.1 e)
  have occ : ∀ s q, OccursAt w s q → q + w.length ≤ s.length ∧ ∀ i, i < w.length → s[q + i]? = w[i]? := by
    rintro s q ⟨a, t, rfl, rfl⟩
    refine ⟨by simp, fun i hi => ?_⟩
    rw [List.append_assoc, List.getElem?_append_right (by omega), Nat.add_sub_cancel_left,
      List.getElem?_append_left hi]
  obtain ⟨l1, c1⟩ := occ s1 q1 h1
  obtain ⟨l2, c2⟩ := occ s2 q2 h2
  have hy : Common s1 s2 ⟨q1, q1 + w.length, q2, q2 + w.length⟩ :=
    ⟨by simp, l1, by simp, l2, by simp, fun j hj => by
      simp only at hj ⊢
      rw [c1 j (by omega), c2 j (by omega)]⟩
  obtain ⟨b, e, hne⟩ := C43_nonempty_partial s1 s2 (w[0]'(by omega))
    (List.mem_of_getElem? (by rw [c1 0 (by omega)]; exact List.getElem?_eq_getElem (by omega)))
    (List.mem_of_getElem? (by rw [c2 0 (by omega)]; exact List.getElem?_eq_getElem (by omega)))
  refine ⟨b, e, ?_⟩
  obtain ⟨S1, e1, f1, L1, N1⟩ := build_spec s1
  obtain ⟨S2, e2, f2, L2, N2⟩ := build_spec s2
  unfold longestCommon at e
  rw [e1, Res.ok_bind, e2, Res.ok_bind] at e
  have n1 := (N1 0).2 (by simp; omega)
  have n2 := (N2 0).2 (by simp; omega)
  obtain ⟨i, hi⟩ : ∃ i, min S1.a.length S2.a.length = i + 1 := ⟨_, (Nat.succ_pred (by omega)).symm⟩
  rw [hi] at e
  have := levelLoop_third hy f1 f2 L1 L2 i (by omega) (by omega) _ b (init_good s1 s2) e (by omega)
  simp only at this
  omega

example : b!"ana" ≠ [] ∧ OccursAt (b!"ana") (b!"banana") 1 ∧ OccursAt (b!"ana") (b!"ananas") 0 :=
  ⟨by decide, ⟨b!"b", b!"na", rfl, rfl⟩, ⟨[], b!"nas", rfl, rfl⟩⟩

/-- The result need not be the longest common substring: here 19 characters from the third one on are
common, and the result has 18 characters. -/
theorem C43_longest_violated : ∃ s1 s2 w : Bytes, ∃ b,
    longestCommon s1 s2 = .ok b ∧ OccursAt w s1 2 ∧ OccursAt w s2 0 ∧ b.e1 - b.b1 = 18 ∧ w.length = 19 := by
  refine ⟨b!"mmmmmmmyvvqykklyvxvwwmw",
    b!"mmmmmyvvqykklyvxvww0myvvqykklyvxvwwmw0mmmmmmyvvqykklyvx0mmmyvvqykklyvxvwwm0mmmmmmmyvvqykkly",
    b!"mmmmmyvvqykklyvxvww", ⟨4, 22, 56, 74⟩, by decide +kernel, ?_, ?_, rfl, rfl⟩
  · exact ⟨b!"mm", b!"mw", rfl, rfl⟩
  · exact ⟨[], b!"0myvvqykklyvxvwwmw0mmmmmmyvvqykklyvx0mmmyvvqykklyvxvwwm0mmmmmmmyvvqykkly", rfl, rfl⟩

end Lolly.FastSearchProps
