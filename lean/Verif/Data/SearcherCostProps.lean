import Verif.Data.SearcherCostLemmas

set_option autoImplicit false

/-!
# C171: what a searcher costs

The counted functions of `Data/SearcherCost.lean` have the same outcomes as those of `Data/FastSearch.lean`; the
theorems say so beside each bound.
-/

namespace Lolly.SearcherCostProps

open Lolly.FastSearch Lolly.SearcherCost Lolly.SearchCost Lolly.SearchCostProps Lolly.HashMap

/-- The number of positions held by a searcher, in all arrays of all tables. -/
def stored (S : Searcher) : Nat := (S.a.map fun h => (h.a.flatten.map fun e => e.im.length).sum).sum

/-- The number of positions at which `w` occurs in `s`. -/
noncomputable def occurrences (w s : Bytes) : Nat :=
  open Classical in ((List.range (s.length + 1)).filter fun p => decide (An.OccursAt w s p)).length

/-! ## Building -/

/-- Building a searcher for `n` characters takes at most `n + 2 n (log2 n + 1)` rounds. -/
theorem C171_build (s : Bytes) : ∃ S c, buildC s = .ok (S, c) ∧ build s = .ok S ∧
    c ≤ s.length + 2 * s.length * (s.length.log2 + 1) := by
  obtain ⟨S, e, _⟩ := build_spec s
  have e0 := e
  unfold build at e
  obtain ⟨a, ea, e⟩ := Res.bind_eq_ok.1 (show (buildLoop s.length (s.length + 1) 1 (s.map byteCode) []).bind _ = _ from e)
  cases e
  obtain ⟨x, ex, _, hx⟩ := buildLoopC_spec s (s.length + 1) 0 (s.map byteCode) [] a (start_codes s) ea
  refine ⟨_, s.length + x, ?_, e0, ?_⟩
  · unfold buildC
    rw [show (1 : Nat) = 2 ^ 0 from rfl, ex]
    rfl
  · by_cases hs : s = []
    · subst hs
      simp only [List.length_nil, Nat.mul_zero, Nat.zero_mul] at hx ⊢
      omega
    · have hl := levels s _ e0 hs
      dsimp only at hl
      rw [hl] at hx
      simp only [List.length_nil, Nat.sub_zero] at hx
      omega

/-- It holds exactly `L (n + 1) + 1 - 2 ^ L` positions, where `L = log2 n + 1` is the number of its tables: `log2 n`
positions for each character, up to less than two for each. -/
theorem C171_stored (s : Bytes) (hs : s ≠ []) (S : Searcher) (hS : build s = .ok S) :
    S.a.length = s.length.log2 + 1 ∧
    stored S + 2 ^ (s.length.log2 + 1) = (s.length.log2 + 1) * (s.length + 1) + 1 ∧
    stored S ≤ s.length * (s.length.log2 + 1) := by
  have hl := levels s S hS hs
  obtain ⟨S', e, _, hlev, hlen⟩ := build_spec s
  obtain rfl : S' = S := by rw [hS] at e; exact (Res.ok.inj e).symm
  have hm : (S'.a.map fun h => (h.a.flatten.map fun e => e.im.length).sum) =
      (List.range (s.length.log2 + 1)).map fun j => s.length + 1 - 2 ^ j := by
    apply List.ext_getElem
    · simp [hl]
    · intro j h1 h2
      rw [List.getElem_map, List.getElem_map, List.getElem_range]
      have hj : j < S'.a.length := by simpa using h1
      exact Holds.stored (hlev j _ (List.getElem?_eq_getElem hj))
  have hsum := sum_levels s.length (s.length.log2 + 1) (fun j hj => (hlen j).1 (by omega))
  have hst : stored S' = ((List.range (s.length.log2 + 1)).map fun j => s.length + 1 - 2 ^ j).sum := by
    unfold stored; rw [hm]
  have hp : s.length.log2 + 1 < 2 ^ (s.length.log2 + 1) := Nat.lt_two_pow_self
  refine ⟨hl, by omega, ?_⟩
  rw [Nat.mul_add, Nat.mul_one, Nat.mul_comm] at hsum
  omega

/-! ## Searching -/

/-- `search_all` hashes the first `k` characters of the pattern, where `k` is the greatest power of two that is at most
its length `m`, and compares at most `m` characters at each place with the same code. These are at most
`n + 1 - k` places. -/
theorem C171_all (s what : Bytes) (S : Searcher) (hS : build s = .ok S) (j : Nat) (h1 : 2 ^ j ≤ what.length)
    (h2 : what.length < 2 ^ (j + 1)) (h3 : 2 ^ j ≤ s.length) :
    Within (searchAllC S what) (searchAll S what)
      (2 ^ j + (what.length + 1) * ((List.range (s.length + 1 - 2 ^ j)).filter fun p =>
        fastHash ((s.drop p).take (2 ^ j)) = fastHash (what.take (2 ^ j))).length) ∧
    Within (searchAllC S what) (searchAll S what) (what.length + (what.length + 1) * (s.length + 1 - 2 ^ j)) := by
  obtain ⟨a, b⟩ := searchSub_eq s what S hS j h1 h2 h3
  have H : Within (searchAllC S what) (searchAll S what)
      (2 ^ j + (what.length + 1) * ((List.range (s.length + 1 - 2 ^ j)).filter fun p =>
        fastHash ((s.drop p).take (2 ^ j)) = fastHash (what.take (2 ^ j))).length) := by
    unfold searchAllC searchAll
    rw [a, b]
    exact (allLoop_within S.s what _).plus (Nat.le_refl _)
  refine ⟨H, H.mono ?_⟩
  have hl := Nat.mul_le_mul_left (what.length + 1) (Nat.le_trans (List.length_filter_le (fun p =>
    decide (fastHash ((s.drop p).take (2 ^ j)) = fastHash (what.take (2 ^ j)))) (List.range (s.length + 1 - 2 ^ j)))
    (Nat.le_of_eq List.length_range))
  omega

/-- The same bounds for `search_next`, from any position. -/
theorem C171_next (s what : Bytes) (S : Searcher) (hS : build s = .ok S) (j : Nat) (h1 : 2 ^ j ≤ what.length)
    (h2 : what.length < 2 ^ (j + 1)) (h3 : 2 ^ j ≤ s.length) (pos : Int) :
    Within (searchNextC S what pos) (searchNext S what pos)
      (2 ^ j + (what.length + 1) * ((List.range (s.length + 1 - 2 ^ j)).filter fun p =>
        fastHash ((s.drop p).take (2 ^ j)) = fastHash (what.take (2 ^ j))).length) ∧
    Within (searchNextC S what pos) (searchNext S what pos)
      (what.length + (what.length + 1) * (s.length + 1 - 2 ^ j)) := by
  obtain ⟨a, b⟩ := searchSub_eq s what S hS j h1 h2 h3
  have H : Within (searchNextC S what pos) (searchNext S what pos)
      (2 ^ j + (what.length + 1) * ((List.range (s.length + 1 - 2 ^ j)).filter fun p =>
        fastHash ((s.drop p).take (2 ^ j)) = fastHash (what.take (2 ^ j))).length) := by
    unfold searchNextC searchNext
    rw [a, b]
    exact (nextLoop_within S.s what pos _).plus (Nat.le_refl _)
  refine ⟨H, H.mono ?_⟩
  have hl := Nat.mul_le_mul_left (what.length + 1) (Nat.le_trans (List.length_filter_le (fun p =>
    decide (fastHash ((s.drop p).take (2 ^ j)) = fastHash (what.take (2 ^ j)))) (List.range (s.length + 1 - 2 ^ j)))
    (Nat.le_of_eq List.length_range))
  omega

/-- When no other part of the text has the code of the first `k` characters of the pattern, the work is proportional to
the number of occurrences of these `k` characters, however long the text is. What is missing is the number of occurrences
of the whole pattern (`C171_all_violated`). -/
theorem C171_occurrences_partial (s what : Bytes) (S : Searcher) (hS : build s = .ok S) (j : Nat) (h1 : 2 ^ j ≤ what.length)
    (h2 : what.length < 2 ^ (j + 1)) (h3 : 2 ^ j ≤ s.length)
    (hc : ∀ p, p + 2 ^ j ≤ s.length → fastHash ((s.drop p).take (2 ^ j)) = fastHash (what.take (2 ^ j)) →
      (s.drop p).take (2 ^ j) = what.take (2 ^ j)) :
    Within (searchAllC S what) (searchAll S what)
      (what.length + (what.length + 1) * occurrences (what.take (2 ^ j)) s) ∧
    ∀ pos, Within (searchNextC S what pos) (searchNext S what pos)
      (what.length + (what.length + 1) * occurrences (what.take (2 ^ j)) s) := by
  have hp : 1 ≤ 2 ^ j := Nat.one_le_two_pow
  have hle : ((List.range (s.length + 1 - 2 ^ j)).filter fun p =>
      fastHash ((s.drop p).take (2 ^ j)) = fastHash (what.take (2 ^ j))).length ≤ occurrences (what.take (2 ^ j)) s := by
    unfold occurrences
    apply nodup_subset_length (List.Pairwise.filter _ List.nodup_range)
    intro p hpm
    rw [List.mem_filter, List.mem_range, decide_eq_true_iff] at hpm ⊢
    refine ⟨by omega, (occursAt_iff _ _ _).2 ⟨by omega, ?_⟩⟩
    rw [← hc p (by omega) hpm.2]
    exact List.take_prefix _ _
  have hm := Nat.mul_le_mul_left (what.length + 1) hle
  exact ⟨(C171_all s what S hS j h1 h2 h3).1.mono (by omega),
    fun pos => (C171_next s what S hS j h1 h2 h3 pos).1.mono (by omega)⟩

/-- The work is not proportional to the number of occurrences: a pattern that does not occur at all may be compared over
its whole length at almost every place, as by the search without an index. -/
theorem C171_all_violated (n j : Nat) (hj : 1 ≤ j) (hn : 2 ^ j < n) :
    ∃ S c, build (List.replicate n (c! 'a')) = .ok S ∧
      searchAll S (List.replicate (2 ^ j) (c! 'a') ++ b!"b") = .ok [] ∧
      searchAllC S (List.replicate (2 ^ j) (c! 'a') ++ b!"b") = .ok ([], c) ∧ (n + 1 - 2 ^ j) * (2 ^ j + 1) ≤ c := by
  have hp : 2 ≤ 2 ^ j := by
    have := Nat.pow_le_pow_right (n := 2) (by decide) hj
    simpa using this
  obtain ⟨S, hS, hs, _⟩ := build_spec (List.replicate n (c! 'a'))
  have hlen : (List.replicate (2 ^ j) (c! 'a') ++ b!"b").length = 2 ^ j + 1 := by
    rw [List.length_append, List.length_replicate]; rfl
  have hb := searchSub_eq (List.replicate n (c! 'a')) (List.replicate (2 ^ j) (c! 'a') ++ b!"b") S hS j (by omega)
    (by rw [hlen, Nat.pow_succ]; omega) (by simp; omega)
  rw [posOf_all _ _ _ (fun i hi => by
    rw [List.length_replicate] at hi
    rw [codeAt_replicate n j i _ (by omega), List.take_append_of_le_length (by simp), List.take_replicate, Nat.min_self]),
    List.length_replicate] at hb
  obtain ⟨c, e, hc⟩ := all_none (List.replicate n (c! 'a')) (List.replicate (2 ^ j) (c! 'a') ++ b!"b") (2 ^ j)
    (List.range (n + 1 - 2 ^ j)) (fun p hpm => by
      have hpm := List.mem_range.1 hpm
      rw [test_replicate n _ _ _ p (by omega)]
      show ∃ x, plus (2 ^ j) (testC (List.replicate n (c! 'a')) (p + 2 ^ j) [c! 'b']) = .ok (false, x) ∧ _
      rw [testC]
      split
      · exact ⟨2 ^ j + 0, rfl, by omega⟩
      · rename_i hlt
        rw [rd_ok (by omega), Res.ok_bind, List.getElem_replicate, if_pos (by decide)]
        exact ⟨2 ^ j + 1, rfl, by omega⟩)
  have hall : searchAllC S (List.replicate (2 ^ j) (c! 'a') ++ b!"b") = .ok ([], 2 ^ j + c) := by
    unfold searchAllC
    rw [hb.1, Res.ok_bind]
    dsimp only
    rw [hs, e]; rfl
  refine ⟨S, 2 ^ j + c, hS, ?_, hall, ?_⟩
  · have hw := (C171_all (List.replicate n (c! 'a')) (List.replicate (2 ^ j) (c! 'a') ++ b!"b") S hS j (by omega)
      (by rw [hlen, Nat.pow_succ]; omega) (by simp; omega)).2
    rw [hall] at hw
    revert hw
    cases searchAll S (List.replicate (2 ^ j) (c! 'a') ++ b!"b") with
    | ok r => rintro ⟨n, e, _⟩; cases e; rfl
    | ub => intro h; cases h
    | thrown => intro h; cases h
    | hang => intro h; cases h
  · rw [List.length_range] at hc; omega

/-- `search_next` goes through the candidates from the first one, whatever the position: in a text of equal characters
it takes `p + 3` rounds and comparisons to find the character at `p`, so that going from one occurrence to the next takes
a number of rounds proportional to the square of the number of occurrences. -/
theorem C171_next_violated (n p : Nat) (h : p < n) :
    ∃ S, build (List.replicate n (c! 'a')) = .ok S ∧ searchNextC S (b!"a") p = .ok ((p : Int), p + 3) := by
  obtain ⟨S, hS, hs, _⟩ := build_spec (List.replicate n (c! 'a'))
  refine ⟨S, hS, ?_⟩
  have hb := (searchSub_eq (List.replicate n (c! 'a')) (b!"a") S hS 0 (by decide) (by decide) (by simp; omega)).1
  rw [posOf_all _ _ _ (fun i hi => by
    rw [List.length_replicate] at hi
    rw [codeAt_replicate n 0 i _ (by omega)]; rfl), List.length_replicate] at hb
  unfold searchNextC
  rw [hb, Res.ok_bind]
  dsimp only
  have hr : List.range (n + 1 - 2 ^ 0) = List.range p ++ p :: (List.range (n - p - 1)).map fun x => p + (x + 1) := by
    rw [show n + 1 - 2 ^ 0 = p + ((n - p - 1) + 1) by omega, List.range_add, List.range_succ_eq_map]
    simp
  rw [hs, hr, next_skip _ _ _ _ _ (fun q hq => by have := List.mem_range.1 hq; omega), nextLoopC, if_pos (by omega)]
  have ht : testC (List.replicate n (c! 'a')) p (b!"a") = .ok (true, 1) := by
    have := test_replicate n (c! 'a') [] 1 p (by omega)
    exact this
  rw [ht]
  show Res.ok ((p : Int), 2 ^ 0 + ((List.range p).length + (1 + 1))) = _
  rw [List.length_range]; congr 2; omega

/-! ## Longest common substring -/

/-- `get_longest_common` compares at most `(log2 (min n1 n2) + 1) n1 n2 min (n1, n2)` characters. -/
theorem C171_common (s1 s2 : Bytes) :
    Within (longestCommonC s1 s2) (longestCommon s1 s2)
      (((min s1.length s2.length).log2 + 1) * (s1.length * (s2.length * min s1.length s2.length))) := by
  obtain ⟨S1, e1, f1, L1, N1⟩ := build_spec s1
  obtain ⟨S2, e2, f2, L2, N2⟩ := build_spec s2
  unfold longestCommonC longestCommon
  rw [e1, e2, Res.ok_bind, Res.ok_bind, Res.ok_bind, Res.ok_bind]
  have h := levelLoop_within (S1 := S1) (S2 := S2) (by rw [f1]; exact L1) (by rw [f2]; exact L2)
    (min S1.a.length S2.a.length) ⟨0, 0, 0, 0⟩
  rw [f1, f2] at h
  refine h.mono (Nat.mul_le_mul_right _ ?_)
  apply Classical.byContradiction
  intro hn
  have a1 := (N1 ((min s1.length s2.length).log2 + 1)).1 (by omega)
  have a2 := (N2 ((min s1.length s2.length).log2 + 1)).1 (by omega)
  have := Nat.lt_log2_self (n := min s1.length s2.length)
  omega

/-- `get_longest_common` is not quadratic: for texts of `2 m + 1` and `3 m` characters it compares at least `m * m * m`
pairs of characters, although the longest common part is found before that. -/
theorem C171_common_violated (m : Nat) (hm : 1 ≤ m) :
    ∃ b c, longestCommonC (List.replicate m (c! 'a') ++ (c! 'x') :: List.replicate m (c! 'a'))
      (List.replicate (3 * m) (c! 'a')) = .ok (b, c) ∧ m * m * m ≤ c := by
  show ∃ b c, longestCommonC (left m) (right m) = .ok (b, c) ∧ m * m * m ≤ c
  obtain ⟨b, eb, _⟩ := FastSearchProps.longest_spec (left m) (right m)
  have w := C171_common (left m) (right m)
  rw [eb] at w
  obtain ⟨c, ec⟩ := within_ok w
  refine ⟨b, c, ec, ?_⟩
  obtain ⟨S1, e1, f1, L1, N1⟩ := build_spec (left m)
  obtain ⟨S2, e2, f2, L2, N2⟩ := build_spec (right m)
  unfold longestCommonC at ec
  rw [e1, Res.ok_bind, e2, Res.ok_bind] at ec
  have a1 := (N1 0).2 (by rw [left_length]; omega)
  have a2 := (N2 0).2 (by rw [right_length]; omega)
  rw [show min S1.a.length S2.a.length = min S1.a.length S2.a.length - 1 + 1 by omega] at ec
  refine levelLoop_lower (by rw [f1]; exact L1) (by rw [f2]; exact L2) (m * m * m) ?_ _ _ _ _
    (by rw [f1, f2]; exact FastSearchProps.init_good _ _) ec
  intro t1 t2 b0 b1 x g1 g2 hb e
  have H1 : Holds t1 (codeAt (left m) 0) ((left m).length + 1 - 2 ^ 0) := L1 0 t1 g1
  have H2 : Holds t2 (codeAt (right m) 0) ((right m).length + 1 - 2 ^ 0) := L2 0 t2 g2
  rw [left_length, show 2 * m + 1 + 1 - 2 ^ 0 = 2 * m + 1 by omega] at H1
  rw [right_length, show 3 * m + 1 - 2 ^ 0 = 3 * m by omega] at H2
  rw [f1, f2] at hb e
  rw [(commonLevel_eq H1 t2 b0).1] at e
  have r0 : ∀ k, 1 ≤ k → List.range k ≠ [] := fun k hk h => by
    have := congrArg List.length h; rw [List.length_range] at this; simp at this; omega
  refine keyLoop_lower H1 H2 (by rw [left_length]; omega) (by rw [right_length]; omega) (byteCode (c! 'a')) (m * m * m)
    ?_ ?_ ?_ _ ?_ b0 b1 x hb e
  · rw [left_positions]
    intro h
    exact r0 m hm (List.append_eq_nil_iff.1 h).1
  · rw [right_positions]
    exact r0 _ (by omega)
  · intro b b' x hb e
    rw [left_positions, right_positions] at e
    have := letter_lower hm b b' x hb e
    rw [Nat.mul_assoc]; exact this
  · have := Holds.keys H1 0 (by omega)
    rw [codeAt_zero _ 0 _ (left_get m 0 (by omega)), if_neg (by omega)] at this
    exact this

/-! ## Concrete cases -/

/-- A searcher of ten characters has four tables with 28 positions. -/
example : (build (b!"abracadabr")).bind (fun S => .ok (S.a.length, stored S)) = .ok (4, 4 * 11 + 1 - 2 ^ 4) := by
  decide +kernel

/-- A pattern of three characters: two are hashed, one at each of two places is compared in vain or not. -/
example : (build (b!"abracadabr")).bind (fun S => searchAllC S (b!"bra")) = .ok ([1], 2 + (1 + 3) + (1 + 2)) := by
  decide +kernel

/-- The hypotheses of `C171_occurrences_partial` hold for this pattern. -/
example : ∀ p, p + 2 ^ 1 ≤ (b!"abracadabr").length →
    fastHash (((b!"abracadabr").drop p).take (2 ^ 1)) = fastHash ((b!"bra").take (2 ^ 1)) →
    ((b!"abracadabr").drop p).take (2 ^ 1) = (b!"bra").take (2 ^ 1) := by
  have key : ∀ p ∈ List.range 9, fastHash (((b!"abracadabr").drop p).take (2 ^ 1)) = fastHash ((b!"bra").take (2 ^ 1)) →
      ((b!"abracadabr").drop p).take (2 ^ 1) = (b!"bra").take (2 ^ 1) := by decide +kernel
  intro p hp
  exact key p (List.mem_range.2 (by have : (b!"abracadabr").length = 10 := rfl; omega))

/-- The texts of `C171_common_violated` for `m = 4`. -/
example : (longestCommonC (b!"aaaaxaaaa") (b!"aaaaaaaaaaaa")).bind (fun r => .ok (r.1, decide (4 * 4 * 4 ≤ r.2))) =
    .ok (⟨0, 4, 0, 4⟩, true) := by decide +kernel

end Lolly.SearcherCostProps
