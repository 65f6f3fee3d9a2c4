import Verif.Data.FastSearch
import Verif.Containers.HashMapProps
import Verif.Strings.SearchProps

/-!
# Lemmas on the indexed search
-/

set_option autoImplicit false

namespace Lolly.FastSearch

open Lolly.HashMap

/-! ## The hash function -/

theorem rot_bit (h : BitVec 32) (r i : Nat) (hi : i < 32) :
    (h.rotateLeft r).getLsbD i = h.getLsbD ((i + 32 - r % 32) % 32) := by
  have hr : r % 32 < 32 := Nat.mod_lt _ (by decide)
  rw [BitVec.getLsbD_rotateLeft]
  by_cases hh : i < r % 32
  · simp only [hh, decide_true, cond_true]
    congr 1; omega
  · simp only [hh, decide_false, cond_false, hi, decide_true, Bool.true_and]
    congr 1; omega

theorem rot_eq (h : BitVec 32) (r : Nat) (h0 : 0 < r) (h1 : r < 32) :
    (h <<< r) ^^^ (h >>> (32 - r)) = h.rotateLeft r := by
  apply BitVec.eq_of_getLsbD_eq
  intro i hi
  rw [rot_bit _ _ _ hi]
  simp only [BitVec.getLsbD_xor, BitVec.getLsbD_shiftLeft, BitVec.getLsbD_ushiftRight, hi]
  rw [Nat.mod_eq_of_lt h1]
  by_cases h' : i < r
  · simp only [h', decide_true, Bool.not_true, Bool.and_false, Bool.false_and, Bool.false_xor]
    congr 1; omega
  · rw [BitVec.getLsbD_of_ge h (32 - r + i) (by omega)]
    simp only [h', decide_true, decide_false, Bool.not_false, Bool.and_true, Bool.true_and, Bool.xor_false]
    congr 1; omega

theorem rot_zero (h : BitVec 32) (r : Nat) (hr : r % 32 = 0) : h.rotateLeft r = h := by
  apply BitVec.eq_of_getLsbD_eq
  intro i hi
  rw [rot_bit _ _ _ hi]
  congr 1; omega

theorem rot_xor (x y : BitVec 32) (r : Nat) :
    (x ^^^ y).rotateLeft r = x.rotateLeft r ^^^ y.rotateLeft r := by
  apply BitVec.eq_of_getLsbD_eq
  intro i hi
  simp only [rot_bit _ _ _ hi, BitVec.getLsbD_xor]

theorem rot_rot (x : BitVec 32) (r q : Nat) : (x.rotateLeft r).rotateLeft q = x.rotateLeft (r + q) := by
  apply BitVec.eq_of_getLsbD_eq
  intro i hi
  rw [rot_bit _ _ _ hi, rot_bit _ _ _ (Nat.mod_lt _ (by decide)), rot_bit _ _ _ hi]
  congr 1; omega

theorem combine_eq (c1 c2 : BitVec 32) (l : Nat) :
    hashCombine c1 c2 l = c1 ^^^ c2.rotateLeft (9 * l) := by
  unfold hashCombine
  have : (9 * l) &&& 31 = (9 * l) % 32 := Nat.and_two_pow_sub_one_eq_mod (9 * l) 5
  rw [this]
  have hlt := Nat.mod_lt (9 * l) (show 32 > 0 by decide)
  have hm : c2.rotateLeft ((9 * l) % 32) = c2.rotateLeft (9 * l) := by
    apply BitVec.eq_of_getLsbD_eq
    intro i hi
    rw [rot_bit _ _ _ hi, rot_bit _ _ _ hi, Nat.mod_mod]
  dsimp only
  split
  · rename_i h
    rw [rot_zero _ _ h]
  · rw [rot_eq _ _ (by omega) hlt, hm]

theorem fastHash_cons (c : UInt8) (s : Bytes) :
    fastHash (c :: s) = (fastHash s).rotateLeft 9 ^^^ byteCode c := by
  show ((fastHash s <<< 9) ^^^ (fastHash s >>> (32 - 9))) ^^^ byteCode c = _
  rw [rot_eq _ 9 (by decide) (by decide)]

theorem fastHash_append (x y : Bytes) :
    fastHash (x ++ y) = fastHash x ^^^ (fastHash y).rotateLeft (9 * x.length) := by
  induction x with
  | nil =>
    rw [rot_zero _ _ (by simp)]; simp [fastHash]
  | cons c x ih =>
    rw [List.cons_append, fastHash_cons, fastHash_cons, ih, rot_xor, rot_rot, List.length_cons,
      show 9 * x.length + 9 = 9 * (x.length + 1) by omega]
    ac_rfl

theorem fastHash_combine (x y : Bytes) :
    fastHash (x ++ y) = hashCombine (fastHash x) (fastHash y) x.length := by
  rw [combine_eq, fastHash_append]

theorem fastHash_single (c : UInt8) : fastHash [c] = byteCode c := by
  rw [fastHash_cons]; simp [fastHash]

/-! ## One level -/

/-- The positions below `m` with code `c`. -/
def posOf (f : Nat → BitVec 32) (m : Nat) (c : BitVec 32) : List Nat :=
  (List.range m).filter fun i => f i = c

theorem posOf_succ (f : Nat → BitVec 32) (m : Nat) (c : BitVec 32) :
    posOf f (m + 1) c = posOf f m c ++ if f m = c then [m] else [] := by
  unfold posOf
  rw [List.range_succ, List.filter_append]
  congr 1
  by_cases h : f m = c <;> simp [h]

theorem mem_posOf {f : Nat → BitVec 32} {m : Nat} {c : BitVec 32} {i : Nat} :
    i ∈ posOf f m c ↔ i < m ∧ f i = c := by simp [posOf]

/-- What a level contains once the positions below `m` have been entered. -/
def Holds (h : Index) (f : Nat → BitVec 32) (m : Nat) : Prop :=
  h.WF hashInt ∧ h.init = [] ∧
    ∀ c, h.abs c = if posOf f m c = [] then none else some (posOf f m c)

theorem Holds.get {h : Index} {f : Nat → BitVec 32} {m : Nat} (H : Holds h f m) (c : BitVec 32) :
    h.get hashInt c = .ok (posOf f m c) := by
  rw [get_spec H.1, H.2.2, H.2.1]
  split
  · rename_i e; rw [e]; rfl
  · rfl

theorem Holds.contains {h : Index} {f : Nat → BitVec 32} {m : Nat} (H : Holds h f m) (c : BitVec 32) :
    h.contains hashInt c = .ok (decide (posOf f m c ≠ [])) := by
  rw [contains_spec H.1, H.2.2]
  by_cases e : posOf f m c = [] <;> simp [e]

theorem enter_spec {h : Index} {f : Nat → BitVec 32} {m : Nat} (H : Holds h f m) :
    ∃ h', enter h (f m) m = .ok h' ∧ Holds h' f (m + 1) := by
  have hcon := H.contains (f m)
  obtain ⟨w, hi, ha⟩ := H
  -- after the first step the key is bound
  have first : ∃ h1 : Index, fresh h (f m) = .ok h1 ∧ h1.WF hashInt ∧ h1.init = [] ∧
      ∀ c, h1.abs c = if c = f m then some (posOf f m (f m)) else h.abs c := by
    unfold fresh
    rw [hcon, Res.ok_bind]
    by_cases e : posOf f m (f m) = []
    · obtain ⟨h', e', w', a', i', _⟩ := set_spec w (f m) []
      refine ⟨h', by rw [if_neg (by simp [e])]; exact e', w', by rw [i', hi], fun c => ?_⟩
      rw [a', e]
    · refine ⟨h, by rw [if_pos (by simp [e])], w, hi, fun c => ?_⟩
      split
      · rename_i hc; subst hc; rw [ha, if_neg e]
      · rfl
  obtain ⟨h1, e1, w1, i1, a1⟩ := first
  obtain ⟨h2, e2, w2, a2, i2, _⟩ := touch_spec w1 (f m)
  have a2' : ∀ c, h2.abs c = h1.abs c := by
    intro c; rw [a2]; dsimp only; split
    · rename_i hc; rw [hc, a1, if_pos rfl]; rfl
    · rfl
  have g2 : h2.get hashInt (f m) = .ok (posOf f m (f m)) := by
    rw [get_spec w2, a2', a1, if_pos rfl]; rfl
  obtain ⟨h3, e3, w3, a3, i3, _⟩ := assign_spec w2 (f m) (posOf f m (f m) ++ [m])
  refine ⟨h3, ?_, w3, by rw [i3, i2, i1], fun c => ?_⟩
  · unfold enter
    rw [e1]; simp only [Res.ok_bind, e2, g2, e3]
  · rw [a3, posOf_succ]
    dsimp only
    by_cases hc : c = f m
    · subst hc
      rw [if_pos rfl, a2', a1, if_pos rfl]; simp
    · rw [if_neg hc, a2', a1, if_neg hc, ha, if_neg (Ne.symm hc), List.append_nil]

theorem buildLevel_spec (codes : List (BitVec 32)) (n l : Nat) (f : Nat → BitVec 32) (hl : l ≤ n)
    (hc : ∀ i, i + l ≤ n → codes[i]? = some (f i)) :
    ∃ h, buildLevel codes n l = .ok h ∧ Holds h f (n + 1 - l) := by
  unfold buildLevel
  refine forUp_spec (fun i h => Holds h f i) (by omega) ?_ ?_
  · refine ⟨new_wf _ _ _ (by decide), rfl, fun c => ?_⟩
    rw [new_abs]; simp [posOf]
  · intro i h _ hi H
    obtain ⟨h', e, H'⟩ := enter_spec H
    refine ⟨h', ?_, H'⟩
    rw [rd_eq_ok.2 (hc i (by omega))]
    exact e

/-- The codes of level `l`. -/
def CodesAt (s : Bytes) (codes : List (BitVec 32)) (l : Nat) : Prop :=
  codes.length = s.length ∧ ∀ i, i + l ≤ s.length → codes[i]? = some (fastHash ((s.drop i).take l))

theorem nextCodes_spec (s : Bytes) (codes : List (BitVec 32)) (l : Nat) (h1 : 1 ≤ l)
    (H : CodesAt s codes l) :
    ∃ cs, nextCodes codes s.length l = .ok cs ∧ CodesAt s cs (2 * l) := by
  unfold nextCodes
  obtain ⟨cs, e, hlen, hlo, _⟩ := forUp_spec (lo := 0) (hi := s.length + 1 - 2 * l) (s := codes)
    (body := fun i cs => do
      let c ← rd cs i
      let d ← rd cs (i + l)
      wr cs i (hashCombine c d l))
    (fun i cs => cs.length = s.length ∧
      (∀ j, j < i → j + 2 * l ≤ s.length → cs[j]? = some (fastHash ((s.drop j).take (2 * l)))) ∧
      (∀ j, i ≤ j → cs[j]? = codes[j]?)) (by omega)
    ⟨H.1, fun j hj => by omega, fun j _ => rfl⟩
    (fun i cs _ hi ⟨hlen, hlo, hhi⟩ => by
      have c1 : cs[i]? = some (fastHash ((s.drop i).take l)) := by
        rw [hhi i (by omega)]; exact H.2 i (by omega)
      have c2 : cs[i + l]? = some (fastHash ((s.drop (i + l)).take l)) := by
        rw [hhi (i + l) (by omega)]; exact H.2 (i + l) (by omega)
      refine ⟨cs.set i (hashCombine (fastHash ((s.drop i).take l)) (fastHash ((s.drop (i + l)).take l)) l), ?_, by simpa using hlen, ?_, ?_⟩
      · rw [rd_eq_ok.2 c1, Res.ok_bind, rd_eq_ok.2 c2, Res.ok_bind, wr_ok (by omega)]
      · intro j hj hjl
        by_cases hji : j = i
        · subst hji
          rw [List.getElem?_set_self (by omega)]
          have e : (s.drop j).take (2 * l) = (s.drop j).take l ++ (s.drop (j + l)).take l := by
            rw [show 2 * l = l + l by omega, List.take_add, List.drop_drop]
          rw [e, fastHash_combine]
          have : ((s.drop j).take l).length = l := by simp; omega
          rw [this]
        · rw [List.getElem?_set_ne (by omega)]
          exact hlo j (by omega) hjl
      · intro j hj
        rw [List.getElem?_set_ne (by omega)]
        exact hhi j (by omega))
  exact ⟨cs, e, hlen, fun i hi => hlo i (by omega) hi⟩

/-- Level `k` of the index of `s`. -/
def LevelOk (s : Bytes) (k : Nat) (h : Index) : Prop :=
  Holds h (fun i => fastHash ((s.drop i).take (2 ^ k))) (s.length + 1 - 2 ^ k)

theorem buildLoop_spec (s : Bytes) (fuel k : Nat) (codes : List (BitVec 32)) (a : List Index)
    (H : CodesAt s codes (2 ^ k)) (ha : a.length = k) (hok : ∀ j h, a[j]? = some h → LevelOk s j h)
    (hsz : ∀ j, j < k → 2 ^ j ≤ s.length) (hf : s.length < fuel + k) (hf0 : 0 < fuel) :
    ∃ a', buildLoop s.length fuel (2 ^ k) codes a = .ok a' ∧
      (∀ j h, a'[j]? = some h → LevelOk s j h) ∧ (∀ j, j < a'.length ↔ 2 ^ j ≤ s.length) := by
  induction fuel generalizing k codes a with
  | zero => omega
  | succ fuel ih =>
    rw [buildLoop]
    by_cases hk : 2 ^ k ≤ s.length
    · rw [if_pos hk]
      obtain ⟨h, e, Hh⟩ := buildLevel_spec codes s.length (2 ^ k) _ hk H.2
      obtain ⟨cs, e', H'⟩ := nextCodes_spec s codes (2 ^ k) Nat.one_le_two_pow H
      rw [show 2 * 2 ^ k = 2 ^ (k + 1) by rw [Nat.pow_succ]; omega] at *
      have hk' : k < 2 ^ k := Nat.lt_two_pow_self
      obtain ⟨a', ea, h1, h2⟩ := ih (k + 1) cs (a ++ [h]) H' (by simp [ha])
        (fun j h' hj => by
          by_cases hj' : j < k
          · rw [List.getElem?_append_left (by omega)] at hj
            exact hok j h' hj
          · rw [List.getElem?_append_right (by omega)] at hj
            have : j = k := by
              by_cases h0 : j - a.length = 0
              · omega
              · rw [List.getElem?_eq_none (by simp; omega)] at hj; cases hj
            subst this
            rw [ha, Nat.sub_self] at hj
            obtain rfl : h = h' := by simpa using hj
            exact Hh)
        (fun j hj => by
          by_cases hj' : j = k
          · rw [hj']; exact hk
          · exact hsz j (by omega)) (by omega) (by omega)
      exact ⟨a', by rw [e, Res.ok_bind, e', Res.ok_bind]; exact ea, h1, h2⟩
    · rw [if_neg hk]
      refine ⟨a, rfl, hok, fun j => ?_⟩
      constructor
      · intro hj; exact hsz j (by omega)
      · intro hj
        apply Classical.byContradiction
        intro hn
        exact hk (Nat.le_trans (Nat.pow_le_pow_right (by decide) (by omega)) hj)

theorem build_spec (s : Bytes) : ∃ S, build s = .ok S ∧ S.s = s ∧
    (∀ j h, S.a[j]? = some h → LevelOk s j h) ∧ (∀ j, j < S.a.length ↔ 2 ^ j ≤ s.length) := by
  obtain ⟨a, e, h1, h2⟩ := buildLoop_spec s (s.length + 1) 0 (s.map byteCode) []
    ⟨by simp, fun i hi => by
      have hi' : i < s.length := by rw [Nat.pow_zero] at hi; omega
      rw [List.getElem?_map, List.getElem?_eq_getElem hi', List.drop_eq_getElem_cons hi']
      simp only [Nat.pow_zero, List.take_succ_cons, List.take_zero, Option.map_some, fastHash_single]⟩
    rfl (fun j h hj => by simp at hj) (fun j hj => by omega) (by omega) (by omega)
  rw [Nat.pow_zero] at e
  exact ⟨⟨s, a⟩, by unfold build; rw [e]; rfl, rfl, h1, h2⟩

/-! ## Searching -/

theorem levelOf_spec (n fuel k l : Nat) (hk : k = 2 ^ l) (hkn : k ≤ n) (hf : n ≤ fuel + l) :
    let r := levelOf n fuel k l
    r.1 = 2 ^ r.2 ∧ r.1 ≤ n ∧ n < 2 * r.1 := by
  induction fuel generalizing k l with
  | zero =>
    have : l < 2 ^ l := Nat.lt_two_pow_self
    simp only [levelOf]; omega
  | succ fuel ih =>
    rw [levelOf]
    split
    · rename_i h
      exact ih (k * 2) (l + 1) (by rw [Nat.pow_succ, hk]) h (by omega)
    · rename_i h
      exact ⟨hk, hkn, by omega⟩

theorem occursAt_iff (what s : Bytes) (p : Nat) :
    An.OccursAt what s p ↔ p ≤ s.length ∧ what <+: s.drop p := by
  constructor
  · rintro ⟨a, b, rfl, rfl⟩
    simp
  · rintro ⟨h, t, ht⟩
    refine ⟨s.take p, t, ?_, by simp [h]⟩
    rw [List.append_assoc, ht, List.take_append_drop]

/-- The candidates contain all occurrences, in increasing order. -/
theorem searchSub_spec (s what : Bytes) (S : Searcher) (hS : build s = .ok S)
    (hl : what = [] ∨ ∃ j, 2 ^ j ≤ what.length ∧ what.length < 2 ^ (j + 1) ∧ 2 ^ j ≤ s.length) :
    ∃ ps, searchSub S what = .ok ps ∧ ps.Pairwise (· < ·) ∧ (∀ p ∈ ps, p ≤ s.length) ∧
      ∀ p, An.OccursAt what s p → p ∈ ps := by
  obtain ⟨S', e, hs, hlev, hlen⟩ := build_spec s
  obtain rfl : S' = S := by rw [hS] at e; exact (Res.ok.inj e).symm
  unfold searchSub
  by_cases h0 : what.length = 0
  · rw [if_pos h0]
    refine ⟨_, rfl, List.pairwise_lt_range, fun p hp => by rw [hs] at hp; simp at hp; omega, fun p hp => ?_⟩
    have := ((occursAt_iff _ _ _).1 hp).1
    rw [hs]; simp; omega
  · rw [if_neg h0]
    obtain ⟨h1, h2, h3⟩ := levelOf_spec what.length what.length 1 0 rfl (by omega) (by omega)
    generalize levelOf what.length what.length 1 0 = kl at *
    obtain ⟨k, l⟩ := kl
    simp only at h1 h2 h3
    subst h1
    have hj : 2 ^ l ≤ s.length := by
      rcases hl with rfl | ⟨j, g1, g2, g3⟩
      · simp at h0
      · have : 2 ^ l < 2 ^ (j + 1) := by omega
        have := (Nat.pow_lt_pow_iff_right (a := 2) (by decide)).1 this
        exact Nat.le_trans (Nat.pow_le_pow_right (by decide) (by omega)) g3
    have hla := (hlen l).2 hj
    have hL := hlev l S'.a[l] (List.getElem?_eq_getElem hla)
    simp only []
    rw [rd_ok hla, Res.ok_bind, Holds.contains hL, Res.ok_bind]
    have hsub : An.sub what 0 (2 ^ l : Nat) = what.take (2 ^ l) := by unfold An.sub; rw [Int.toNat_natCast]; rfl
    rw [hsub]
    have fin : ∀ p, An.OccursAt what s p → p ∈ posOf (fun i => fastHash ((s.drop i).take (2 ^ l)))
        (s.length + 1 - 2 ^ l) (fastHash (what.take (2 ^ l))) := by
      intro p hp
      obtain ⟨hp1, hp2⟩ := (occursAt_iff _ _ _).1 hp
      have hlen' := hp2.length_le
      simp at hlen'
      rw [mem_posOf]
      refine ⟨by omega, ?_⟩
      obtain ⟨t, ht⟩ := hp2
      rw [← ht, List.take_append_of_le_length h2]
    split
    · rw [Holds.get hL]
      refine ⟨_, rfl, ?_, ?_, fin⟩
      · exact List.pairwise_lt_range.sublist List.filter_sublist
      · intro p hp; rw [mem_posOf] at hp; omega
    · rename_i hne
      have hne : posOf (fun i => fastHash ((s.drop i).take (2 ^ l))) (s.length + 1 - 2 ^ l)
        (fastHash (what.take (2 ^ l))) = [] := by simpa using hne
      refine ⟨[], rfl, List.Pairwise.nil, by simp, fun p hp => ?_⟩
      have := fin p hp
      rw [hne] at this; exact this

theorem test_iff (s what : Bytes) (p : Nat) (hp : p ≤ s.length) :
    An.test s p what = .ok (decide (An.OccursAt what s p)) := by
  rw [An.test_eq]
  congr 1
  rw [Bool.eq_iff_iff, decide_eq_true_iff, List.isPrefixOf_iff_prefix, occursAt_iff]
  exact ⟨fun h => ⟨hp, h⟩, fun h => h.2⟩

open Classical in
theorem allLoop_spec (s what : Bytes) (ps : List Nat) (hb : ∀ p ∈ ps, p ≤ s.length) :
    allLoop s what ps = .ok (ps.filter fun p => decide (An.OccursAt what s p)) := by
  induction ps with
  | nil => rfl
  | cons p ps ih =>
    rw [allLoop, test_iff _ _ _ (hb p (by simp)), Res.ok_bind, ih (fun q hq => hb q (by simp [hq])), Res.ok_bind]
    by_cases h : An.OccursAt what s p <;> simp [h]

theorem nextLoop_spec (s what : Bytes) (pos : Int) (ps : List Nat) (hb : ∀ p ∈ ps, p ≤ s.length)
    (ho : ps.Pairwise (· < ·)) :
    (nextLoop s what pos ps = .ok (-1) ∧ ∀ p ∈ ps, pos ≤ p → ¬ An.OccursAt what s p) ∨
    (∃ p ∈ ps, nextLoop s what pos ps = .ok p ∧ pos ≤ p ∧ An.OccursAt what s p ∧
      ∀ q ∈ ps, pos ≤ q → q < p → ¬ An.OccursAt what s q) := by
  classical
  induction ps with
  | nil => exact .inl ⟨rfl, by simp⟩
  | cons p ps ih =>
    rw [nextLoop]
    rw [List.pairwise_cons] at ho
    have ih := ih (fun q hq => hb q (by simp [hq])) ho.2
    by_cases h : (p : Int) ≥ pos
    · rw [if_pos h, test_iff _ _ _ (hb p (by simp)), Res.ok_bind]
      by_cases h' : An.OccursAt what s p
      · rw [if_pos (by simpa using h')]
        refine .inr ⟨p, by simp, rfl, h, h', fun q hq _ hlt => ?_⟩
        rcases List.mem_cons.1 hq with rfl | hq
        · omega
        · have := ho.1 q hq; omega
      · rw [if_neg (by simpa using h')]
        rcases ih with ⟨h1, h2⟩ | ⟨q, hq, h1, h2, h3, h4⟩
        · refine .inl ⟨h1, fun q hq hp => ?_⟩
          rcases List.mem_cons.1 hq with rfl | hq
          · exact h'
          · exact h2 q hq hp
        · refine .inr ⟨q, by simp [hq], h1, h2, h3, fun r hr hp hlt => ?_⟩
          rcases List.mem_cons.1 hr with rfl | hr
          · exact h'
          · exact h4 r hr hp hlt
    · rw [if_neg h]
      rcases ih with ⟨h1, h2⟩ | ⟨q, hq, h1, h2, h3, h4⟩
      · refine .inl ⟨h1, fun q hq hp => ?_⟩
        rcases List.mem_cons.1 hq with rfl | hq
        · exact absurd hp (by omega)
        · exact h2 q hq hp
      · refine .inr ⟨q, by simp [hq], h1, h2, h3, fun r hr hp hlt => ?_⟩
        rcases List.mem_cons.1 hr with rfl | hr
        · exact absurd hp (by omega)
        · exact h4 r hr hp hlt

end Lolly.FastSearch
