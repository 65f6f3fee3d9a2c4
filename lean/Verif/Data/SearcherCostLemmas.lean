import Verif.Data.SearcherCost
import Verif.Data.FastSearchProps
import Verif.Strings.SearchCostProps
import Verif.ListUtil

set_option autoImplicit false

/-! # Lemmas on the work of searchers -/

namespace Lolly.SearcherCost

open Lolly.FastSearch Lolly.SearchCost Lolly.SearchCostProps Lolly.HashMap

/-! ## Building -/

theorem buildLevelC_spec (codes : List (BitVec 32)) (n l : Nat) (f : Nat → BitVec 32) (hl : l ≤ n)
    (hc : ∀ i, i + l ≤ n → codes[i]? = some (f i)) :
    ∃ h, buildLevelC codes n l = .ok (h, n + 1 - l) ∧ buildLevel codes n l = .ok h := by
  have key : ∀ k i (h : Index) (x : Nat), i + k = n + 1 - l → Holds h f i →
      ∃ h', forN (fun i (hk : Index × Nat) => do
        let c ← rd codes i
        let h ← enter hk.1 c i
        Res.ok (h, hk.2 + 1)) k i (h, x) = .ok (h', x + k) ∧
        forN (fun i h => do
          let c ← rd codes i
          enter h c i) k i h = .ok h' := by
    intro k
    induction k with
    | zero => intro i h x _ _; exact ⟨h, rfl, rfl⟩
    | succ k ih =>
      intro i h x hi H
      obtain ⟨h', e, H'⟩ := enter_spec H
      obtain ⟨h2, a, b⟩ := ih (i + 1) h' (x + 1) (by omega) H'
      refine ⟨h2, ?_, ?_⟩
      · rw [forN, rd_eq_ok.2 (hc i (by omega)), Res.ok_bind, e, Res.ok_bind, Res.ok_bind, a]
        rw [show x + 1 + k = x + (k + 1) by omega]
      · rw [forN, rd_eq_ok.2 (hc i (by omega)), Res.ok_bind, e, Res.ok_bind, b]
  obtain ⟨h, a, b⟩ := key (n + 1 - l) 0 (HashMap.new []) 0 (by omega)
    ⟨new_wf _ _ _ (by decide), rfl, fun c => by rw [new_abs]; simp [posOf]⟩
  rw [Nat.zero_add] at a
  exact ⟨h, a, b⟩

theorem nextCodesC_spec (codes : List (BitVec 32)) (n l : Nat) (h1 : 1 ≤ l) (hc : codes.length = n) :
    ∃ cs, nextCodesC codes n l = .ok (cs, n + 1 - 2 * l) ∧ nextCodes codes n l = .ok cs := by
  have key : ∀ k i (cs : List (BitVec 32)) (x : Nat), i + k = n + 1 - 2 * l → cs.length = n →
      ∃ cs', forN (fun i (ck : List (BitVec 32) × Nat) => do
        let c ← rd ck.1 i
        let d ← rd ck.1 (i + l)
        let cs ← wr ck.1 i (hashCombine c d l)
        Res.ok (cs, ck.2 + 1)) k i (cs, x) = .ok (cs', x + k) ∧
        forN (fun i cs => do
          let c ← rd cs i
          let d ← rd cs (i + l)
          wr cs i (hashCombine c d l)) k i cs = .ok cs' := by
    intro k
    induction k with
    | zero => intro i cs x _ _; exact ⟨cs, rfl, rfl⟩
    | succ k ih =>
      intro i cs x hi hlen
      obtain ⟨cs2, a, b⟩ := ih (i + 1) (cs.set i (hashCombine (cs[i]'(by omega)) (cs[i + l]'(by omega)) l)) (x + 1)
        (by omega) (by simp [hlen])
      refine ⟨cs2, ?_, ?_⟩
      · rw [forN, rd_ok (show i < cs.length by omega), Res.ok_bind, rd_ok (show i + l < cs.length by omega), Res.ok_bind,
          wr_ok (show i < cs.length by omega), Res.ok_bind, Res.ok_bind, a]
        rw [show x + 1 + k = x + (k + 1) by omega]
      · rw [forN, rd_ok (show i < cs.length by omega), Res.ok_bind, rd_ok (show i + l < cs.length by omega), Res.ok_bind,
          wr_ok (show i < cs.length by omega), Res.ok_bind, b]
  obtain ⟨cs, a, b⟩ := key (n + 1 - 2 * l) 0 codes 0 (by omega) hc
  rw [Nat.zero_add] at a
  exact ⟨cs, a, b⟩

theorem buildLoopC_spec (s : Bytes) (fuel : Nat) : ∀ (k : Nat) (codes : List (BitVec 32)) (a a' : List Index),
    CodesAt s codes (2 ^ k) → buildLoop s.length fuel (2 ^ k) codes a = .ok a' →
    ∃ x, buildLoopC s.length fuel (2 ^ k) codes a = .ok (a', x) ∧ a.length ≤ a'.length ∧
      x ≤ 2 * s.length * (a'.length - a.length) := by
  induction fuel with
  | zero => intro k codes a a' _ e; cases e
  | succ fuel ih =>
    intro k codes a a' H e
    rw [buildLoop] at e
    rw [buildLoopC]
    have hp : 1 ≤ 2 ^ k := Nat.one_le_two_pow
    by_cases hl : 2 ^ k ≤ s.length
    · rw [if_pos hl] at e ⊢
      obtain ⟨h, b1, b2⟩ := buildLevelC_spec codes s.length (2 ^ k) _ hl H.2
      obtain ⟨cs, c1, c2⟩ := nextCodesC_spec codes s.length (2 ^ k) hp H.1
      obtain ⟨cs', c3, H'⟩ := nextCodes_spec s codes (2 ^ k) hp H
      rw [c2] at c3; cases c3
      rw [b2, Res.ok_bind, c2, Res.ok_bind, show 2 * 2 ^ k = 2 ^ (k + 1) by rw [Nat.pow_succ, Nat.mul_comm]] at e
      rw [show 2 * 2 ^ k = 2 ^ (k + 1) by rw [Nat.pow_succ, Nat.mul_comm]] at H'
      obtain ⟨x, e', hle, hx⟩ := ih (k + 1) cs (a ++ [h]) a' H' e
      rw [b1, Res.ok_bind, c1]
      dsimp only
      rw [Res.ok_bind]
      dsimp only
      rw [show 2 * 2 ^ k = 2 ^ (k + 1) by rw [Nat.pow_succ, Nat.mul_comm], e']
      simp only [List.length_append, List.length_singleton] at hle hx
      refine ⟨_, rfl, by omega, ?_⟩
      have hd : a'.length - a.length = (a'.length - (a.length + 1)) + 1 := by omega
      rw [hd, Nat.mul_add, Nat.mul_one]
      omega
    · rw [if_neg hl] at e ⊢
      cases e
      exact ⟨0, rfl, Nat.le_refl _, Nat.zero_le _⟩

theorem start_codes (s : Bytes) : CodesAt s (s.map byteCode) (2 ^ 0) :=
  ⟨by simp, fun i hi => by
    have hi' : i < s.length := by rw [Nat.pow_zero] at hi; omega
    rw [List.getElem?_map, List.getElem?_eq_getElem hi', List.drop_eq_getElem_cons hi']
    simp only [Nat.pow_zero, List.take_succ_cons, List.take_zero, Option.map_some, fastHash_single]⟩

theorem levels (s : Bytes) (S : Searcher) (hS : build s = .ok S) (hs : s ≠ []) : S.a.length = s.length.log2 + 1 := by
  obtain ⟨S', e, _, _, hlen⟩ := build_spec s
  obtain rfl : S' = S := by rw [hS] at e; exact (Res.ok.inj e).symm
  have h0 : s.length ≠ 0 := fun e => hs (List.length_eq_zero_iff.1 e)
  have h1 := (hlen s.length.log2).2 (Nat.log2_self_le h0)
  have h2 : ¬ s.length.log2 + 1 < S'.a.length := fun h => by
    have := (hlen _).1 h
    have := Nat.lt_log2_self (n := s.length)
    omega
  omega

/-! ## What is stored -/

/-- The number of positions in one table. -/
def storedIn (h : Index) : Nat := (h.a.flatten.map fun e => e.im.length).sum

theorem sum_keys {l : List (BitVec 32)} (f : Nat → BitVec 32) (m : Nat) (hn : l.Nodup) (hc : ∀ i, i < m → f i ∈ l) :
    (l.map fun c => (posOf f m c).length).sum = m := by
  have h1 : (l.map fun c => (posOf f m c).length).sum = (l.flatMap (posOf f m)).length := by
    rw [List.length_flatMap]
  have hnd : (l.flatMap (posOf f m)).Nodup := by
    rw [List.Nodup, List.pairwise_flatMap]
    refine ⟨fun c _ => List.Pairwise.filter _ List.nodup_range, hn.imp ?_⟩
    intro a b hab x hx y hy e
    subst e
    exact hab ((mem_posOf.1 hx).2.symm.trans (mem_posOf.1 hy).2)
  have a := nodup_subset_length hnd (l' := List.range m) (fun x hx => by
    obtain ⟨c, _, hx⟩ := List.mem_flatMap.1 hx
    exact List.mem_range.2 (mem_posOf.1 hx).1)
  have b := nodup_subset_length (List.nodup_range (n := m)) (l' := l.flatMap (posOf f m)) (fun x hx =>
    List.mem_flatMap.2 ⟨f x, hc x (List.mem_range.1 hx), mem_posOf.2 ⟨List.mem_range.1 hx, rfl⟩⟩)
  rw [List.length_range] at a b
  omega

theorem Holds.keys {h : Index} {f : Nat → BitVec 32} {m : Nat} (H : Holds h f m) (i : Nat) (hi : i < m) :
    f i ∈ h.a.flatten.map (·.key) := by
  have hne' : posOf f m (f i) ≠ [] := List.ne_nil_of_mem (mem_posOf.2 ⟨hi, rfl⟩)
  have ha := H.2.2 (f i)
  rw [if_neg hne'] at ha
  apply Classical.byContradiction
  intro hn
  rw [HashMap.abs, look_eq_none.2 hn] at ha
  cases ha

theorem Holds.stored {h : Index} {f : Nat → BitVec 32} {m : Nat} (H : Holds h f m) : storedIn h = m := by
  have hk : (h.a.flatten.map fun e => e.im.length) =
      (h.a.flatten.map (·.key)).map fun c => (posOf f m c).length := by
    rw [List.map_map]
    apply List.map_congr_left
    intro e he
    have hs := (look_eq_some H.1.nodup).2 ⟨e, he, rfl, rfl⟩
    have ha := H.2.2 e.key
    rw [HashMap.abs, hs] at ha
    split at ha
    · cases ha
    · simp only [Function.comp]; rw [← Option.some.inj ha]
  rw [storedIn, hk, sum_keys f m H.1.nodup (Holds.keys H)]

theorem sum_levels (n : Nat) : ∀ (L : Nat), (∀ j, j < L → 2 ^ j ≤ n) →
    ((List.range L).map fun j => n + 1 - 2 ^ j).sum + 2 ^ L = L * (n + 1) + 1 := by
  intro L
  induction L with
  | zero => intro _; simp
  | succ L ih =>
    intro h
    have h1 := ih fun j hj => h j (by omega)
    have h2 := h L (by omega)
    rw [List.range_succ, List.map_append, List.sum_append, List.map_singleton, List.sum_singleton, Nat.pow_succ,
      Nat.add_mul]
    omega

/-! ## Searching -/

theorem fastHashC_eq (s : Bytes) : fastHashC s = (fastHash s, s.length) := by
  induction s with
  | nil => rfl
  | cons c s ih => rw [fastHashC, ih]; rfl

/-- The candidates of a pattern. -/
theorem searchSub_eq (s what : Bytes) (S : Searcher) (hS : build s = .ok S) (j : Nat) (h1 : 2 ^ j ≤ what.length)
    (h2 : what.length < 2 ^ (j + 1)) (h3 : 2 ^ j ≤ s.length) :
    searchSubC S what = .ok (posOf (codeAt s j) (s.length + 1 - 2 ^ j) (fastHash (what.take (2 ^ j))), 2 ^ j) ∧
    searchSub S what = .ok (posOf (codeAt s j) (s.length + 1 - 2 ^ j) (fastHash (what.take (2 ^ j)))) := by
  obtain ⟨S', e, hs, hlev, hlen⟩ := build_spec s
  obtain rfl : S' = S := by rw [hS] at e; exact (Res.ok.inj e).symm
  have hp : 1 ≤ 2 ^ j := Nat.one_le_two_pow
  unfold searchSub searchSubC
  rw [if_neg (show ¬ what.length = 0 by omega), if_neg (show ¬ what.length = 0 by omega)]
  obtain ⟨g1, g2, g3⟩ := levelOf_spec what.length what.length 1 0 rfl (by omega) (by omega)
  generalize levelOf what.length what.length 1 0 = kl at *
  obtain ⟨k, l⟩ := kl
  simp only at g1 g2 g3
  subst g1
  have hlj : l = j := by
    have a1 : 2 ^ l < 2 ^ (j + 1) := by omega
    have a2 : 2 ^ j < 2 ^ (l + 1) := by rw [Nat.pow_succ]; omega
    have b1 := (Nat.pow_lt_pow_iff_right (a := 2) (by decide)).1 a1
    have b2 := (Nat.pow_lt_pow_iff_right (a := 2) (by decide)).1 a2
    omega
  subst hlj
  have hla := (hlen l).2 h3
  have hL : Holds S'.a[l] (codeAt s l) (s.length + 1 - 2 ^ l) := hlev l S'.a[l] (List.getElem?_eq_getElem hla)
  have hsub : An.sub what 0 (2 ^ l : Nat) = what.take (2 ^ l) := by unfold An.sub; rw [Int.toNat_natCast]; rfl
  dsimp only
  rw [hsub, fastHashC_eq, rd_ok hla, Res.ok_bind, Res.ok_bind]
  dsimp only
  rw [hL.contains, Res.ok_bind, Res.ok_bind, hL.get, List.length_take, Nat.min_eq_left h1]
  by_cases hne : posOf (codeAt s l) (s.length + 1 - 2 ^ l) (fastHash (what.take (2 ^ l))) = []
  · rw [hne]; exact ⟨rfl, rfl⟩
  · rw [decide_eq_true hne]; exact ⟨rfl, rfl⟩

theorem allLoop_within (s what : Bytes) (ps : List Nat) :
    Within (allLoopC s what ps) (allLoop s what ps) ((what.length + 1) * ps.length) := by
  induction ps with
  | nil => exact .ok (Nat.zero_le _)
  | cons p ps ih =>
    rw [allLoopC, allLoop]
    refine (test_within s what p).bind fun t x hx => ih.bind fun r y hy => .ok ?_
    rw [List.length_cons, Nat.mul_add, Nat.mul_one]
    omega

theorem nextLoop_within (s what : Bytes) (pos : Int) (ps : List Nat) :
    Within (nextLoopC s what pos ps) (nextLoop s what pos ps) ((what.length + 1) * ps.length) := by
  induction ps with
  | nil => exact .ok (Nat.zero_le _)
  | cons p ps ih =>
    rw [nextLoopC, nextLoop]
    have hb : (what.length + 1) * (p :: ps).length = (what.length + 1) * ps.length + (what.length + 1) := by
      rw [List.length_cons, Nat.mul_add, Nat.mul_one]
    split
    · refine (test_within s what p).bind fun t x hx => ?_
      dsimp only
      split
      · exact .ok (by omega)
      · exact ih.plus (by omega)
    · exact ih.plus (by omega)

/-! ## Longest common substring -/

variable {s1 s2 : Bytes}

theorem extendLeft_within : ∀ p1 p2, Within (extendLeftC s1 s2 p1 p2) (extendLeft s1 s2 p1 p2) (min p1 p2) := by
  intro p1
  induction p1 with
  | zero => intro p2; rw [extendLeftC, extendLeft]; exact .ok (Nat.zero_le _); all_goals simp
  | succ p1 ih =>
    intro p2
    cases p2 with
    | zero => rw [extendLeftC, extendLeft]; exact .ok (Nat.zero_le _); all_goals simp
    | succ p2 =>
      rw [extendLeftC, extendLeft]
      refine Within.read fun x => Within.read fun y => ?_
      split
      · exact (ih p2).plus (by omega)
      · exact .ok (by omega)

theorem extendRight_within (p1 p2 : Nat) :
    Within (extendRightC s1 s2 p1 p2) (extendRight s1 s2 p1 p2) (min (s1.length - p1) (s2.length - p2)) := by
  generalize hn : s1.length - p1 = n
  induction n generalizing p1 p2 with
  | zero =>
    rw [extendRightC, extendRight, if_neg (by omega), if_neg (by omega)]
    exact .ok (Nat.zero_le _)
  | succ n ih =>
    rw [extendRightC, extendRight]
    split
    · refine Within.read fun x => Within.read fun y => ?_
      split
      · exact (ih (p1 + 1) (p2 + 1) (by omega)).plus (by omega)
      · exact .ok (by omega)
    · exact .ok (Nat.zero_le _)

theorem loop2_within (p1 : Nat) (h1 : p1 ≤ s1.length) (ps : List Nat) (h2 : ∀ p ∈ ps, p ≤ s2.length) : ∀ b,
    Within (loop2C s1 s2 p1 ps b) (loop2 s1 s2 p1 ps b) (ps.length * min s1.length s2.length) := by
  induction ps with
  | nil => intro b; exact .ok (Nat.zero_le _)
  | cons p2 ps ih =>
    intro b
    have hp2 := h2 p2 (by simp)
    rw [loop2C, loop2]
    refine (extendLeft_within p1 p2).bind fun l x hx => (extendRight_within p1 p2).bind fun r y hy => ?_
    refine (ih (fun p hp => h2 p (by simp [hp])) _).plus ?_
    rw [List.length_cons, Nat.add_mul, Nat.one_mul]
    omega

theorem loop1_within (ps2 : List Nat) (h2 : ∀ p ∈ ps2, p ≤ s2.length) (ps : List Nat)
    (h1 : ∀ p ∈ ps, p ≤ s1.length) : ∀ b,
    Within (loop1C s1 s2 ps2 ps b) (loop1 s1 s2 ps2 ps b) (ps.length * (ps2.length * min s1.length s2.length)) := by
  induction ps with
  | nil => intro b; exact .ok (Nat.zero_le _)
  | cons p1 ps ih =>
    intro b
    have ih := ih fun p hp => h1 p (by simp [hp])
    rw [loop1C, loop1, List.length_cons, Nat.add_mul, Nat.one_mul]
    split
    · exact (ih b).mono (by omega)
    · refine (loop2_within p1 (h1 p1 (by simp)) ps2 h2 b).bind fun b x hx => ?_
      exact (ih b).plus (by omega)

theorem keyLoop_within {a1 a2 : Index} {f1 f2 : Nat → BitVec 32} {m1 m2 : Nat} (H1 : Holds a1 f1 m1)
    (H2 : Holds a2 f2 m2) (l1 : m1 ≤ s1.length) (l2 : m2 ≤ s2.length) (hs : List (BitVec 32)) : ∀ b,
    Within (keyLoopC s1 s2 a1 a2 hs b) (keyLoop s1 s2 a1 a2 hs b)
      ((hs.map fun c => (posOf f1 m1 c).length).sum * (s2.length * min s1.length s2.length)) := by
  induction hs with
  | nil => intro b; exact .ok (Nat.zero_le _)
  | cons h hs ih =>
    intro b
    rw [keyLoopC, keyLoop, H1.get, Res.ok_bind, Res.ok_bind, H2.get, Res.ok_bind, Res.ok_bind, List.map_cons,
      List.sum_cons, Nat.add_mul]
    have q2 : (posOf f2 m2 h).length ≤ s2.length :=
      Nat.le_trans (Nat.le_trans (List.length_filter_le _ _) (by simp)) l2
    split
    · exact (ih b).mono (by omega)
    · refine (loop1_within (posOf f2 m2 h) (fun p hp => ?_) (posOf f1 m1 h) (fun p hp => ?_) b).bind fun b x hx => ?_
      · have := (mem_posOf.1 hp).1; omega
      · have := (mem_posOf.1 hp).1; omega
      · have hm : (posOf f1 m1 h).length * ((posOf f2 m2 h).length * min s1.length s2.length) ≤
            (posOf f1 m1 h).length * (s2.length * min s1.length s2.length) :=
          Nat.mul_le_mul_left _ (Nat.mul_le_mul_right _ q2)
        exact (ih b).plus (by omega)

theorem commonLevel_eq {a1 : Index} {f1 : Nat → BitVec 32} {m1 : Nat} (H1 : Holds a1 f1 m1) (a2 : Index) (b : Best) :
    commonLevelC s1 s2 a1 a2 b = keyLoopC s1 s2 a1 a2 (a1.a.flatten.map (·.key)) b ∧
    commonLevel s1 s2 a1 a2 b = keyLoop s1 s2 a1 a2 (a1.a.flatten.map (·.key)) b := by
  have w := H1.1
  have hne : a1.a ≠ [] := by
    intro e; have h1 := w.len; have h2 := w.pos; rw [e] at h1; simp at h1; omega
  obtain ⟨it, e1, e2⟩ := Iter.drain_new a1.a hne (a1.a.flatten.length + 1) (by omega)
  unfold commonLevelC commonLevel
  rw [e1, Res.ok_bind, Res.ok_bind, e2, Res.ok_bind, Res.ok_bind]
  exact ⟨rfl, rfl⟩

theorem commonLevel_within {a1 a2 : Index} {f1 f2 : Nat → BitVec 32} {m1 m2 : Nat} (H1 : Holds a1 f1 m1)
    (H2 : Holds a2 f2 m2) (l1 : m1 ≤ s1.length) (l2 : m2 ≤ s2.length) (b : Best) :
    Within (commonLevelC s1 s2 a1 a2 b) (commonLevel s1 s2 a1 a2 b)
      (s1.length * (s2.length * min s1.length s2.length)) := by
  rw [(commonLevel_eq H1 a2 b).1, (commonLevel_eq H1 a2 b).2]
  refine (keyLoop_within H1 H2 l1 l2 _ b).mono ?_
  rw [sum_keys f1 m1 H1.1.nodup (Holds.keys H1)]
  exact Nat.mul_le_mul_right _ l1

theorem levelLoop_within {S1 S2 : Searcher} (L1 : ∀ j h, S1.a[j]? = some h → LevelOk S1.s j h)
    (L2 : ∀ j h, S2.a[j]? = some h → LevelOk S2.s j h) (i : Nat) : ∀ b,
    Within (levelLoopC S1 S2 i b) (levelLoop S1 S2 i b)
      (i * (S1.s.length * (S2.s.length * min S1.s.length S2.s.length))) := by
  induction i with
  | zero => intro b; exact .ok (Nat.zero_le _)
  | succ i ih =>
    intro b
    have hp : 1 ≤ 2 ^ i := Nat.one_le_two_pow
    rw [levelLoopC, levelLoop]
    unfold rd
    cases e1 : S1.a[i]? with
    | none => exact rfl
    | some a1 =>
      cases e2 : S2.a[i]? with
      | none => exact rfl
      | some a2 =>
        show Within (commonLevelC S1.s S2.s a1 a2 b >>= _) (commonLevel S1.s S2.s a1 a2 b >>= _) _
        refine (commonLevel_within (L1 i a1 e1) (L2 i a2 e2) (by omega) (by omega) b).bind fun b x hx => ?_
        refine (ih b).plus ?_
        rw [Nat.add_mul, Nat.one_mul]
        omega

/-! ## Texts of equal characters -/

theorem codeAt_replicate (n j i : Nat) (a : UInt8) (h : i + 2 ^ j ≤ n) :
    codeAt (List.replicate n a) j i = fastHash (List.replicate (2 ^ j) a) := by
  unfold codeAt
  rw [List.drop_replicate, List.take_replicate, Nat.min_eq_left (by omega)]

theorem posOf_all (f : Nat → BitVec 32) (m : Nat) (c : BitVec 32) (h : ∀ i, i < m → f i = c) :
    posOf f m c = List.range m := by
  unfold posOf
  apply List.filter_eq_self.2
  intro i hi
  exact decide_eq_true (h i (List.mem_range.1 hi))

theorem test_replicate (n : Nat) (a : UInt8) (t : Bytes) (k : Nat) : ∀ p, p + k ≤ n →
    testC (List.replicate n a) p (List.replicate k a ++ t) = plus k (testC (List.replicate n a) (p + k) t) := by
  induction k with
  | zero =>
    intro p _
    rw [List.replicate_zero, List.nil_append, Nat.add_zero]
    unfold plus
    cases testC (List.replicate n a) p t with
    | ok r => obtain ⟨x, y⟩ := r; show _ = Res.ok (x, 0 + y); rw [Nat.zero_add]
    | ub => rfl
    | thrown => rfl
    | hang => rfl
  | succ k ih =>
    intro p hp
    rw [List.replicate_succ, List.cons_append, testC, if_neg (by simp; omega), rd_ok (by simp; omega), Res.ok_bind,
      List.getElem_replicate, if_neg (by simp), ih (p + 1) (by omega), show p + 1 + k = p + (k + 1) by omega]
    unfold plus
    cases testC (List.replicate n a) (p + (k + 1)) t with
    | ok r => obtain ⟨x, y⟩ := r; show Res.ok (x, 1 + (k + y)) = Res.ok (x, k + 1 + y); congr 2; omega
    | ub => rfl
    | thrown => rfl
    | hang => rfl

theorem all_none (s what : Bytes) (k : Nat) (ps : List Nat) (h : ∀ p ∈ ps, ∃ x, testC s p what = .ok (false, x) ∧ k ≤ x) :
    ∃ c, allLoopC s what ps = .ok ([], c) ∧ ps.length * (k + 1) ≤ c := by
  induction ps with
  | nil => exact ⟨0, rfl, by simp⟩
  | cons p ps ih =>
    obtain ⟨c, e, hc⟩ := ih fun q hq => h q (by simp [hq])
    obtain ⟨x, ex, hx⟩ := h p (by simp)
    refine ⟨x + 1 + c, ?_, ?_⟩
    · rw [allLoopC, ex]
      show (allLoopC s what ps).bind _ = _
      rw [e]; rfl
    · rw [List.length_cons, Nat.add_mul, Nat.one_mul]; omega

theorem next_skip (s what : Bytes) (pos : Int) (ys : List Nat) (xs : List Nat) (h : ∀ p ∈ xs, (p : Int) < pos) :
    nextLoopC s what pos (xs ++ ys) = plus xs.length (nextLoopC s what pos ys) := by
  induction xs with
  | nil =>
    rw [List.nil_append]
    unfold plus
    cases nextLoopC s what pos ys with
    | ok r => obtain ⟨x, y⟩ := r; show _ = Res.ok (x, 0 + y); rw [Nat.zero_add]
    | ub => rfl
    | thrown => rfl
    | hang => rfl
  | cons p xs ih =>
    have hp := h p (by simp)
    rw [List.cons_append, nextLoopC, if_neg (by omega), ih (fun q hq => h q (by simp [hq]))]
    unfold plus
    cases nextLoopC s what pos ys with
    | ok r =>
      obtain ⟨x, y⟩ := r
      show Res.ok (x, 1 + (xs.length + y)) = Res.ok (x, (p :: xs).length + y)
      rw [List.length_cons]; congr 2; omega
    | ub => rfl
    | thrown => rfl
    | hang => rfl

/-! ## Two texts that take long -/

theorem extendLeft_lower : ∀ p1 p2 (l : Nat × Nat) (x : Nat), extendLeftC s1 s2 p1 p2 = .ok (l, x) → p1 ≤ l.1 + x := by
  intro p1
  induction p1 with
  | zero => intro p2 l x _; omega
  | succ p1 ih =>
    intro p2 l x e
    cases p2 with
    | zero =>
      rw [extendLeftC] at e
      · cases e; exact Nat.le_refl _
      · simp
    | succ p2 =>
      rw [extendLeftC] at e
      obtain ⟨u, _, e⟩ := Res.bind_eq_ok.1 (show (rd s1 p1).bind _ = _ from e)
      obtain ⟨v, _, e⟩ := Res.bind_eq_ok.1 (show (rd s2 p2).bind _ = _ from e)
      split at e
      · obtain ⟨⟨l', y⟩, ey, e⟩ := Res.bind_eq_ok.1 (show (extendLeftC s1 s2 p1 p2).bind _ = _ from e)
        cases e
        have := ih p2 _ y ey
        omega
      · cases e; dsimp only; omega

theorem extendRight_lower (p1 p2 : Nat) (r : Nat × Nat) (x : Nat) (e : extendRightC s1 s2 p1 p2 = .ok (r, x)) :
    r.1 ≤ p1 + x := by
  generalize hn : s1.length - p1 = n
  induction n generalizing p1 p2 x with
  | zero =>
    rw [extendRightC, if_neg (by omega)] at e
    cases e; exact Nat.le_refl _
  | succ n ih =>
    rw [extendRightC] at e
    split at e
    · obtain ⟨u, _, e⟩ := Res.bind_eq_ok.1 (show (rd s1 p1).bind _ = _ from e)
      obtain ⟨v, _, e⟩ := Res.bind_eq_ok.1 (show (rd s2 p2).bind _ = _ from e)
      split at e
      · obtain ⟨⟨l', y⟩, ey, e⟩ := Res.bind_eq_ok.1 (show (extendRightC s1 s2 (p1 + 1) (p2 + 1)).bind _ = _ from e)
        cases e
        have := ih (p1 + 1) (p2 + 1) y ey (by omega)
        omega
      · cases e; dsimp only; omega
    · cases e; exact Nat.le_refl _

/-- The counted outcome, when the outcome is known. -/
theorem within_ok {α : Type} {x : Res (α × Nat)} {a : α} {b : Nat} (h : Within x (.ok a) b) : ∃ n, x = .ok (a, n) :=
  let ⟨n, e, _⟩ := h; ⟨n, e⟩

/-- At each pair of positions at least as many characters are compared as there are in any common range through it. -/
theorem loop2_lower (p1 : Nat) (h1 : p1 ≤ s1.length) (m : Nat) (q : Nat → Bool) (ps : List Nat)
    (h2 : ∀ p ∈ ps, p ≤ s2.length) (hq : ∀ p ∈ ps, q p = true → ∃ y, Through s1 s2 p1 p y ∧ m ≤ y.e1 - y.b1) :
    ∀ b b' x, loop2C s1 s2 p1 ps b = .ok (b', x) → ps.countP q * m ≤ x := by
  induction ps with
  | nil => intro b b' x _; simp
  | cons p2 ps ih =>
    intro b b' x e
    rw [loop2C] at e
    obtain ⟨l, r, el, er, _, M⟩ := extend_spec (s1 := s1) (s2 := s2) p1 p2 h1 (h2 p2 (by simp))
    have wl := extendLeft_within (s1 := s1) (s2 := s2) p1 p2
    have wr := extendRight_within (s1 := s1) (s2 := s2) p1 p2
    rw [el] at wl
    rw [er] at wr
    obtain ⟨u, eu⟩ := within_ok wl
    obtain ⟨v, ev⟩ := within_ok wr
    rw [eu] at e
    replace e : (extendRightC s1 s2 p1 p2).bind _ = _ := e
    rw [ev] at e
    replace e : plus (u + v) (loop2C s1 s2 p1 ps _) = _ := e
    obtain ⟨⟨b2, y⟩, ey, e⟩ := Res.bind_eq_ok.1 (show (loop2C s1 s2 p1 ps _).bind _ = _ from e)
    cases e
    have hi := ih (fun p hp => h2 p (by simp [hp])) (fun p hp => hq p (by simp [hp])) _ _ _ ey
    have a1 := extendLeft_lower p1 p2 l u eu
    have a2 := extendRight_lower p1 p2 r v ev
    rw [List.countP_cons, Nat.add_mul]
    by_cases hc : q p2 = true
    · obtain ⟨z, hz, hm⟩ := hq p2 (by simp) hc
      have := (M z hz).len
      dsimp only at this
      rw [if_pos hc, Nat.one_mul]
      omega
    · rw [if_neg hc, Nat.zero_mul]
      omega

/-- The two texts of `C171_common_violated`. -/
def left (m : Nat) : Bytes := List.replicate m (c! 'a') ++ (c! 'x') :: List.replicate m (c! 'a')

def right (m : Nat) : Bytes := List.replicate (3 * m) (c! 'a')

theorem left_length (m : Nat) : (left m).length = 2 * m + 1 := by simp [left]; omega
theorem right_length (m : Nat) : (right m).length = 3 * m := by simp [right]

theorem left_get (m i : Nat) (h : i < 2 * m + 1) : (left m)[i]? = some (if i = m then c! 'x' else c! 'a') := by
  unfold left
  by_cases h1 : i < m
  · rw [List.getElem?_append_left (by simpa using h1), List.getElem?_replicate, if_pos h1, if_neg (by omega)]
  · rw [List.getElem?_append_right (by simpa using h1), List.length_replicate]
    by_cases h2 : i = m
    · subst h2; simp
    · rw [if_neg h2, show i - m = (i - m - 1) + 1 by omega, List.getElem?_cons_succ, List.getElem?_replicate,
        if_pos (by omega)]

theorem right_get (m i : Nat) (h : i < 3 * m) : (right m)[i]? = some (c! 'a') := by
  unfold right
  rw [List.getElem?_replicate, if_pos h]

/-- A common range does not contain the `x`. -/
theorem common_short {m : Nat} {b : Best} (h : Common (left m) (right m) b) : b.e1 ≤ m ∨ m < b.b1 := by
  apply Classical.byContradiction
  intro hn
  have l1 := h.le1; have l2 := h.in1; have l3 := h.le2; have l4 := h.in2; have l5 := h.len
  rw [left_length] at l2
  rw [right_length] at l4
  by_cases hlt : m < b.e1
  · have hs := h.same (m - b.b1) (by omega)
    rw [left_get m _ (by omega), right_get m _ (by omega), if_pos (by omega)] at hs
    cases hs
  · omega

theorem through_first {m i : Nat} (h : i < m) : Through (left m) (right m) i i ⟨0, m, 0, m⟩ := by
  refine ⟨⟨Nat.zero_le _, by rw [left_length]; dsimp only; omega, Nat.zero_le _, by rw [right_length]; dsimp only; omega,
    rfl, fun j hj => ?_⟩, Nat.zero_le _, by dsimp only; omega, rfl⟩
  dsimp only at hj ⊢
  rw [left_get m _ (by omega), right_get m _ (by omega), if_neg (by omega)]

theorem through_second {m i p : Nat} (h : i < m) (h1 : m ≤ p) (h2 : p < 2 * m) :
    Through (left m) (right m) (m + 1 + i) p ⟨m + 1, 2 * m + 1, p - i, p - i + m⟩ := by
  refine ⟨⟨by dsimp only; omega, by rw [left_length]; exact Nat.le_refl _, by dsimp only; omega,
    by rw [right_length]; dsimp only; omega, by dsimp only; omega, fun j hj => ?_⟩, by dsimp only; omega,
    by dsimp only; omega, by dsimp only; omega⟩
  dsimp only at hj ⊢
  rw [left_get m _ (by omega), right_get m _ (by omega), if_neg (by omega)]

theorem loop1_append (ps2 : List Nat) (ys xs : List Nat) : ∀ b,
    loop1C s1 s2 ps2 (xs ++ ys) b =
      (loop1C s1 s2 ps2 xs b).bind fun bx => plus bx.2 (loop1C s1 s2 ps2 ys bx.1) := by
  induction xs with
  | nil =>
    intro b
    show loop1C s1 s2 ps2 ys b = plus 0 (loop1C s1 s2 ps2 ys b)
    unfold plus
    cases loop1C s1 s2 ps2 ys b with
    | ok r => obtain ⟨x, y⟩ := r; show _ = Res.ok (x, 0 + y); rw [Nat.zero_add]
    | ub => rfl
    | thrown => rfl
    | hang => rfl
  | cons p xs ih =>
    intro b
    rw [List.cons_append, loop1C, loop1C]
    split
    · exact ih b
    · cases loop2C s1 s2 p ps2 b with
      | ok r =>
        obtain ⟨b2, x⟩ := r
        show plus x (loop1C s1 s2 ps2 (xs ++ ys) b2) = (plus x (loop1C s1 s2 ps2 xs b2)).bind _
        rw [ih b2]
        unfold plus
        cases loop1C s1 s2 ps2 xs b2 with
        | ok r =>
          obtain ⟨b3, y⟩ := r
          show Res.bind (plus y (loop1C s1 s2 ps2 ys b3)) _ = Res.bind (loop1C s1 s2 ps2 ys b3) _
          unfold plus
          cases loop1C s1 s2 ps2 ys b3 with
          | ok r => obtain ⟨b4, z⟩ := r; show Res.ok (b4, x + (y + z)) = Res.ok (b4, x + y + z); rw [Nat.add_assoc]
          | ub => rfl
          | thrown => rfl
          | hang => rfl
        | ub => rfl
        | thrown => rfl
        | hang => rfl
      | ub => rfl
      | thrown => rfl
      | hang => rfl

/-- One round in the first block: the best range becomes one that begins at the beginning. -/
theorem first_one {m i : Nat} (hi : i < m) (b : Best) (hb : Good (left m) (right m) b)
    (hs : i = 0 ∨ (b.b1 = 0 ∧ i ≤ b.e1)) :
    ∃ b' x, loop1C (left m) (right m) (List.range (3 * m)) [i] b = .ok (b', x) ∧ Good (left m) (right m) b' ∧
      b'.b1 = 0 ∧ i + 1 ≤ b'.e1 := by
  rw [loop1C]
  by_cases hc : b.b1 ≤ i ∧ i < b.e1
  · rw [if_pos hc]
    exact ⟨b, 0, rfl, hb, by omega, by omega⟩
  · rw [if_neg hc]
    have hr : ∀ p ∈ List.range (3 * m), p ≤ (right m).length := fun p hp => by
      have := List.mem_range.1 hp; rw [right_length]; omega
    have hl : i ≤ (left m).length := by rw [left_length]; omega
    obtain ⟨b', e, G, _, M⟩ := loop2_spec (s1 := left m) (s2 := right m) i hl (List.range (3 * m)) hr b hb
    have w := loop2_within (s1 := left m) (s2 := right m) i hl (List.range (3 * m)) hr b
    rw [e] at w
    obtain ⟨x, ex⟩ := within_ok w
    have hge := M i (List.mem_range.2 (by omega)) _ (through_first hi)
    have hsh := common_short G.1
    have l2 := G.1.in1
    rw [left_length] at l2
    unfold Ge at hge
    dsimp only at hge
    rw [ex]
    exact ⟨b', x + 0, rfl, G, by omega, by omega⟩

theorem first_block {m : Nat} (b : Best) (hb : Good (left m) (right m) b) (k : Nat) (hk : k + 1 ≤ m) :
    ∃ b' x, loop1C (left m) (right m) (List.range (3 * m)) (List.range (k + 1)) b = .ok (b', x) ∧
      Good (left m) (right m) b' ∧ b'.b1 = 0 ∧ k + 1 ≤ b'.e1 := by
  induction k with
  | zero => exact first_one (i := 0) (by omega) b hb (.inl rfl)
  | succ k ih =>
    obtain ⟨b', x, e, G, g1, g2⟩ := ih (by omega)
    obtain ⟨b2, y, e2, G2, g3, g4⟩ := first_one (i := k + 1) (by omega) b' G (.inr ⟨g1, g2⟩)
    refine ⟨b2, x + y, ?_, G2, g3, g4⟩
    rw [List.range_succ, loop1_append, e]
    show plus x (loop1C _ _ _ [k + 1] b') = _
    rw [e2]; rfl

theorem count_middle (m : Nat) : (List.range (3 * m)).countP (fun p => decide (m ≤ p ∧ p < 2 * m)) = m := by
  rw [show 3 * m = m + (m + m) by omega, List.range_add, List.range_add, List.map_append, List.countP_append,
    List.countP_append]
  have h1 : (List.range m).countP (fun p => decide (m ≤ p ∧ p < 2 * m)) = 0 := by
    rw [List.countP_eq_zero]
    intro p hp
    have := List.mem_range.1 hp
    simp; omega
  have h2 : ((List.range m).map (m + ·)).countP (fun p => decide (m ≤ p ∧ p < 2 * m)) = m := by
    rw [List.countP_eq_length.2]
    · simp
    · intro p hp
      obtain ⟨q, hq, rfl⟩ := List.mem_map.1 hp
      have := List.mem_range.1 hq
      simp; omega
  have h3 : (((List.range m).map (m + ·)).map (m + ·)).countP (fun p => decide (m ≤ p ∧ p < 2 * m)) = 0 := by
    rw [List.countP_eq_zero]
    intro p hp
    obtain ⟨q, hq, rfl⟩ := List.mem_map.1 hp
    obtain ⟨q, hq, rfl⟩ := List.mem_map.1 hq
    simp; omega
  rw [h1, h2, h3]; omega

/-- Each round in the second block compares `m * m` characters, for nothing. -/
theorem second_one {m i : Nat} (hi : i < m) (b : Best) (hb : Good (left m) (right m) b) (hb1 : b.b1 = 0) (he1 : b.e1 = m) :
    ∃ b' x, loop1C (left m) (right m) (List.range (3 * m)) [m + 1 + i] b = .ok (b', x) ∧ Good (left m) (right m) b' ∧
      b'.b1 = 0 ∧ b'.e1 = m ∧ m * m ≤ x := by
  rw [loop1C, if_neg (by omega)]
  have hr : ∀ p ∈ List.range (3 * m), p ≤ (right m).length := fun p hp => by
    have := List.mem_range.1 hp; rw [right_length]; omega
  have hl : m + 1 + i ≤ (left m).length := by rw [left_length]; omega
  obtain ⟨b', e, G, hge, _⟩ := loop2_spec (s1 := left m) (s2 := right m) (m + 1 + i) hl (List.range (3 * m)) hr b hb
  have w := loop2_within (s1 := left m) (s2 := right m) (m + 1 + i) hl (List.range (3 * m)) hr b
  rw [e] at w
  obtain ⟨x, ex⟩ := within_ok w
  have hx := loop2_lower (s1 := left m) (s2 := right m) (m + 1 + i) hl m (fun p => decide (m ≤ p ∧ p < 2 * m))
    (List.range (3 * m)) hr (fun p _ hq => by
      have hq := of_decide_eq_true hq
      exact ⟨_, through_second hi hq.1 hq.2, by dsimp only; omega⟩) b b' x ex
  rw [count_middle] at hx
  have hsh := common_short G.1
  have l2 := G.1.in1
  rw [left_length] at l2
  unfold Ge at hge
  rw [ex]
  exact ⟨b', x + 0, rfl, G, by omega, by omega, hx⟩

theorem second_block {m : Nat} (b : Best) (hb : Good (left m) (right m) b) (hb1 : b.b1 = 0) (he1 : b.e1 = m)
    (k : Nat) (hk : k ≤ m) :
    ∃ b' x, loop1C (left m) (right m) (List.range (3 * m)) ((List.range k).map (m + 1 + ·)) b = .ok (b', x) ∧
      Good (left m) (right m) b' ∧ b'.b1 = 0 ∧ b'.e1 = m ∧ k * (m * m) ≤ x := by
  induction k with
  | zero => exact ⟨b, 0, rfl, hb, hb1, he1, by simp⟩
  | succ k ih =>
    obtain ⟨b', x, e, G, g1, g2, hx⟩ := ih (by omega)
    obtain ⟨b2, y, e2, G2, g3, g4, hy⟩ := second_one (i := k) (by omega) b' G g1 g2
    refine ⟨b2, x + y, ?_, G2, g3, g4, ?_⟩
    · rw [List.range_succ, List.map_append, loop1_append, e]
      show plus x (loop1C _ _ _ [m + 1 + k] b') = _
      rw [e2]; rfl
    · rw [Nat.add_mul, Nat.one_mul]; omega

theorem codeAt_zero (s : Bytes) (i : Nat) (c : UInt8) (h : s[i]? = some c) : codeAt s 0 i = byteCode c := by
  obtain ⟨hi, e⟩ := List.getElem?_eq_some_iff.1 h
  unfold codeAt
  rw [List.drop_eq_getElem_cons hi, e, Nat.pow_zero, List.take_succ_cons, List.take_zero, fastHash_single]

theorem left_positions (m : Nat) : posOf (codeAt (left m) 0) (2 * m + 1) (byteCode (c! 'a')) =
    List.range m ++ (List.range m).map (m + 1 + ·) := by
  unfold posOf
  rw [show 2 * m + 1 = m + 1 + m by omega, List.range_add, List.range_succ, List.filter_append, List.filter_append]
  have h1 : (List.range m).filter (fun i => decide (codeAt (left m) 0 i = byteCode (c! 'a'))) = List.range m := by
    apply List.filter_eq_self.2
    intro i hi
    have hi := List.mem_range.1 hi
    rw [codeAt_zero _ i _ (left_get m i (by omega)), if_neg (by omega)]
    simp
  have h2 : [m].filter (fun i => decide (codeAt (left m) 0 i = byteCode (c! 'a'))) = [] := by
    apply List.filter_eq_nil_iff.2
    intro i hi
    rw [List.mem_singleton.1 hi, codeAt_zero _ m _ (left_get m m (by omega)), if_pos rfl]
    decide
  have h3 : ((List.range m).map (m + 1 + ·)).filter (fun i => decide (codeAt (left m) 0 i = byteCode (c! 'a'))) =
      (List.range m).map (m + 1 + ·) := by
    apply List.filter_eq_self.2
    intro i hi
    obtain ⟨q, hq, rfl⟩ := List.mem_map.1 hi
    have hq := List.mem_range.1 hq
    rw [codeAt_zero _ _ _ (left_get m (m + 1 + q) (by omega)), if_neg (by omega)]
    simp
  rw [h1, h2, h3, List.append_nil]

theorem right_positions (m : Nat) : posOf (codeAt (right m) 0) (3 * m) (byteCode (c! 'a')) = List.range (3 * m) :=
  posOf_all _ _ _ fun i hi => codeAt_zero _ i _ (right_get m i hi)

/-- The loop for the character `a` alone. -/
theorem letter_lower {m : Nat} (hm : 1 ≤ m) (b b' : Best) (x : Nat) (hb : Good (left m) (right m) b)
    (e : loop1C (left m) (right m) (List.range (3 * m)) (List.range m ++ (List.range m).map (m + 1 + ·)) b = .ok (b', x)) :
    m * (m * m) ≤ x := by
  rw [loop1_append] at e
  obtain ⟨b1, x1, e1, G1, g1, g2⟩ := first_block b hb (m - 1) (by omega)
  rw [show m - 1 + 1 = m by omega] at e1
  have hsh := common_short G1.1
  obtain ⟨b2, x2, e2, _, _, _, hx⟩ := second_block b1 G1 g1 (by omega) m (Nat.le_refl _)
  rw [e1] at e
  replace e : plus x1 (loop1C _ _ _ _ b1) = _ := e
  rw [e2] at e
  cases e
  omega

theorem keyLoop_lower {a1 a2 : Index} {f1 f2 : Nat → BitVec 32} {m1 m2 : Nat} (H1 : Holds a1 f1 m1)
    (H2 : Holds a2 f2 m2) (l1 : m1 ≤ s1.length) (l2 : m2 ≤ s2.length) (h : BitVec 32) (K : Nat)
    (n1 : posOf f1 m1 h ≠ []) (n2 : posOf f2 m2 h ≠ [])
    (hK : ∀ b b' x, Good s1 s2 b → loop1C s1 s2 (posOf f2 m2 h) (posOf f1 m1 h) b = .ok (b', x) → K ≤ x)
    (hs : List (BitVec 32)) (hh : h ∈ hs) : ∀ b b' x, Good s1 s2 b → keyLoopC s1 s2 a1 a2 hs b = .ok (b', x) → K ≤ x := by
  induction hs with
  | nil => cases hh
  | cons g hs ih =>
    intro b b' x hb e
    rw [keyLoopC, H1.get, Res.ok_bind, H2.get, Res.ok_bind] at e
    split at e
    · rename_i h0
      rcases List.mem_cons.1 hh with rfl | hh
      · rcases h0 with h0 | h0
        · exact absurd (List.length_eq_zero_iff.1 h0) n1
        · exact absurd (List.length_eq_zero_iff.1 h0) n2
      · exact ih hh b b' x hb e
    · obtain ⟨⟨b1, y⟩, e1, e⟩ := Res.bind_eq_ok.1 (show (loop1C s1 s2 (posOf f2 m2 g) (posOf f1 m1 g) b).bind _ = _ from e)
      obtain ⟨⟨b2, z⟩, e2, e⟩ := Res.bind_eq_ok.1 (show (keyLoopC s1 s2 a1 a2 hs b1).bind _ = _ from e)
      cases e
      rcases List.mem_cons.1 hh with rfl | hh
      · have := hK b b1 y hb e1
        omega
      · have q2 : ∀ p ∈ posOf f2 m2 g, p ≤ s2.length := fun p hp => by have := (mem_posOf.1 hp).1; omega
        have q1 : ∀ p ∈ posOf f1 m1 g, p ≤ s1.length := fun p hp => by have := (mem_posOf.1 hp).1; omega
        obtain ⟨b3, e3, G, _⟩ := loop1_spec (s1 := s1) (s2 := s2) (posOf f2 m2 g) q2 (posOf f1 m1 g) q1 b hb
        have w := loop1_within (s1 := s1) (s2 := s2) (posOf f2 m2 g) q2 (posOf f1 m1 g) q1 b
        rw [e3] at w
        obtain ⟨_, ew⟩ := within_ok w
        rw [e1] at ew
        cases ew
        have := ih hh _ _ _ G e2
        omega

theorem levelLoop_lower {S1 S2 : Searcher} (L1 : ∀ j h, S1.a[j]? = some h → LevelOk S1.s j h)
    (L2 : ∀ j h, S2.a[j]? = some h → LevelOk S2.s j h) (K : Nat)
    (hK : ∀ a1 a2 b b' x, S1.a[0]? = some a1 → S2.a[0]? = some a2 → Good S1.s S2.s b →
      commonLevelC S1.s S2.s a1 a2 b = .ok (b', x) → K ≤ x) (i : Nat) : ∀ b b' x,
    Good S1.s S2.s b → levelLoopC S1 S2 (i + 1) b = .ok (b', x) → K ≤ x := by
  induction i with
  | zero =>
    intro b b' x hb e
    rw [levelLoopC] at e
    obtain ⟨a1, r1, e⟩ := Res.bind_eq_ok.1 (show (rd S1.a 0).bind _ = _ from e)
    obtain ⟨a2, r2, e⟩ := Res.bind_eq_ok.1 (show (rd S2.a 0).bind _ = _ from e)
    obtain ⟨⟨b1, y⟩, e1, e⟩ := Res.bind_eq_ok.1 (show (commonLevelC S1.s S2.s a1 a2 b).bind _ = _ from e)
    cases e
    have := hK a1 a2 b _ y (rd_eq_ok.1 r1) (rd_eq_ok.1 r2) hb e1
    omega
  | succ i ih =>
    intro b b' x hb e
    have hp : 1 ≤ 2 ^ (i + 1) := Nat.one_le_two_pow
    rw [levelLoopC] at e
    obtain ⟨a1, r1, e⟩ := Res.bind_eq_ok.1 (show (rd S1.a (i + 1)).bind _ = _ from e)
    obtain ⟨a2, r2, e⟩ := Res.bind_eq_ok.1 (show (rd S2.a (i + 1)).bind _ = _ from e)
    obtain ⟨⟨b1, y⟩, e1, e⟩ := Res.bind_eq_ok.1 (show (commonLevelC S1.s S2.s a1 a2 b).bind _ = _ from e)
    obtain ⟨⟨b2, z⟩, e2, e⟩ := Res.bind_eq_ok.1 (show (levelLoopC S1 S2 (i + 1) b1).bind _ = _ from e)
    cases e
    have H1 := L1 _ _ (rd_eq_ok.1 r1)
    have H2 := L2 _ _ (rd_eq_ok.1 r2)
    obtain ⟨b3, e3, G, _⟩ := commonLevel_spec (s1 := S1.s) (s2 := S2.s) H1 H2 (by omega) (by omega) b hb
    have w := commonLevel_within (s1 := S1.s) (s2 := S2.s) H1 H2 (by omega) (by omega) b
    rw [e3] at w
    obtain ⟨_, ew⟩ := within_ok w
    rw [e1] at ew
    cases ew
    have := ih _ _ _ G e2
    omega

end Lolly.SearcherCost
