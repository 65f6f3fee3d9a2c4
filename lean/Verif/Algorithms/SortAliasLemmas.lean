import Verif.Algorithms.SortAlias
import Verif.Algorithms.MergeSortLemmas

set_option autoImplicit false

/-!
# Lemmas on merge_sort with a companion that is a handle of the same array
-/

namespace Lolly.SortAlias

open MergeSort (seg seg_self seg_nil_of_le seg_cons seg_length seg_append seg_all splice_seg seg_splice
  seg_splice_right mergeLoop_spec leftover_spec copyBack_spec)

variable {T : Type}

/-- The merge sort on lists with the same splits that leaves two elements as they are. -/
def halves (leq : T → T → Bool) (l : List T) : List T :=
  if l.length ≤ 2 then l
  else List.merge (halves leq (l.take (l.length / 2))) (halves leq (l.drop (l.length / 2))) leq
termination_by l.length
decreasing_by
  · simp; omega
  · simp; omega

theorem halves_length (leq : T → T → Bool) (l : List T) : (halves leq l).length = l.length := by
  fun_induction halves leq l with
  | case1 l h => rfl
  | case2 l h ih1 ih2 => rw [List.length_merge, ih1, ih2]; simp; omega

theorem halves_perm (leq : T → T → Bool) (l : List T) : (halves leq l).Perm l := by
  fun_induction halves leq l with
  | case1 l h => exact .refl _
  | case2 l h ih1 ih2 =>
    refine (List.merge_perm_append leq).trans ?_
    refine (ih1.append ih2).trans ?_
    rw [List.take_append_drop]

theorem merge_right (leq : T → T → Bool) (l r : List T) : r.Sublist (List.merge l r leq) := by
  fun_induction List.merge l r leq with
  | case1 r => exact List.Sublist.refl _
  | case2 l h => exact List.nil_sublist _
  | case3 x xs y ys h ih => exact ih.cons _
  | case4 x xs y ys h ih => exact ih.cons_cons _

/-- The last two elements keep their order. -/
theorem halves_last (leq : T → T → Bool) (l : List T) (p : List T) (x y : T) (e : l = p ++ [x, y]) :
    [x, y].Sublist (halves leq l) := by
  fun_induction halves leq l generalizing p with
  | case1 l h => rw [e]; exact List.sublist_append_right _ _
  | case2 l h ih1 ih2 =>
    have hl : l.length = p.length + 2 := by rw [e]; simp
    have cut : ∀ m, m ≤ p.length → l.drop m = p.drop m ++ [x, y] := by
      intro m hm; rw [e, List.drop_append_of_le_length hm]
    exact (ih2 _ (cut _ (by omega))).trans (merge_right leq _ _)

theorem halves_sorted (leq : T → T → Bool) (l : List T) (h : l.Pairwise fun x y => leq x y = true) :
    halves leq l = l := by
  fun_induction halves leq l with
  | case1 l _ => rfl
  | case2 l hl ih1 ih2 =>
    have h' := h
    rw [← List.take_append_drop (l.length / 2) l] at h'
    obtain ⟨p1, p2, p3⟩ := List.pairwise_append.1 h'
    rw [ih1 p1, ih2 p2, List.merge_of_le, List.take_append_drop]
    intro x y hx hy
    exact p3 x hx y hy

theorem mergeLoop_same (leq : T → T → Bool) (a : List T) (mid e f : Nat) (ma mb : List T) (i j k : Nat)
    (h : mb.length = ma.length) : ∃ mb', mb'.length = mb.length ∧ mergeLoop leq a mid e f ma mb i j k =
      (MergeSort.mergeLoop leq a mid e f ma i j k >>= fun r => .ok (r.1, mb', r.2)) := by
  induction f generalizing ma mb i j k with
  | zero => exact ⟨mb, rfl, rfl⟩
  | succ f ih =>
    rw [mergeLoop, MergeSort.mergeLoop]
    by_cases hc : i < mid ∧ j < e
    · rw [if_pos hc, if_pos hc]
      cases hx : rd a i with
      | ok x =>
        cases hy : rd a j with
        | ok y =>
          simp only [Res.ok_bind]
          by_cases hl : leq x y = true
          · rw [if_pos hl, if_pos hl]
            by_cases hk : k < ma.length
            · simp only [wr_ok hk, Res.ok_bind]
              rw [wr_ok (by omega), Res.ok_bind]
              obtain ⟨m, h1, h2⟩ := ih (ma.set k x) (mb.set k x) (i + 1) j (k + 1) (by simpa using h)
              exact ⟨m, by simpa using h1, h2⟩
            · exact ⟨mb, rfl, by simp [wr, hk, h]⟩
          · rw [if_neg hl, if_neg hl]
            by_cases hk : k < ma.length
            · simp only [wr_ok hk, Res.ok_bind]
              rw [wr_ok (by omega), Res.ok_bind]
              obtain ⟨m, h1, h2⟩ := ih (ma.set k y) (mb.set k y) i (j + 1) (k + 1) (by simpa using h)
              exact ⟨m, by simpa using h1, h2⟩
            · exact ⟨mb, rfl, by simp [wr, hk, h]⟩
        | ub => exact ⟨mb, rfl, rfl⟩
        | thrown => exact ⟨mb, rfl, rfl⟩
        | hang => exact ⟨mb, rfl, rfl⟩
      | ub => exact ⟨mb, rfl, rfl⟩
      | thrown => exact ⟨mb, rfl, rfl⟩
      | hang => exact ⟨mb, rfl, rfl⟩
    · rw [if_neg hc, if_neg hc]
      exact ⟨mb, rfl, rfl⟩

/-- Moving an element twice is moving it once. -/
theorem move_twice (a : List T) (t p : Nat) :
    (rd a t >>= fun u => wr a p u >>= fun a => rd a t >>= fun x => wr a p x) =
      (rd a t >>= fun x => wr a p x) := by
  by_cases ht : t < a.length
  · rw [rd_ok ht, Res.ok_bind, Res.ok_bind]
    by_cases hp : p < a.length
    · rw [wr_ok hp, Res.ok_bind]
      have : rd (a.set p a[t]) t = .ok a[t] := by
        refine rd_eq_ok.2 ?_
        rw [List.getElem?_set]
        by_cases e : p = t
        · rw [if_pos e, if_pos (by omega)]
        · rw [if_neg e]; simp [ht]
      rw [this, Res.ok_bind, wr_ok (by simpa using hp), List.set_set]
    · simp [wr, hp]
  · have : rd a t = .ub := by simp [rd, ht]
    rw [this]; rfl

theorem leftover_same (a : List T) (i mid k : Nat) : leftover a i mid k = MergeSort.leftover a i mid k := by
  unfold leftover MergeSort.leftover
  congr 1
  funext t a
  exact move_twice a t _

theorem copyBack_same (a ma mb : List T) (s j : Nat) (h : mb.length = ma.length) :
    copyBack a ma mb s j = MergeSort.copyBack a ma s j := by
  unfold copyBack MergeSort.copyBack
  congr 1
  funext i a
  by_cases hi : i < ma.length
  · rw [rd_ok hi, rd_ok (by omega), Res.ok_bind, Res.ok_bind]
    by_cases hp : i < a.length
    · rw [wr_ok hp, Res.ok_bind, Res.ok_bind, wr_ok (by simpa using hp), List.set_set, wr_ok hp]
    · simp [wr, hp]
  · have h1 : rd ma i = .ub := by simp [rd, hi]
    have h2 : rd mb i = .ub := by simp [rd, hi, h]
    rw [h1, h2]; rfl

theorem sub_spec (leq : T → T → Bool) (n : Nat) : ∀ (a : List T) (s e : Nat) (ma mb : List T),
    e - s ≤ n → s ≤ e → e ≤ a.length → ma.length = a.length → mb.length = a.length →
    ∃ ma' mb', sub leq a s e ma mb = .ok (a.take s ++ halves leq (seg a s e) ++ a.drop e, ma', mb') ∧
      ma'.length = a.length ∧ mb'.length = a.length := by
  have small : ∀ (a : List T) (s e : Nat), s ≤ e → e - s ≤ 2 → e ≤ a.length →
      a.take s ++ halves leq (seg a s e) ++ a.drop e = a := by
    intro a s e hse h he
    have hsl := seg_length a (i := s) he
    rw [halves, if_pos (by omega)]
    have := seg_append a (i := 0) (m := s) (e := e) (by omega) hse he
    rw [show a.take s = seg a 0 s by simp [seg], this]
    simp [seg]
  induction n with
  | zero =>
    intro a s e ma mb hn hse he hb hb'
    refine ⟨ma, mb, ?_, hb, hb'⟩
    rw [sub, if_pos (by omega), small a s e hse (by omega) he]
  | succ n ih =>
    intro a s e ma mb hn hse he hb hb'
    have hsl := seg_length a (i := s) he
    by_cases h1 : e - s ≤ 1
    · refine ⟨ma, mb, ?_, hb, hb'⟩
      rw [sub, if_pos h1, small a s e hse (by omega) he]
    by_cases h2 : e - s = 2
    · rw [small a s e hse (by omega) he]
      have ls : s < a.length := by omega
      have lt : s + 1 < a.length := by omega
      rw [sub, if_neg h1, if_pos h2, rd_ok ls, rd_ok lt]
      simp only [Res.ok_bind]
      by_cases hle : leq a[s] a[s + 1] = true
      · exact ⟨ma, mb, by rw [if_neg (by simp [hle])], hb, hb'⟩
      · refine ⟨ma.set s a[s], mb.set s a[s + 1], ?_, by simpa using hb, by simpa using hb'⟩
        rw [if_pos (by simp [hle]), wr_ok (by omega), Res.ok_bind, wr_ok ls, Res.ok_bind,
          rd_eq_ok.2 (List.getElem?_set_self (by omega)), Res.ok_bind, wr_ok (by simpa using lt), Res.ok_bind]
        have r1 : rd ((a.set s a[s + 1]).set (s + 1) a[s]) s = .ok a[s + 1] := by
          refine rd_eq_ok.2 ?_
          rw [List.getElem?_set_ne (by omega), List.getElem?_set_self ls]
        have r2 : rd ((a.set s a[s + 1]).set (s + 1) a[s]) (s + 1) = .ok a[s] :=
          rd_eq_ok.2 (List.getElem?_set_self (by simpa using lt))
        rw [r1, Res.ok_bind, wr_ok (by omega), Res.ok_bind, r2, Res.ok_bind, wr_ok (by simpa using ls), Res.ok_bind,
          rd_eq_ok.2 (List.getElem?_set_self (by omega)), Res.ok_bind, wr_ok (by simpa using lt), Res.ok_bind]
        congr 2
        apply List.ext_getElem?
        intro p
        simp only [List.getElem?_set, List.length_set]
        by_cases hp1 : s + 1 = p
        · subst hp1; simp [lt]
        · by_cases hp2 : s = p
          · subst hp2; simp [ls]
          · simp [hp1, hp2]
    · -- the recursive case
      have hmid : (s + e) / 2 = s + (e - s) / 2 := by omega
      generalize hM : (s + e) / 2 = mid at hmid
      have hsm : s ≤ mid := by omega
      have hme : mid ≤ e := by omega
      have hhalf : mid - s ≤ e - mid := by omega
      obtain ⟨buf1, mb1, e1, hb1, hc1⟩ := ih a s mid ma mb (by omega) hsm (by omega) hb hb'
      have hmidl := seg_length a (i := s) (e := mid) (by omega)
      have hl1 : (halves leq (seg a s mid)).length = mid - s := by rw [halves_length, hmidl]
      generalize ha1 : a.take s ++ halves leq (seg a s mid) ++ a.drop mid = a1 at e1
      have la1 : a1.length = a.length := by
        rw [← ha1]; exact splice_seg (by omega) (by omega) hl1 hsm
      obtain ⟨buf2, mb2, e2, hb2, hc2⟩ := ih a1 mid e buf1 mb1 (by omega) hme (by omega) (by omega) (by omega)
      have hs1 : seg a1 mid e = seg a mid e := by
        rw [← ha1]; exact seg_splice_right hsm (by omega) hl1 (Nat.le_refl _)
      rw [hs1] at e2
      have hl2 : (halves leq (seg a mid e)).length = e - mid := by
        rw [halves_length, seg_length a he]
      generalize ha2 : a1.take mid ++ halves leq (seg a mid e) ++ a1.drop e = a2 at e2
      have la2 : a2.length = a.length := by
        rw [← ha2, ← la1]; exact splice_seg (by omega) (by omega) hl2 hme
      have sL : seg a2 s mid = halves leq (seg a s mid) := by
        have h1 : seg a2 s mid = seg a1 s mid := by
          rw [← ha2]; unfold seg
          rw [List.append_assoc, List.take_append_of_le_length (by simp; omega)]
          rw [List.take_take, Nat.min_self]
        rw [h1, ← ha1]; exact seg_splice (by omega) hl1 hsm
      have sR : seg a2 mid e = halves leq (seg a mid e) := by
        rw [← ha2]; exact seg_splice (by omega) hl2 hme
      have pre2 : a2.take s = a.take s := by
        rw [← ha2, List.append_assoc, List.take_append_of_le_length (by simp; omega), List.take_take,
          Nat.min_eq_left hsm, ← ha1, List.append_assoc, List.take_append_of_le_length (by simp; omega),
          List.take_take, Nat.min_self]
      have suf2 : a2.drop e = a.drop e := by
        have : a2.drop e = a1.drop e := by
          rw [← ha2]
          have hl : (a1.take mid ++ halves leq (seg a mid e)).length = e := by simp [hl2]; omega
          rw [List.drop_append, List.drop_of_length_le (by omega), hl]; simp
        rw [this, ← ha1]
        have hl : (a.take s ++ halves leq (seg a s mid)).length = mid := by simp [hl1]; omega
        rw [List.drop_append, List.drop_of_length_le (by omega), hl, List.drop_drop]
        simp; congr 1; omega
      obtain ⟨w, i', j', m1, m2, m3, m4, m5, m6, m7, m8⟩ :=
        mergeLoop_spec leq a2 (mid := mid) (e := e) (by omega) (by omega) (e - s + 1) buf2 s mid s
          hsm hme (by omega) (by omega)
      rw [sL, sR] at m8
      generalize hbuf3 : buf2.take s ++ w ++ buf2.drop (s + w.length) = buf3 at m1
      have lb3 : buf3.length = a.length := by rw [← hbuf3]; simp; omega
      have segb : seg buf3 s (s + w.length) = w := by
        rw [← hbuf3]; exact seg_splice (by omega) (by omega) (by omega)
      -- the target segment
      have hmsort : halves leq (seg a s e) = w ++ seg a2 i' mid ++ seg a2 j' e := by
        rw [← m8, halves, if_neg (by omega), hsl]
        have t1 : (seg a s e).take ((e - s) / 2) = seg a s mid := by
          rw [← seg_append a hsm hme he, List.take_append_of_le_length (by omega),
            List.take_of_length_le (by omega)]
        have t2 : (seg a s e).drop ((e - s) / 2) = seg a mid e := by
          rw [← seg_append a hsm hme he, List.drop_append, List.drop_of_length_le (by omega)]
          simp [show (e - s) / 2 - (seg a s mid).length = 0 by omega]
        rw [t1, t2]
      obtain ⟨mb3, lc3, q⟩ := mergeLoop_same leq a2 mid e (e - s + 1) buf2 mb2 s mid s (by omega)
      rw [m1] at q
      refine ⟨buf3, mb3, ?_, lb3, by omega⟩
      have hmain : ∃ a3, MergeSort.leftover a2 i' mid (s + w.length) = .ok a3 ∧ a3.length = a.length ∧
          a3.take s = a.take s ∧ a3.drop (s + w.length) =
            seg a2 i' mid ++ seg a2 j' e ++ a.drop e := by
        rcases m7 with h | h
        · -- nothing left over on the left
          subst h
          have hw : s + w.length = j' := by omega
          refine ⟨a2, ?_, la2, pre2, ?_⟩
          · rw [MergeSort.leftover, forUp, Nat.sub_self]; rfl
          · rw [hw, seg_self, List.nil_append]
            have := seg_append a2 (i := j') (m := e) (e := a2.length) m5 (by omega) (Nat.le_refl _)
            rw [show seg a2 e a2.length = a2.drop e by simp [seg],
              show seg a2 j' a2.length = a2.drop j' by simp [seg], suf2] at this
            exact this.symm
        · subst h
          have hk : mid ≤ s + w.length := by omega
          have hkl : s + w.length + (mid - i') = j' := by omega
          have := leftover_spec a2 (i := i') (mid := mid) (k := s + w.length) m3 hk (by omega)
          rw [hkl] at this
          have hsl2 := seg_length a2 (i := i') (e := mid) (by omega)
          refine ⟨_, this, by simp [hsl2]; omega, ?_, ?_⟩
          · rw [List.append_assoc, List.take_append_of_le_length (by simp; omega), List.take_take,
              Nat.min_eq_left (by omega), pre2]
          · rw [seg_self, List.append_nil, suf2, List.append_assoc, List.drop_append,
              List.drop_of_length_le (by simp; omega)]
            simp [Nat.min_eq_left (by omega : s + w.length ≤ a2.length)]
      obtain ⟨a3, l1, l2, l3, l4⟩ := hmain
      have hcb := copyBack_spec a3 buf3 (s := s) (j := s + w.length) (by omega) (by omega) (by omega)
      rw [sub, if_neg h1, if_neg h2]
      simp only [hM, e1, Res.ok_bind, e2, q, leftover_same, l1]
      rw [copyBack_same a3 buf3 mb3 s _ (by omega), hcb]
      simp only [Res.ok_bind]
      rw [segb, l3, l4, hmsort]
      simp

theorem sort_eq (leq : T → T → Bool) (dv : T) (a : List T) : sort leq dv a = .ok (halves leq a) := by
  obtain ⟨_, _, e, _⟩ := sub_spec leq a.length a 0 a.length (List.replicate a.length dv)
    (List.replicate a.length dv) (by omega) (by omega) (Nat.le_refl _) (by simp) (by simp)
  rw [sort, e]
  simp [seg_all]

end Lolly.SortAlias
