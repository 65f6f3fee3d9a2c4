import Verif.Algorithms.MergeSort

/-!
# Lemmas on merge_sort: refinement to a merge sort on lists, and its properties
-/

set_option autoImplicit false

namespace Lolly.MergeSort

variable {T U : Type}

/-- `a[i..e)`. -/
def seg (a : List T) (i e : Nat) : List T := (a.take e).drop i

theorem seg_self (a : List T) (e : Nat) : seg a e e = [] := by
  simp [seg]

theorem seg_nil_of_le (a : List T) {i e : Nat} (h : e ≤ i) : seg a i e = [] := by
  simp [seg]; omega

theorem seg_cons (a : List T) {i e : Nat} (h : i < e) (he : e ≤ a.length) :
    seg a i e = a[i] :: seg a (i + 1) e := by
  unfold seg
  rw [List.drop_eq_getElem_cons (by simp; omega)]
  simp

theorem seg_length (a : List T) {i e : Nat} (he : e ≤ a.length) : (seg a i e).length = e - i := by
  simp [seg]; omega

theorem seg_append (a : List T) {i m e : Nat} (h1 : i ≤ m) (h2 : m ≤ e) (he : e ≤ a.length) :
    seg a i m ++ seg a m e = seg a i e := by
  apply List.ext_getElem?
  intro j
  have hl := seg_length a (i := i) (e := m) (by omega)
  by_cases hj : j < m - i
  · rw [List.getElem?_append_left (by omega)]
    simp only [seg, List.getElem?_drop, List.getElem?_take]
    rw [if_pos (by omega), if_pos (by omega)]
  · rw [List.getElem?_append_right (by omega), hl]
    simp only [seg, List.getElem?_drop, List.getElem?_take]
    have : m + (j - (m - i)) = i + j := by omega
    rw [this]

theorem seg_all (a : List T) : seg a 0 a.length = a := by simp [seg]

/-- The merge sort on lists with the same splits. -/
def msort (leq : T → T → Bool) (l : List T) : List T :=
  if l.length ≤ 1 then l
  else List.merge (msort leq (l.take (l.length / 2))) (msort leq (l.drop (l.length / 2))) leq
termination_by l.length
decreasing_by
  · simp; omega
  · simp; omega

theorem msort_length (leq : T → T → Bool) (l : List T) : (msort leq l).length = l.length := by
  fun_induction msort leq l with
  | case1 l h => rfl
  | case2 l h ih1 ih2 => rw [List.length_merge, ih1, ih2]; simp; omega

theorem msort_perm (leq : T → T → Bool) (l : List T) : (msort leq l).Perm l := by
  fun_induction msort leq l with
  | case1 l h => exact .refl _
  | case2 l h ih1 ih2 =>
    refine (List.merge_perm_append leq).trans ?_
    refine (ih1.append ih2).trans ?_
    rw [List.take_append_drop]

theorem merge_map {A B : Type} (f : A → B) (leq : B → B → Bool) (l r : List A) :
    List.merge (l.map f) (r.map f) leq = (List.merge l r (fun x y => leq (f x) (f y))).map f := by
  fun_induction List.merge l r (fun x y => leq (f x) (f y)) with
  | case1 r => simp
  | case2 l h => simp
  | case3 x xs y ys h ih =>
    simp only [List.map_cons] at ih ⊢
    rw [List.cons_merge_cons_pos leq _ _ h, ih]
  | case4 x xs y ys h ih =>
    simp only [List.map_cons] at ih ⊢
    rw [List.cons_merge_cons_neg leq _ _ h, ih]

theorem msort_map {A B : Type} (f : A → B) (leq : B → B → Bool) (l : List A) :
    msort leq (l.map f) = (msort (fun x y => leq (f x) (f y)) l).map f := by
  fun_induction msort (fun x y => leq (f x) (f y)) l with
  | case1 l h => rw [msort, if_pos (by simpa using h)]
  | case2 l h ih1 ih2 =>
    rw [msort, if_neg (by simpa using h), List.length_map, ← List.map_take, ← List.map_drop, ih1, ih2,
      merge_map]

theorem splice_seg {a : List T} {s e : Nat} {m : List T} (hs : s ≤ a.length) (he : e ≤ a.length)
    (hm : m.length = e - s) (hse : s ≤ e) : (a.take s ++ m ++ a.drop e).length = a.length := by
  simp; omega

/-- What the merging loop does. -/
theorem mergeLoop_spec (leq : T → T → Bool) (a : List T) {mid e : Nat} (hm : mid ≤ a.length)
    (he : e ≤ a.length) (f : Nat) (buf : List T) (i j k : Nat) (hi : i ≤ mid) (hj : j ≤ e)
    (hk : k + (mid - i) + (e - j) ≤ buf.length) (hf : (mid - i) + (e - j) < f) :
    ∃ w i' j', mergeLoop leq a mid e f buf i j k =
        .ok (buf.take k ++ w ++ buf.drop (k + w.length), i', j', k + w.length) ∧
      i ≤ i' ∧ i' ≤ mid ∧ j ≤ j' ∧ j' ≤ e ∧ w.length = (i' - i) + (j' - j) ∧
      (i' = mid ∨ j' = e) ∧
      List.merge (seg a i mid) (seg a j e) leq = w ++ seg a i' mid ++ seg a j' e := by
  induction f generalizing buf i j k with
  | zero => omega
  | succ f ih =>
    by_cases hc : i < mid ∧ j < e
    · have hx : rd a i = .ok a[i] := rd_ok (by omega)
      have hy : rd a j = .ok a[j] := rd_ok (by omega)
      have hkl : k < buf.length := by omega
      have key : ∀ (z : T) (w : List T),
          (buf.set k z).take (k + 1) ++ w ++ (buf.set k z).drop (k + 1 + w.length) =
          buf.take k ++ (z :: w) ++ buf.drop (k + (z :: w).length) := by
        intro z w
        have e1 : (buf.set k z).take (k + 1) = buf.take k ++ [z] := by
          rw [List.take_add_one, List.take_set_of_le (Nat.le_refl k), List.getElem?_set_self hkl]; rfl
        have e2 : (buf.set k z).drop (k + 1 + w.length) = buf.drop (k + (z :: w).length) := by
          rw [List.drop_set_of_lt (by omega)]; simp; congr 1; omega
        rw [e1, e2]; simp
      by_cases hle : leq a[i] a[j] = true
      · obtain ⟨w, i', j', h1, h2, h3, h4, h5, h6, h7, h8⟩ :=
          ih (buf.set k a[i]) (i + 1) j (k + 1) (by omega) hj (by simp; omega) (by omega)
        refine ⟨a[i] :: w, i', j', ?_, by omega, h3, h4, h5, by simp; omega, h7, ?_⟩
        · rw [mergeLoop, if_pos hc, hx, hy]
          simp only [Res.ok_bind, hle, if_true]
          rw [wr_ok hkl, Res.ok_bind, h1, key]
          simp; omega
        · rw [seg_cons a hc.1 hm, seg_cons a hc.2 he, List.cons_merge_cons_pos leq _ _ hle,
            ← seg_cons a hc.2 he, h8]; simp
      · obtain ⟨w, i', j', h1, h2, h3, h4, h5, h6, h7, h8⟩ :=
          ih (buf.set k a[j]) i (j + 1) (k + 1) hi (by omega) (by simp; omega) (by omega)
        refine ⟨a[j] :: w, i', j', ?_, h2, h3, by omega, h5, by simp; omega, h7, ?_⟩
        · rw [mergeLoop, if_pos hc, hx, hy]
          simp only [Res.ok_bind, hle]
          rw [if_neg (by simp), wr_ok hkl, Res.ok_bind, h1, key]
          simp; omega
        · rw [seg_cons a hc.1 hm, seg_cons a hc.2 he, List.cons_merge_cons_neg leq _ _ hle,
            ← seg_cons a hc.1 hm, h8]; simp
    · refine ⟨[], i, j, ?_, Nat.le_refl _, hi, Nat.le_refl _, hj, by simp, by omega, ?_⟩
      · rw [mergeLoop, if_neg hc]; simp
      · by_cases h : i < mid
        · have : e ≤ j := by omega
          rw [seg_nil_of_le a (e := e) this]; simp
        · rw [seg_nil_of_le a (e := mid) (by omega)]; simp

theorem leftover_spec (a : List T) {i mid k : Nat} (hi : i ≤ mid) (hmk : mid ≤ k)
    (hk : k + (mid - i) ≤ a.length) :
    leftover a i mid k = .ok (a.take k ++ seg a i mid ++ a.drop (k + (mid - i))) := by
  obtain ⟨b, e, hb⟩ := forUp_spec (lo := i) (hi := mid) (s := a)
    (body := fun t a => do let x ← rd a t; wr a (k + (t - i)) x)
    (fun t b => b.length = a.length ∧ ∀ p, b[p]? =
      if k ≤ p ∧ p < k + (t - i) then a[i + (p - k)]? else a[p]?)
    hi ⟨rfl, fun p => by rw [if_neg (by omega)]⟩
    (by
      rintro t b ht1 ht2 ⟨hl, hb⟩
      have hx : b[t]? = a[t]? := by rw [hb t, if_neg (by omega)]
      have ht : t < a.length := by omega
      refine ⟨b.set (k + (t - i)) a[t], ?_, by simpa using hl, ?_⟩
      · have : rd b t = .ok a[t] := rd_eq_ok.2 (by rw [hx]; simp [ht])
        simp only [this, Res.ok_bind]
        exact wr_ok (by omega)
      · intro p
        rw [List.getElem?_set]
        by_cases hp : k + (t - i) = p
        · subst hp
          rw [if_pos rfl, if_pos (by omega), if_pos (by omega)]
          have : i + (k + (t - i) - k) = t := by omega
          rw [this]; simp [ht]
        · rw [if_neg hp, hb p]
          by_cases h : k ≤ p ∧ p < k + (t - i)
          · rw [if_pos h, if_pos (by omega)]
          · rw [if_neg h, if_neg (by omega)])
  rw [leftover, e]
  congr 1
  apply List.ext_getElem?
  intro p
  rw [hb.2 p]
  have hsl := seg_length a (i := i) (e := mid) (by omega)
  by_cases h : k ≤ p ∧ p < k + (mid - i)
  · rw [if_pos h, List.getElem?_append_left (by simp; omega),
      List.getElem?_append_right (by simp; omega)]
    simp only [seg, List.getElem?_drop, List.getElem?_take, List.length_take]
    rw [if_pos (by omega)]
    congr 1; omega
  · rw [if_neg h]
    by_cases h2 : p < k
    · rw [List.getElem?_append_left (by simp; omega), List.getElem?_append_left (by simp; omega)]
      simp [h2]
    · rw [List.getElem?_append_right (by simp; omega)]
      simp only [List.length_append, List.length_take, List.getElem?_drop, hsl]
      congr 1; omega

theorem copyBack_spec (a buf : List T) {s j : Nat} (hs : s ≤ j) (hj : j ≤ a.length)
    (hb : j ≤ buf.length) :
    copyBack a buf s j = .ok (a.take s ++ seg buf s j ++ a.drop j) := by
  obtain ⟨b, e, hb'⟩ := forUp_spec (lo := s) (hi := j) (s := a)
    (body := fun i a => do let x ← rd buf i; wr a i x)
    (fun t b => b.length = a.length ∧ ∀ p, b[p]? =
      if s ≤ p ∧ p < t then buf[p]? else a[p]?)
    hs ⟨rfl, fun p => by rw [if_neg (by omega)]⟩
    (by
      rintro t b ht1 ht2 ⟨hl, hb'⟩
      have ht : t < buf.length := by omega
      refine ⟨b.set t buf[t], ?_, by simpa using hl, ?_⟩
      · simp only [rd_ok ht, Res.ok_bind]
        exact wr_ok (by omega)
      · intro p
        rw [List.getElem?_set]
        by_cases hp : t = p
        · subst hp
          rw [if_pos rfl, if_pos (by omega), if_pos (by omega)]; simp [ht]
        · rw [if_neg hp, hb' p]
          by_cases h : s ≤ p ∧ p < t
          · rw [if_pos h, if_pos (by omega)]
          · rw [if_neg h, if_neg (by omega)])
  rw [copyBack, e]
  congr 1
  apply List.ext_getElem?
  intro p
  rw [hb'.2 p]
  have hsl := seg_length buf (i := s) (e := j) (by omega)
  by_cases h : s ≤ p ∧ p < j
  · rw [if_pos h, List.getElem?_append_left (by simp; omega),
      List.getElem?_append_right (by simp; omega)]
    simp only [seg, List.getElem?_drop, List.getElem?_take, List.length_take]
    rw [if_pos (by omega)]
    congr 1; omega
  · rw [if_neg h]
    by_cases h2 : p < s
    · rw [List.getElem?_append_left (by simp; omega), List.getElem?_append_left (by simp; omega)]
      simp [h2]
    · rw [List.getElem?_append_right (by simp; omega)]
      simp only [List.length_append, List.length_take, List.getElem?_drop, hsl]
      congr 1; omega

theorem seg_splice {a m : List T} {s e : Nat} (hs : s ≤ a.length) (hm : m.length = e - s)
    (hse : s ≤ e) : seg (a.take s ++ m ++ a.drop e) s e = m := by
  unfold seg
  have h1 : (a.take s ++ m).length = e := by simp; omega
  rw [List.take_append_of_le_length (by omega), List.take_of_length_le (by omega),
    List.drop_append_of_le_length (by simp; omega), List.drop_of_length_le (by simp; omega)]
  simp

theorem seg_splice_right {a m : List T} {s e p q : Nat} (hs : s ≤ e) (he : e ≤ a.length)
    (hm : m.length = e - s) (hp : e ≤ p) : seg (a.take s ++ m ++ a.drop e) p q = seg a p q := by
  unfold seg
  apply List.ext_getElem?
  intro j
  simp only [List.getElem?_drop, List.getElem?_take]
  by_cases hj : p + j < q
  · rw [if_pos hj, if_pos hj, List.getElem?_append_right (by simp; omega)]
    simp only [List.length_append, List.length_take, List.getElem?_drop]
    congr 1; omega
  · rw [if_neg hj, if_neg hj]

theorem sub_spec (leq : T → T → Bool) (n : Nat) : ∀ (a : List T) (s e : Nat) (buf : List T),
    e - s ≤ n → s ≤ e → e ≤ a.length → buf.length = a.length →
    ∃ buf', sub leq a s e buf = .ok (a.take s ++ msort leq (seg a s e) ++ a.drop e, buf') ∧
      buf'.length = a.length := by
  induction n with
  | zero =>
    intro a s e buf hn hse he hb
    obtain rfl : s = e := by omega
    refine ⟨buf, ?_, hb⟩
    rw [sub, if_pos (by omega), seg_self, msort, if_pos (by simp)]; simp
  | succ n ih =>
    intro a s e buf hn hse he hb
    have hsl := seg_length a (i := s) he
    by_cases h1 : e - s ≤ 1
    · refine ⟨buf, ?_, hb⟩
      rw [sub, if_pos h1, msort, if_pos (by omega)]
      have := seg_append a (i := 0) (m := s) (e := e) (by omega) hse he
      rw [show a.take s = seg a 0 s by simp [seg], this]
      simp [seg]
    · by_cases h2 : e - s = 2
      · obtain rfl : e = s + 2 := by omega
        have hx : rd a s = .ok a[s] := rd_ok (by omega)
        have hy : rd a (s + 1) = .ok a[s + 1] := rd_ok (by omega)
        have hseg : seg a s (s + 2) = [a[s], a[s + 1]] := by
          rw [seg_cons a (by omega) he, seg_cons a (by omega) he, seg_self]
        have hms : msort leq [a[s], a[s + 1]] =
            if leq a[s] a[s + 1] = true then [a[s], a[s + 1]] else [a[s + 1], a[s]] := by
          have m1 : ∀ x : T, msort leq [x] = [x] := by
            intro x; rw [msort, if_pos (by simp)]
          rw [msort, if_neg (by simp)]
          simp only [List.length_cons, List.length_nil, Nat.reduceAdd, Nat.reduceDiv,
            List.take_succ_cons, List.take_zero, List.drop_succ_cons, List.drop_zero, m1]
          split
          · rename_i h; rw [List.cons_merge_cons_pos leq _ _ h]; simp
          · rename_i h; rw [List.cons_merge_cons_neg leq _ _ h]; simp
        rw [sub, if_neg h1, if_pos h2, hx, hy, hseg, hms]
        simp only [Res.ok_bind]
        by_cases hle : leq a[s] a[s + 1] = true
        · refine ⟨buf, ?_, hb⟩
          rw [if_neg (by simp [hle]), if_pos hle]
          rw [← hseg, show a.take s = seg a 0 s by simp [seg],
            seg_append a (by omega) (by omega) he]
          simp [seg]
        · refine ⟨buf.set s a[s], ?_, by simpa using hb⟩
          have hbl : s < buf.length := by omega
          rw [if_pos (by simp [hle]), if_neg hle, wr_ok hbl, Res.ok_bind, wr_ok (by omega), Res.ok_bind,
            rd_eq_ok.2 (List.getElem?_set_self hbl), Res.ok_bind, wr_ok (by simp; omega), Res.ok_bind]
          congr 2
          apply List.ext_getElem?
          intro p
          rw [List.getElem?_set, List.getElem?_set]
          simp only [List.length_set]
          by_cases hp1 : s + 1 = p
          · subst hp1
            rw [if_pos rfl, if_pos (by omega), List.getElem?_append_left (by simp; omega),
              List.getElem?_append_right (by simp; omega)]
            simp [Nat.min_eq_left (by omega : s ≤ a.length)]
          · rw [if_neg hp1]
            by_cases hp2 : s = p
            · subst hp2
              rw [if_pos rfl, if_pos (by omega), List.getElem?_append_left (by simp; omega),
                List.getElem?_append_right (by simp; omega)]
              simp [Nat.min_eq_left (by omega : s ≤ a.length)]
            · rw [if_neg hp2]
              by_cases hp3 : p < s
              · rw [List.getElem?_append_left (by simp; omega),
                  List.getElem?_append_left (by simp; omega)]
                simp [hp3]
              · rw [List.getElem?_append_right (by simp; omega)]
                simp only [List.length_append, List.length_take, List.getElem?_drop, List.length_cons,
                  List.length_nil]
                congr 1; omega
      · -- the recursive case
        have hmid : (s + e) / 2 = s + (e - s) / 2 := by omega
        generalize hM : (s + e) / 2 = mid at hmid
        have hsm : s ≤ mid := by omega
        have hme : mid ≤ e := by omega
        have hhalf : mid - s ≤ e - mid := by omega
        obtain ⟨buf1, e1, hb1⟩ := ih a s mid buf (by omega) hsm (by omega) hb
        have hmidl := seg_length a (i := s) (e := mid) (by omega)
        have hl1 : (msort leq (seg a s mid)).length = mid - s := by rw [msort_length, hmidl]
        generalize ha1 : a.take s ++ msort leq (seg a s mid) ++ a.drop mid = a1 at e1
        have la1 : a1.length = a.length := by
          rw [← ha1]; exact splice_seg (by omega) (by omega) hl1 hsm
        obtain ⟨buf2, e2, hb2⟩ := ih a1 mid e buf1 (by omega) hme (by omega) (by omega)
        have hs1 : seg a1 mid e = seg a mid e := by
          rw [← ha1]; exact seg_splice_right hsm (by omega) hl1 (Nat.le_refl _)
        rw [hs1] at e2
        have hl2 : (msort leq (seg a mid e)).length = e - mid := by
          rw [msort_length, seg_length a he]
        generalize ha2 : a1.take mid ++ msort leq (seg a mid e) ++ a1.drop e = a2 at e2
        have la2 : a2.length = a.length := by
          rw [← ha2, ← la1]; exact splice_seg (by omega) (by omega) hl2 hme
        have sL : seg a2 s mid = msort leq (seg a s mid) := by
          have h1 : seg a2 s mid = seg a1 s mid := by
            rw [← ha2]; unfold seg
            rw [List.append_assoc, List.take_append_of_le_length (by simp; omega)]
            rw [List.take_take, Nat.min_self]
          rw [h1, ← ha1]; exact seg_splice (by omega) hl1 hsm
        have sR : seg a2 mid e = msort leq (seg a mid e) := by
          rw [← ha2]; exact seg_splice (by omega) hl2 hme
        have pre2 : a2.take s = a.take s := by
          rw [← ha2, List.append_assoc, List.take_append_of_le_length (by simp; omega), List.take_take,
            Nat.min_eq_left hsm, ← ha1, List.append_assoc, List.take_append_of_le_length (by simp; omega),
            List.take_take, Nat.min_self]
        have suf2 : a2.drop e = a.drop e := by
          have : a2.drop e = a1.drop e := by
            rw [← ha2]
            have hl : (a1.take mid ++ msort leq (seg a mid e)).length = e := by simp [hl2]; omega
            rw [List.drop_append, List.drop_of_length_le (by omega), hl]; simp
          rw [this, ← ha1]
          have hl : (a.take s ++ msort leq (seg a s mid)).length = mid := by simp [hl1]; omega
          rw [List.drop_append, List.drop_of_length_le (by omega), hl, List.drop_drop]
          simp; congr 1; omega
        obtain ⟨w, i', j', m1, m2, m3, m4, m5, m6, m7, m8⟩ :=
          mergeLoop_spec leq a2 (mid := mid) (e := e) (by omega) (by omega) (e - s + 1) buf2 s mid s
            hsm hme (by omega) (by omega)
        rw [sL, sR] at m8
        generalize hbuf3 : buf2.take s ++ w ++ buf2.drop (s + w.length) = buf3 at m1
        have lb3 : buf3.length = a.length := by rw [← hbuf3]; simp; omega
        have segb : seg buf3 s (s + w.length) = w := by
          rw [← hbuf3]; exact seg_splice (by omega) (by omega) (by omega)
        -- the target segment
        have hmsort : msort leq (seg a s e) = w ++ seg a2 i' mid ++ seg a2 j' e := by
          rw [← m8, msort, if_neg (by omega), hsl]
          have t1 : (seg a s e).take ((e - s) / 2) = seg a s mid := by
            rw [← seg_append a hsm hme he, List.take_append_of_le_length (by omega),
              List.take_of_length_le (by omega)]
          have t2 : (seg a s e).drop ((e - s) / 2) = seg a mid e := by
            rw [← seg_append a hsm hme he, List.drop_append, List.drop_of_length_le (by omega)]
            simp [show (e - s) / 2 - (seg a s mid).length = 0 by omega]
          rw [t1, t2]
        refine ⟨buf3, ?_, lb3⟩
        have hmain : ∃ a3, leftover a2 i' mid (s + w.length) = .ok a3 ∧ a3.length = a.length ∧
            a3.take s = a.take s ∧ a3.drop (s + w.length) =
              seg a2 i' mid ++ seg a2 j' e ++ a.drop e := by
          rcases m7 with h | h
          · -- nothing left over on the left
            subst h
            have hw : s + w.length = j' := by omega
            refine ⟨a2, ?_, la2, pre2, ?_⟩
            · rw [leftover, forUp, Nat.sub_self]; rfl
            · rw [hw, seg_self, List.nil_append]
              have := seg_append a2 (i := j') (m := e) (e := a2.length) m5 (by omega) (Nat.le_refl _)
              rw [show seg a2 e a2.length = a2.drop e by simp [seg],
                show seg a2 j' a2.length = a2.drop j' by simp [seg], suf2] at this
              exact this.symm
          · subst h
            have hk : mid ≤ s + w.length := by omega
            have hkl : s + w.length + (mid - i') = j' := by omega
            have := leftover_spec a2 (i := i') (mid := mid) (k := s + w.length) m3 hk (by omega)
            rw [hkl] at this
            have hsl2 := seg_length a2 (i := i') (e := mid) (by omega)
            refine ⟨_, this, by simp [hsl2]; omega, ?_, ?_⟩
            · rw [List.append_assoc, List.take_append_of_le_length (by simp; omega), List.take_take,
                Nat.min_eq_left (by omega), pre2]
            · rw [seg_self, List.append_nil, suf2, List.append_assoc, List.drop_append,
                List.drop_of_length_le (by simp; omega)]
              simp [Nat.min_eq_left (by omega : s + w.length ≤ a2.length)]
        obtain ⟨a3, l1, l2, l3, l4⟩ := hmain
        have hcb := copyBack_spec a3 buf3 (s := s) (j := s + w.length) (by omega) (by omega) (by omega)
        rw [sub, if_neg h1, if_neg h2]
        simp only [hM, e1, Res.ok_bind, e2, m1, l1, hcb]
        rw [segb, l3, l4, hmsort]
        simp

/-- Sorting the whole array. -/
theorem sort_eq (leq : T → T → Bool) (dv : T) (a : List T) : sort leq dv a = .ok (msort leq a) := by
  obtain ⟨buf, e, _⟩ := sub_spec leq a.length a 0 a.length (List.replicate a.length dv) (by omega)
    (by omega) (Nat.le_refl _) (by simp)
  rw [sort, e]
  simp [seg_all]

/-! ## The companion form is the plain form on pairs -/

theorem rd_map {A B : Type} (f : A → B) (c : List A) (i : Nat) :
    rd (c.map f) i = (rd c i >>= fun x => .ok (f x)) := by
  unfold rd
  rw [List.getElem?_map]
  cases c[i]? <;> rfl

theorem wr_map {A B : Type} (f : A → B) (c : List A) (i : Nat) (x : A) :
    wr (c.map f) i (f x) = (wr c i x >>= fun c => .ok (c.map f)) := by
  unfold wr
  by_cases h : i < c.length
  · simp [h]
  · simp [h]

abbrev fsts (c : List (T × U)) : List T := c.map (·.1)
abbrev snds (c : List (T × U)) : List U := c.map (·.2)
abbrev leqP (U : Type) (leq : T → T → Bool) : T × U → T × U → Bool := fun x y => leq x.1 y.1

theorem mergeLoop2_eq (leq : T → T → Bool) (c : List (T × U)) (mid e f : Nat) (d : List (T × U))
    (i j k : Nat) :
    mergeLoop2 leq (fsts c) (snds c) mid e f (fsts d) (snds d) i j k =
      (mergeLoop (leqP U leq) c mid e f d i j k >>= fun r => .ok (fsts r.1, snds r.1, r.2)) := by
  induction f generalizing d i j k with
  | zero => rfl
  | succ f ih =>
    rw [mergeLoop2, mergeLoop]
    by_cases hc : i < mid ∧ j < e
    · rw [if_pos hc, if_pos hc]
      simp only [rd_map]
      cases hx : rd c i with
      | ok x =>
        cases hy : rd c j with
        | ok y =>
          simp only [Res.ok_bind]
          by_cases hl : leq x.1 y.1 = true
          · rw [if_pos hl, if_pos hl, wr_map]
            by_cases hk : k < d.length
            · simp only [wr_ok hk, Res.ok_bind, wr_map]; exact ih _ _ _ _
            · simp [wr, hk]
          · rw [if_neg hl, if_neg hl, wr_map]
            by_cases hk : k < d.length
            · simp only [wr_ok hk, Res.ok_bind, wr_map]; exact ih _ _ _ _
            · simp [wr, hk]
        | _ => rfl
      | _ => rfl
    · rw [if_neg hc, if_neg hc]; rfl

theorem forN_sim {S R : Type} {b1 : Nat → S → Res S} {b2 : Nat → R → Res R} (g : S → R)
    (h : ∀ i s, b2 i (g s) = (b1 i s >>= fun s => .ok (g s))) (n i : Nat) (s : S) :
    forN b2 n i (g s) = (forN b1 n i s >>= fun s => .ok (g s)) := by
  induction n generalizing i s with
  | zero => rfl
  | succ n ih =>
    rw [forN, forN, h]
    cases b1 i s with
    | ok s' => simp only [Res.ok_bind]; exact ih _ _
    | _ => rfl

theorem leftover2_eq (c : List (T × U)) (i mid k : Nat) :
    leftover2 (fsts c) (snds c) i mid k =
      (leftover c i mid k >>= fun r => .ok (fsts r, snds r)) := by
  unfold leftover2 leftover forUp
  refine forN_sim (fun c => (fsts c, snds c)) (fun t s => ?_) _ _ _
  simp only [rd_map]
  cases rd s t with
  | ok x =>
    simp only [Res.ok_bind, wr_map]
    cases wr s (k + (t - i)) x <;> rfl
  | _ => rfl

theorem copyBack2_eq (c d : List (T × U)) (s j : Nat) :
    copyBack2 (fsts c) (fsts d) (snds c) (snds d) s j =
      (copyBack c d s j >>= fun r => .ok (fsts r, snds r)) := by
  unfold copyBack2 copyBack forUp
  refine forN_sim (fun c => (fsts c, snds c)) (fun t s => ?_) _ _ _
  simp only [rd_map]
  cases rd d t with
  | ok x =>
    simp only [Res.ok_bind, wr_map]
    cases wr s t x <;> rfl
  | _ => rfl

theorem sub2_eq (leq : T → T → Bool) (n : Nat) : ∀ (c : List (T × U)) (s e : Nat) (d : List (T × U)),
    e - s ≤ n →
    sub2 leq (fsts c) (snds c) s e (fsts d) (snds d) =
      (sub (leqP U leq) c s e d >>= fun r => .ok ((fsts r.1, snds r.1), (fsts r.2, snds r.2))) := by
  induction n with
  | zero => intro c s e d h; rw [sub2, sub, if_pos (by omega), if_pos (by omega)]; rfl
  | succ n ih =>
    intro c s e d h
    rw [sub2, sub]
    by_cases h1 : e - s ≤ 1
    · rw [if_pos h1, if_pos h1]; rfl
    · rw [if_neg h1, if_neg h1]
      by_cases h2 : e - s = 2
      · rw [if_pos h2, if_pos h2]
        simp only [rd_map]
        cases hx : rd c s with
        | ok x =>
          cases hy : rd c (s + 1) with
          | ok y =>
            simp only [Res.ok_bind]
            by_cases hl : (!leq x.1 y.1) = true
            · rw [if_pos hl, if_pos hl]
              have hcs : s + 1 < c.length := by
                have := rd_eq_ok.1 hy; exact (List.getElem?_eq_some_iff.1 this).1
              by_cases hd : s < d.length
              · simp only [wr_map, wr_ok hd, Res.ok_bind, rd_map]
                have r1 : rd (d.set s x) s = .ok x := rd_eq_ok.2 (List.getElem?_set_self hd)
                have w1 : wr c s y = .ok (c.set s y) := wr_ok (by omega)
                have w2 : wr (c.set s y) (s + 1) x = .ok ((c.set s y).set (s + 1) x) :=
                  wr_ok (by simpa using hcs)
                simp only [r1, w1, w2, Res.ok_bind, wr_map]
              · have hd1 : ¬ s < (fsts d).length := by simpa using hd
                simp [wr, hd]
            · rw [if_neg hl, if_neg hl]; rfl
          | _ => rfl
        | _ => rfl
      · rw [if_neg h2, if_neg h2]
        simp only
        rw [ih c s ((s + e) / 2) d (by omega)]
        cases hA : sub (leqP U leq) c s ((s + e) / 2) d with
        | ok r =>
          simp only [Res.ok_bind]
          rw [ih r.1 ((s + e) / 2) e r.2 (by omega)]
          cases hB : sub (leqP U leq) r.1 ((s + e) / 2) e r.2 with
          | ok q =>
            simp only [Res.ok_bind]
            rw [mergeLoop2_eq]
            cases hC : mergeLoop (leqP U leq) q.1 ((s + e) / 2) e (e - s + 1) q.2 s ((s + e) / 2) s with
            | ok m =>
              simp only [Res.ok_bind]
              rw [leftover2_eq]
              cases hD : leftover q.1 m.2.1 ((s + e) / 2) m.2.2.2 with
              | ok l =>
                simp only [Res.ok_bind]
                rw [copyBack2_eq]
                cases hE : copyBack l m.1 s m.2.2.2 <;> rfl
              | _ => rfl
            | _ => rfl
          | _ => rfl
        | _ => rfl

theorem sort2_eq (leq : T → T → Bool) (dt : T) (du : U) (c : List (T × U)) :
    sort2 leq dt du (fsts c) (snds c) = .ok (fsts (msort (leqP U leq) c), snds (msort (leqP U leq) c)) := by
  have hs := sub2_eq leq c.length c 0 c.length (List.replicate c.length (dt, du)) (by omega)
  obtain ⟨buf, e, _⟩ := sub_spec (leqP U leq) c.length c 0 c.length
    (List.replicate c.length (dt, du)) (by omega) (by omega) (Nat.le_refl _) (by simp)
  rw [e] at hs
  simp only [Res.ok_bind, fsts, snds, List.map_replicate] at hs
  simp only [sort2, fsts, snds, List.length_map, if_true, hs, Res.ok_bind]
  simp [seg_all]

/-! ## Sortedness and stability of `msort` -/

/-- Position order for tagged elements: in order, and ties by tag. -/
def Ord (leq : T → T → Bool) (x y : T × Nat) : Prop :=
  leq x.1 y.1 = true ∧ (leq y.1 x.1 = true → x.2 < y.2)

theorem Ord.trans {leq : T → T → Bool}
    (ht : ∀ x y z, leq x y = true → leq y z = true → leq x z = true) {x y z : T × Nat}
    (h1 : Ord leq x y) (h2 : Ord leq y z) : Ord leq x z := by
  refine ⟨ht _ _ _ h1.1 h2.1, fun h => ?_⟩
  have a1 := h1.2 (ht _ _ _ h2.1 h)
  have a2 := h2.2 (ht _ _ _ h h1.1)
  omega

theorem merge_ord {leq : T → T → Bool}
    (ht : ∀ x y z, leq x y = true → leq y z = true → leq x z = true)
    (htot : ∀ x y, leq x y = true ∨ leq y x = true) (l r : List (T × Nat))
    (hl : l.Pairwise (Ord leq)) (hr : r.Pairwise (Ord leq))
    (hlr : ∀ x ∈ l, ∀ y ∈ r, x.2 < y.2) :
    (List.merge l r (leqP Nat leq)).Pairwise (Ord leq) := by
  fun_induction List.merge l r (leqP Nat leq) with
  | case1 r => exact hr
  | case2 l h => exact hl
  | case3 x xs y ys h ih =>
    have h : leq x.1 y.1 = true := h
    rw [List.pairwise_cons]
    refine ⟨fun z hz => ?_, ih (List.pairwise_cons.1 hl).2 hr (fun a ha b hb => hlr a (by simp [ha]) b hb)⟩
    rcases List.mem_merge.1 hz with hz | hz
    · exact (List.pairwise_cons.1 hl).1 z hz
    · have hxy : Ord leq x y := ⟨h, fun _ => hlr x (by simp) y (by simp)⟩
      rcases List.mem_cons.1 hz with rfl | hz
      · exact hxy
      · exact hxy.trans ht ((List.pairwise_cons.1 hr).1 z hz)
  | case4 x xs y ys h ih =>
    have h : ¬ leq x.1 y.1 = true := h
    rw [List.pairwise_cons]
    refine ⟨fun z hz => ?_, ih hl (List.pairwise_cons.1 hr).2 (fun a ha b hb => hlr a ha b (by simp [hb]))⟩
    have hyx : Ord leq y x := ⟨(htot y.1 x.1).resolve_right h, fun h' => absurd h' h⟩
    rcases List.mem_merge.1 hz with hz | hz
    · rcases List.mem_cons.1 hz with rfl | hz
      · exact hyx
      · exact hyx.trans ht ((List.pairwise_cons.1 hl).1 z hz)
    · exact (List.pairwise_cons.1 hr).1 z hz

theorem msort_ord {leq : T → T → Bool}
    (ht : ∀ x y z, leq x y = true → leq y z = true → leq x z = true)
    (htot : ∀ x y, leq x y = true ∨ leq y x = true) (l : List (T × Nat))
    (hl : l.Pairwise (fun x y => x.2 < y.2)) :
    (msort (leqP Nat leq) l).Pairwise (Ord leq) := by
  fun_induction msort (leqP Nat leq) l with
  | case1 l h =>
    match l, h with
    | [], _ => exact .nil
    | [x], _ => simp
  | case2 l h ih1 ih2 =>
    have hsplit := hl
    rw [← List.take_append_drop (l.length / 2) l, List.pairwise_append] at hsplit
    refine merge_ord ht htot _ _ (ih1 hsplit.1) (ih2 hsplit.2.1) ?_
    intro x hx y hy
    exact hsplit.2.2 x ((msort_perm _ _).mem_iff.1 hx) y ((msort_perm _ _).mem_iff.1 hy)

end Lolly.MergeSort
