import Verif.Algorithms.SortSteps
import Verif.Algorithms.MergeSortLemmas

set_option autoImplicit false

/-!
# Property C150: sorting with any comparison
-/

namespace Lolly.SortStepsProps

open SortSteps
open MergeSort (seg seg_self seg_nil_of_le seg_cons seg_length seg_append seg_all seg_splice leftover_spec copyBack_spec
  fsts snds)

variable {T U σ : Type}

/-! ## Claims about outcomes -/

/-- One claim about results and another about the state when an exception is thrown; nothing else happens. -/
def All {S α : Type} (P : S → α → Prop) (X : S → Prop) : Out S α → Prop
  | .ret s x => P s x
  | .thrown s => X s
  | .ub => False
  | .hang => False

theorem All.bind {S α β : Type} {P : S → α → Prop} {Q : S → β → Prop} {X : S → Prop} {o : Out S α} {f : S → α → Out S β}
    (h : All P X o) (g : ∀ s x, P s x → All Q X (f s x)) : All Q X (o.bind f) := by
  cases o with
  | ret s x => exact g s x h
  | thrown s => exact h
  | ub => exact h
  | hang => exact h

theorem All.mono {S α : Type} {P Q : S → α → Prop} {X Y : S → Prop} {o : Out S α} (h : All P X o)
    (hp : ∀ s x, P s x → Q s x) (hx : ∀ s, X s → Y s) : All Q Y o := by
  cases o with
  | ret s x => exact hp s x h
  | thrown s => exact hx s h
  | ub => exact h
  | hang => exact h

/-! ## Rearranging a part of an array -/

/-- `a'` is `a` with the elements from `s` to `e` in some other order. -/
def Within (s e : Nat) (a a' : List T) : Prop :=
  a'.length = a.length ∧ (seg a' s e).Perm (seg a s e) ∧ a'.take s = a.take s ∧ a'.drop e = a.drop e

theorem Within.refl (s e : Nat) (a : List T) : Within s e a a := ⟨rfl, .refl _, rfl, rfl⟩

theorem Within.trans {s e : Nat} {a b c : List T} (h : Within s e a b) (h' : Within s e b c) : Within s e a c :=
  ⟨h'.1.trans h.1, h'.2.1.trans h.2.1, h'.2.2.1.trans h.2.2.1, h'.2.2.2.trans h.2.2.2⟩

theorem take_le {a a' : List T} {s t : Nat} (hs : t ≤ s) (h : a'.take s = a.take s) : a'.take t = a.take t := by
  have := congrArg (List.take t) h
  simpa only [List.take_take, Nat.min_eq_left hs] using this

theorem drop_le {a a' : List T} {s t : Nat} (hs : s ≤ t) (h : a'.drop s = a.drop s) : a'.drop t = a.drop t := by
  have := congrArg (List.drop (t - s)) h
  rw [List.drop_drop, List.drop_drop] at this
  rwa [show s + (t - s) = t by omega] at this

theorem seg_of_take {a a' : List T} {s e : Nat} (h : a'.take e = a.take e) : seg a' s e = seg a s e := by
  unfold seg; rw [h]

theorem seg_of_drop {a a' : List T} {s e : Nat} (h : a'.drop s = a.drop s) : seg a' s e = seg a s e := by
  unfold seg
  rw [List.drop_take, List.drop_take, h]

theorem Within.left {s m e : Nat} {a a' : List T} (h1 : s ≤ m) (h2 : m ≤ e) (he : e ≤ a.length) (h : Within s m a a') :
    Within s e a a' := by
  obtain ⟨l, p, t, d⟩ := h
  refine ⟨l, ?_, t, drop_le h2 d⟩
  rw [← seg_append a' h1 h2 (by omega), ← seg_append a h1 h2 he, seg_of_drop (e := e) d]
  exact p.append_right _

theorem Within.right {s m e : Nat} {a a' : List T} (h1 : s ≤ m) (h2 : m ≤ e) (he : e ≤ a.length) (h : Within m e a a') :
    Within s e a a' := by
  obtain ⟨l, p, t, d⟩ := h
  refine ⟨l, ?_, take_le h1 t, d⟩
  rw [← seg_append a' h1 h2 (by omega), ← seg_append a h1 h2 he, seg_of_take (s := s) t]
  exact p.append_left _

/-! ## The steps -/

theorem cmp_spec (leq : Cmp σ T) {i j : Nat} (st : St σ T) (hi : i < st.a.length) (hj : j < st.a.length) :
    All (fun st' _ => st'.a = st.a ∧ st'.buf = st.buf ∧ st'.cmps = st.cmps + 1)
      (fun st' => st'.a = st.a ∧ st'.buf = st.buf ∧ st'.cmps = st.cmps + 1) (cmp leq i j st) := by
  unfold cmp
  rw [List.getElem?_eq_getElem hi, List.getElem?_eq_getElem hj]
  dsimp only
  split <;> exact ⟨rfl, rfl, rfl⟩

theorem mergeLoop_spec (leq : Cmp σ T) {mid e : Nat} : ∀ (f i j k : Nat) (st : St σ T), mid ≤ st.a.length → e ≤ st.a.length →
    i ≤ mid → j ≤ e → k + (mid - i) + (e - j) ≤ st.buf.length → (mid - i) + (e - j) < f → i < mid ∨ j < e →
    All (fun st' r => st'.a = st.a ∧ st'.cmps + 1 ≤ st.cmps + (mid - i) + (e - j) ∧
        ∃ w, st'.buf = st.buf.take k ++ w ++ st.buf.drop (k + w.length) ∧ i ≤ r.1 ∧ r.1 ≤ mid ∧ j ≤ r.2.1 ∧ r.2.1 ≤ e ∧
          w.Perm (seg st.a i r.1 ++ seg st.a j r.2.1) ∧ r.2.2 = k + w.length ∧ (r.1 = mid ∨ r.2.1 = e))
      (fun st' => st'.a = st.a ∧ st'.cmps + 1 ≤ st.cmps + (mid - i) + (e - j)) (mergeLoop leq mid e f i j k st)
  | 0, i, j, k, st, _, _, _, _, _, hf, _ => by omega
  | f + 1, i, j, k, st, hm, he, hi, hj, hk, hf, hne => by
    rw [mergeLoop]
    by_cases hc : i < mid ∧ j < e
    · rw [if_pos hc]
      have hkl : k < st.buf.length := by omega
      have key : ∀ (buf : List T) (z : T) (w : List T), k < buf.length →
          (buf.set k z).take (k + 1) ++ w ++ (buf.set k z).drop (k + 1 + w.length) =
          buf.take k ++ (z :: w) ++ buf.drop (k + (z :: w).length) := by
        intro buf z w hkl
        have e1 : (buf.set k z).take (k + 1) = buf.take k ++ [z] := by
          rw [List.take_add_one, List.take_set_of_le (Nat.le_refl k), List.getElem?_set_self hkl]; rfl
        have e2 : (buf.set k z).drop (k + 1 + w.length) = buf.drop (k + (z :: w).length) := by
          rw [List.drop_set_of_lt (by omega)]; simp; congr 1; omega
        rw [e1, e2]; simp
      refine ((cmp_spec leq st (i := i) (j := j) (by omega) (by omega)).mono (fun _ _ h => h) ?_).bind ?_
      · rintro st' ⟨ha, hb, hcm⟩
        exact ⟨ha, by omega⟩
      · rintro ⟨a, buf, env, cm⟩ b ⟨ha, hb, hcm⟩
        dsimp only at ha hb hcm
        subst ha hb
        cases b with
        | true =>
          rw [if_pos rfl]
          dsimp only
          rw [rd_ok (by omega : i < st.a.length), Res.ok_bind, wr_ok hkl]
          show All _ _ (mergeLoop leq mid e f (i + 1) j (k + 1) _)
          refine (mergeLoop_spec leq f (i + 1) j (k + 1) ⟨st.a, st.buf.set k st.a[i], env, cm⟩ hm he (by omega) hj ?_ (by omega) (by omega)).mono ?_ ?_
          · simp only [List.length_set]; omega
          · rintro st' ⟨i', j', k'⟩ ⟨h1, h2, w, h3, h4, h5, h6, h7, h8, h9, h10⟩
            dsimp only at h1 h2 h3 h4 h5 h6 h7 h8 h9 h10 ⊢
            refine ⟨h1, by omega, st.a[i] :: w, ?_, by omega, h5, h6, h7, ?_, by simp; omega, h10⟩
            · rw [h3]; exact key _ _ _ hkl
            · rw [seg_cons st.a (by omega) (by omega)]
              exact h8.cons _
          · rintro st' ⟨h1, h2⟩
            dsimp only at h1 h2
            exact ⟨h1, by omega⟩
        | false =>
          rw [if_neg (by simp)]
          dsimp only
          rw [rd_ok (by omega : j < st.a.length), Res.ok_bind, wr_ok hkl]
          show All _ _ (mergeLoop leq mid e f i (j + 1) (k + 1) _)
          refine (mergeLoop_spec leq f i (j + 1) (k + 1) ⟨st.a, st.buf.set k st.a[j], env, cm⟩ hm he hi (by omega) ?_ (by omega) (by omega)).mono ?_ ?_
          · simp only [List.length_set]; omega
          · rintro st' ⟨i', j', k'⟩ ⟨h1, h2, w, h3, h4, h5, h6, h7, h8, h9, h10⟩
            dsimp only at h1 h2 h3 h4 h5 h6 h7 h8 h9 h10 ⊢
            refine ⟨h1, by omega, st.a[j] :: w, ?_, h4, h5, by omega, h7, ?_, by simp; omega, h10⟩
            · rw [h3]; exact key _ _ _ hkl
            · rw [seg_cons st.a (i := j) (e := j') (by omega) (by omega)]
              exact (h8.cons _).trans List.perm_middle.symm
          · rintro st' ⟨h1, h2⟩
            dsimp only at h1 h2
            exact ⟨h1, by omega⟩
    · rw [if_neg hc]
      refine ⟨rfl, by omega, [], by simp, Nat.le_refl _, hi, Nat.le_refl _, hj, ?_, by simp, by show i = mid ∨ j = e; omega⟩
      rw [seg_self, seg_self]
      simp

/-- What is left over and what is copied back. -/
theorem finish_spec {a buf w : List T} {s mid e i j : Nat} (hsm : s ≤ mid) (hme : mid ≤ e) (hh : mid - s ≤ e - mid) (he : e ≤ a.length)
    (hb : buf.length = a.length) (h4 : s ≤ i) (h5 : i ≤ mid) (h6 : mid ≤ j) (h7 : j ≤ e)
    (h8 : w.Perm (seg a s i ++ seg a mid j)) (h10 : i = mid ∨ j = e) :
    ∃ a1 a2, MergeSort.leftover a i mid (s + w.length) = .ok a1 ∧
      MergeSort.copyBack a1 (buf.take s ++ w ++ buf.drop (s + w.length)) s (s + w.length) = .ok a2 ∧ Within s e a a2 := by
  have hw : w.length = (i - s) + (j - mid) := by
    rw [h8.length_eq, List.length_append, seg_length a (by omega), seg_length a (by omega)]
  have l3 : (buf.take s ++ w ++ buf.drop (s + w.length)).length = a.length := by simp; omega
  have segb : seg (buf.take s ++ w ++ buf.drop (s + w.length)) s (s + w.length) = w :=
    seg_splice (by omega) (by omega) (by omega)
  generalize buf.take s ++ w ++ buf.drop (s + w.length) = buf' at l3 segb
  have hmain : ∃ a1, MergeSort.leftover a i mid (s + w.length) = .ok a1 ∧ a1.length = a.length ∧
      a1.take s = a.take s ∧ a1.drop (s + w.length) = seg a i mid ++ seg a j e ++ a.drop e := by
    rcases h10 with h | h
    · subst h
      refine ⟨a, ?_, rfl, rfl, ?_⟩
      · rw [MergeSort.leftover, forUp, Nat.sub_self]; rfl
      · rw [show s + w.length = j by omega, seg_self, List.nil_append]
        have := seg_append a (i := j) (m := e) (e := a.length) h7 he (Nat.le_refl _)
        rw [show seg a e a.length = a.drop e by simp [seg], show seg a j a.length = a.drop j by simp [seg]] at this
        exact this.symm
    · subst h
      have hkl : s + w.length + (mid - i) = j := by omega
      have := leftover_spec a (i := i) (mid := mid) (k := s + w.length) h5 (by omega) (by omega)
      rw [hkl] at this
      have hsl2 := seg_length a (i := i) (e := mid) (by omega)
      refine ⟨_, this, by simp [hsl2]; omega, ?_, ?_⟩
      · rw [List.append_assoc, List.take_append_of_le_length (by simp; omega), List.take_take,
          Nat.min_eq_left (by omega)]
      · rw [seg_self, List.append_nil, List.append_assoc, List.drop_append, List.drop_of_length_le (by simp; omega)]
        simp [Nat.min_eq_left (by omega : s + w.length ≤ a.length)]
  obtain ⟨a1, l1, l2, l4, l5⟩ := hmain
  have hcb := copyBack_spec a1 buf' (s := s) (j := s + w.length) (by omega) (by omega) (by omega)
  refine ⟨a1, _, l1, hcb, ?_⟩
  rw [segb, l4, l5]
  have hl1 := seg_length a (i := i) (e := mid) (by omega)
  have hl2 := seg_length a (i := j) (e := e) he
  have e1 : a.take s ++ w ++ (seg a i mid ++ seg a j e ++ a.drop e) = a.take s ++ (w ++ seg a i mid ++ seg a j e) ++ a.drop e := by
    simp
  rw [e1]
  have hm : (w ++ seg a i mid ++ seg a j e).length = e - s := by simp [hl1, hl2]; omega
  refine ⟨by simp [hl1, hl2]; omega, ?_, ?_, ?_⟩
  · rw [seg_splice (by omega) hm (by omega)]
    rw [← seg_append a (i := s) (m := mid) (by omega) hme he, ← seg_append a (i := s) (m := i) h4 h5 (by omega),
      ← seg_append a (i := mid) (m := j) h6 h7 he]
    have p1 : (w ++ seg a i mid).Perm (seg a s i ++ seg a i mid ++ seg a mid j) := by
      refine (h8.append_right _).trans ?_
      rw [List.append_assoc, List.append_assoc]
      exact (List.perm_append_comm).append_left _
    have := p1.append_right (seg a j e)
    simpa only [List.append_assoc] using this
  · rw [List.append_assoc, List.take_append_of_le_length (by simp; omega), List.take_take, Nat.min_self]
  · have hl : (a.take s ++ (w ++ seg a i mid ++ seg a j e)).length = e := by
      rw [List.length_append, hm]; simp; omega
    rw [List.drop_append, List.drop_of_length_le (by omega), hl]
    simp

/-- The comparisons for `n` elements, when there were `c` before. -/
def Few (n c c' : Nat) : Prop := ∀ k, n ≤ 2 ^ k → 2 ^ k ≤ 2 * n → c' + 2 ^ k ≤ c + n * k + 1

theorem halves {n k : Nat} (h3 : 3 ≤ n) (h1 : n ≤ 2 ^ k) (h2 : 2 ^ k ≤ 2 * n) :
    ∃ m, k = m + 1 ∧ 2 ^ k = 2 * 2 ^ m ∧ (n / 2 ≤ 2 ^ m ∧ 2 ^ m ≤ 2 * (n / 2)) ∧ (n - n / 2 ≤ 2 ^ m ∧ 2 ^ m ≤ 2 * (n - n / 2)) := by
  cases k with
  | zero => simp at h1; omega
  | succ k =>
    rw [Nat.pow_succ] at h1 h2
    cases k with
    | zero => simp at h1; omega
    | succ k =>
      rw [Nat.pow_succ] at h1 h2
      exact ⟨k + 1, rfl, by rw [Nat.pow_succ 2 (k + 1)]; omega, by rw [Nat.pow_succ]; omega, by rw [Nat.pow_succ]; omega⟩

theorem few_one {n c c' : Nat} (h3 : 3 ≤ n) (h : Few (n / 2) c c') : Few n c c' := by
  intro k h1 h2
  obtain ⟨m, rfl, e, a, b⟩ := halves h3 h1 h2
  have := h m a.1 a.2
  have l := Nat.mul_le_mul_right m (by omega : n / 2 ≤ n)
  rw [e, Nat.mul_add, Nat.mul_one] at *
  omega

theorem few_two {n c c' d : Nat} (h3 : 3 ≤ n) (h : Few (n / 2) c c') (h' : Few (n - n / 2) c' d) {r : Nat}
    (hr : r + 1 ≤ n) : Few n c (d + r) := by
  intro k h1 h2
  obtain ⟨m, rfl, e, a, b⟩ := halves h3 h1 h2
  have q1 := h m a.1 a.2
  have q2 := h' m b.1 b.2
  have l : n / 2 * m + (n - n / 2) * m = n * m := by
    rw [← Nat.add_mul]; congr 1; omega
  rw [e, Nat.mul_add, Nat.mul_one] at *
  omega

theorem few_le {n c d d' : Nat} (h : Few n c d) (l : d' ≤ d) : Few n c d' := by
  intro k h1 h2
  have := h k h1 h2
  omega

theorem few_zero {n c : Nat} (h : n ≤ 1) : Few n c c := by
  intro k h1 h2
  rcases (by omega : n = 0 ∨ n = 1) with rfl | rfl
  · have := Nat.two_pow_pos k; omega
  · cases k with
    | zero => omega
    | succ k => cases k with
      | zero => omega
      | succ k =>
        have := Nat.two_pow_pos k
        rw [Nat.pow_succ, Nat.pow_succ] at h2
        omega

theorem few_pair {c : Nat} : Few 2 c (c + 1) := by
  intro k h1 h2
  cases k with
  | zero => omega
  | succ k => cases k with
    | zero => omega
    | succ k => cases k with
      | zero => omega
      | succ k =>
        have := Nat.two_pow_pos k
        rw [Nat.pow_succ, Nat.pow_succ, Nat.pow_succ] at h2
        omega

theorem sub_spec (leq : Cmp σ T) (n : Nat) : ∀ (s e : Nat) (st : St σ T), e - s ≤ n → s ≤ e → e ≤ st.a.length →
    st.buf.length = st.a.length →
    All (fun st' _ => Within s e st.a st'.a ∧ st'.buf.length = st.a.length ∧ Few (e - s) st.cmps st'.cmps)
      (fun st' => Within s e st.a st'.a ∧ Few (e - s) st.cmps st'.cmps) (sub leq s e st) := by
  induction n with
  | zero =>
    intro s e st hn hse he hb
    rw [sub, if_pos (by omega)]
    exact ⟨.refl _ _ _, hb, few_zero (by omega)⟩
  | succ n ih =>
    intro s e st hn hse he hb
    rw [sub]
    by_cases h1 : e - s ≤ 1
    · rw [if_pos h1]
      exact ⟨.refl _ _ _, hb, few_zero h1⟩
    · rw [if_neg h1]
      by_cases h2 : e - s = 2
      · rw [if_pos h2, h2]
        obtain rfl : e = s + 2 := by omega
        refine ((cmp_spec leq st (i := s) (j := s + 1) (by omega) (by omega)).mono (fun _ _ h => h) ?_).bind ?_
        · rintro st' ⟨ha, hb, hcm⟩
          rw [ha, hcm]
          exact ⟨.refl _ _ _, few_pair⟩
        · rintro ⟨a, buf, env, cm⟩ b ⟨ha, hb', hcm⟩
          dsimp only at ha hb' hcm
          subst ha hb' hcm
          cases b with
          | true => exact ⟨.refl _ _ _, hb, few_pair⟩
          | false =>
            have hbl : s < st.buf.length := by omega
            simp only [Bool.not_false, if_true]
            rw [rd_ok (by omega : s < st.a.length), Res.ok_bind, wr_ok hbl]
            simp only [onBuf, Out.bind]
            rw [rd_ok (by omega : s + 1 < st.a.length), Res.ok_bind, wr_ok (by omega : s < st.a.length)]
            simp only [onA]
            rw [rd_eq_ok.2 (List.getElem?_set_self hbl), Res.ok_bind, wr_ok (by simp; omega)]
            refine ⟨⟨by simp, ?_, ?_, ?_⟩, by simpa using hb, few_pair⟩
            · have l : s + 2 ≤ ((st.a.set s st.a[s + 1]).set (s + 1) st.a[s]).length := by simpa using he
              rw [seg_cons _ (by omega) l, seg_cons _ (by omega) l, seg_self, seg_cons st.a (by omega) he,
                seg_cons st.a (by omega) he, seg_self]
              simp only [List.getElem_set_self, List.getElem_set]
              rw [if_neg (by omega)]
              exact .swap _ _ _
            · rw [List.take_set_of_le (by omega), List.take_set_of_le (by omega)]
            · rw [List.drop_set_of_lt (by omega), List.drop_set_of_lt (by omega)]
      · rw [if_neg h2]
        have hmid : (s + e) / 2 = s + (e - s) / 2 := by omega
        generalize (s + e) / 2 = mid at hmid
        have hsm : s ≤ mid := by omega
        have hme : mid ≤ e := by omega
        have q1 : mid - s = (e - s) / 2 := by omega
        have q2 : e - mid = (e - s) - (e - s) / 2 := by omega
        have h3 : 3 ≤ e - s := by omega
        refine ((ih s mid st (by omega) hsm (by omega) hb).mono (fun _ _ h => h) ?_).bind ?_
        · rintro st1 ⟨w1, f1⟩
          rw [q1] at f1
          exact ⟨w1.left hsm hme he, few_one h3 f1⟩
        rintro st1 - ⟨w1, b1, f1⟩
        have l1 := w1.1
        refine ((ih mid e st1 (by omega) hme (by omega) (by omega)).mono (fun _ _ h => h) ?_).bind ?_
        · rintro st2 ⟨w2, f2⟩
          rw [q1] at f1
          rw [q2] at f2
          exact ⟨(w1.left hsm hme he).trans (w2.right hsm hme (by omega)), few_two h3 f1 f2 (r := 0) (by omega)⟩
        rintro st2 - ⟨w2, b2, f2⟩
        have l2 := w2.1
        have w12 := (w1.left hsm hme he).trans (w2.right hsm hme (by omega))
        rw [q1] at f1
        rw [q2] at f2
        have f3 := few_two h3 f1 f2 (r := e - s - 1) (by omega)
        refine ((mergeLoop_spec leq (e - s + 1) s mid s st2 (by omega) (by omega) hsm hme (by omega) (by omega)
          (by omega)).mono (fun _ _ h => h) ?_).bind ?_
        · rintro st3 ⟨a3, c3⟩
          rw [a3]
          exact ⟨w12, few_le f3 (by omega)⟩
        rintro ⟨a3, buf3, env3, c3⟩ ⟨i', j', k'⟩ ⟨ha3, hc3, w, hb3, h4, h5, h6, h7, h8, h9, h10⟩
        dsimp only at ha3 hc3 hb3 h4 h5 h6 h7 h8 h9 h10 ⊢
        subst ha3 hb3 h9
        obtain ⟨a4, a5, e4, e5, w5⟩ := finish_spec hsm hme (by omega) (by omega) (b2.trans (by omega)) h4 h5 h6 h7 h8 h10
        rw [e4]
        simp only [onA, Out.bind]
        rw [e5]
        refine ⟨w12.trans w5, ?_, few_le f3 (by dsimp only; omega)⟩
        have hw : w.length = (i' - s) + (j' - mid) := by
          rw [h8.length_eq, List.length_append, seg_length _ (by omega), seg_length _ (by omega)]
        simp
        omega

/-- C150: whatever the comparison answers, sorting an array ends with the same elements in some order, also if the comparison
throws an exception; and for `n` elements it is called at most `n ⌈log₂ n⌉ - 2 ^ ⌈log₂ n⌉ + 1` times. -/
theorem C150_sort (leq : Cmp σ T) (dv : T) (a : List T) (env : σ) :
    ∃ st, (sort leq dv a env = .ret st () ∨ sort leq dv a env = .thrown st) ∧ st.a.Perm a ∧
      ∀ k, a.length ≤ 2 ^ k → 2 ^ k < 2 * a.length → st.cmps + 2 ^ k ≤ a.length * k + 1 := by
  have h := sub_spec leq a.length 0 a.length ⟨a, List.replicate a.length dv, env, 0⟩ (by omega) (by omega) (Nat.le_refl _) (by simp)
  unfold sort
  have fin : ∀ st : St σ T, Within 0 a.length a st.a ∧ Few (a.length - 0) 0 st.cmps → st.a.Perm a ∧
      ∀ k, a.length ≤ 2 ^ k → 2 ^ k < 2 * a.length → st.cmps + 2 ^ k ≤ a.length * k + 1 := by
    rintro st ⟨w, f⟩
    refine ⟨?_, fun k h1 h2 => ?_⟩
    · have := w.2.1
      rw [seg_all] at this
      rw [← w.1, seg_all] at this
      exact this
    · have := f k (by simpa using h1) (by simp; omega)
      simpa using this
  cases hs : sub leq 0 a.length ⟨a, List.replicate a.length dv, env, 0⟩ with
  | ret st u =>
    rw [hs] at h
    exact ⟨st, .inl rfl, fin st ⟨h.1, h.2.2⟩⟩
  | thrown st =>
    rw [hs] at h
    exact ⟨st, .inr rfl, fin st h⟩
  | ub => rw [hs] at h; exact h.elim
  | hang => rw [hs] at h; exact h.elim

/-! ## Exceptions of the comparison -/

/-- The comparison `leq` that also writes down its answers; `none` stands for an exception. -/
def noted (leq : Cmp σ T) : Cmp (σ × List (Option Bool)) T := fun x y s =>
  ((leq x y s.1).1, ((leq x y s.1).2, s.2 ++ [(leq x y s.1).1]))

/-- Claims about the state of the comparison and the number of its calls, for outcomes other than undefined behaviour. -/
def Keeps {α : Type} (P X : σ → Nat → Prop) : Out (St σ T) α → Prop
  | .ret s _ => P s.env s.cmps
  | .thrown s => X s.env s.cmps
  | .ub => True
  | .hang => True

theorem Keeps.bind {α β : Type} {P X : σ → Nat → Prop} {o : Out (St σ T) α} {f : St σ T → α → Out (St σ T) β}
    (h : Keeps P X o) (g : ∀ s x, P s.env s.cmps → Keeps P X (f s x)) : Keeps P X (o.bind f) := by
  cases o with
  | ret s x => exact g s x h
  | thrown s => exact h
  | ub => trivial
  | hang => trivial

theorem rdwr_ne (a b : List T) (i k : Nat) : (rd a i >>= fun x => wr b k x) ≠ .thrown := by
  unfold rd wr
  cases a[i]? with
  | none => intro h; cases h
  | some x =>
    show (if k < b.length then Res.ok (b.set k x) else .ub) ≠ _
    split <;> intro h <;> cases h

theorem forN_ne {S : Type} {body : Nat → S → Res S} (hb : ∀ i s, body i s ≠ .thrown) : ∀ (n i : Nat) (s : S),
    forN body n i s ≠ .thrown
  | 0, _, _ => by intro h; cases h
  | n + 1, i, s => by
    rw [forN]
    have := hb i s
    cases h : body i s with
    | ok s' => exact forN_ne hb n (i + 1) s'
    | thrown => exact absurd h this
    | ub => intro h; cases h
    | hang => intro h; cases h

theorem onBuf_keeps {P X : σ → Nat → Prop} {st : St σ T} {r : Res (List T)} (h : P st.env st.cmps) (hr : r ≠ .thrown) :
    Keeps P X (onBuf st r) := by
  cases r with
  | ok b => exact h
  | thrown => exact absurd rfl hr
  | ub => trivial
  | hang => trivial

theorem onA_keeps {P X : σ → Nat → Prop} {st : St σ T} {r : Res (List T)} (h : P st.env st.cmps) (hr : r ≠ .thrown) :
    Keeps P X (onA st r) := by
  cases r with
  | ok b => exact h
  | thrown => exact absurd rfl hr
  | ub => trivial
  | hang => trivial

/-- What one call of the comparison does to the claims. -/
def Respects (leq : Cmp σ T) (P X : σ → Nat → Prop) : Prop :=
  ∀ x y env n, P env n → ((leq x y env).1 ≠ none → P (leq x y env).2 (n + 1)) ∧ ((leq x y env).1 = none → X (leq x y env).2 (n + 1))

theorem cmp_keeps {leq : Cmp σ T} {P X : σ → Nat → Prop} (hr : Respects leq P X) {i j : Nat} {st : St σ T}
    (h : P st.env st.cmps) : Keeps P X (cmp leq i j st) := by
  unfold cmp
  cases st.a[i]? with
  | none => trivial
  | some x =>
    cases st.a[j]? with
    | none => trivial
    | some y =>
      have := hr x y st.env st.cmps h
      dsimp only
      cases hl : leq x y st.env with
      | mk b env =>
        rw [hl] at this
        cases b with
        | none => exact this.2 rfl
        | some b => exact this.1 (by intro h; cases h)

theorem mergeLoop_keeps {leq : Cmp σ T} {P X : σ → Nat → Prop} (hr : Respects leq P X) (mid e : Nat) :
    ∀ (f i j k : Nat) (st : St σ T), P st.env st.cmps → Keeps P X (mergeLoop leq mid e f i j k st)
  | 0, _, _, _, _, _ => trivial
  | f + 1, i, j, k, st, h => by
    rw [mergeLoop]
    by_cases hc : i < mid ∧ j < e
    · rw [if_pos hc]
      refine (cmp_keeps hr h).bind (fun st b h => ?_)
      cases b with
      | true =>
        simp only [if_true]
        exact (onBuf_keeps h (rdwr_ne _ _ _ _)).bind (fun st _ h => mergeLoop_keeps hr mid e f _ _ _ st h)
      | false =>
        simp only [Bool.false_eq_true, if_false]
        exact (onBuf_keeps h (rdwr_ne _ _ _ _)).bind (fun st _ h => mergeLoop_keeps hr mid e f _ _ _ st h)
    · rw [if_neg hc]; exact h

theorem sub_keeps {leq : Cmp σ T} {P X : σ → Nat → Prop} (hr : Respects leq P X) (n : Nat) :
    ∀ (s e : Nat) (st : St σ T), e - s ≤ n → P st.env st.cmps → Keeps P X (sub leq s e st) := by
  induction n with
  | zero => intro s e st hn h; rw [sub, if_pos (by omega)]; exact h
  | succ n ih =>
    intro s e st hn h
    rw [sub]
    by_cases h1 : e - s ≤ 1
    · rw [if_pos h1]; exact h
    · rw [if_neg h1]
      by_cases h2 : e - s = 2
      · rw [if_pos h2]
        refine (cmp_keeps hr h).bind (fun st b h => ?_)
        cases b with
        | true => exact h
        | false =>
          simp only [Bool.not_false, if_true]
          exact (onBuf_keeps h (rdwr_ne _ _ _ _)).bind (fun st _ h => (onA_keeps h (rdwr_ne _ _ _ _)).bind
            (fun st _ h => onA_keeps h (rdwr_ne _ _ _ _)))
      · rw [if_neg h2]
        exact (ih _ _ _ (by omega) h).bind (fun st _ h => (ih _ _ _ (by omega) h).bind (fun st _ h =>
          (mergeLoop_keeps hr _ _ _ _ _ _ st h).bind (fun st r h =>
            (onA_keeps h (forN_ne (fun _ _ => rdwr_ne _ _ _ _) _ _ _)).bind (fun st _ h =>
              onA_keeps h (forN_ne (fun _ _ => rdwr_ne _ _ _ _) _ _ _)))))

/-- C150: merge_sort throws exactly if the comparison did, and then at once; and the calls that are counted are those that
the comparison sees. -/
theorem C150_exception (leq : Cmp σ T) (dv : T) (a : List T) (env : σ) :
    ∃ st, st.cmps = st.env.2.length ∧
      ((sort (noted leq) dv a (env, []) = .ret st () ∧ ∀ r ∈ st.env.2, r ≠ none) ∨
       (sort (noted leq) dv a (env, []) = .thrown st ∧ ∃ l, st.env.2 = l ++ [none] ∧ ∀ r ∈ l, r ≠ none)) := by
  obtain ⟨st, e, -⟩ := C150_sort (noted leq) dv a (env, [])
  have h := sub_keeps (leq := noted leq) (P := fun s n => n = s.2.length ∧ ∀ r ∈ s.2, r ≠ none)
    (X := fun s n => n = s.2.length ∧ ∃ l, s.2 = l ++ [none] ∧ ∀ r ∈ l, r ≠ none) (by
      rintro x y s n ⟨h1, h2⟩
      refine ⟨fun hs => ⟨by simp [noted, h1], ?_⟩, fun hs => ⟨by simp [noted, h1], s.2, ?_, h2⟩⟩
      · intro r hr
        simp only [noted, List.mem_append, List.mem_singleton] at hr
        rcases hr with hr | rfl
        · exact h2 r hr
        · exact hs
      · show s.2 ++ [(leq x y s.1).1] = _
        rw [show (leq x y s.1).1 = none from hs]) a.length 0 a.length ⟨a, List.replicate a.length dv, (env, []), 0⟩ (by omega)
    ⟨rfl, by simp⟩
  refine ⟨st, ?_⟩
  rcases e with e | e
  · rw [show sub _ _ _ _ = _ from e] at h
    exact ⟨h.1, .inl ⟨e, h.2⟩⟩
  · rw [show sub _ _ _ _ = _ from e] at h
    exact ⟨h.1, .inr ⟨e, h.2⟩⟩

/-! ## Comparisons without effects -/

/-- The array and the buffer of an outcome. -/
def erase {α : Type} : Out (St σ T) α → Res (List T × List T × α)
  | .ret st x => .ok (st.a, st.buf, x)
  | .thrown _ => .thrown
  | .ub => .ub
  | .hang => .hang

theorem erase_bind {α β : Type} {o : Out (St σ T) α} {f : St σ T → α → Out (St σ T) β}
    {g : List T × List T × α → Res (List T × List T × β)} (h : ∀ st x, erase (f st x) = g (st.a, st.buf, x)) :
    erase (o.bind f) = (erase o >>= g) := by
  cases o with
  | ret st x => exact h st x
  | thrown st => rfl
  | ub => rfl
  | hang => rfl

theorem erase_onBuf (st : St σ T) (r : Res (List T)) : erase (onBuf st r) = (r >>= fun b => .ok (st.a, b, ())) := by
  cases r <;> rfl

theorem erase_onA (st : St σ T) (r : Res (List T)) : erase (onA st r) = (r >>= fun a => .ok (a, st.buf, ())) := by
  cases r <;> rfl

/-- A comparison that only looks at the elements. -/
def pureCmp (leq : T → T → Bool) : Cmp σ T := fun x y env => (some (leq x y), env)

theorem erase_mergeLoop (leq : T → T → Bool) (mid e : Nat) : ∀ (f i j k : Nat) (st : St σ T),
    erase (mergeLoop (pureCmp leq) mid e f i j k st) =
      (MergeSort.mergeLoop leq st.a mid e f st.buf i j k >>= fun r => .ok (st.a, r.1, r.2))
  | 0, _, _, _, _ => rfl
  | f + 1, i, j, k, st => by
    rw [mergeLoop, MergeSort.mergeLoop]
    by_cases hc : i < mid ∧ j < e
    · rw [if_pos hc, if_pos hc]
      cases hx : st.a[i]? with
      | none => simp [cmp, hx, Out.bind, erase, rd]
      | some x =>
        cases hy : st.a[j]? with
        | none => simp [cmp, hx, hy, Out.bind, erase, rd]
        | some y =>
          simp only [cmp, hx, hy, pureCmp, Out.bind, rd_eq_ok.2 hx, rd_eq_ok.2 hy, Res.ok_bind]
          cases hl : leq x y with
          | true =>
            simp only [if_true]
            cases hw : wr st.buf k x with
            | ok b => exact erase_mergeLoop leq mid e f (i + 1) j (k + 1) ⟨st.a, b, st.env, st.cmps + 1⟩
            | thrown => rfl
            | ub => rfl
            | hang => rfl
          | false =>
            simp only [Bool.false_eq_true, if_false]
            cases hw : wr st.buf k y with
            | ok b => exact erase_mergeLoop leq mid e f i (j + 1) (k + 1) ⟨st.a, b, st.env, st.cmps + 1⟩
            | thrown => rfl
            | ub => rfl
            | hang => rfl
    · rw [if_neg hc, if_neg hc]
      rfl

theorem erase_sub (leq : T → T → Bool) (n : Nat) : ∀ (s e : Nat) (st : St σ T), e - s ≤ n →
    erase (sub (pureCmp leq) s e st) = (MergeSort.sub leq st.a s e st.buf >>= fun r => .ok (r.1, r.2, ())) := by
  induction n with
  | zero =>
    intro s e st hn
    rw [sub, MergeSort.sub, if_pos (by omega), if_pos (by omega)]
    rfl
  | succ n ih =>
    intro s e st hn
    rw [sub, MergeSort.sub]
    by_cases h1 : e - s ≤ 1
    · rw [if_pos h1, if_pos h1]; rfl
    · rw [if_neg h1, if_neg h1]
      by_cases h2 : e - s = 2
      · rw [if_pos h2, if_pos h2]
        cases hx : st.a[s]? with
        | none => simp [cmp, hx, Out.bind, erase, rd]
        | some x =>
          cases hy : st.a[s + 1]? with
          | none => simp [cmp, hx, hy, Out.bind, erase, rd]
          | some y =>
            simp only [cmp, hx, hy, pureCmp, Out.bind, rd_eq_ok.2 hx, rd_eq_ok.2 hy, Res.ok_bind]
            cases hl : leq x y with
            | true => rfl
            | false =>
              simp only [Bool.not_false, if_true]
              cases hw : wr st.buf s x with
              | ok b =>
                simp only [onBuf, Res.ok_bind, rd_eq_ok.2 hy]
                cases hw2 : wr st.a s y with
                | ok a =>
                  simp only [onA, Res.ok_bind]
                  cases hz : rd b s with
                  | ok z =>
                    simp only [Res.ok_bind]
                    cases hw3 : wr a (s + 1) z <;> rfl
                  | thrown => rfl
                  | ub => rfl
                  | hang => rfl
                | thrown => rfl
                | ub => rfl
                | hang => rfl
              | thrown => rfl
              | ub => rfl
              | hang => rfl
      · rw [if_neg h2, if_neg h2]
        dsimp only
        rw [erase_bind (g := fun r => MergeSort.sub leq r.1 ((s + e) / 2) e r.2.1 >>= fun r =>
            MergeSort.mergeLoop leq r.1 ((s + e) / 2) e (e - s + 1) r.2 s ((s + e) / 2) s >>= fun q =>
            MergeSort.leftover r.1 q.2.1 ((s + e) / 2) q.2.2.2 >>= fun a =>
            MergeSort.copyBack a q.1 s q.2.2.2 >>= fun a => .ok (a, q.1, ())), ih _ _ _ (by omega)]
        · cases MergeSort.sub leq st.a s ((s + e) / 2) st.buf with
          | ok r =>
            simp only [Res.ok_bind]
            cases MergeSort.sub leq r.1 ((s + e) / 2) e r.2 with
            | ok r =>
              simp only [Res.ok_bind]
              cases MergeSort.mergeLoop leq r.1 ((s + e) / 2) e (e - s + 1) r.2 s ((s + e) / 2) s with
              | ok q =>
                simp only [Res.ok_bind]
                cases MergeSort.leftover r.1 q.2.1 ((s + e) / 2) q.2.2.2 with
                | ok a =>
                  simp only [Res.ok_bind]
                  cases MergeSort.copyBack a q.1 s q.2.2.2 <;> rfl
                | thrown => rfl
                | ub => rfl
                | hang => rfl
              | thrown => rfl
              | ub => rfl
              | hang => rfl
            | thrown => rfl
            | ub => rfl
            | hang => rfl
          | thrown => rfl
          | ub => rfl
          | hang => rfl
        intro st _
        rw [erase_bind (g := fun r =>
            MergeSort.mergeLoop leq r.1 ((s + e) / 2) e (e - s + 1) r.2.1 s ((s + e) / 2) s >>= fun q =>
            MergeSort.leftover r.1 q.2.1 ((s + e) / 2) q.2.2.2 >>= fun a =>
            MergeSort.copyBack a q.1 s q.2.2.2 >>= fun a => .ok (a, q.1, ())), ih _ _ _ (by omega)]
        · cases MergeSort.sub leq st.a ((s + e) / 2) e st.buf <;> rfl
        intro st _
        rw [erase_bind (g := fun r => MergeSort.leftover r.1 r.2.2.1 ((s + e) / 2) r.2.2.2.2 >>= fun a =>
            MergeSort.copyBack a r.2.1 s r.2.2.2.2 >>= fun a => .ok (a, r.2.1, ())), erase_mergeLoop]
        · cases MergeSort.mergeLoop leq st.a ((s + e) / 2) e (e - s + 1) st.buf s ((s + e) / 2) s <;> rfl
        intro st r
        rw [erase_bind (g := fun q => MergeSort.copyBack q.1 q.2.1 s r.2.2 >>= fun a => .ok (a, q.2.1, ())), erase_onA]
        · cases MergeSort.leftover st.a r.1 ((s + e) / 2) r.2.2 <;> rfl
        intro st _
        rw [erase_onA]

/-- C150: with a comparison that has no effects nothing is thrown, and the array is the one of C13: sorted, if the comparison
is an order. -/
theorem C150_pure (leq : T → T → Bool) (dv : T) (a : List T) (env : σ) :
    ∃ st, sort (pureCmp leq) dv a env = .ret st () ∧ MergeSort.sort leq dv a = .ok st.a := by
  have h := erase_sub (σ := σ) leq a.length 0 a.length ⟨a, List.replicate a.length dv, env, 0⟩ (by omega)
  obtain ⟨buf, e, _⟩ := MergeSort.sub_spec leq a.length a 0 a.length (List.replicate a.length dv) (by omega) (by omega)
    (Nat.le_refl _) (by simp)
  unfold sort MergeSort.sort
  rw [e] at h ⊢
  cases hs : sub (pureCmp leq) 0 a.length (⟨a, List.replicate a.length dv, env, 0⟩ : St σ T) with
  | ret st u =>
    rw [hs] at h
    simp only [erase, Res.ok_bind, Res.ok.injEq, Prod.mk.injEq] at h
    exact ⟨st, rfl, by rw [h.1]; rfl⟩
  | thrown st => rw [hs] at h; cases h
  | ub => rw [hs] at h; cases h
  | hang => rw [hs] at h; cases h

/-! ## Two arrays -/

/-- The state of the form with two arrays that belongs to one array of pairs. -/
def split (st : St σ (T × U)) : St2 σ T U := ⟨fsts st.a, snds st.a, fsts st.buf, snds st.buf, st.env, st.cmps⟩

def splitOut {α : Type} : Out (St σ (T × U)) α → Out (St2 σ T U) α
  | .ret st x => .ret (split st) x
  | .thrown st => .thrown (split st)
  | .ub => .ub
  | .hang => .hang

theorem splitOut_bind {α β : Type} {o : Out (St σ (T × U)) α} {f : St σ (T × U) → α → Out (St σ (T × U)) β}
    {g : St2 σ T U → α → Out (St2 σ T U) β} (h : ∀ st x, g (split st) x = splitOut (f st x)) :
    (splitOut o).bind g = splitOut (o.bind f) := by
  cases o with
  | ret st x => exact h st x
  | thrown st => rfl
  | ub => rfl
  | hang => rfl

/-- The comparison looks at the first components. -/
def fstCmp (leq : Cmp σ T) : Cmp σ (T × U) := fun x y => leq x.1 y.1

theorem cmp2_split (leq : Cmp σ T) (i j : Nat) (st : St σ (T × U)) :
    cmp2 leq i j (split st) = splitOut (cmp (fstCmp leq) i j st) := by
  unfold cmp2 cmp
  simp only [split, List.getElem?_map]
  cases st.a[i]? with
  | none => rfl
  | some x =>
    cases st.a[j]? with
    | none => rfl
    | some y =>
      simp only [Option.map_some, fstCmp]
      cases leq x.1 y.1 st.env with
      | mk b env => cases b <;> rfl

theorem move2_split (st : St σ (T × U)) (k i : Nat) :
    onBuf2 (split st) (move2 (split st) k i) = splitOut (onBuf st (rd st.a i >>= fun x => wr st.buf k x)) := by
  unfold move2
  simp only [split, MergeSort.rd_map]
  cases rd st.a i with
  | ok x =>
    simp only [Res.ok_bind, MergeSort.wr_map]
    cases wr st.buf k x <;> rfl
  | thrown => rfl
  | ub => rfl
  | hang => rfl

theorem mergeLoop2_split (leq : Cmp σ T) (mid e : Nat) : ∀ (f i j k : Nat) (st : St σ (T × U)),
    mergeLoop2 leq mid e f i j k (split st) = splitOut (mergeLoop (fstCmp leq) mid e f i j k st)
  | 0, _, _, _, _ => rfl
  | f + 1, i, j, k, st => by
    rw [mergeLoop2, mergeLoop]
    by_cases hc : i < mid ∧ j < e
    · rw [if_pos hc, if_pos hc, cmp2_split]
      refine splitOut_bind (fun st b => ?_)
      cases b with
      | true =>
        simp only [if_true]
        rw [move2_split]
        exact splitOut_bind (fun st _ => mergeLoop2_split leq mid e f (i + 1) j (k + 1) st)
      | false =>
        simp only [Bool.false_eq_true, if_false]
        rw [move2_split]
        exact splitOut_bind (fun st _ => mergeLoop2_split leq mid e f i (j + 1) (k + 1) st)
    · rw [if_neg hc, if_neg hc]; rfl

theorem onA2_split (st : St σ (T × U)) (r : Res (List (T × U))) :
    onA2 (split st) (r >>= fun r => .ok (fsts r, snds r)) = splitOut (onA st r) := by
  cases r <;> rfl

theorem sub2_split (leq : Cmp σ T) (n : Nat) : ∀ (s e : Nat) (st : St σ (T × U)), e - s ≤ n →
    sub2 leq s e (split st) = splitOut (sub (fstCmp leq) s e st) := by
  induction n with
  | zero => intro s e st h; rw [sub2, sub, if_pos (by omega), if_pos (by omega)]; rfl
  | succ n ih =>
    intro s e st h
    rw [sub2, sub]
    by_cases h1 : e - s ≤ 1
    · rw [if_pos h1, if_pos h1]; rfl
    · rw [if_neg h1, if_neg h1]
      by_cases h2 : e - s = 2
      · rw [if_pos h2, if_pos h2, cmp2_split]
        refine splitOut_bind (fun st b => ?_)
        cases b with
        | true => rfl
        | false =>
          simp only [Bool.not_false, if_true]
          unfold swap2
          simp only [split, MergeSort.rd_map]
          cases hx : rd st.a s with
          | ok x =>
            simp only [Res.ok_bind, MergeSort.wr_map]
            by_cases hd : s < st.buf.length
            · simp only [wr_ok hd, Res.ok_bind, onBuf, Out.bind, MergeSort.rd_map]
              have hc : s < st.a.length := by
                have := rd_eq_ok.1 hx; exact (List.getElem?_eq_some_iff.1 this).1
              cases hy : rd st.a (s + 1) with
              | ok y =>
                have hcs : s + 1 < st.a.length := by
                  have := rd_eq_ok.1 hy; exact (List.getElem?_eq_some_iff.1 this).1
                have r1 : rd (st.buf.set s x) s = .ok x := rd_eq_ok.2 (List.getElem?_set_self hd)
                have w2 : wr (st.a.set s y) (s + 1) x = .ok ((st.a.set s y).set (s + 1) x) := wr_ok (by simpa using hcs)
                simp only [Res.ok_bind, MergeSort.wr_map, wr_ok hc, r1, w2, onA]
                rfl
              | thrown => unfold rd at hy; cases hq : st.a[s + 1]? <;> rw [hq] at hy <;> cases hy
              | ub => simp only [onA]; rfl
              | hang => unfold rd at hy; cases hq : st.a[s + 1]? <;> rw [hq] at hy <;> cases hy
            · simp [wr, hd, onBuf, Out.bind, splitOut]
          | thrown => rfl
          | ub => rfl
          | hang => rfl
      · rw [if_neg h2, if_neg h2, ih _ _ _ (by omega)]
        refine splitOut_bind (fun st _ => ?_)
        rw [ih _ _ _ (by omega)]
        refine splitOut_bind (fun st _ => ?_)
        rw [mergeLoop2_split]
        refine splitOut_bind (fun st r => ?_)
        rw [show MergeSort.leftover2 (split st).a (split st).b r.1 ((s + e) / 2) r.2.2 = _ from
          MergeSort.leftover2_eq st.a r.1 ((s + e) / 2) r.2.2, onA2_split]
        refine splitOut_bind (fun st _ => ?_)
        rw [show MergeSort.copyBack2 (split st).a (split st).ma (split st).b (split st).mb s r.2.2 = _ from
          MergeSort.copyBack2_eq st.a st.buf s r.2.2, onA2_split]

theorem sort2_eq (leq : Cmp σ T) (dt : T) (du : U) {a : List T} {b : List U} (env : σ) (hl : a.length = b.length) :
    sort2 leq dt du a b env = splitOut (sort (fstCmp leq) (dt, du) (a.zip b) env) := by
  have f1 : fsts (a.zip b) = a := List.map_fst_zip (by omega)
  have f2 : snds (a.zip b) = b := List.map_snd_zip (by omega)
  have hz : (a.zip b).length = a.length := by simp; omega
  have h := sub2_split (U := U) leq (a.zip b).length 0 (a.zip b).length
    ⟨a.zip b, List.replicate (a.zip b).length (dt, du), env, 0⟩ (by omega)
  unfold sort2 sort
  rw [← h]
  dsimp only
  rw [if_pos hl]
  unfold split
  dsimp only
  rw [f1, f2, hz]
  simp [fsts, snds, hl]

/-- C150 for two arrays: whatever the comparison answers, and also if it throws, the pairs of elements at the same place are
the same as before, in some order, and it throws exactly if the comparison did; if the lengths differ nothing is changed. -/
theorem C150_companion (leq : Cmp σ T) (dt : T) (du : U) (a : List T) (b : List U) (env : σ) :
    ∃ st, (a.length = b.length → st.a.length = st.b.length ∧ (st.a.zip st.b).Perm (a.zip b) ∧
        (∀ k, a.length ≤ 2 ^ k → 2 ^ k < 2 * a.length → st.env.2.length + 2 ^ k ≤ a.length * k + 1) ∧
        ((sort2 (noted leq) dt du a b (env, []) = .ret st () ∧ ∀ r ∈ st.env.2, r ≠ none) ∨
         (sort2 (noted leq) dt du a b (env, []) = .thrown st ∧ ∃ l, st.env.2 = l ++ [none] ∧ ∀ r ∈ l, r ≠ none))) ∧
      (a.length ≠ b.length → sort2 (noted leq) dt du a b (env, []) = .thrown st ∧ st.a = a ∧ st.b = b ∧ st.env = (env, [])) := by
  by_cases hl : a.length = b.length
  · have hz : (a.zip b).length = a.length := by simp; omega
    obtain ⟨st, n, e⟩ := C150_exception (T := T × U) (fstCmp leq) (dt, du) (a.zip b) env
    obtain ⟨st', e', p, c⟩ := C150_sort (noted (fstCmp leq)) (dt, du) (a.zip b) (env, [])
    have hs := sort2_eq (noted leq) dt du (env, []) hl
    rw [show fstCmp (U := U) (noted leq) = noted (fstCmp leq) from rfl] at hs
    obtain rfl : st' = st := by
      rcases e with ⟨e, -⟩ | ⟨e, -⟩ <;> rcases e' with e' | e' <;> rw [e] at e' <;> cases e' <;> rfl
    rw [hz] at c
    have fin : st'.a = (fsts st'.a).zip (snds st'.a) := by
      rw [List.zip_map']
      simp
    refine ⟨split st', fun _ => ⟨by simp [split], ?_, ?_, ?_⟩, fun h => absurd hl h⟩
    · show ((fsts st'.a).zip (snds st'.a)).Perm _
      rw [← fin]
      exact p
    · intro k h1 h2
      have := c k h1 h2
      rw [n] at this
      exact this
    · rw [hs]
      rcases e with ⟨e, h⟩ | ⟨e, h⟩
      · exact .inl ⟨by rw [e]; rfl, h⟩
      · exact .inr ⟨by rw [e]; rfl, h⟩
  · have e : sort2 (noted leq) dt du a b (env, []) = .thrown ⟨a, b, List.replicate a.length dt, List.replicate b.length du, (env, []), 0⟩ := by
      unfold sort2; dsimp only; rw [if_neg hl]
    exact ⟨_, fun h => absurd h hl, fun _ => ⟨e, rfl, rfl, rfl⟩⟩

/-- The most comparisons for four elements: five. -/
example : sort (pureCmp (fun x y : Nat => decide (x ≤ y)) : Cmp Unit Nat) 0 [1, 3, 2, 4] () =
    .ret ⟨[1, 2, 3, 4], [1, 2, 3, 0], (), 5⟩ () := by
  simp [sort, sub, mergeLoop, cmp, pureCmp, Out.bind, onBuf, onA, rd, wr, Res.ofOption, MergeSort.leftover, MergeSort.copyBack, forUp]
  rfl

/-- A comparison that throws the fourth time it is called: the elements are all there. -/
example : ∃ st, sort (fun x y (n : Nat) => (if n = 3 then none else some (decide (x ≤ y)), n + 1)) 0 [4, 3, 2, 1] 0 = .thrown st ∧
    st.a = [3, 4, 1, 2] := ⟨⟨[3, 4, 1, 2], [1, 0, 2, 0], 4, 4⟩, by
    simp [sort, sub, mergeLoop, cmp, Out.bind, onBuf, onA, rd, wr, Res.ofOption, MergeSort.leftover, MergeSort.copyBack, forUp], rfl⟩

end Lolly.SortStepsProps
