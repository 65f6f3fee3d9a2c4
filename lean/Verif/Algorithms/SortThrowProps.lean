import Verif.Algorithms.SortThrowLemmas

set_option autoImplicit false

/-!
# C179: sorting elements whose assignment throws

`C179_outcome_partial`: when `merge_sort` throws, what it does if it returns, and what is certain of the array after an exception.
`C179_in_order`: an array that is in order already is not changed, whatever throws. `C179_lost_violated`: for every other array an
exception of one assignment can lose an element and leave another one twice.
-/

namespace Lolly.SortThrowProps

open Lolly.SortThrow
open Lolly.SortSteps (Out)

variable {T α β : Type}

/-! ## Specification -/

/-- Each element is before all those that follow it, or equal to them in the order. -/
def InOrder (leq : T → T → Bool) (a : List T) : Prop := a.Pairwise fun x y => leq x y = true

/-! ## Lemmas: what always holds of the array -/

/-- `X` holds of the array at the end and when something is thrown, `Q` at the end. -/
def Safe (X : List T → Prop) (Q : St T → α → Prop) : Out (St T) α → Prop
  | .ret s x => X s.a ∧ Q s x
  | .thrown s => X s.a
  | .ub => True
  | .hang => True

theorem Safe.bind {X : List T → Prop} {Q : St T → α → Prop} {R : St T → β → Prop} {o : Out (St T) α} {f : St T → α → Out (St T) β}
    (h : Safe X Q o) (g : ∀ s x, X s.a → Q s x → Safe X R (f s x)) : Safe X R (o.bind f) := by
  cases o with
  | ret s x => exact g s x h.1 h.2
  | thrown s => exact h
  | ub => trivial
  | hang => trivial

theorem Safe.mono {X : List T → Prop} {Q R : St T → α → Prop} {o : Out (St T) α} (h : Safe X Q o) (g : ∀ s x, X s.a → Q s x → R s x) :
    Safe X R o := by
  cases o with
  | ret s x => exact ⟨h.1, g s x h.1 h.2⟩
  | thrown s => exact h
  | ub => trivial
  | hang => trivial

theorem asg_safe {X : List T → Prop} {Q : St T → Unit → Prop} (fails : Nat → Bool) {st : St T} (hX : X st.a)
    {r : Res (List T × List T)} (h : ∀ m, r = .ok m → X m.1 ∧ Q ⟨m.1, m.2, st.t + 1⟩ ()) : Safe X Q (asg fails st r) := by
  cases r with
  | ok m =>
    unfold asg
    dsimp only
    split
    · exact hX
    · exact h m rfl
  | thrown => exact hX
  | ub => trivial
  | hang => trivial

theorem cmp_safe {X : List T → Prop} (leq : T → T → Bool) (i j : Nat) {st : St T} (hX : X st.a) :
    Safe X (fun s b => s = st ∧ ∃ x y, st.a[i]? = some x ∧ st.a[j]? = some y ∧ b = leq x y) (cmp leq i j st) := by
  unfold cmp
  split
  · next x y hx hy => exact ⟨hX, rfl, x, y, hx, hy, rfl⟩
  · trivial

theorem bufA_ok {st : St T} {k i : Nat} {m : List T × List T} (h : bufA st k i = .ok m) :
    ∃ x, st.a[i]? = some x ∧ k < st.buf.length ∧ m = (st.a, st.buf.set k x) := by
  unfold bufA at h
  obtain ⟨x, hx, h⟩ := Res.bind_eq_ok.1 h
  obtain ⟨b, hb, h⟩ := Res.bind_eq_ok.1 h
  cases h
  obtain ⟨hk, rfl⟩ := wr_eq hb
  exact ⟨x, rd_eq_ok.1 hx, hk, rfl⟩

theorem aA_ok {st : St T} {k i : Nat} {m : List T × List T} (h : aA st k i = .ok m) :
    ∃ x, st.a[i]? = some x ∧ k < st.a.length ∧ m = (st.a.set k x, st.buf) := by
  unfold aA at h
  obtain ⟨x, hx, h⟩ := Res.bind_eq_ok.1 h
  obtain ⟨b, hb, h⟩ := Res.bind_eq_ok.1 h
  cases h
  obtain ⟨hk, rfl⟩ := wr_eq hb
  exact ⟨x, rd_eq_ok.1 hx, hk, rfl⟩

theorem aBuf_ok {st : St T} {k i : Nat} {m : List T × List T} (h : aBuf st k i = .ok m) :
    ∃ x, st.buf[i]? = some x ∧ k < st.a.length ∧ m = (st.a.set k x, st.buf) := by
  unfold aBuf at h
  obtain ⟨x, hx, h⟩ := Res.bind_eq_ok.1 h
  obtain ⟨b, hb, h⟩ := Res.bind_eq_ok.1 h
  cases h
  obtain ⟨hk, rfl⟩ := wr_eq hb
  exact ⟨x, rd_eq_ok.1 hx, hk, rfl⟩

/-! ### All elements have a property -/

/-- The elements of the buffer from `s` up to `k` have the property. -/
def Part (P : T → Prop) (buf : List T) (s k : Nat) : Prop := ∀ p y, s ≤ p → p < k → buf[p]? = some y → P y

theorem part_set {P : T → Prop} {buf : List T} {s k : Nat} {x : T} (h : Part P buf s k) (hx : P x) : Part P (buf.set k x) s (k + 1) := by
  intro p y h1 h2 hp
  by_cases hk : p = k
  · subst hk
    rw [List.getElem?_set_self' ] at hp
    cases hb : buf[p]? with
    | none => rw [hb] at hp; cases hp
    | some z => rw [hb] at hp; cases hp; exact hx
  · rw [List.getElem?_set_ne (by omega)] at hp
    exact h p y h1 (by omega) hp

theorem mem_P {P : T → Prop} {a : List T} (h : ∀ y ∈ a, P y) {i : Nat} {x : T} (hx : a[i]? = some x) : P x :=
  h x (List.mem_of_getElem? hx)

theorem set_P {P : T → Prop} {a : List T} (h : ∀ y ∈ a, P y) {k : Nat} {x : T} (hx : P x) : ∀ y ∈ a.set k x, P y := by
  intro y hy
  rcases List.mem_or_eq_of_mem_set hy with hy | rfl
  · exact h y hy
  · exact hx

theorem mergeLoop_vals {P : T → Prop} (leq : T → T → Bool) (mid e s : Nat) (fails : Nat → Bool) : ∀ (f i j k : Nat) (st : St T),
    (∀ y ∈ st.a, P y) → Part P st.buf s k →
    Safe (fun a => ∀ y ∈ a, P y) (fun st' r => Part P st'.buf s r.2.2) (mergeLoop leq mid e fails f i j k st)
  | 0, _, _, _, _, _, _ => trivial
  | f + 1, i, j, k, st, hX, hp => by
    rw [mergeLoop]
    split
    · refine (cmp_safe leq i j hX).bind ?_
      rintro _ b hX ⟨rfl, -⟩
      split
      · refine (asg_safe (Q := fun st' _ => Part P st'.buf s (k + 1)) fails hX fun m hm => ?_).bind fun st' _ h1 h2 =>
          mergeLoop_vals leq mid e s fails f (i + 1) j (k + 1) st' h1 h2
        obtain ⟨x, hx, hk, rfl⟩ := bufA_ok hm
        exact ⟨hX, part_set hp (mem_P hX hx)⟩
      · refine (asg_safe (Q := fun st' _ => Part P st'.buf s (k + 1)) fails hX fun m hm => ?_).bind fun st' _ h1 h2 =>
          mergeLoop_vals leq mid e s fails f i (j + 1) (k + 1) st' h1 h2
        obtain ⟨x, hx, hk, rfl⟩ := bufA_ok hm
        exact ⟨hX, part_set hp (mem_P hX hx)⟩
    · exact ⟨hX, hp⟩

theorem leftover_vals {P : T → Prop} (fails : Nat → Bool) : ∀ (n i k : Nat) (st : St T), (∀ y ∈ st.a, P y) →
    Safe (fun a => ∀ y ∈ a, P y) (fun st' _ => st'.buf = st.buf) (leftover fails n i k st)
  | 0, _, _, _, hX => ⟨hX, rfl⟩
  | n + 1, i, k, st, hX => by
    rw [leftover]
    refine (asg_safe (Q := fun st' _ => st'.buf = st.buf) fails hX fun m hm => ?_).bind fun st' _ h1 h2 =>
      (leftover_vals fails n (i + 1) (k + 1) st' h1).mono fun s _ _ hs => hs.trans h2
    obtain ⟨x, hx, hk, rfl⟩ := aA_ok hm
    exact ⟨set_P hX (mem_P hX hx), rfl⟩

theorem copyBack_vals {P : T → Prop} (fails : Nat → Bool) : ∀ (n i : Nat) (st : St T), (∀ y ∈ st.a, P y) → Part P st.buf i (i + n) →
    Safe (fun a => ∀ y ∈ a, P y) (fun _ _ => True) (copyBack fails n i st)
  | 0, _, _, hX, _ => ⟨hX, trivial⟩
  | n + 1, i, st, hX, hp => by
    rw [copyBack]
    refine (asg_safe (Q := fun st' _ => st'.buf = st.buf) fails hX fun m hm => ?_).bind fun st' _ h1 h2 =>
      copyBack_vals fails n (i + 1) st' h1 (fun p y q1 q2 hy => hp p y (by omega) (by omega) (by rw [← h2]; exact hy))
    obtain ⟨x, hx, hk, rfl⟩ := aBuf_ok hm
    exact ⟨set_P hX (hp i x (Nat.le_refl _) (by omega) hx), rfl⟩

theorem sub_vals {P : T → Prop} (leq : T → T → Bool) (fails : Nat → Bool) (n : Nat) : ∀ (s e : Nat) (st : St T), e - s ≤ n →
    (∀ y ∈ st.a, P y) → Safe (fun a => ∀ y ∈ a, P y) (fun _ _ => True) (sub leq fails s e st) := by
  induction n with
  | zero =>
    intro s e st hn hX
    rw [sub, if_pos (by omega)]
    exact ⟨hX, trivial⟩
  | succ n ih =>
    intro s e st hn hX
    rw [sub]
    split
    · exact ⟨hX, trivial⟩
    · split
      · refine (cmp_safe leq s (s + 1) hX).bind ?_
        rintro _ b hX ⟨rfl, -⟩
        split
        · refine (asg_safe (Q := fun st' _ => Part P st'.buf s (s + 1)) fails hX fun m hm => ?_).bind fun st' _ h1 h2 =>
            (asg_safe (Q := fun st' _ => Part P st'.buf s (s + 1)) fails h1 fun m hm => ?_).bind fun st' _ h1 h2 =>
            asg_safe fails h1 fun m hm => ?_
          · obtain ⟨x, hx, hk, rfl⟩ := bufA_ok hm
            exact ⟨hX, part_set (fun p y q1 q2 => by omega) (mem_P hX hx)⟩
          · obtain ⟨x, hx, hk, rfl⟩ := aA_ok hm
            exact ⟨set_P h1 (mem_P h1 hx), h2⟩
          · obtain ⟨x, hx, hk, rfl⟩ := aBuf_ok hm
            exact ⟨set_P h1 (h2 s x (Nat.le_refl _) (by omega) hx), trivial⟩
        · exact ⟨hX, trivial⟩
      · refine (ih s _ st (by omega) hX).bind fun st _ hX _ => (ih _ e st (by omega) hX).bind fun st _ hX _ =>
          (mergeLoop_vals leq _ e s fails _ s _ s st hX (fun p y q1 q2 => by omega)).bind fun st r hX hp =>
          (leftover_vals fails _ r.1 r.2.2 st hX).bind fun st' _ hX hb => copyBack_vals fails _ s st' hX ?_
        intro p y q1 q2 hy
        exact hp p y q1 (by omega) (by rw [← hb]; exact hy)

/-! ### Arrays that are in order -/

theorem mergeLoop_ord {leq : T → T → Bool} {a : List T} (ho : InOrder leq a) (mid e s : Nat) (hs : s ≤ mid) (he : e ≤ a.length) (hm : mid < e)
    (fails : Nat → Bool) : ∀ (f k : Nat) (st : St T), st.a = a → s ≤ k → k ≤ mid → (∀ p, s ≤ p → p < k → st.buf[p]? = a[p]?) →
    Safe (fun b => b = a) (fun st' r => r.1 = mid ∧ r.2.2 = mid ∧ ∀ p, s ≤ p → p < mid → st'.buf[p]? = a[p]?)
      (mergeLoop leq mid e fails f k mid k st)
  | 0, _, _, _, _, _, _ => trivial
  | f + 1, k, st, hX, hk1, hk2, hp => by
    rw [mergeLoop]
    split
    · next hc =>
      refine (cmp_safe (X := fun b => b = a) leq k mid hX).bind ?_
      rintro _ b hX ⟨rfl, x, y, hx, hy, rfl⟩
      have hl : leq x y = true := by
        rw [hX] at hx hy
        obtain ⟨h1, rfl⟩ := List.getElem?_eq_some_iff.1 hx
        obtain ⟨h2, rfl⟩ := List.getElem?_eq_some_iff.1 hy
        exact List.pairwise_iff_getElem.1 ho k mid h1 h2 hc.1
      rw [hl, if_pos rfl]
      refine (asg_safe (X := fun b => b = a) (Q := fun st' _ => ∀ p, s ≤ p → p < k + 1 → st'.buf[p]? = a[p]?) fails hX fun m hm => ?_).bind
        fun st' _ h1 h2 => mergeLoop_ord ho mid e s hs he hm fails f (k + 1) st' h1 (by omega) (by omega) h2
      obtain ⟨x', hx', hk, rfl⟩ := bufA_ok hm
      refine ⟨hX, fun p q1 q2 => ?_⟩
      dsimp only
      by_cases hpk : p = k
      · subst hpk
        rw [List.getElem?_set_self hk, ← hX, hx']
      · rw [List.getElem?_set_ne (by omega)]
        exact hp p q1 (by omega)
    · next hc =>
      have : k = mid := by omega
      subst this
      exact ⟨hX, rfl, rfl, hp⟩

theorem copyBack_ord {a : List T} (fails : Nat → Bool) : ∀ (n i : Nat) (st : St T), st.a = a →
    (∀ p, i ≤ p → p < i + n → st.buf[p]? = a[p]?) → Safe (fun b => b = a) (fun _ _ => True) (copyBack fails n i st)
  | 0, _, _, hX, _ => ⟨hX, trivial⟩
  | n + 1, i, st, hX, hp => by
    rw [copyBack]
    refine (asg_safe (X := fun b => b = a) (Q := fun st' _ => st'.buf = st.buf) fails hX fun m hm => ?_).bind fun st' _ h1 h2 =>
      copyBack_ord fails n (i + 1) st' h1 (fun p q1 q2 => by rw [h2]; exact hp p (by omega) (by omega))
    obtain ⟨x, hx, hk, rfl⟩ := aBuf_ok hm
    refine ⟨?_, rfl⟩
    rw [hp i (Nat.le_refl _) (by omega)] at hx
    obtain ⟨h1, rfl⟩ := List.getElem?_eq_some_iff.1 hx
    dsimp only
    rw [hX, List.set_getElem_self]

theorem sub_ord {leq : T → T → Bool} {a : List T} (ho : InOrder leq a) (fails : Nat → Bool) (n : Nat) : ∀ (s e : Nat) (st : St T),
    e - s ≤ n → e ≤ a.length → st.a = a → Safe (fun b => b = a) (fun _ _ => True) (sub leq fails s e st) := by
  induction n with
  | zero =>
    intro s e st hn he hX
    rw [sub, if_pos (by omega)]
    exact ⟨hX, trivial⟩
  | succ n ih =>
    intro s e st hn he hX
    rw [sub]
    split
    · exact ⟨hX, trivial⟩
    · split
      · refine (cmp_safe (X := fun b => b = a) leq s (s + 1) hX).bind ?_
        rintro _ b hX ⟨rfl, x, y, hx, hy, rfl⟩
        have hl : leq x y = true := by
          rw [hX] at hx hy
          obtain ⟨h1, rfl⟩ := List.getElem?_eq_some_iff.1 hx
          obtain ⟨h2, rfl⟩ := List.getElem?_eq_some_iff.1 hy
          exact List.pairwise_iff_getElem.1 ho s (s + 1) h1 h2 (by omega)
        rw [hl]
        exact ⟨hX, trivial⟩
      · refine (ih s _ st (by omega) (by omega) hX).bind fun st _ hX _ => (ih _ e st (by omega) he hX).bind fun st _ hX _ =>
          (mergeLoop_ord ho _ e s (by omega) he (by omega) fails _ s st hX (Nat.le_refl _) (by omega) (fun p q1 q2 => by omega)).bind
          fun st r hX hr => ?_
        obtain ⟨h1, h2, hp⟩ := hr
        rw [h1, h2, Nat.sub_self, leftover]
        exact copyBack_ord fails _ s st hX fun p q1 q2 => hp p q1 (by omega)

/-! ### Changing one element -/

theorem set_not_perm {a : List T} {i : Nat} {y : T} (h : a.set i y ≠ a) : ¬ (a.set i y).Perm a := by
  intro hp
  classical
  by_cases hi : i < a.length
  · have hne : a[i] ≠ y := by
      intro e
      exact h (by rw [← e, List.set_getElem_self])
    have := hp.count_eq y
    rw [List.count_set hi] at this
    simp [hne] at this
  · exact h (List.set_eq_of_length_le (by omega))

/-! ## Properties -/

/-- **C179** (outcome, partial): `merge_sort` makes a number of assignments that depends only on the array. If none of them throws
it returns and does what it does without exceptions; otherwise it stops at the first one that throws, the exception reaches the
caller, and the array has its length and has only elements that it had before. Missing: that it still has each
of them, see `C179_lost_violated`. -/
theorem C179_outcome_partial (leq : T → T → Bool) (dv : T) (a : List T) : ∃ n, ∀ fails,
    ((∀ j < n, fails j = false) ∧ ∃ st, sort leq dv fails a = .ret st () ∧ MergeSort.sort leq dv a = .ok st.a) ∨
    ∃ j < n, fails j = true ∧ (∀ i < j, fails i = false) ∧ ∃ st, sort leq dv fails a = .thrown st ∧ st.t = j + 1 ∧
      st.a.length = a.length ∧ ∀ x ∈ st.a, x ∈ a := by
  obtain ⟨st, e, em⟩ := sort_plain leq dv a
  obtain ⟨S, h0, -, -, hn, hr⟩ := sub_cut leq a.length 0 a.length ⟨a, List.replicate a.length dv, 0⟩ (by omega) st () e
  dsimp only at h0 hn hr
  have hlen : ∀ j, j ≤ st.t → (S j).length = a.length := by
    intro j
    induction j with
    | zero => intro _; rw [h0]
    | succ j ih =>
      intro hj
      obtain ⟨i, y, hs⟩ := hn j (by omega) (by omega)
      rw [hs, List.length_set]
      exact ih (by omega)
  refine ⟨st.t, fun fails => ?_⟩
  rcases hr fails with ⟨h1, h2⟩ | ⟨j, b, -, h2, hf, hb, h3⟩
  · exact .inl ⟨fun j hj => h1 j (by omega) hj, st, h2, em⟩
  · refine .inr ⟨j, h2, hf, fun i hi => hb i (by omega) hi, _, h3, rfl, hlen j (by omega), ?_⟩
    have := sub_vals (P := (· ∈ a)) leq fails a.length 0 a.length ⟨a, List.replicate a.length dv, 0⟩ (by omega) fun y hy => hy
    rw [h3] at this
    exact this

/-- **C179** (in order): an array that is in order is not changed, whatever throws. -/
theorem C179_in_order {leq : T → T → Bool} {a : List T} (ho : InOrder leq a) (dv : T) (fails : Nat → Bool) :
    ∃ st, (sort leq dv fails a = .ret st () ∨ sort leq dv fails a = .thrown st) ∧ st.a = a := by
  have hs := sub_ord ho fails a.length 0 a.length ⟨a, List.replicate a.length dv, 0⟩ (by omega) (Nat.le_refl _) rfl
  obtain ⟨n, h⟩ := C179_outcome_partial leq dv a
  rcases h fails with ⟨-, st, e, -⟩ | ⟨j, -, -, -, st, e, -⟩
  · refine ⟨st, .inl e, ?_⟩
    unfold sort at e
    rw [e] at hs
    exact hs.1
  · refine ⟨st, .inr e, ?_⟩
    unfold sort at e
    rw [e] at hs
    exact hs

/-- **C179** (lost, violated): for every order and every array that is not in order, there is an assignment such that an exception
from it alone leaves an array with other elements: since all of them were there before and their number is the same, one is
lost and another is there once more. -/
theorem C179_lost_violated (leq : T → T → Bool) (htot : ∀ x y, leq x y = true ∨ leq y x = true)
    (ht : ∀ x y z, leq x y = true → leq y z = true → leq x z = true) (dv : T) {a : List T} (hn : ¬ InOrder leq a) :
    ∃ j st, sort leq dv (fun i => i == j) a = .thrown st ∧ ¬ st.a.Perm a := by
  obtain ⟨st, e, em⟩ := sort_plain leq dv a
  obtain ⟨r, p, er, hst⟩ := MergeSort.C13_sort leq htot ht dv a
  rw [em] at er
  cases er
  have hperm : st.a.Perm a := by
    rw [MergeSort.sort_eq] at em
    injection em with em
    rw [← em]
    exact MergeSort.msort_perm leq a
  have hord : InOrder leq st.a := List.pairwise_iff_getElem.2 fun i j hi hj hij =>
    hst.sorted i j _ _ hij (List.getElem?_eq_getElem hi) (List.getElem?_eq_getElem hj)
  obtain ⟨S, h0, h1, -, hc, hr⟩ := sub_cut leq a.length 0 a.length ⟨a, List.replicate a.length dv, 0⟩ (by omega) st () e
  dsimp only at h0 h1 hc hr
  have key : ∀ n, n ≤ st.t → S n = a ∨ ∃ j, j ≤ n ∧ ¬ (S j).Perm a := by
    intro n
    induction n with
    | zero => intro _; exact .inl h0
    | succ n ih =>
      intro hl
      rcases ih (by omega) with h | ⟨j, hj, h⟩
      · obtain ⟨i, y, hs⟩ := hc n (by omega) (by omega)
        rw [h] at hs
        by_cases hq : a.set i y = a
        · exact .inl (hs.trans hq)
        · exact .inr ⟨n + 1, Nat.le_refl _, by rw [hs]; exact set_not_perm hq⟩
      · exact .inr ⟨j, by omega, h⟩
  rcases key st.t (Nat.le_refl _) with h | ⟨j, hj, h⟩
  · rw [h1] at h
    rw [h] at hord
    exact absurd hord hn
  · have hjt : j < st.t := by
      rcases Nat.lt_or_eq_of_le hj with h' | h'
      · exact h'
      · rw [h', h1] at h
        exact absurd hperm h
    rcases hr (fun i => i == j) with ⟨q, -⟩ | ⟨j', b, -, -, hf, -, e'⟩
    · exact absurd (q j (by omega) hjt) (by simp)
    · have : j' = j := by simpa using hf
      subst this
      exact ⟨j', _, e', h⟩

/-! ## Examples -/

/-- Three elements: the exception of assignment 4 loses the 2. -/
example : sort (fun x y : Nat => decide (x ≤ y)) 0 (fun i => i == 4) [3, 1, 2] = .thrown ⟨[1, 1, 3], [1, 2, 0], 5⟩ := by
  simp [sort, sub, mergeLoop, leftover, copyBack, cmp, asg, bufA, aA, aBuf, Out.bind, rd, wr]

example : ¬ InOrder (fun x y : Nat => decide (x ≤ y)) [3, 1, 2] := by unfold InOrder; decide

example : InOrder (fun x y : Nat => decide (x ≤ y)) [1, 2, 3] := by unfold InOrder; decide

end Lolly.SortThrowProps
