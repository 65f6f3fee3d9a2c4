import Verif.Containers.HashMapLemmas

/-! # Helper lemmas: patches, equality and iterators of the hashmap model -/

namespace Lolly

variable {K : Type} {V : Type} [DecidableEq K] {hash : K → BitVec 32}

namespace HashMap

variable [DecidableEq V]

theorem patch1_spec {h base : HashMap K V} (w : h.WF hash) (wb : base.WF hash) (x : K) (y : V) :
    ∃ h', h.patch1 hash base x y = .ok h' ∧ h'.WF hash ∧
      h'.abs = (fun z => if z = x then
        (if (base.abs x).getD base.init = y then none else some y) else h.abs z) ∧
      h'.init = h.init ∧ h'.max = h.max := by
  by_cases hb : (base.abs x).getD base.init = y
  · obtain ⟨h', e, w', a', i', m'⟩ := reset_spec w x
    exact ⟨h', by simp [patch1, get_spec wb, hb, e], w', by simp [a', hb], i', m'⟩
  · obtain ⟨h', e, w', a', i', m'⟩ := set_spec w x y
    exact ⟨h', by simp [patch1, get_spec wb, hb, e], w', by simp [a', hb], i', m'⟩

theorem postPatchL_spec {h base : HashMap K V} (w : h.WF hash) (wb : base.WF hash)
    (es : List (Entry K V)) (hn : (es.map (·.key)).Nodup) :
    ∃ h', h.postPatchL hash base es = .ok h' ∧ h'.WF hash ∧
      h'.abs = (fun z => match look es z with
        | none => h.abs z
        | some v => if (base.abs z).getD base.init = v then none else some v) ∧
      h'.init = h.init ∧ h'.max = h.max := by
  induction es generalizing h with
  | nil => exact ⟨h, rfl, w, by simp, rfl, rfl⟩
  | cons e es ih =>
    rw [List.map_cons, List.nodup_cons] at hn
    obtain ⟨h1, e1, w1, a1, i1, m1⟩ := patch1_spec w wb e.key e.im
    obtain ⟨h2, e2, w2, a2, i2, m2⟩ := ih w1 hn.2
    refine ⟨h2, by simp [postPatchL, e1, e2], w2, ?_, i2.trans i1, m2.trans m1⟩
    rw [a2, a1]; funext z
    rw [look_cons]
    by_cases hz : e.key = z
    · subst hz
      rw [look_eq_none.2 hn.1]; simp
    · have : z ≠ e.key := fun e' => hz e'.symm
      simp [hz, this]

theorem prePatchL_spec {h base : HashMap K V} (w : h.WF hash) (wb : base.WF hash)
    (es : List (Entry K V)) (hn : (es.map (·.key)).Nodup) :
    ∃ h', h.prePatchL hash base es = .ok h' ∧ h'.WF hash ∧
      h'.abs = (fun z => match look es z with
        | none => h.abs z
        | some v => if (base.abs z).getD base.init = (h.abs z).getD v then none
          else some ((h.abs z).getD v)) ∧
      h'.init = h.init ∧ h'.max = h.max := by
  induction es generalizing h with
  | nil => exact ⟨h, rfl, w, by simp, rfl, rfl⟩
  | cons e es ih =>
    rw [List.map_cons, List.nodup_cons] at hn
    obtain ⟨h1, e1, w1, a1, i1, m1⟩ := patch1_spec w wb e.key ((h.abs e.key).getD e.im)
    obtain ⟨h2, e2, w2, a2, i2, m2⟩ := ih w1 hn.2
    refine ⟨h2, ?_, w2, ?_, i2.trans i1, m2.trans m1⟩
    · cases hx : h.abs e.key with
      | none => simp [prePatchL, contains_spec w, hx, ← e2]; simp [hx] at e1; simp [e1]
      | some v =>
        simp [prePatchL, contains_spec w, get_spec w, hx, ← e2]; simp [hx] at e1; simp [e1]
    rw [a2, a1]; funext z
    rw [look_cons]
    by_cases hz : e.key = z
    · subst hz
      rw [look_eq_none.2 hn.1]; simp
    · have : z ≠ e.key := fun e' => hz e'.symm
      simp [hz, this]

theorem changesL_spec {h base : HashMap K V} (w : h.WF hash) (wb : base.WF hash)
    (es : List (Entry K V)) (hn : (es.map (·.key)).Nodup) :
    ∃ h', changesL hash base es h = .ok h' ∧ h'.WF hash ∧
      h'.abs = (fun z => match look es z with
        | none => h.abs z
        | some v => if v ≠ (base.abs z).getD base.init then some v else h.abs z) ∧
      h'.init = h.init ∧ h'.max = h.max := by
  induction es generalizing h with
  | nil => exact ⟨h, rfl, w, by simp, rfl, rfl⟩
  | cons e es ih =>
    rw [List.map_cons, List.nodup_cons] at hn
    have step : ∃ h1, (if e.im ≠ (base.abs e.key).getD base.init then h.set hash e.key e.im
        else .ok h) = .ok h1 ∧ h1.WF hash ∧ h1.abs = (fun z => if z = e.key ∧
          e.im ≠ (base.abs e.key).getD base.init then some e.im else h.abs z) ∧
        h1.init = h.init ∧ h1.max = h.max := by
      by_cases hb : e.im = (base.abs e.key).getD base.init
      · exact ⟨h, by simp [hb], w, by simp [hb], rfl, rfl⟩
      · obtain ⟨h', e', w', a', i', m'⟩ := set_spec w e.key e.im
        exact ⟨h', by simp [hb, e'], w', by simp [hb, a'], i', m'⟩
    obtain ⟨h1, e1, w1, a1, i1, m1⟩ := step
    obtain ⟨h2, e2, w2, a2, i2, m2⟩ := ih w1 hn.2
    have e3 : changesL hash base (e :: es) h = .ok h2 := by
      simp only [changesL, get_spec wb, Res.ok_bind]
      split
      · rename_i hc; rw [if_pos hc] at e1; simp [e1, e2]
      · rename_i hc; rw [if_neg hc] at e1; rw [Res.ok.inj e1]; exact e2
    refine ⟨h2, e3, w2, ?_, i2.trans i1, m2.trans m1⟩
    rw [a2, a1]; funext z
    rw [look_cons]
    by_cases hz : e.key = z
    · subst hz
      rw [look_eq_none.2 hn.1]; simp
    · have : z ≠ e.key := fun e' => hz e'.symm
      simp [hz, this]

theorem invertL_spec {h base : HashMap K V} (w : h.WF hash) (wb : base.WF hash)
    (es : List (Entry K V)) (hn : (es.map (·.key)).Nodup) :
    ∃ h', invertL hash base es h = .ok h' ∧ h'.WF hash ∧
      h'.abs = (fun z => match look es z with
        | none => h.abs z
        | some v => if v ≠ (base.abs z).getD base.init then some ((base.abs z).getD base.init)
          else h.abs z) ∧
      h'.init = h.init ∧ h'.max = h.max := by
  induction es generalizing h with
  | nil => exact ⟨h, rfl, w, by simp, rfl, rfl⟩
  | cons e es ih =>
    rw [List.map_cons, List.nodup_cons] at hn
    have step : ∃ h1, (if e.im ≠ (base.abs e.key).getD base.init then
          h.set hash e.key ((base.abs e.key).getD base.init)
        else .ok h) = .ok h1 ∧ h1.WF hash ∧ h1.abs = (fun z => if z = e.key ∧
          e.im ≠ (base.abs e.key).getD base.init then some ((base.abs e.key).getD base.init)
          else h.abs z) ∧
        h1.init = h.init ∧ h1.max = h.max := by
      by_cases hb : e.im = (base.abs e.key).getD base.init
      · exact ⟨h, by simp [hb], w, by simp [hb], rfl, rfl⟩
      · obtain ⟨h', e', w', a', i', m'⟩ := set_spec w e.key ((base.abs e.key).getD base.init)
        exact ⟨h', by simp [hb, e'], w', by simp [hb, a'], i', m'⟩
    obtain ⟨h1, e1, w1, a1, i1, m1⟩ := step
    obtain ⟨h2, e2, w2, a2, i2, m2⟩ := ih w1 hn.2
    have e3 : invertL hash base (e :: es) h = .ok h2 := by
      simp only [invertL, get_spec wb, Res.ok_bind]
      split
      · rename_i hc; rw [if_pos hc] at e1; simp [e1, e2]
      · rename_i hc; rw [if_neg hc] at e1; rw [Res.ok.inj e1]; exact e2
    refine ⟨h2, e3, w2, ?_, i2.trans i1, m2.trans m1⟩
    rw [a2, a1]; funext z
    rw [look_cons]
    by_cases hz : e.key = z
    · subst hz
      rw [look_eq_none.2 hn.1]; simp
    · have : z ≠ e.key := fun e' => hz e'.symm
      simp [hz, this]

omit [DecidableEq K] [DecidableEq V] in
theorem copyList_eq (l : List (Entry K V)) : copyList l = l := by
  induction l with
  | nil => rfl
  | cons e l ih => rw [copyList, ih]

omit [DecidableEq K] [DecidableEq V] in
theorem copy_eq (h : HashMap K V) : h.copy = h := by
  have : (copyList : List (Entry K V) → _) = id := by funext l; exact copyList_eq l
  rw [copy, this]; simp

theorem eqLoop_spec {h2 : HashMap K V} (w : h2.WF hash) (es : List (Entry K V)) :
    eqLoop hash h2 es = .ok (decide (∀ e ∈ es, (h2.abs e.key).getD h2.init = e.im)) := by
  induction es with
  | nil => simp [eqLoop]
  | cons e es ih =>
    simp only [eqLoop, get_spec w, Res.ok_bind, ih]
    by_cases he : (h2.abs e.key).getD h2.init = e.im
    · simp [he]
    · simp [he]

theorem eqv_spec {h1 h2 : HashMap K V} (w1 : h1.WF hash) (w2 : h2.WF hash) :
    ∃ b, eqv hash h1 h2 = .ok b ∧ (b = true ↔ h1.size = h2.size ∧
      ∀ x v, h1.abs x = some v → (h2.abs x).getD h2.init = v) := by
  unfold eqv
  by_cases hs : h1.size = h2.size
  · simp only [hs, ne_eq, not_true, if_false, eqLoop_spec w2, true_and]
    refine ⟨_, rfl, ?_⟩
    rw [decide_eq_true_iff]
    constructor
    · intro h x v hv
      obtain ⟨e, he, hk, hi⟩ := (look_eq_some w1.nodup).1 hv
      rw [← hk, ← hi]; exact h e he
    · intro h e he
      exact h e.key e.im ((look_eq_some w1.nodup).2 ⟨e, he, rfl, rfl⟩)
  · exact ⟨false, by simp [hs], by simp [hs]⟩

end HashMap

namespace Iter
variable {E : Type}

/-- Items still to come. -/
def rest (it : Iter E) : List E := it.l ++ (it.buckets.drop (it.i + 1)).flatten

theorem spoolL_spec (bs : List (List E)) (i : Nat) :
    (spoolL bs i).2 ++ (bs.drop ((spoolL bs i).1 - i)).flatten = bs.flatten ∧
    i < (spoolL bs i).1 ∧ ((spoolL bs i).2 = [] ↔ i + bs.length < (spoolL bs i).1) := by
  induction bs generalizing i with
  | nil => simp [spoolL]
  | cons b bs ih =>
    cases b with
    | nil =>
      obtain ⟨h1, h2, h3⟩ := ih (i + 1)
      simp only [spoolL]
      refine ⟨?_, by omega, ?_⟩
      · have : (spoolL bs (i + 1)).1 - i = ((spoolL bs (i + 1)).1 - (i + 1)) + 1 := by omega
        rw [this, List.drop_succ_cons, h1]; simp
      · rw [h3]; simp only [List.length_cons]; omega
    | cons e l =>
      simp only [spoolL]
      refine ⟨by simp, by omega, ?_⟩
      simp

theorem spool_spec (it : Iter E) (hi : it.buckets.length ≤ it.i → it.l = []) :
    (it.spool).rest = it.rest ∧ it.spool.buckets = it.buckets ∧
    (it.spool.i < it.buckets.length ↔ it.spool.l ≠ []) := by
  unfold spool
  by_cases h : it.i ≥ it.buckets.length
  · simp [h, hi h]
  · simp only [h, if_false]
    cases hl : it.l with
    | cons e l => simp [hl]; omega
    | nil =>
      obtain ⟨h1, h2, h3⟩ := spoolL_spec (it.buckets.drop (it.i + 1)) it.i
      simp only [rest, hl]
      refine ⟨?_, trivial, ?_⟩
      · rw [List.nil_append, ← h1, List.drop_drop]
        congr 3; omega
      · rw [ne_eq, h3, List.length_drop]; omega

theorem drain_spec (fuel : Nat) (it : Iter E) (hi : it.buckets.length ≤ it.i → it.l = [])
    (hf : it.rest.length < fuel) : it.drain fuel = .ok it.rest := by
  induction fuel generalizing it with
  | zero => omega
  | succ fuel ih =>
    obtain ⟨h1, h2, h3⟩ := spool_spec it hi
    have hss : it.spool.spool = it.spool := by
      generalize it.spool = s at h2 h3
      unfold spool
      by_cases h : s.i ≥ s.buckets.length
      · simp [h]
      · simp only [h, if_false]
        have : s.l ≠ [] := h3.1 (by rw [← h2]; omega)
        cases hl : s.l with
        | nil => exact absurd hl this
        | cons e l => rfl
    simp only [drain, busy]
    by_cases hb : it.spool.i < it.spool.buckets.length
    · have hl := h3.1 (by rw [← h2]; exact hb)
      simp only [hb, decide_true, if_true, next, busy, hss]
      cases hs : it.spool.l with
      | nil => exact absurd hs hl
      | cons e l =>
        have hr : it.rest = e :: ({ it.spool with l := l } : Iter E).rest := by
          rw [← h1]; simp [rest, hs]
        simp only [Res.ok_bind]
        rw [ih, hr]
        · simp
        · intro h; simp only at h; omega
        · rw [hr] at hf; simpa using hf
    · simp only [hb, decide_false]
      have hl : it.spool.l = [] := by
        exact Classical.byContradiction fun hne => hb (by rw [h2]; exact h3.2 hne)
      have : it.rest = [] := by
        rw [← h1, rest, hl]
        simp; intro x hx
        rw [List.drop_eq_nil_of_le (by omega)] at hx; simp at hx
      simp [this]

theorem drain_new (b : List (List E)) (hb : b ≠ []) (fuel : Nat) (hf : b.flatten.length < fuel) :
    ∃ it, new b = .ok it ∧ it.drain fuel = .ok b.flatten := by
  obtain ⟨b0, bs, rfl⟩ := List.exists_cons_of_ne_nil hb
  refine ⟨{ buckets := b0 :: bs, i := 0, l := b0 }, by simp [new, rd], ?_⟩
  rw [drain_spec]
  · simp [rest]
  · simp
  · simpa [rest] using hf

end Iter
end Lolly
