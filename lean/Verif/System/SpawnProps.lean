import Verif.System.Spawn

set_option autoImplicit false

/-!
# Properties C92 (descriptors of a new process), C93 (descriptors of the caller), C94 (no deadlock), C95 (the results do not
depend on the schedule)
-/

namespace Lolly.SpawnProps

open Spawn

/-! ## C92 -/

/-- One group of actions: `close c`, and then perhaps `dup2 s d; close s`. -/
def group : List (Nat × Option (Nat × Nat)) → List Action
  | [] => []
  | (c, none) :: gs => .close c :: group gs
  | (c, some (s, d)) :: gs => .close c :: .dup2 s d :: .close s :: group gs

/-- The descriptors closed by a group. -/
def gone : Nat × Option (Nat × Nat) → List Nat
  | (c, none) => [c]
  | (c, some (s, _)) => [c, s]

def dest : Nat × Option (Nat × Nat) → Option Nat
  | (_, none) => none
  | (_, some (_, d)) => some d

theorem group_append (g g' : List (Nat × Option (Nat × Nat))) : group (g ++ g') = group g ++ group g' := by
  induction g with
  | nil => rfl
  | cons a g ih =>
    obtain ⟨c, o⟩ := a
    cases o with
    | none => simp only [List.cons_append, group, ih]
    | some p => simp only [List.cons_append, group, ih]

/-- What remains after groups with different descriptors. -/
theorem run_group (gs : List (Nat × Option (Nat × Nat))) (t : Fds)
    (hg : (gs.flatMap gone).Nodup) (hd : (gs.filterMap dest).Nodup)
    (hgd : ∀ x ∈ gs.flatMap gone, x ∉ gs.filterMap dest)
    (ht : ∀ c s d, (c, some (s, d)) ∈ gs → ∃ o, t s = some o) :
    ∃ t', runActions t (group gs) = some t' ∧
      (∀ c s d, (c, some (s, d)) ∈ gs → t' d = t s) ∧
      (∀ x ∈ gs.flatMap gone, t' x = none) ∧
      (∀ x, x ∉ gs.flatMap gone → x ∉ gs.filterMap dest → t' x = t x) := by
  induction gs generalizing t with
  | nil => exact ⟨t, rfl, by simp, by simp, by simp⟩
  | cons a gs ih =>
    obtain ⟨c, o⟩ := a
    cases o with
    | none =>
      simp only [List.flatMap_cons, gone, List.singleton_append, List.nodup_cons] at hg
      rw [List.filterMap_cons_none (by rfl)] at hd hgd
      obtain ⟨t', h1, h2, h3, h4⟩ := ih (t.close c) hg.2 hd
        (fun x hx => hgd x (by simp only [List.flatMap_cons, List.mem_append]; exact .inr hx))
        (fun c' s d hm => by
          obtain ⟨o, ho⟩ := ht c' s d (List.mem_cons_of_mem _ hm)
          refine ⟨o, ?_⟩
          rw [Fds.close, if_neg, ho]
          rintro rfl
          exact hg.1 (List.mem_flatMap.2 ⟨_, hm, by simp [gone]⟩))
      refine ⟨t', h1, ?_, ?_, ?_⟩
      · intro c' s d hm
        have hm' : (c', some (s, d)) ∈ gs := by
          rcases List.mem_cons.1 hm with h | h
          · simp at h
          · exact h
        rw [h2 c' s d hm', Fds.close, if_neg]
        rintro rfl
        exact hg.1 (List.mem_flatMap.2 ⟨_, hm', by simp [gone]⟩)
      · intro x hx
        simp only [List.flatMap_cons, gone, List.singleton_append, List.mem_cons] at hx
        rcases hx with rfl | hx
        · rw [h4 _ hg.1 (hgd _ (by simp [gone])), Fds.close, if_pos rfl]
        · exact h3 x hx
      · intro x hx hxd
        simp only [List.flatMap_cons, gone, List.singleton_append, List.mem_cons, not_or] at hx
        rw [List.filterMap_cons_none (by rfl)] at hxd
        rw [h4 x hx.2 hxd, Fds.close, if_neg hx.1]
    | some p =>
      obtain ⟨s0, d0⟩ := p
      simp only [List.flatMap_cons, gone, List.cons_append, List.nil_append, List.nodup_cons, List.mem_cons,
        not_or] at hg
      rw [List.filterMap_cons_some (by rfl)] at hd hgd
      rw [List.nodup_cons] at hd
      obtain ⟨o0, ho0⟩ := ht c s0 d0 List.mem_cons_self
      have hs0 : (t.close c) s0 = some o0 := by
        rw [Fds.close, if_neg (fun h => hg.1.1 h.symm), ho0]
      have hd0c : d0 ≠ c := by
        rintro rfl
        exact hgd d0 (by simp [gone]) List.mem_cons_self
      have hd0s : d0 ≠ s0 := by
        rintro rfl
        exact hgd d0 (by simp [gone]) List.mem_cons_self
      generalize ht1 : ((t.close c).put d0 o0).close s0 = t1
      have t1v : ∀ x, x ≠ s0 → x ≠ d0 → x ≠ c → t1 x = t x := by
        intro x h1 h2 h3
        rw [← ht1, Fds.close, if_neg h1, Fds.put, if_neg h2, Fds.close, if_neg h3]
      have hne : ∀ x ∈ gs.flatMap gone, x ≠ s0 ∧ x ≠ d0 ∧ x ≠ c := by
        intro x hx
        refine ⟨?_, ?_, ?_⟩
        · rintro rfl; exact hg.2.1 hx
        · rintro rfl
          exact hgd x (by simp only [List.flatMap_cons, List.mem_append]; exact .inr hx) List.mem_cons_self
        · rintro rfl; exact hg.1.2 hx
      have hsm : ∀ c' s d, (c', some (s, d)) ∈ gs → s ∈ gs.flatMap gone := fun c' s d hm =>
        List.mem_flatMap.2 ⟨_, hm, by simp [gone]⟩
      obtain ⟨t', h1, h2, h3, h4⟩ := ih t1 hg.2.2 hd.2
        (fun x hx hc => hgd x (by simp only [List.flatMap_cons, List.mem_append]; exact .inr hx)
          (List.mem_cons_of_mem _ hc))
        (fun c' s d hm => by
          obtain ⟨o, ho⟩ := ht c' s d (List.mem_cons_of_mem _ hm)
          obtain ⟨a1, a2, a3⟩ := hne s (hsm c' s d hm)
          exact ⟨o, by rw [t1v s a1 a2 a3, ho]⟩)
      refine ⟨t', ?_, ?_, ?_, ?_⟩
      · simp only [group, runActions, hs0]
        rw [ht1]; exact h1
      · intro c' s d hm
        rcases List.mem_cons.1 hm with h | hm
        · simp only [Prod.mk.injEq, Option.some.injEq] at h
          obtain ⟨rfl, rfl, rfl⟩ := h
          have hng : d ∉ gs.flatMap gone := fun hx => (hne d hx).2.1 rfl
          rw [h4 d hng hd.1, ← ht1, Fds.close, if_neg hd0s, Fds.put, if_pos rfl, ho0]
        · obtain ⟨a1, a2, a3⟩ := hne s (hsm c' s d hm)
          rw [h2 c' s d hm, t1v s a1 a2 a3]
      · intro x hx
        simp only [List.flatMap_cons, gone, List.cons_append, List.nil_append, List.mem_cons] at hx
        have hxd : x ∉ gs.filterMap dest := fun hc =>
          hgd x (by simp only [List.flatMap_cons, gone, List.cons_append, List.nil_append, List.mem_cons]; exact hx)
            (List.mem_cons_of_mem _ hc)
        rcases hx with rfl | rfl | hx
        · rw [h4 _ hg.1.2 hxd, ← ht1, Fds.close]
          split
          · rfl
          · rw [Fds.put, if_neg (fun h => hd0c h.symm), Fds.close, if_pos rfl]
        · rw [h4 _ hg.2.1 hxd, ← ht1, Fds.close, if_pos rfl]
        · exact h3 x hx
      · intro x hx hxd
        simp only [List.flatMap_cons, gone, List.cons_append, List.nil_append, List.mem_cons, not_or] at hx
        rw [List.filterMap_cons_some (by rfl)] at hxd
        simp only [List.mem_cons, not_or] at hxd
        rw [h4 x hx.2.2 hxd.2, t1v x hx.2.1 hxd.1 hx.1]

/-- The groups of an input and of an output. -/
def inGroup (p : Port) : Nat × Option (Nat × Nat) := (p.w, if p.fd ≥ 0 then some (p.r, p.fd.toNat) else none)
def outGroup (p : Port) : Nat × Option (Nat × Nat) := (p.r, some (p.w, p.fd.toNat))

theorem inActions_eq (ps : List Port) : inActions ps = group (ps.map inGroup) := by
  induction ps with
  | nil => rfl
  | cons p ps ih =>
    rw [inActions, List.map_cons, inGroup]
    split
    · rw [group, ← ih]; rfl
    · rw [group, ← ih]; rfl

theorem outActions_eq (ps : List Port) (h : ∀ p ∈ ps, 0 ≤ p.fd) : outActions ps = some (group (ps.map outGroup)) := by
  induction ps with
  | nil => rfl
  | cons p ps ih =>
    rw [outActions, if_neg (by have := h p List.mem_cons_self; omega),
      ih (fun q hq => h q (List.mem_cons_of_mem _ hq))]
    rfl

/-- All descriptors of pipes. -/
def pipeFds (ins outs : List Port) : List Nat := ins.flatMap (fun p => [p.r, p.w]) ++ outs.flatMap (fun p => [p.r, p.w])

/-- The table of the caller before the process is made: the descriptors of the pipes refer to the pipes. -/
structure Ready (t : Fds) (ins outs : List Port) : Prop where
  inR : ∀ i x, t x = some (.inR i) ↔ ∃ p, ins[i]? = some p ∧ x = p.r
  inW : ∀ i x, t x = some (.inW i) ↔ ∃ p, ins[i]? = some p ∧ x = p.w
  outR : ∀ j x, t x = some (.outR j) ↔ ∃ p, outs[j]? = some p ∧ x = p.r
  outW : ∀ j x, t x = some (.outW j) ↔ ∃ p, outs[j]? = some p ∧ x = p.w
  nodup : (pipeFds ins outs).Nodup

/-- The descriptors asked for. -/
def wanted (ins outs : List Port) : List Int := (ins.map (·.fd)).filter (fun fd => decide (0 ≤ fd)) ++ outs.map (·.fd)

theorem gone_in (ps : List Port) : ∀ x ∈ (ps.map inGroup).flatMap gone, x ∈ ps.flatMap (fun p => [p.r, p.w]) := by
  intro x hx
  simp only [List.mem_flatMap, List.mem_map] at hx ⊢
  obtain ⟨_, ⟨p, hp, rfl⟩, hx⟩ := hx
  refine ⟨p, hp, ?_⟩
  rw [inGroup] at hx
  split at hx
  · simp only [gone, List.mem_cons, List.not_mem_nil, or_false] at hx ⊢
    exact hx.symm
  · simp only [gone, List.mem_cons, List.not_mem_nil, or_false] at hx ⊢
    exact .inr hx

theorem gone_out (ps : List Port) : ∀ x ∈ (ps.map outGroup).flatMap gone, x ∈ ps.flatMap (fun p => [p.r, p.w]) := by
  intro x hx
  simp only [List.mem_flatMap, List.mem_map] at hx ⊢
  obtain ⟨_, ⟨p, hp, rfl⟩, hx⟩ := hx
  exact ⟨p, hp, hx⟩

theorem gone_nodup_in (ps : List Port) (h : (ps.flatMap (fun p => [p.r, p.w])).Nodup) :
    ((ps.map inGroup).flatMap gone).Nodup := by
  induction ps with
  | nil => exact h
  | cons p ps ih =>
    simp only [List.flatMap_cons, List.cons_append, List.nil_append, List.nodup_cons, List.mem_cons, not_or] at h
    have h1 := ih h.2.2
    have h2 : p.w ∉ (ps.map inGroup).flatMap gone := fun hc => h.2.1 (gone_in ps _ hc)
    have h3 : p.r ∉ (ps.map inGroup).flatMap gone := fun hc => h.1.2 (gone_in ps _ hc)
    rw [List.map_cons, List.flatMap_cons, inGroup]
    split
    · simp only [gone, List.cons_append, List.nil_append, List.nodup_cons, List.mem_cons, not_or]
      exact ⟨⟨fun e => h.1.1 e.symm, h2⟩, h3, h1⟩
    · simp only [gone, List.cons_append, List.nil_append, List.nodup_cons]
      exact ⟨h2, h1⟩

theorem gone_eq_out (ps : List Port) : (ps.map outGroup).flatMap gone = ps.flatMap (fun p => [p.r, p.w]) := by
  induction ps with
  | nil => rfl
  | cons p ps ih => rw [List.map_cons, List.flatMap_cons, List.flatMap_cons, ih]; rfl

theorem dest_in (ps : List Port) :
    (ps.map inGroup).filterMap dest = ((ps.map (·.fd)).filter (fun fd => decide (0 ≤ fd))).map Int.toNat := by
  induction ps with
  | nil => rfl
  | cons p ps ih =>
    simp only [List.map_cons, List.filterMap_cons, List.filter_cons, ih, inGroup]
    by_cases h : 0 ≤ p.fd <;> simp [dest, h, ge_iff_le]

theorem dest_out (ps : List Port) : (ps.map outGroup).filterMap dest = (ps.map (·.fd)).map Int.toNat := by
  induction ps with
  | nil => rfl
  | cons p ps ih =>
    simp only [List.map_cons, List.filterMap_cons, ih, outGroup, dest]

theorem nodup_toNat (l : List Int) (h : ∀ x ∈ l, 0 ≤ x) (hn : l.Nodup) : (l.map Int.toNat).Nodup := by
  induction l with
  | nil => simp
  | cons a l ih =>
    rw [List.nodup_cons] at hn
    rw [List.map_cons, List.nodup_cons]
    refine ⟨fun hc => ?_, ih (fun x hx => h x (List.mem_cons_of_mem _ hx)) hn.2⟩
    obtain ⟨b, hb, he⟩ := List.mem_map.1 hc
    have h1 := h a List.mem_cons_self
    have h2 := h b (List.mem_cons_of_mem _ hb)
    have : a = b := by omega
    exact hn.1 (this ▸ hb)

/-- C92: if the descriptors asked for are all different, are no descriptors of the pipes, and those of outputs are not
negative, then in the new process the descriptor asked for input `i` is the read end of its pipe (for a negative one: the
number put in place of `$$i`), the one asked for output `j` is the write end of its pipe; the process has no
other descriptor of these pipes, so that it sees the end of each input as soon as the caller closes it, and the caller
sees the end of each output; and all other descriptors are as those of the caller. -/
theorem C92_child_partial (t : Fds) (ins outs : List Port) (hr : Ready t ins outs)
    (ho : ∀ p ∈ outs, 0 ≤ p.fd) (hw : (wanted ins outs).Nodup)
    (hp : ∀ x ∈ pipeFds ins outs, (x : Int) ∉ wanted ins outs) :
    ∃ t', childFds t ins outs = some t' ∧
      (∀ (i : Nat) (p : Port) (x : Nat), ins[i]? = some p →
        (t' x = some (.inR i) ↔ (0 ≤ p.fd ∧ (x : Int) = p.fd) ∨ (p.fd < 0 ∧ x = p.r))) ∧
      (∀ (j : Nat) (p : Port) (x : Nat), outs[j]? = some p → (t' x = some (.outW j) ↔ (x : Int) = p.fd)) ∧
      (∀ i x, t' x ≠ some (.inW i)) ∧ (∀ j x, t' x ≠ some (.outR j)) ∧
      ∀ x, x ∉ pipeFds ins outs → (x : Int) ∉ wanted ins outs → t' x = t x := by
  have hwpos : ∀ x ∈ wanted ins outs, 0 ≤ x := by
    intro x hx
    rcases List.mem_append.1 hx with hx | hx
    · simpa using (List.mem_filter.1 hx).2
    · obtain ⟨p, hp, rfl⟩ := List.mem_map.1 hx; exact ho p hp
  have hnd := hr.nodup
  unfold pipeFds at hnd
  rw [List.nodup_append] at hnd
  have hdst : ((ins.map inGroup) ++ outs.map outGroup).filterMap dest = (wanted ins outs).map Int.toNat := by
    rw [List.filterMap_append, dest_in, dest_out, wanted, List.map_append]
  have hgone : ∀ x ∈ ((ins.map inGroup) ++ outs.map outGroup).flatMap gone, x ∈ pipeFds ins outs := by
    intro x hx
    rw [List.flatMap_append] at hx
    rcases List.mem_append.1 hx with hx | hx
    · exact List.mem_append_left _ (gone_in ins x hx)
    · exact List.mem_append_right _ (gone_out outs x hx)
  have hdm : ∀ x : Nat, x ∈ ((ins.map inGroup) ++ outs.map outGroup).filterMap dest ↔ (x : Int) ∈ wanted ins outs := by
    intro x
    rw [hdst, List.mem_map]
    constructor
    · rintro ⟨y, hy, rfl⟩
      rw [Int.toNat_of_nonneg (hwpos y hy)]; exact hy
    · intro hx; exact ⟨_, hx, by simp⟩
  obtain ⟨t', h1, h2, h3, h4⟩ := run_group ((ins.map inGroup) ++ outs.map outGroup) t
    (by
      rw [List.flatMap_append, List.nodup_append]
      refine ⟨gone_nodup_in ins hnd.1, by rw [gone_eq_out]; exact hnd.2.1, ?_⟩
      intro a ha b hb
      exact hnd.2.2 a (gone_in ins a ha) b (gone_out outs b hb))
    (by rw [hdst]; exact nodup_toNat _ hwpos hw)
    (by intro x hx hc; exact hp x (hgone x hx) ((hdm x).1 hc))
    (by
      intro c s d hm
      rcases List.mem_append.1 hm with hm | hm
      · obtain ⟨p, hpm, he⟩ := List.mem_map.1 hm
        obtain ⟨i, hi⟩ := List.mem_iff_getElem?.1 hpm
        rw [inGroup] at he
        split at he
        · simp only [Prod.mk.injEq, Option.some.injEq] at he
          exact ⟨_, he.2.1 ▸ (hr.inR i p.r).2 ⟨p, hi, rfl⟩⟩
        · simp at he
      · obtain ⟨p, hpm, he⟩ := List.mem_map.1 hm
        obtain ⟨j, hj⟩ := List.mem_iff_getElem?.1 hpm
        simp only [outGroup, Prod.mk.injEq, Option.some.injEq] at he
        exact ⟨_, he.2.1 ▸ (hr.outW j p.w).2 ⟨p, hj, rfl⟩⟩)
  have hin : ∀ (i : Nat) (p : Port), ins[i]? = some p → 0 ≤ p.fd → t' p.fd.toNat = some (.inR i) := by
    intro i p hi hfd
    have hm : (p.w, some (p.r, p.fd.toNat)) ∈ (ins.map inGroup) ++ outs.map outGroup := by
      refine List.mem_append_left _ (List.mem_map.2 ⟨p, List.mem_of_getElem? hi, ?_⟩)
      rw [inGroup, if_pos hfd]
    rw [h2 _ _ _ hm, (hr.inR i p.r).2 ⟨p, hi, rfl⟩]
  have hout : ∀ (j : Nat) (p : Port), outs[j]? = some p → t' p.fd.toNat = some (.outW j) := by
    intro j p hj
    have hm : (p.r, some (p.w, p.fd.toNat)) ∈ (ins.map inGroup) ++ outs.map outGroup :=
      List.mem_append_right _ (List.mem_map.2 ⟨p, List.mem_of_getElem? hj, rfl⟩)
    rw [h2 _ _ _ hm, (hr.outW j p.w).2 ⟨p, hj, rfl⟩]
  -- every descriptor of the new process comes from one of three places
  have hcase : ∀ x o, t' x = some o →
      (∃ (i : Nat) (p : Port), ins[i]? = some p ∧ 0 ≤ p.fd ∧ (x : Int) = p.fd ∧ o = .inR i) ∨
      (∃ (j : Nat) (p : Port), outs[j]? = some p ∧ (x : Int) = p.fd ∧ o = .outW j) ∨
      ((x : Int) ∉ wanted ins outs ∧ x ∉ ((ins.map inGroup) ++ outs.map outGroup).flatMap gone ∧ t x = some o) := by
    intro x o hx
    by_cases hxg : x ∈ ((ins.map inGroup) ++ outs.map outGroup).flatMap gone
    · rw [h3 x hxg] at hx; cases hx
    by_cases hxw : (x : Int) ∈ wanted ins outs
    · rcases List.mem_append.1 hxw with hm | hm
      · obtain ⟨hm, h0⟩ := List.mem_filter.1 hm
        obtain ⟨p, hpm, he⟩ := List.mem_map.1 hm
        obtain ⟨i, hi⟩ := List.mem_iff_getElem?.1 hpm
        have h0 : 0 ≤ p.fd := by rw [he]; omega
        refine .inl ⟨i, p, hi, h0, he.symm, ?_⟩
        have := hin i p hi h0
        rw [show p.fd.toNat = x by omega, hx] at this
        exact Option.some.inj this
      · obtain ⟨p, hpm, he⟩ := List.mem_map.1 hm
        obtain ⟨j, hj⟩ := List.mem_iff_getElem?.1 hpm
        refine .inr (.inl ⟨j, p, hj, he.symm, ?_⟩)
        have := hout j p hj
        rw [show p.fd.toNat = x by omega, hx] at this
        exact Option.some.inj this
    · refine .inr (.inr ⟨hxw, hxg, ?_⟩)
      rw [← h4 x hxg (fun hc => hxw ((hdm x).1 hc))]; exact hx
  have hgw : ∀ p ∈ ins, p.w ∈ ((ins.map inGroup) ++ outs.map outGroup).flatMap gone := by
    intro p hpm
    refine List.mem_flatMap.2 ⟨_, List.mem_append_left _ (List.mem_map.2 ⟨p, hpm, rfl⟩), ?_⟩
    rw [inGroup]; split <;> simp [gone]
  have hgr : ∀ p ∈ outs, p.r ∈ ((ins.map inGroup) ++ outs.map outGroup).flatMap gone ∧
      p.w ∈ ((ins.map inGroup) ++ outs.map outGroup).flatMap gone := by
    intro p hpm
    exact ⟨List.mem_flatMap.2 ⟨_, List.mem_append_right _ (List.mem_map.2 ⟨p, hpm, rfl⟩), by simp [outGroup, gone]⟩,
      List.mem_flatMap.2 ⟨_, List.mem_append_right _ (List.mem_map.2 ⟨p, hpm, rfl⟩), by simp [outGroup, gone]⟩⟩
  refine ⟨t', ?_, ?_, ?_, ?_, ?_, ?_⟩
  · rw [childFds, outActions_eq outs ho, Option.bind_some, inActions_eq, ← group_append]; exact h1
  · intro i p x hi
    constructor
    · intro hx
      rcases hcase x _ hx with ⟨i', p', hi', h0, he, ho'⟩ | ⟨j, p', hj, he, ho'⟩ | ⟨hxw, hxg, ht⟩
      · obtain rfl : i = i' := by simpa using ho'
        rw [hi] at hi'; obtain rfl := Option.some.inj hi'
        exact .inl ⟨h0, he⟩
      · cases ho'
      · obtain ⟨p', hi', rfl⟩ := (hr.inR i x).1 ht
        rw [hi] at hi'; obtain rfl := Option.some.inj hi'
        refine .inr ⟨?_, rfl⟩
        apply Classical.byContradiction
        intro hge
        refine hxg (List.mem_flatMap.2 ⟨_, List.mem_append_left _ (List.mem_map.2 ⟨p, List.mem_of_getElem? hi, rfl⟩), ?_⟩)
        rw [inGroup, if_pos (by omega)]; simp [gone]
    · rintro (⟨h0, he⟩ | ⟨h0, rfl⟩)
      · have := hin i p hi h0
        rwa [show p.fd.toNat = x by omega] at this
      · have hpm := List.mem_of_getElem? hi
        have hxp : p.r ∈ pipeFds ins outs :=
          List.mem_append_left _ (List.mem_flatMap.2 ⟨p, hpm, by simp⟩)
        rw [h4 p.r ?_ (fun hc => hp _ hxp ((hdm _).1 hc))]
        · exact (hr.inR i p.r).2 ⟨p, hi, rfl⟩
        · -- not closed: the only group with this descriptor does not close it
          intro hc
          have hrt := (hr.inR i p.r).2 ⟨p, hi, rfl⟩
          obtain ⟨g, hg, hx⟩ := List.mem_flatMap.1 hc
          rcases List.mem_append.1 hg with hg | hg
          · obtain ⟨q, hq, rfl⟩ := List.mem_map.1 hg
            obtain ⟨k, hk⟩ := List.mem_iff_getElem?.1 hq
            have hqw := (hr.inW k q.w).2 ⟨q, hk, rfl⟩
            have hqr := (hr.inR k q.r).2 ⟨q, hk, rfl⟩
            rw [inGroup] at hx
            split at hx
            · rename_i hge
              simp only [gone, List.mem_cons, List.not_mem_nil, or_false] at hx
              rcases hx with e | e
              · rw [← e, hrt] at hqw; cases hqw
              · rw [← e, hrt] at hqr
                obtain rfl : i = k := by simpa using hqr
                rw [hi] at hk; obtain rfl := Option.some.inj hk
                omega
            · simp only [gone, List.mem_cons, List.not_mem_nil, or_false] at hx
              rw [← hx, hrt] at hqw; cases hqw
          · obtain ⟨q, hq, rfl⟩ := List.mem_map.1 hg
            obtain ⟨k, hk⟩ := List.mem_iff_getElem?.1 hq
            have hqw := (hr.outW k q.w).2 ⟨q, hk, rfl⟩
            have hqr := (hr.outR k q.r).2 ⟨q, hk, rfl⟩
            simp only [outGroup, gone, List.mem_cons, List.not_mem_nil, or_false] at hx
            rcases hx with e | e
            · rw [← e, hrt] at hqr; cases hqr
            · rw [← e, hrt] at hqw; cases hqw
  · intro j p x hj
    constructor
    · intro hx
      rcases hcase x _ hx with ⟨i', p', hi', h0, he, ho'⟩ | ⟨j', p', hj', he, ho'⟩ | ⟨hxw, hxg, ht⟩
      · cases ho'
      · obtain rfl : j = j' := by simpa using ho'
        rw [hj] at hj'; obtain rfl := Option.some.inj hj'
        exact he
      · obtain ⟨p', hj', rfl⟩ := (hr.outW j x).1 ht
        exact absurd (hgr p' (List.mem_of_getElem? hj')).2 hxg
    · intro he
      have := hout j p hj
      rwa [show p.fd.toNat = x by omega] at this
  · intro i x hx
    rcases hcase x _ hx with ⟨_, _, _, _, _, ho'⟩ | ⟨_, _, _, _, ho'⟩ | ⟨hxw, hxg, ht⟩
    · cases ho'
    · cases ho'
    · obtain ⟨p', hj', rfl⟩ := (hr.inW i x).1 ht
      exact absurd (hgw p' (List.mem_of_getElem? hj')) hxg
  · intro j x hx
    rcases hcase x _ hx with ⟨_, _, _, _, _, ho'⟩ | ⟨_, _, _, _, ho'⟩ | ⟨hxw, hxg, ht⟩
    · cases ho'
    · cases ho'
    · obtain ⟨p', hj', rfl⟩ := (hr.outR j x).1 ht
      exact absurd (hgr p' (List.mem_of_getElem? hj')).1 hxg
  · intro x hx hxw
    exact h4 x (fun hc => hx (hgone x hc)) (fun hc => hxw ((hdm x).1 hc))

/-- C92: no process is made if an output is asked for at a negative descriptor, whatever else is asked for. -/
theorem C92_negative (t : Fds) (ins outs : List Port) (h : ∃ p ∈ outs, p.fd < 0) : childFds t ins outs = none := by
  have : outActions outs = none := by
    induction outs with
    | nil => simp at h
    | cons q outs ih =>
      rw [outActions]
      split
      · rfl
      · next hq =>
        obtain ⟨p, hp, hn⟩ := h
        rcases List.mem_cons.1 hp with rfl | hp
        · exact absurd hn hq
        · rw [ih ⟨p, hp, hn⟩]
          rfl
  rw [childFds, this]
  rfl

example : ∃ p ∈ [(⟨1, 3, 4⟩ : Port), ⟨-1, 5, 6⟩], p.fd < 0 := ⟨⟨-1, 5, 6⟩, by simp, by decide⟩

/-- C92 fails if a descriptor asked for is the end of the pipe made for it, whatever else is open: it is duplicated to
itself and then closed, and the process has no input or output. -/
theorem C92_closed_violated (t : Fds) (p : Port) :
    (Ready t [p] [] → p.fd = p.r → ∃ t', childFds t [p] [] = some t' ∧ t' p.r = none ∧ ∀ x, t' x ≠ some (.inR 0)) ∧
    (Ready t [] [p] → p.fd = p.w → ∃ t', childFds t [] [p] = some t' ∧ t' p.w = none ∧ ∀ x, t' x ≠ some (.outW 0)) := by
  constructor
  · intro hr hf
    have h1 : t p.r = some (.inR 0) := (hr.inR 0 p.r).2 ⟨p, rfl, rfl⟩
    have hn : p.r ≠ p.w := by simpa [pipeFds] using hr.nodup
    have hc : (t.close p.w) p.r = some (.inR 0) := by rw [Fds.close, if_neg hn, h1]
    refine ⟨((t.close p.w).put p.r (.inR 0)).close p.r, ?_, by simp [Fds.close], fun x => ?_⟩
    · simp [childFds, outActions, inActions, runActions, hf, hc]
    · simp only [Fds.close, Fds.put]
      split
      · simp
      · split
        · simp
        · intro h
          obtain ⟨q, hq, rfl⟩ := (hr.inR 0 x).1 h
          cases hq
          contradiction
  · intro hr hf
    have h1 : t p.w = some (.outW 0) := (hr.outW 0 p.w).2 ⟨p, rfl, rfl⟩
    have hn : p.r ≠ p.w := by simpa [pipeFds] using hr.nodup
    have hc : (t.close p.r) p.w = some (.outW 0) := by rw [Fds.close, if_neg hn.symm, h1]
    refine ⟨((t.close p.r).put p.w (.outW 0)).close p.w, ?_, by simp [Fds.close], fun x => ?_⟩
    · have h0 : ¬ ((p.w : Int) < 0) := by omega
      simp [childFds, outActions, inActions, hf, if_neg h0, runActions, hc]
    · simp only [Fds.close, Fds.put]
      split
      · simp
      · split
        · simp
        · intro h
          obtain ⟨q, hq, rfl⟩ := (hr.outW 0 x).1 h
          cases hq
          contradiction

/-- The caller runs with its standard input closed, so that the pipe of the input for descriptor 0 is (0, 3). -/
example : ∃ (t : Fds) (p : Port), Ready t [p] [] ∧ p.fd = 0 ∧ (wanted [p] []).Nodup ∧
    ∃ t', childFds t [p] [] = some t' ∧ t' 0 = none := by
  refine ⟨fun x => if x = 0 then some (.inR 0) else if x = 3 then some (.inW 0) else none, ⟨0, 0, 3⟩, ?_, rfl,
    by decide, _, rfl, rfl⟩
  constructor
  · intro i x
    cases i with
    | zero =>
      simp only [List.getElem?_cons_zero, Option.some.injEq, exists_eq_left']
      by_cases h : x = 0
      · simp [h]
      · by_cases h3 : x = 3 <;> simp [h, h3]
    | succ i =>
      by_cases h : x = 0
      · simp [h]
      · by_cases h3 : x = 3 <;> simp [h, h3]
  · intro i x
    cases i with
    | zero =>
      by_cases h : x = 0
      · simp [h]
      · by_cases h3 : x = 3 <;> simp [h, h3]
    | succ i =>
      by_cases h : x = 0
      · simp [h]
      · by_cases h3 : x = 3 <;> simp [h, h3]
  · intro i x
    by_cases h : x = 0
    · simp [h]
    · by_cases h3 : x = 3 <;> simp [h, h3]
  · intro i x
    by_cases h : x = 0
    · simp [h]
    · by_cases h3 : x = 3 <;> simp [h, h3]
  · decide

/-- C92: the descriptor asked for the first input is the reading end of the pipe made for the second, whatever else is
open: the process is made, the second input has what was meant for the first, and the data of the second is lost. -/
theorem C92_swapped_violated (t : Fds) (p q : Port) (hr : Ready t [p, q] []) (hp : p.fd = q.r) (hq : 0 ≤ q.fd)
    (hf : ∀ x ∈ pipeFds [p, q] [], (x : Int) ≠ q.fd) :
    ∃ t', childFds t [p, q] [] = some t' ∧ t' q.fd.toNat = some (.inR 0) ∧ t' q.r = none ∧
      ∀ x, t' x ≠ some (.inR 1) := by
  have h1 : t p.r = some (.inR 0) := (hr.inR 0 p.r).2 ⟨p, rfl, rfl⟩
  have hn := hr.nodup
  simp only [pipeFds, List.flatMap_cons, List.flatMap_nil, List.append_nil, List.cons_append, List.nil_append,
    List.nodup_cons, List.mem_cons, List.not_mem_nil, or_false, not_or] at hn
  obtain ⟨⟨n1, n2, n3⟩, ⟨n4, n5⟩, n6, -⟩ := hn
  have hqf : ∀ x ∈ pipeFds [p, q] [], x ≠ q.fd.toNat := fun x hx e => hf x hx (by omega)
  simp only [pipeFds, List.flatMap_cons, List.flatMap_nil, List.append_nil, List.cons_append, List.nil_append,
    List.mem_cons, List.not_mem_nil, or_false, forall_eq_or_imp, forall_eq] at hqf
  obtain ⟨f1, f2, f3, f4⟩ := hqf
  have hc : (t.close p.w) p.r = some (.inR 0) := by rw [Fds.close, if_neg n1, h1]
  have hc2 : (((((t.close p.w).put q.r (.inR 0)).close p.r).close q.w)) q.r = some (.inR 0) := by
    simp only [Fds.close, Fds.put]
    rw [if_neg n6, if_neg (fun e => n2 e.symm), if_pos trivial]
  refine ⟨(((((t.close p.w).put q.r (.inR 0)).close p.r).close q.w).put q.fd.toNat (.inR 0)).close q.r, ?_, ?_,
    by simp [Fds.close], fun x => ?_⟩
  · have g1 : p.fd ≥ 0 := by omega
    have g2 : p.fd.toNat = q.r := by omega
    have g3 : q.fd ≥ 0 := hq
    simp only [childFds, outActions, inActions, if_pos g1, if_pos g3, g2, Option.bind_some, List.cons_append,
      List.nil_append, List.append_nil, runActions, hc, hc2]
  · simp only [Fds.close, Fds.put]
    rw [if_neg (fun e => f3 e.symm), if_pos trivial]
  · simp only [Fds.close, Fds.put]
    repeat' split
    all_goals try simp
    intro h
    obtain ⟨a, ha, rfl⟩ := (hr.inR 1 x).1 h
    cases ha
    contradiction

/-- Two inputs for 5 and 0 whose pipes are (3, 4) and (5, 6). -/
example : ∃ t : Fds, Ready t [⟨5, 3, 4⟩, ⟨0, 5, 6⟩] [] ∧ ∀ x ∈ pipeFds [⟨5, 3, 4⟩, ⟨0, 5, 6⟩] [], (x : Int) ≠ 0 := by
  refine ⟨fun x => if x = 3 then some (.inR 0) else if x = 4 then some (.inW 0) else if x = 5 then some (.inR 1)
    else if x = 6 then some (.inW 1) else none, ⟨?_, ?_, ?_, ?_, by decide⟩, by decide⟩
  all_goals
    intro i x
    rcases i with _ | _ | i
    all_goals
      by_cases h3 : x = 3
      · simp [h3]
      by_cases h4 : x = 4
      · simp [h4]
      by_cases h5 : x = 5
      · simp [h5]
      by_cases h6 : x = 6
      · simp [h6]
      simp [h3, h4, h5, h6]

/-- The usual case meets the hypotheses of `C92_child_partial`: one input and two outputs for the standard descriptors. -/
example : childFds
      (fun x => [some (.other 0), some (.other 1), some (.other 2), some (.inR 0), some (.inW 0), some (.outR 0),
        some (.outW 0), some (.outR 1), some (.outW 1)].getD x none)
      [⟨0, 3, 4⟩] [⟨1, 5, 6⟩, ⟨2, 7, 8⟩] ≠ none ∧
    (wanted [⟨0, 3, 4⟩] [⟨1, 5, 6⟩, ⟨2, 7, 8⟩]).Nodup ∧
    ∀ x ∈ pipeFds [⟨0, 3, 4⟩] [⟨1, 5, 6⟩, ⟨2, 7, 8⟩], (x : Int) ∉ wanted [⟨0, 3, 4⟩] [⟨1, 5, 6⟩, ⟨2, 7, 8⟩] :=
  ⟨nofun, by decide, by decide⟩

/-! ## C93 -/

theorem runEvs_append (t : Fds) (l l' : List Ev) : runEvs t (l ++ l') = (runEvs t l).bind fun t => runEvs t l' := by
  induction l generalizing t with
  | nil => rfl
  | cons e l ih =>
    simp only [List.cons_append, runEvs]
    cases e.run t with
    | none => rfl
    | some t1 => exact ih t1

/-- What the caller asked for: events of other threads only. -/
def isOurs : Ev → Bool
  | .ours _ => true
  | _ => false

def evFd : Ev → Nat
  | .ours fd => fd
  | .opens fd _ => fd
  | .theirs fd => fd

theorem runEvs_other (l : List Ev) (t t' : Fds) (h : runEvs t l = some t') (S : Nat → Prop)
    (ho : ∀ e ∈ l, isOurs e = true → S (evFd e))
    (ho' : ∀ e ∈ l, isOurs e = false → ¬ S (evFd e)) (u : Fds) (hu : ∀ x, ¬ S x → u x = t x) :
    ∃ u', runEvs u (l.filter fun e => !isOurs e) = some u' ∧ ∀ x, ¬ S x → u' x = t' x := by
  induction l generalizing t u with
  | nil => obtain rfl := Option.some.inj h; exact ⟨u, rfl, hu⟩
  | cons e l ih =>
    rw [runEvs] at h
    obtain ⟨t1, h1, h2⟩ := Option.bind_eq_some_iff.1 h
    have ih := fun u hu => ih t1 h2 (fun e he => ho e (List.mem_cons_of_mem _ he))
      (fun e he => ho' e (List.mem_cons_of_mem _ he)) u hu
    cases e with
    | ours fd =>
      rw [List.filter_cons_of_neg (by simp [isOurs])]
      obtain rfl := Option.some.inj h1
      refine ih u fun x hx => ?_
      rw [hu x hx, Fds.close, if_neg]
      rintro rfl
      exact hx (ho _ List.mem_cons_self rfl)
    | opens fd n =>
      rw [List.filter_cons_of_pos (by simp [isOurs])]
      have hfd := ho' _ List.mem_cons_self rfl
      simp only [evFd] at hfd
      simp only [Ev.run] at h1
      split at h1
      · rename_i hn
        obtain rfl := Option.some.inj h1
        obtain ⟨u', h3, h4⟩ := ih (u.put fd (.other n)) (fun x hx => by
          simp only [Fds.put]; split
          · rfl
          · exact hu x hx)
        refine ⟨u', ?_, h4⟩
        rw [runEvs, Ev.run, if_pos (by rw [hu fd hfd]; exact hn)]
        exact h3
      · cases h1
    | theirs fd =>
      rw [List.filter_cons_of_pos (by simp [isOurs])]
      obtain rfl := Option.some.inj h1
      obtain ⟨u', h3, h4⟩ := ih (u.close fd) (fun x hx => by
        simp only [Fds.close]; split
        · rfl
        · exact hu x hx)
      exact ⟨u', h3, h4⟩

theorem runEvs_closed (l : List Ev) (t t' : Fds) (h : runEvs t l = some t') (x : Nat)
    (hx : ∀ e ∈ l, isOurs e = false → evFd e ≠ x) :
    t' x = if .ours x ∈ l then none else t x := by
  induction l generalizing t with
  | nil => obtain rfl := Option.some.inj h; simp
  | cons e l ih =>
    rw [runEvs] at h
    obtain ⟨t1, h1, h2⟩ := Option.bind_eq_some_iff.1 h
    have ih := ih t1 h2 (fun e he => hx e (List.mem_cons_of_mem _ he))
    rw [ih]
    by_cases hm : Ev.ours x ∈ l
    · rw [if_pos hm, if_pos (List.mem_cons_of_mem _ hm)]
    · rw [if_neg hm]
      cases e with
      | ours fd =>
        obtain rfl := Option.some.inj h1
        by_cases hf : x = fd
        · subst hf; simp [Fds.close]
        · rw [Fds.close, if_neg hf, if_neg]; simp [hm, hf]
      | opens fd n =>
        have hne := hx _ List.mem_cons_self rfl
        simp only [evFd] at hne
        simp only [Ev.run] at h1
        split at h1
        · obtain rfl := Option.some.inj h1
          rw [Fds.put, if_neg (fun h => hne h.symm), if_neg]; simp [hm]
        · cases h1
      | theirs fd =>
        have hne := hx _ List.mem_cons_self rfl
        simp only [evFd] at hne
        obtain rfl := Option.some.inj h1
        rw [Fds.close, if_neg (fun h => hne h.symm), if_neg]; simp [hm]

/-- The numbers closed by `unix_system` in a list of events. -/
def ourClosings (l : List Ev) : List Nat := l.filterMap fun e => match e with
  | .ours fd => some fd
  | _ => none

/-- C93: whatever other threads open and close meanwhile, as long as the system does not give them the numbers of the
pipes: afterwards all descriptors of the pipes are closed, and every other one is as if `unix_system` had not been
called, in whatever way the threads end. -/
theorem C93_caller_partial (t t' : Fds) (ins outs : List Port) (threads : List Nat) (l : List Ev)
    (hth : ∀ x ∈ threads, x ∈ pipeFds ins outs)
    (hl : ourClosings l = closings ins outs threads)
    (hf : ∀ e ∈ l, isOurs e = false → evFd e ∉ pipeFds ins outs)
    (hr : runEvs t l = some t') :
    (∀ x ∈ pipeFds ins outs, t' x = none) ∧
    ∃ u, runEvs t (l.filter fun e => !isOurs e) = some u ∧ ∀ x, x ∉ pipeFds ins outs → t' x = u x := by
  have hmem : ∀ x, Ev.ours x ∈ l ↔ x ∈ closings ins outs threads := by
    intro x
    rw [← hl, ourClosings, List.mem_filterMap]
    constructor
    · intro h; exact ⟨_, h, rfl⟩
    · rintro ⟨e, he, hx⟩
      cases e with
      | ours fd => simp only [Option.some.injEq] at hx; rw [← hx]; exact he
      | opens fd n => simp at hx
      | theirs fd => simp at hx
  have hsub : ∀ x, x ∈ closings ins outs threads ↔ x ∈ pipeFds ins outs := by
    intro x
    simp only [closings, pipeFds, List.mem_append, List.mem_map, List.mem_flatMap, List.mem_cons, List.mem_reverse,
      List.not_mem_nil, or_false]
    constructor
    · rintro ((((⟨p, hp, rfl⟩ | ⟨p, hp, rfl⟩) | hx) | ⟨p, hp, hx⟩) | ⟨p, hp, hx⟩)
      · exact .inl ⟨p, hp, .inl rfl⟩
      · exact .inr ⟨p, hp, .inr rfl⟩
      · have := hth x hx
        simpa only [pipeFds, List.mem_append, List.mem_flatMap, List.mem_cons, List.not_mem_nil, or_false] using this
      · exact .inr ⟨p, hp, hx⟩
      · exact .inl ⟨p, hp, hx⟩
    · rintro (⟨p, hp, hx⟩ | ⟨p, hp, hx⟩)
      · exact .inr ⟨p, hp, hx⟩
      · exact .inl (.inr ⟨p, hp, hx⟩)
  constructor
  · intro x hx
    rw [runEvs_closed l t t' hr x (fun e he ho hc => hf e he ho (hc ▸ hx)), if_pos ((hmem x).2 ((hsub x).2 hx))]
  · obtain ⟨u, h1, h2⟩ := runEvs_other l t t' hr (fun x => x ∈ pipeFds ins outs)
      (fun e he ho => by
        cases e with
        | ours fd => exact (hsub fd).1 ((hmem fd).1 he)
        | opens fd n => simp [isOurs] at ho
        | theirs fd => simp [isOurs] at ho)
      hf t (fun _ _ => rfl)
    exact ⟨u, h1, fun x hx => (h2 x hx).symm⟩

/-- C93 fails in a program with other threads: each end of a pipe is closed twice, and a file that another thread has
opened in between (under the number that has become free) is closed. -/
theorem C93_threads_violated : ∃ (t t' : Fds) (p : Port) (l : List Ev), Ready t [p] [] ∧
    ourClosings l = closings [p] [] [p.w] ∧ runEvs t l = some t' ∧
    .opens p.r 7 ∈ l ∧ .theirs p.r ∉ l ∧ t' p.r = none := by
  refine ⟨fun x => if x = 3 then some (.inR 0) else if x = 4 then some (.inW 0) else none, _, ⟨0, 3, 4⟩,
    [.ours 3, .opens 3 7, .ours 4, .ours 3, .ours 4], ?_, rfl, rfl, by simp, by simp, rfl⟩
  constructor
  · intro i x
    cases i with
    | zero =>
      by_cases h : x = 3
      · simp [h]
      · by_cases h3 : x = 4 <;> simp [h, h3]
    | succ i =>
      by_cases h : x = 3
      · simp [h]
      · by_cases h3 : x = 4 <;> simp [h, h3]
  · intro i x
    cases i with
    | zero =>
      by_cases h : x = 3
      · simp [h]
      · by_cases h3 : x = 4 <;> simp [h, h3]
    | succ i =>
      by_cases h : x = 3
      · simp [h]
      · by_cases h3 : x = 4 <;> simp [h, h3]
  · intro i x
    by_cases h : x = 3
    · simp [h]
    · by_cases h3 : x = 4 <;> simp [h, h3]
  · intro i x
    by_cases h : x = 3
    · simp [h]
    · by_cases h3 : x = 4 <;> simp [h, h3]
  · decide

/-- Events as in `C93_caller_partial`: another thread opens 5 and 6 and closes 5 again. -/
example : ∃ t', runEvs (fun x => if x = 3 then some (.inR 0) else if x = 4 then some (.inW 0) else none)
    [.opens 5 1, .ours 3, .opens 6 2, .ours 4, .theirs 5, .ours 3, .ours 4] = some t' ∧
    ourClosings [.opens 5 1, .ours 3, .opens 6 2, .ours 4, .theirs 5, .ours 3, .ours 4] = closings [⟨0, 3, 4⟩] [] [4] ∧
    t' 6 = some (.other 2) := ⟨_, rfl, rfl, rfl⟩

end Lolly.SpawnProps
