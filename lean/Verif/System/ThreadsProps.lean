import Verif.System.Threads

set_option autoImplicit false

/-!
# Property C146: threads that use the library at the same time
-/

namespace Lolly.ThreadsProps

open Threads

/-! ## Counts of handles -/

section
open Counts

/-- A thread that holds `n` handles only names handles that it has. -/
def LegalC : Nat → List Counts.Call → Prop
  | _, [] => True
  | n, .copy k :: c => k < n ∧ LegalC (n + 1) c
  | n, .drop k :: c => k < n ∧ LegalC (n - 1) c

/-- All handles, of all threads. -/
def handles (s : Counts.St) : List Nat := s.threads.flatMap (·.own)

/-- Each thread has handles of its own objects only: `w o` is the thread that object `o` belongs to. -/
def Apart (w : Nat → Nat) (s : Counts.St) : Prop := ∀ (i : Nat) t, s.threads[i]? = some t → ∀ o ∈ t.own, w o = i

/-- The object is about to lose a handle. -/
def pend (t : Counts.Thread) (o : Nat) : Nat :=
  match t.pc with
  | .dec p _ => if p = o then 1 else 0
  | _ => 0

structure ThreadOk (w : Nat → Nat) (cnt : Nat → Int) (i : Nat) (t : Counts.Thread) : Prop where
  own : ∀ o ∈ t.own, w o = i
  legal : LegalC (match t.pc with | .inc _ _ => t.own.length + 1 | _ => t.own.length) t.todo
  inc : ∀ o v, t.pc = .inc o v → o ∈ t.own ∧ v = cnt o
  dec : ∀ o v, t.pc = .dec o v → w o = i ∧ v = cnt o

structure InvC (w : Nat → Nat) (E : Nat → Prop) (s : Counts.St) : Prop where
  thread : ∀ (i : Nat) t, s.threads[i]? = some t → ThreadOk w s.cnt i t
  cnt : ∀ o t, s.threads[w o]? = some t → E o → s.cnt o = t.own.count o + pend t o
  dead : ∀ o t, s.threads[w o]? = some t → E o → (s.dead o = true ↔ t.own.count o + pend t o = 0)
  has : ∀ (i : Nat) t, s.threads[i]? = some t → (∀ o ∈ t.own, E o) ∧ ∀ o v, t.pc = .dec o v → E o

theorem count_handles (w : Nat → Nat) (o : Nat) : ∀ (l : List Counts.Thread) (k : Nat),
    (∀ (i : Nat) t, l[i]? = some t → o ∈ t.own → w o = k + i) →
    (l.flatMap (·.own)).count o = if k ≤ w o then ((l[w o - k]?).map fun t => t.own.count o).getD 0 else 0
  | [], _, _ => by simp
  | t :: l, k, h => by
    have ih := count_handles w o l (k + 1) fun i u hu ho => by
      have := h (i + 1) u (by simpa using hu) ho
      omega
    rw [List.flatMap_cons, List.count_append, ih]
    have h0 : w o ≠ k → t.own.count o = 0 := fun hne => List.count_eq_zero.2 fun ho => by
      have := h 0 t rfl ho
      omega
    by_cases e : w o = k
    · rw [if_neg (by omega), if_pos (by omega), e]
      simp
    · rw [h0 e]
      by_cases hk : k ≤ w o
      · rw [if_pos (by omega), if_pos hk, show w o - k = w o - (k + 1) + 1 by omega]
        simp
      · rw [if_neg (by omega), if_neg hk]

theorem threadOk_frame {w : Nat → Nat} {cnt cnt' : Nat → Int} {i : Nat} {t : Counts.Thread} (h : ThreadOk w cnt i t)
    (hc : ∀ o, w o = i → cnt' o = cnt o) : ThreadOk w cnt' i t :=
  ⟨h.own, h.legal, fun o v e => ⟨(h.inc o v e).1, by rw [hc o (h.own o (h.inc o v e).1)]; exact (h.inc o v e).2⟩,
    fun o v e => ⟨(h.dec o v e).1, by rw [hc o (h.dec o v e).1]; exact (h.dec o v e).2⟩⟩

/-- A step of one thread changes that thread and, at most, one of its objects. -/
theorem inv_set {w : Nat → Nat} {E : Nat → Prop} {s : Counts.St} (h : InvC w E s) {i : Nat} {t t' : Counts.Thread}
    (ht : s.threads[i]? = some t) (cnt' : Nat → Int) (dead' : Nat → Bool)
    (hc : ∀ o, w o ≠ i → cnt' o = s.cnt o) (hd : ∀ o, w o ≠ i → dead' o = s.dead o)
    (ok : ThreadOk w cnt' i t') (hcnt : ∀ o, w o = i → E o → cnt' o = t'.own.count o + pend t' o)
    (hdead : ∀ o, w o = i → E o → (dead' o = true ↔ t'.own.count o + pend t' o = 0))
    (has : (∀ o ∈ t'.own, E o) ∧ ∀ o v, t'.pc = .dec o v → E o) :
    InvC w E ⟨cnt', dead', s.threads.set i t'⟩ := by
  have hi : i < s.threads.length := (List.getElem?_eq_some_iff.1 ht).1
  have key : ∀ (j : Nat) u, (s.threads.set i t')[j]? = some u → (j = i ∧ u = t') ∨ (j ≠ i ∧ s.threads[j]? = some u) := by
    intro j u hu
    by_cases e : i = j
    · subst e
      rw [List.getElem?_set_self hi] at hu
      exact .inl ⟨rfl, (Option.some.inj hu).symm⟩
    · rw [List.getElem?_set_ne e] at hu
      exact .inr ⟨fun h => e h.symm, hu⟩
  refine ⟨fun j u hu => ?_, fun o u hu ho => ?_, fun o u hu ho => ?_, fun j u hu => ?_⟩
  · rcases key j u hu with ⟨rfl, rfl⟩ | ⟨hne, hu⟩
    · exact ok
    · exact threadOk_frame (h.thread j u hu) fun o ho => hc o (by omega)
  · rcases key _ u hu with ⟨e, rfl⟩ | ⟨hne, hu⟩
    · exact hcnt o e ho
    · show cnt' o = _
      rw [hc o hne]; exact h.cnt o u hu ho
  · rcases key _ u hu with ⟨e, rfl⟩ | ⟨hne, hu⟩
    · exact hdead o e ho
    · show dead' o = true ↔ _
      rw [hd o hne]; exact h.dead o u hu ho
  · rcases key j u hu with ⟨rfl, rfl⟩ | ⟨hne, hu⟩
    · exact has
    · exact h.has j u hu

theorem step_inv {w : Nat → Nat} {E : Nat → Prop} {s : Counts.St} (h : InvC w E s) {i : Nat} (hi : i < s.threads.length) :
    ∃ s', Counts.step s i = .ok s' ∧ InvC w E s' ∧ s'.threads.length = s.threads.length := by
  have ht : s.threads[i]? = some s.threads[i] := List.getElem?_eq_getElem hi
  generalize s.threads[i] = t at ht
  have ok := h.thread i t ht
  have has := h.has i t ht
  have alive : ∀ o, w o = i → E o → 0 < t.own.count o + pend t o → s.dead o = false := by
    intro o e ho hp
    cases hd : s.dead o with
    | false => rfl
    | true =>
      have := (h.dead o t (by rw [e]; exact ht) ho).1 hd
      omega
  unfold Counts.step
  rw [rd_eq_ok.2 ht, Res.ok_bind]
  obtain ⟨own, todo, pc⟩ := t
  cases pc with
  | idle =>
    cases todo with
    | nil =>
      refine ⟨_, rfl, ?_, by simp⟩
      exact inv_set h ht s.cnt s.dead (fun _ _ => rfl) (fun _ _ => rfl) ok
        (fun o e ho => h.cnt o _ (by rw [e]; exact ht) ho) (fun o e ho => h.dead o _ (by rw [e]; exact ht) ho) has
    | cons c todo =>
      cases c with
      | copy k =>
        have hk : k < own.length := ok.legal.1
        have hm : own[k] ∈ own := List.getElem_mem hk
        have ho : rd own k = .ok own[k] := rd_ok hk
        generalize own[k] = o at hm ho
        have hal := alive o (ok.own o hm) (has.1 o hm) (by exact Nat.lt_of_lt_of_le (List.count_pos_iff.2 hm) (Nat.le_add_right _ _))
        simp only [Counts.act, ho, Res.ok_bind, hal, Bool.false_eq_true, if_false]
        refine ⟨_, rfl, ?_, by simp⟩
        refine inv_set h ht s.cnt s.dead (fun _ _ => rfl) (fun _ _ => rfl) ⟨ok.own, ok.legal.2, ?_, ?_⟩
          (fun p e hp => by have := h.cnt p _ (by rw [e]; exact ht) hp; exact this)
          (fun p e hp => by have := h.dead p _ (by rw [e]; exact ht) hp; exact this)
          ⟨has.1, by intro p v e; cases e⟩
        · intro p v e; cases e; exact ⟨hm, rfl⟩
        · intro p v e; cases e
      | drop k =>
        have hk : k < own.length := ok.legal.1
        have hm : own[k] ∈ own := List.getElem_mem hk
        have ho : rd own k = .ok own[k] := rd_ok hk
        have hcount : ∀ p, own.count p = (own.eraseIdx k).count p + if own[k] = p then 1 else 0 := by
          intro p
          rw [List.eraseIdx_eq_take_drop_succ]
          have e : own = own.take k ++ own[k] :: own.drop (k + 1) := by simp
          conv => lhs; rw [e]
          rw [List.count_append, List.count_append, List.count_cons]
          by_cases he : own[k] = p <;> simp [he] <;> omega
        generalize own[k] = o at hm ho hcount
        have hal := alive o (ok.own o hm) (has.1 o hm) (by exact Nat.lt_of_lt_of_le (List.count_pos_iff.2 hm) (Nat.le_add_right _ _))
        simp only [Counts.act, ho, Res.ok_bind, hal, Bool.false_eq_true, if_false]
        refine ⟨_, rfl, ?_, by simp⟩
        have hsub : ∀ p, p ∈ own.eraseIdx k → p ∈ own := fun p hp => List.mem_of_mem_eraseIdx hp
        refine inv_set h ht s.cnt s.dead (fun _ _ => rfl) (fun _ _ => rfl)
          ⟨fun p hp => ok.own p (hsub p hp), ?_, ?_, ?_⟩ ?_ ?_ ⟨fun p hp => has.1 p (hsub p hp), ?_⟩
        · have := ok.legal.2
          simp only [List.length_eraseIdx, hk, if_true]
          exact this
        · intro p v e; cases e
        · intro p v e; cases e; exact ⟨ok.own o hm, rfl⟩
        · intro p e hp
          have h1 := h.cnt p _ (by rw [e]; exact ht) hp
          simp only [pend] at h1 ⊢
          rw [h1, hcount p]
          simp
        · intro p e hp
          have h1 := h.dead p _ (by rw [e]; exact ht) hp
          simp only [pend] at h1 ⊢
          rw [h1, hcount p]
          simp
        · intro p v e; cases e; exact has.1 o hm
  | inc o v =>
    obtain ⟨hm, hv⟩ := ok.inc o v rfl
    have hw := ok.own o hm
    have hal := alive o hw (has.1 o hm) (by exact Nat.lt_of_lt_of_le (List.count_pos_iff.2 hm) (Nat.le_add_right _ _))
    simp only [Counts.act, hal, Bool.false_eq_true, if_false]
    refine ⟨_, rfl, ?_, by simp⟩
    refine inv_set h ht (upd s.cnt o (v + 1)) s.dead (fun p hp => ?_) (fun _ _ => rfl) ⟨?_, ?_, ?_, ?_⟩ ?_ ?_ ⟨?_, ?_⟩
    · simp only [upd]; rw [if_neg]; rintro rfl; exact hp hw
    · intro p hp
      rcases List.mem_append.1 hp with hp | hp
      · exact ok.own p hp
      · simp at hp; subst hp; exact hw
    · simpa using ok.legal
    · intro p u e; cases e
    · intro p u e; cases e
    · intro p e hp
      have h1 := h.cnt p _ (by rw [e]; exact ht) hp
      simp only [pend, upd, List.count_append, List.count_singleton] at h1 ⊢
      by_cases he : p = o
      · subst he; rw [hv, h1]; simp
      · rw [if_neg he, h1]
        simp [show ¬ o = p from fun h => he h.symm]
    · intro p e hp
      have h1 := h.dead p _ (by rw [e]; exact ht) hp
      simp only [pend, List.count_append, List.count_singleton] at h1 ⊢
      rw [h1]
      by_cases he : o = p
      · subst he
        have : 0 < own.count o := List.count_pos_iff.2 hm
        simp; omega
      · simp [he]
    · intro p hp
      rcases List.mem_append.1 hp with hp | hp
      · exact has.1 p hp
      · simp at hp; subst hp; exact has.1 _ hm
    · intro p u e; cases e
  | dec o v =>
    obtain ⟨hw, hv⟩ := ok.dec o v rfl
    have hE := has.2 o v rfl
    have hal := alive o hw hE (by simp [pend])
    have hcnt := h.cnt o _ (by rw [hw]; exact ht) hE
    simp only [pend, if_true] at hcnt
    have goal : ∀ d : Nat → Bool, (∀ p, p ≠ o → d p = s.dead p) → (d o = true ↔ v - 1 = 0) →
        InvC w E ⟨upd s.cnt o (v - 1), d, s.threads.set i ⟨own, todo, .idle⟩⟩ := by
      intro d hd1 hd2
      refine inv_set h ht _ _ (fun p hp => ?_) (fun p hp => hd1 p ?_) ⟨ok.own, ok.legal, ?_, ?_⟩ ?_ ?_ ⟨has.1, ?_⟩
      · simp only [upd]; rw [if_neg]; rintro rfl; exact hp hw
      · rintro rfl; exact hp hw
      · intro p u e; cases e
      · intro p u e; cases e
      · intro p e hp
        have h1 := h.cnt p _ (by rw [e]; exact ht) hp
        simp only [pend, upd] at h1 ⊢
        by_cases he : p = o
        · subst he; rw [if_pos rfl, hv, h1]; simp
        · rw [if_neg he, h1]
          simp [show ¬ o = p from fun h => he h.symm]
      · intro p e hp
        have h1 := h.dead p _ (by rw [e]; exact ht) hp
        simp only [pend] at h1 ⊢
        by_cases he : p = o
        · subst he
          rw [hd2, hv, hcnt]; simp
        · rw [hd1 p he, h1]
          simp [show ¬ o = p from fun h => he h.symm]
      · intro p u e; cases e
    simp only [Counts.act, hal, Bool.false_eq_true, if_false]
    by_cases h0 : v - 1 = 0
    · rw [if_pos h0]
      refine ⟨_, rfl, goal _ (fun p hp => by simp [upd, hp]) (by simp [upd, h0]), by simp⟩
    · rw [if_neg h0]
      refine ⟨_, rfl, goal _ (fun p hp => rfl) (by simp [hal, h0]), by simp⟩

theorem run_inv {w : Nat → Nat} {E : Nat → Prop} : ∀ (sched : List Nat) {s : Counts.St}, InvC w E s →
    (∀ i ∈ sched, i < s.threads.length) →
    ∃ s', Counts.run s sched = .ok s' ∧ InvC w E s' ∧ s'.threads.length = s.threads.length
  | [], s, h, _ => ⟨s, rfl, h, rfl⟩
  | i :: is, s, h, hs => by
    obtain ⟨s1, e1, h1, l1⟩ := step_inv h (hs i (by simp))
    obtain ⟨s2, e2, h2, l2⟩ := run_inv is h1 fun j hj => by rw [l1]; exact hs j (by simp [hj])
    exact ⟨s2, by simp [Counts.run, e1, e2], h2, by omega⟩

/-- C146: as long as each thread only uses objects of its own, any schedule is fine: nothing that was destroyed is
touched, no object to which there is a handle is destroyed, and whenever all threads are between two calls the count of
each object is the number of its handles, and it is destroyed exactly if there is none left. -/
theorem C146_counts_partial (w : Nat → Nat) (s : Counts.St) (hw : Apart w s)
    (idle : ∀ t ∈ s.threads, t.pc = .idle ∧ LegalC t.own.length t.todo)
    (hc : ∀ o ∈ handles s, s.cnt o = (handles s).count o ∧ s.dead o = false) (sched : List Nat)
    (hs : ∀ i ∈ sched, i < s.threads.length) :
    ∃ s', Counts.run s sched = .ok s' ∧ (∀ o ∈ handles s', s'.dead o = false) ∧
      ((∀ t ∈ s'.threads, t.pc = .idle) → ∀ o ∈ handles s,
        s'.cnt o = (handles s').count o ∧ (s'.dead o = true ↔ o ∉ handles s')) := by
  have hcount : ∀ (s : Counts.St), Apart w s → ∀ o t, s.threads[w o]? = some t →
      (handles s).count o = t.own.count o := by
    intro s hw o t ht
    have := count_handles w o s.threads 0 fun i t hi ho => by rw [hw i t hi o ho]; simp
    rw [handles, this, if_pos (Nat.zero_le _), Nat.sub_zero, ht]
    rfl
  have hmem : ∀ (s : Counts.St) o, o ∈ handles s → ∃ (i : Nat) (t : Counts.Thread), s.threads[i]? = some t ∧ o ∈ t.own := by
    intro s o ho
    obtain ⟨t, ht, ho⟩ := List.mem_flatMap.1 ho
    obtain ⟨i, hi⟩ := List.mem_iff_getElem?.1 ht
    exact ⟨i, t, hi, ho⟩
  have inv : InvC w (· ∈ handles s) s := by
    have pc : ∀ (i : Nat) t, s.threads[i]? = some t → t.pc = .idle := fun i t h => (idle t (List.mem_of_getElem? h)).1
    refine ⟨fun i t h => ⟨hw i t h, ?_, ?_, ?_⟩, fun o t h ho => ?_, fun o t h ho => ?_, fun i t h => ⟨?_, ?_⟩⟩
    · rw [pc i t h]; exact (idle t (List.mem_of_getElem? h)).2
    · intro o v e; rw [pc i t h] at e; cases e
    · intro o v e; rw [pc i t h] at e; cases e
    · rw [(hc o ho).1, hcount s hw o t h]
      simp [pend, pc _ t h]
    · rw [(hc o ho).2, ← hcount s hw o t h]
      have := List.count_pos_iff.2 ho
      simp only [pend, pc _ t h]
      constructor
      · intro e; cases e
      · intro e; omega
    · intro o ho
      exact List.mem_flatMap.2 ⟨t, List.mem_of_getElem? h, ho⟩
    · intro o v e; rw [pc i t h] at e; cases e
  obtain ⟨s', e, h', l'⟩ := run_inv sched inv hs
  have hw' : Apart w s' := fun i t ht => (h'.thread i t ht).own
  refine ⟨s', e, fun o ho => ?_, fun hidle o ho => ?_⟩
  · obtain ⟨i, t, ht, ho'⟩ := hmem s' o ho
    have hi := hw' i t ht o ho'
    cases hd : s'.dead o with
    | false => rfl
    | true =>
      have := (h'.dead o t (by rw [hi]; exact ht) ((h'.has i t ht).1 o ho')).1 hd
      have := List.count_pos_iff.2 ho'
      omega
  · obtain ⟨i, t0, ht0, ho0⟩ := hmem s o ho
    have hi := hw i t0 ht0 o ho0
    have hlt : w o < s'.threads.length := by
      rw [l', hi]; exact (List.getElem?_eq_some_iff.1 ht0).1
    have ht : s'.threads[w o]? = some s'.threads[w o] := List.getElem?_eq_getElem hlt
    have hp := hidle _ (List.getElem_mem hlt)
    generalize s'.threads[w o] = t at ht hp
    have h1 := h'.cnt o t ht ho
    have h2 := h'.dead o t ht ho
    have h3 := hcount s' hw' o t ht
    simp only [pend, hp, Nat.add_zero] at h1 h2
    rw [← h3] at h1 h2
    refine ⟨by simpa using h1, ?_⟩
    rw [h2, List.count_eq_zero]

/-- Two threads with one handle each of the same object. -/
def shared (c1 c2 : List Counts.Call) : Counts.St := ⟨fun _ => 2, fun _ => false, [⟨[0], c1, .idle⟩, ⟨[0], c2, .idle⟩]⟩

/-- C146 is violated if threads share an object: when both copy their handle at the same time the count is one too small.
Once three of the four handles are gone the object is destroyed, although a handle is left; using that is undefined. -/
theorem C146_counts_violated :
    (∃ s', Counts.run (shared [.copy 0] [.copy 0]) [0, 1, 0, 1] = .ok s' ∧ (∀ t ∈ s'.threads, t.pc = .idle) ∧
      s'.cnt 0 = 3 ∧ (handles s').count 0 = 4) ∧
    (∃ s', Counts.run (shared [.copy 0] [.copy 0, .drop 0, .drop 0]) [0, 1, 0, 1, 1, 1, 1, 1] = .ok s' ∧
      s'.cnt 0 = 1 ∧ handles s' = [0, 0]) ∧
    (∃ s', Counts.run (shared [.copy 0, .drop 0] [.copy 0, .drop 0, .drop 0]) [0, 1, 0, 1, 1, 1, 1, 1, 0, 0] = .ok s' ∧
      s'.dead 0 = true ∧ handles s' = [0]) ∧
    Counts.run (shared [.copy 0, .drop 0, .copy 0] [.copy 0, .drop 0, .drop 0]) [0, 1, 0, 1, 1, 1, 1, 1, 0, 0, 0] = .ub :=
  ⟨⟨_, rfl, by decide, rfl, rfl⟩, ⟨_, rfl, rfl, rfl⟩, ⟨_, rfl, rfl, rfl⟩, rfl⟩

/-- The hypotheses of `C146_counts_partial` are met: two threads with an object each, which are copied and let go in turns;
the second object is destroyed. -/
example :
    let s : Counts.St := ⟨fun _ => 1, fun _ => false, [⟨[0], [.copy 0, .drop 0], .idle⟩, ⟨[1], [.drop 0], .idle⟩]⟩
    Apart id s ∧ (∀ t ∈ s.threads, t.pc = .idle ∧ LegalC t.own.length t.todo) ∧
    (∀ o ∈ handles s, s.cnt o = (handles s).count o ∧ s.dead o = false) ∧
    ∃ s', Counts.run s [0, 1, 0, 0, 1, 0] = .ok s' ∧ s'.dead 0 = false ∧ s'.dead 1 = true ∧ handles s' = [0] := by
  refine ⟨?_, ?_, by decide, _, rfl, rfl, rfl, rfl⟩
  · intro i t h o ho
    match i, h with
    | 0, h => cases h; simpa using ho
    | 1, h => cases h; simpa using ho
  · simp [LegalC]

end

/-! ## The free list -/

section
open Free

/-- The list that starts at `h`. -/
inductive Chain (word : Nat → Option Nat) : Option Nat → List Nat → Prop
  | nil : Chain word none []
  | cons {p l} : Chain word (word p) l → Chain word (some p) (p :: l)

/-- The blocks that threads have. -/
def blocks (s : Free.St) : List Nat := s.threads.flatMap (·.own)

/-- All threads but the one that makes the next step are between two calls. -/
def Serial (s : Free.St) : List Nat → Prop
  | [] => True
  | i :: is => (∀ (j : Nat) t, s.threads[j]? = some t → j ≠ i → t.pc = .idle) ∧ ∀ s', Free.step s i = .ok s' → Serial s' is

theorem chain_frame {word : Nat → Option Nat} {p : Nat} {v : Option Nat} {h : Option Nat} {l : List Nat}
    (c : Chain word h l) (hp : p ∉ l) : Chain (Counts.upd word p v) h l := by
  induction c with
  | nil => exact .nil
  | @cons q l c ih =>
    refine .cons ?_
    simp only [List.mem_cons, not_or] at hp
    rw [Counts.upd, if_neg (fun e => hp.1 e.symm)]
    exact ih hp.2

/-- What holds while thread `t` is on its way. -/
def Mid (s : Free.St) (t : Free.Thread) (l rest : List Nat) : Prop :=
  match t.pc with
  | .idle => (l ++ rest).Perm (List.range s.mem)
  | .head p => p = s.head ∧ (l ++ rest).Perm (List.range s.mem)
  | .next p n => s.head = some p ∧ s.word p = n ∧ (l ++ rest).Perm (List.range s.mem)
  | .mem p => p = s.mem ∧ (l ++ rest).Perm (List.range s.mem)
  | .freeing p h => h = s.head ∧ (p :: (l ++ rest)).Perm (List.range s.mem)
  | .linked p => s.word p = s.head ∧ (p :: (l ++ rest)).Perm (List.range s.mem)

/-- With all threads but `i` between two calls. -/
structure InvF (s : Free.St) (i : Nat) : Prop where
  others : ∀ (j : Nat) t, s.threads[j]? = some t → j ≠ i → t.pc = .idle
  mid : ∀ t, s.threads[i]? = some t → ∃ l, Chain s.word s.head l ∧ Mid s t l (blocks s)

theorem blocks_set {l : List Free.Thread} {i : Nat} {t t' : Free.Thread} (ht : l[i]? = some t) :
    ∃ a b, l.flatMap (·.own) = a ++ t.own ++ b ∧ (l.set i t').flatMap (·.own) = a ++ t'.own ++ b := by
  have hi := (List.getElem?_eq_some_iff.1 ht).1
  have e : l = l.take i ++ t :: l.drop (i + 1) := by
    have : l[i] = t := (List.getElem?_eq_some_iff.1 ht).2
    rw [← this]; simp
  refine ⟨(l.take i).flatMap (·.own), (l.drop (i + 1)).flatMap (·.own), ?_, ?_⟩
  · conv => lhs; rw [e]
    simp
  · rw [List.set_eq_take_append_cons_drop, if_pos hi]
    simp

theorem eraseIdx_perm {own : List Nat} {k p : Nat} (h : rd own k = .ok p) : own.Perm (p :: own.eraseIdx k) := by
  have h := rd_eq_ok.1 h
  obtain ⟨hk, rfl⟩ := List.getElem?_eq_some_iff.1 h
  rw [List.eraseIdx_eq_take_drop_succ]
  have e : own = own.take k ++ own[k] :: own.drop (k + 1) := by simp
  conv => lhs; rw [e]
  exact List.perm_middle

theorem stepF_inv {s s' : Free.St} {i : Nat} (h : InvF s i) (e : Free.step s i = .ok s') : InvF s' i := by
  unfold Free.step at e
  obtain ⟨t, ht, e⟩ := Res.bind_eq_ok.1 e
  replace ht := rd_eq_ok.1 ht
  obtain ⟨⟨s1, t1⟩, ea, e⟩ := Res.bind_eq_ok.1 e
  cases e
  have hi := (List.getElem?_eq_some_iff.1 ht).1
  obtain ⟨l, hc, hm⟩ := h.mid t ht
  have hthreads : s1.threads = s.threads := by
    obtain ⟨own, todo, pc⟩ := t
    unfold Free.act at ea
    cases pc with
    | idle =>
      cases todo with
      | nil => cases ea; rfl
      | cons c todo =>
        cases c with
        | alloc => cases ea; rfl
        | free k =>
          obtain ⟨p, _, ea⟩ := Res.bind_eq_ok.1 ea
          cases ea; rfl
        | write k v =>
          obtain ⟨p, _, ea⟩ := Res.bind_eq_ok.1 ea
          cases ea; rfl
    | head p => cases p <;> (cases ea; rfl)
    | next p n => cases ea; rfl
    | mem p => cases ea; rfl
    | freeing p q => cases ea; rfl
    | linked p => cases ea; rfl
  refine ⟨fun j u hu hne => ?_, fun u hu => ?_⟩
  · rw [hthreads] at hu
    rw [List.getElem?_set_ne (Ne.symm hne)] at hu
    exact h.others j u hu hne
  · simp only [hthreads] at hu ⊢
    rw [List.getElem?_set_self hi] at hu
    cases hu
    obtain ⟨a, b, hb, hb'⟩ := blocks_set (t' := t1) ht
    have hbl : blocks ⟨s1.head, s1.word, s1.mem, s.threads.set i t1⟩ = a ++ t1.own ++ b := hb'
    rw [hbl]
    have hbs : blocks s = a ++ t.own ++ b := hb
    rw [hbs] at hm
    have nodup : ∀ {m : List Nat}, m.Perm (List.range s.mem) → m.Nodup := fun hp => hp.nodup_iff.2 List.nodup_range
    obtain ⟨own, todo, pc⟩ := t
    cases pc with
    | idle =>
      cases todo with
      | nil => cases ea; exact ⟨l, hc, hm⟩
      | cons c todo =>
        cases c with
        | alloc => cases ea; exact ⟨l, hc, rfl, hm⟩
        | free k =>
          obtain ⟨p, hp, ea⟩ := Res.bind_eq_ok.1 ea
          cases ea
          refine ⟨l, hc, rfl, ?_⟩
          refine List.Perm.trans ?_ hm
          simp only
          have h1 := eraseIdx_perm hp
          have h2 : (l ++ (a ++ own ++ b)).Perm (l ++ (a ++ (p :: own.eraseIdx k) ++ b)) :=
            List.Perm.append_left l (List.Perm.append_right b (List.Perm.append_left a h1))
          refine List.Perm.trans ?_ h2.symm
          simp only [List.append_assoc, List.cons_append]
          have h3 := @List.perm_middle _ p (l ++ a) (own.eraseIdx k ++ b)
          simp only [List.append_assoc] at h3
          exact h3.symm
        | write k v =>
          obtain ⟨p, hp, ea⟩ := Res.bind_eq_ok.1 ea
          cases ea
          refine ⟨l, chain_frame hc fun hpl => ?_, hm⟩
          have hn := nodup hm
          have hp' : p ∈ own := List.mem_of_getElem? (rd_eq_ok.1 hp)
          exact (List.nodup_append.1 hn).2.2 p hpl p (by simp [hp']) rfl
    | head p =>
      obtain ⟨rfl, hm⟩ := hm
      cases hh : s.head with
      | none => rw [hh] at ea; cases ea; exact ⟨l, hc, rfl, hm⟩
      | some q => rw [hh] at ea; cases ea; exact ⟨l, hc, hh, rfl, hm⟩
    | next p n =>
      obtain ⟨h1, h2, hm⟩ := hm
      cases ea
      rw [h1] at hc
      cases hc with
      | @cons _ l c =>
        rw [h2] at c
        refine ⟨l, c, ?_⟩
        refine List.Perm.trans ?_ hm
        simp only [List.append_assoc, List.cons_append, List.nil_append]
        have h3 := @List.perm_middle _ p (l ++ (a ++ own)) b
        simpa only [List.append_assoc] using h3
    | mem p =>
      obtain ⟨rfl, hm⟩ := hm
      cases ea
      refine ⟨l, hc, ?_⟩
      simp only [Mid]
      rw [List.range_succ]
      refine List.Perm.trans ?_ (List.Perm.append_right _ hm)
      simp only [List.append_assoc]
      exact List.Perm.append_left _ (List.Perm.append_left _ (List.Perm.append_left _ List.perm_append_comm))
    | freeing p q =>
      obtain ⟨rfl, hm⟩ := hm
      cases ea
      refine ⟨l, chain_frame hc fun hpl => ?_, ?_, hm⟩
      · have hn := nodup hm
        exact (List.nodup_cons.1 hn).1 (by simp [hpl])
      · simp [Counts.upd]
    | linked p =>
      obtain ⟨h1, hm⟩ := hm
      cases ea
      refine ⟨p :: l, .cons (by rw [h1]; exact hc), hm⟩

/-- Before and after each call the invariant does not depend on the thread. -/
theorem invF_switch {s : Free.St} {i j : Nat} (h : InvF s i) (hi : i < s.threads.length)
    (idle : ∀ (k : Nat) t, s.threads[k]? = some t → k ≠ j → t.pc = .idle) : InvF s j := by
  by_cases e : i = j
  · exact e ▸ h
  · refine ⟨idle, fun t ht => ?_⟩
    have ht' : s.threads[i]? = some s.threads[i] := List.getElem?_eq_getElem hi
    obtain ⟨l, hc, hm⟩ := h.mid _ ht'
    refine ⟨l, hc, ?_⟩
    have p1 := idle i _ ht' e
    have p2 := h.others j t ht (Ne.symm e)
    unfold Mid at hm ⊢
    rw [p1] at hm
    rw [p2]
    exact hm

theorem stepF_length {s s' : Free.St} {i : Nat} (e : Free.step s i = .ok s') :
    i < s.threads.length ∧ s'.threads.length = s.threads.length := by
  unfold Free.step at e
  obtain ⟨t, ht, e⟩ := Res.bind_eq_ok.1 e
  obtain ⟨⟨s1, t1⟩, ea, e⟩ := Res.bind_eq_ok.1 e
  cases e
  refine ⟨(List.getElem?_eq_some_iff.1 (rd_eq_ok.1 ht)).1, ?_⟩
  obtain ⟨own, todo, pc⟩ := t
  unfold Free.act at ea
  cases pc with
  | idle =>
    cases todo with
    | nil => cases ea; simp
    | cons c todo =>
      cases c with
      | alloc => cases ea; simp
      | free k =>
        obtain ⟨p, _, ea⟩ := Res.bind_eq_ok.1 ea
        cases ea; simp
      | write k v =>
        obtain ⟨p, _, ea⟩ := Res.bind_eq_ok.1 ea
        cases ea; simp
  | head p => cases p <;> (cases ea; simp)
  | next p n => cases ea; simp
  | mem p => cases ea; simp
  | freeing p q => cases ea; simp
  | linked p => cases ea; simp

theorem runF_inv : ∀ (sched : List Nat) {s s' : Free.St} {i : Nat}, InvF s i → i < s.threads.length → Serial s sched →
    Free.run s sched = .ok s' → ∃ j, InvF s' j ∧ j < s'.threads.length
  | [], s, s', i, h, hi, _, e => by cases e; exact ⟨i, h, hi⟩
  | j :: js, s, s', i, h, hi, ser, e => by
    obtain ⟨s1, e1, e2⟩ := Res.bind_eq_ok.1 e
    have h1 := invF_switch h hi ser.1
    have l1 := stepF_length e1
    exact runF_inv js (stepF_inv h1 e1) (by omega) (ser.2 s1 e1) e2

/-- C146: if no thread is interrupted by another one in the middle of a call of the allocator, no block belongs to two
threads, or twice to one; and when all calls are done each block ever made either belongs to a thread or is in the free
list, once. Threads can write what they want into their blocks. -/
theorem C146_blocks_partial (threads : List Free.Thread) (h0 : ∀ t ∈ threads, t.own = [] ∧ t.pc = .idle)
    (word : Nat → Option Nat) (sched : List Nat) (s' : Free.St) (ser : Serial ⟨none, word, 0, threads⟩ sched)
    (e : Free.run ⟨none, word, 0, threads⟩ sched = .ok s') :
    (blocks s').Nodup ∧ ((∀ t ∈ s'.threads, t.pc = .idle) → threads ≠ [] →
      ∃ l, Chain s'.word s'.head l ∧ (l ++ blocks s').Perm (List.range s'.mem)) := by
  have hb : blocks ⟨none, word, 0, threads⟩ = [] := by
    simp only [blocks, List.flatMap_eq_nil_iff]
    exact fun t ht => (h0 t ht).1
  cases threads with
  | nil =>
    cases sched with
    | nil => cases e; exact ⟨by rw [hb]; exact .nil, fun _ h => absurd rfl h⟩
    | cons i is =>
      obtain ⟨s1, e1, _⟩ := Res.bind_eq_ok.1 e
      have := (stepF_length e1).1
      simp at this
  | cons t0 ts =>
    have pc : ∀ (j : Nat) t, (t0 :: ts)[j]? = some t → t.pc = .idle := fun j t h => (h0 t (List.mem_of_getElem? h)).2
    have inv : InvF ⟨none, word, 0, t0 :: ts⟩ 0 := by
      refine ⟨fun j t h _ => pc j t h, fun t ht => ⟨[], .nil, ?_⟩⟩
      unfold Mid
      rw [pc 0 t ht, hb]
      exact .refl _
    obtain ⟨j, hj, hlt⟩ := runF_inv sched inv (by simp) ser e
    have ht : s'.threads[j]? = some s'.threads[j] := List.getElem?_eq_getElem hlt
    obtain ⟨l, hc, hm⟩ := hj.mid _ ht
    have key : ∀ {m : List Nat}, (l ++ m).Perm (List.range s'.mem) → m.Nodup := fun hp =>
      (List.nodup_append.1 (hp.nodup_iff.2 List.nodup_range)).2.1
    refine ⟨?_, fun idle _ => ⟨l, hc, ?_⟩⟩
    · have key2 : ∀ {m : List Nat} {p : Nat}, (p :: (l ++ m)).Perm (List.range s'.mem) → m.Nodup := fun hp =>
        (List.nodup_append.1 (List.nodup_cons.1 (hp.nodup_iff.2 List.nodup_range)).2).2.1
      unfold Mid at hm
      split at hm
      · exact key hm
      · exact key hm.2
      · exact key hm.2.2
      · exact key hm.2
      · exact key2 hm.2
      · exact key2 hm.2
    · have := idle _ (List.getElem_mem hlt)
      unfold Mid at hm
      rw [this] at hm
      exact hm

/-- C146 is violated otherwise, even if threads share nothing: two threads that allocate at the same time get the same
block, from the chunk or from the free list; and a block that is freed while another one is allocated is lost. -/
theorem C146_blocks_violated :
    (∃ s', Free.run ⟨none, fun _ => none, 0, [⟨[], [.alloc], .idle⟩, ⟨[], [.alloc], .idle⟩]⟩ [0, 1, 0, 1, 0, 1] = .ok s' ∧
      blocks s' = [0, 0]) ∧
    (∃ s', Free.run ⟨none, fun _ => none, 0, [⟨[], [.alloc, .free 0, .alloc], .idle⟩, ⟨[], [.alloc], .idle⟩]⟩
      [0, 0, 0, 0, 0, 0, 0, 1, 0, 1, 0, 1] = .ok s' ∧ blocks s' = [0, 0]) ∧
    (∃ s', Free.run ⟨none, fun _ => none, 0, [⟨[], [.alloc, .free 0], .idle⟩, ⟨[], [.alloc, .free 0], .idle⟩]⟩
      [0, 0, 0, 1, 1, 1, 0, 1, 0, 1, 0, 1] = .ok s' ∧ blocks s' = [] ∧ s'.mem = 2 ∧ Chain s'.word s'.head [1]) :=
  ⟨⟨_, rfl, rfl⟩, ⟨_, rfl, rfl⟩, ⟨_, rfl, rfl, rfl, .cons .nil⟩⟩

/-- The hypotheses of `C146_blocks_partial` are met by two threads that take turns call by call; the block that the first
one frees is given to the second one. -/
example :
    let s : Free.St := ⟨none, fun _ => none, 0, [⟨[], [.alloc, .write 0 (some 5), .alloc, .free 0], .idle⟩, ⟨[], [.alloc], .idle⟩]⟩
    let sched := [0, 0, 0, 0, 0, 0, 0, 0, 0, 0, 1, 1, 1]
    Serial s sched ∧ ∃ s', Free.run s sched = .ok s' ∧ s'.threads.map (·.own) = [[1], [0]] := by
  refine ⟨?_, _, rfl, rfl⟩
  have one : ∀ (a b : Free.Thread) (i : Nat), (i = 0 → b.pc = .idle) → (i = 1 → a.pc = .idle) → i < 2 →
      ∀ (j : Nat) t, [a, b][j]? = some t → j ≠ i → t.pc = .idle := by
    intro a b i h0 h1 hi j t ht hne
    match j, ht with
    | 0, ht => cases ht; exact h1 (by omega)
    | 1, ht => cases ht; exact h0 (by omega)
  iterate 13
    refine ⟨one _ _ _ (by intro h; first | rfl | cases h) (by intro h; first | rfl | cases h) (by omega), ?_⟩
    intro s' e
    cases e
  trivial

end

end Lolly.ThreadsProps
