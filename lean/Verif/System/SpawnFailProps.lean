import Verif.System.SpawnFail
import Verif.System.SpawnNetProps

set_option autoImplicit false

/-!
# C160: running a process does not endanger the caller
-/

namespace Lolly.SpawnFailProps

open Lolly Lolly.Spawn Lolly.SpawnFail

/-! ## Failing calls -/

/-- Nothing is left behind: threads have ended before what they use is destroyed, processes are waited for, memory is freed
and pipes are closed. -/
structure Tidy (tr : List Event) : Prop where
  threads : ∀ a b, tr = a ++ .gone :: b → ∀ t, .start t ∈ a → .join t ∈ a
  joined : ∀ t, .start t ∈ tr → .join t ∈ tr
  process : .spawn ∈ tr → .wait ∈ tr
  args : ∀ j, .newArg j ∈ tr → .freeArg j ∈ tr
  pipes : ∀ k, tr.count (.pipe k) = tr.count (.shut k)

theorem starts_all {thread : Nat → Bool} (h : ∀ t, thread t = true) : ∀ (n t : Nat),
    starts thread t n = ((List.range' t n).map Event.start, true)
  | 0, t => rfl
  | n + 1, t => by
    rw [starts, h t, starts_all h n (t + 1)]
    rfl

/-- The threads up to the first one that cannot be made. -/
theorem starts_until {thread : Nat → Bool} : ∀ (n t k : Nat), k < n → (∀ u, u < t + k → thread u = true) →
    thread (t + k) = false → starts thread t n = ((List.range' t k).map Event.start, false)
  | 0, _, _, h, _, _ => by omega
  | n + 1, t, 0, _, _, h => by
    rw [Nat.add_zero] at h
    rw [starts, h]
    rfl
  | n + 1, t, k + 1, h1, h2, h3 => by
    rw [starts, h2 t (by omega), starts_until n (t + 1) k (by omega) (fun u hu => h2 u (by omega))
      (by rw [← h3]; congr 1; omega)]
    rfl

theorem shuts_perm (n : Nat) : (shuts n).Perm ((List.range n).map Event.shut) :=
  (List.reverse_perm _).map _

theorem mem_shuts {n : Nat} {e : Event} (h : e ∈ shuts n) : ∃ k, e = .shut k := by
  obtain ⟨k, -, rfl⟩ := List.mem_map.1 h
  exact ⟨k, rfl⟩

theorem count_map_ne {α : Type} (f : α → Event) (l : List α) (e : Event) (h : ∀ a, f a ≠ e) : (l.map f).count e = 0 := by
  rw [List.count_eq_zero]
  intro hm
  obtain ⟨a, -, ha⟩ := List.mem_map.1 hm
  exact h a ha

theorem count_made (n k : Nat) : ((List.range n).map Event.pipe).count (.pipe k) = (shuts n).count (.shut k) := by
  rw [(shuts_perm n).count_eq]
  rw [List.count_eq_countP, List.count_eq_countP, List.countP_map, List.countP_map]
  apply List.countP_congr
  intro a _
  simp

/-- **C160, failing calls.** If all pipes and threads can be made, then whatever else fails nothing is left behind; the
answer is -1 if no process was started, and what `unix_system` finds out about the process otherwise. -/
theorem C160_failure_partial (o : Ora) (args : Nat) (ha : 0 < args) (ins outs : List Int) (rest : Int)
    (hp : ∀ k, o.pipe k = true) (ht : ∀ t, o.thread t = true) :
    ∃ a tr, unixSystem o args ins outs rest = .ok (a, tr) ∧ Tidy tr ∧
      (.spawn ∉ tr → a = -1) ∧ (.spawn ∈ tr → a = rest) := by
  have h0 : args ≠ 0 := by omega
  have hall : (!(List.range (ins.length + outs.length)).all o.pipe) = false := by simp [hp]
  generalize hn : ins.length + outs.length = n at hall
  have shut0 : ∀ e, (∀ k, e ≠ Event.shut k) → e ∉ shuts n := fun e he hm => by
    obtain ⟨k, hk⟩ := mem_shuts hm
    exact he k hk
  have pin : ∀ k, (List.count (Event.pipe k) (shuts n)) = 0 := fun k => count_map_ne _ _ _ (by simp)
  have noA : ∀ {f : Nat → Event} {l : List Nat} {e : Event}, (∀ a, f a ≠ e) → e ∉ l.map f := fun h hm => by
    obtain ⟨a, -, ha⟩ := List.mem_map.1 hm
    exact h a ha
  unfold unixSystem
  simp only [hn, if_neg h0, hall, Bool.false_eq_true, if_false]
  cases hact : ((actIn o.act 0 ins).bind fun k => actOut o.act k outs) with
  | none =>
    refine ⟨_, _, rfl, ⟨?_, ?_, ?_, ?_, ?_⟩, fun _ => rfl, ?_⟩
    · intro a b e t hm
      exfalso
      have : Event.start t ∈ List.map Event.pipe (List.range n) ++ shuts n := by rw [e]; exact List.mem_append_left _ hm
      rcases List.mem_append.1 this with h | h
      · exact noA (by simp) h
      · exact shut0 _ (by simp) h
    · intro t h
      rcases List.mem_append.1 h with h | h
      · exact absurd h (noA (by simp))
      · exact absurd h (shut0 _ (by simp))
    · intro h
      rcases List.mem_append.1 h with h | h
      · exact absurd h (noA (by simp))
      · exact absurd h (shut0 _ (by simp))
    · intro t h
      rcases List.mem_append.1 h with h | h
      · exact absurd h (noA (by simp))
      · exact absurd h (shut0 _ (by simp))
    · intro k
      rw [List.count_append, List.count_append, pin, count_made, count_map_ne Event.pipe _ (.shut k) (by simp)]
      omega
    · intro h
      rcases List.mem_append.1 h with h | h
      · exact absurd h (noA (by simp))
      · exact absurd h (shut0 _ (by simp))
  | some k0 =>
    dsimp only
    cases hs : o.spawn with
    | false =>
      refine ⟨_, _, rfl, ⟨?_, ?_, ?_, ?_, ?_⟩, fun _ => rfl, ?_⟩
      · intro a b e t hm
        exfalso
        have : Event.gone ∈ a ++ Event.gone :: b := List.mem_append_right _ List.mem_cons_self
        rw [← e] at this
        simp [shuts] at this
      · intro t h; simp [shuts] at h
      · intro h; simp [shuts] at h
      · intro j h
        simp [shuts] at h ⊢
        exact h
      · intro k
        simp only [List.count_append, pin, count_made, count_map_ne Event.pipe _ (.shut k) (by simp),
          count_map_ne Event.newArg _ (.shut k) (by simp), count_map_ne Event.newArg _ (.pipe k) (by simp),
          count_map_ne Event.freeArg _ (.shut k) (by simp), count_map_ne Event.freeArg _ (.pipe k) (by simp)]
        simp
      · intro h; simp [shuts] at h
    | true =>
      rw [starts_all ht]
      refine ⟨_, _, rfl, ⟨?_, ?_, ?_, ?_, ?_⟩, ?_, fun _ => rfl⟩
      · intro a b e t hm
        have hmt : Event.start t ∈ a ++ Event.gone :: b := List.mem_append_left _ hm
        rw [← e] at hmt
        have htn : t < n := by simp [shuts] at hmt; exact hmt
        have hj : Event.join t ∈ a ++ Event.gone :: b := by rw [← e]; simp [htn]
        rcases List.mem_append.1 hj with h | h
        · exact h
        · exfalso
          rcases List.mem_cons.1 h with h | h
          · cases h
          · -- only the pipes come after the channels
            rw [List.append_assoc _ [Event.gone]] at e
            generalize hX : (List.map Event.pipe (List.range n) ++
              (List.map Event.newArg (List.range args) ++ (if true = true then [Event.spawn] else []) ++
                List.map Event.freeArg (List.range args)) ++ List.map Event.start (List.range' 0 n) ++ [Event.wait] ++
              List.map Event.join (List.range n)) = X at e
            have hg : Event.gone ∉ X := by rw [← hX]; simp
            have hb : b = shuts n := by
              rcases List.append_eq_append_iff.1 e with ⟨c, h1, h2⟩ | ⟨c, h1, h2⟩
              · cases c with
                | nil => simp at h2; exact h2.symm
                | cons y c =>
                  simp at h2
                  obtain ⟨h2, h3⟩ := h2
                  have : Event.gone ∈ shuts n := by rw [h3]; simp
                  exact absurd this (shut0 _ (by simp))
              · cases c with
                | nil => simp at h2; exact h2
                | cons y c =>
                  simp at h2
                  exfalso
                  apply hg
                  rw [h1, ← h2.1]
                  simp
            rw [hb] at h
            exact shut0 _ (by simp) h
      · intro t h
        simp [shuts] at h ⊢
        exact h
      · intro h; simp
      · intro j h
        simp [shuts] at h ⊢
        exact h
      · intro k
        simp only [List.count_append, pin, count_made, count_map_ne Event.pipe _ (.shut k) (by simp),
          count_map_ne Event.newArg _ (.shut k) (by simp), count_map_ne Event.newArg _ (.pipe k) (by simp),
          count_map_ne Event.start _ (.shut k) (by simp), count_map_ne Event.start _ (.pipe k) (by simp),
          count_map_ne Event.join _ (.shut k) (by simp), count_map_ne Event.join _ (.pipe k) (by simp),
          count_map_ne Event.freeArg _ (.shut k) (by simp), count_map_ne Event.freeArg _ (.pipe k) (by simp)]
        simp
      · intro h
        exfalso
        apply h
        simp

/-- How many preparations the inputs and outputs need: the end of the pipe that the process does not use is closed, the
other one gets the number that is asked for and is closed; an input with a negative number is left out after the first. -/
def calls (ins outs : List Int) : Nat := (ins.map fun fd => if fd ≥ 0 then 3 else 1).sum + 3 * outs.length

theorem actIn_spec (act : Nat → Bool) : ∀ (ins : List Int) (k : Nat),
    let n := (ins.map fun fd => if fd ≥ 0 then 3 else 1).sum
    ((∀ j, j < n → act (k + j) = true) → actIn act k ins = some (k + n)) ∧
      ((∃ j, j < n ∧ act (k + j) = false) → actIn act k ins = none)
  | [], k => ⟨fun _ => rfl, fun ⟨j, hj, _⟩ => by simp at hj⟩
  | fd :: ins, k => by
    have ih3 := actIn_spec act ins (k + 3)
    have ih1 := actIn_spec act ins (k + 1)
    dsimp only at ih1 ih3 ⊢
    generalize hn : (ins.map fun fd => if fd ≥ 0 then 3 else 1).sum = n at ih1 ih3
    simp only [List.map_cons, List.sum_cons, hn, actIn]
    by_cases hf : fd ≥ 0
    · simp only [if_pos hf]
      refine ⟨fun h => ?_, fun ⟨j, hj, hb⟩ => ?_⟩
      · have a0 := h 0 (by omega)
        have a1 := h 1 (by omega)
        have a2 := h 2 (by omega)
        rw [Nat.add_zero] at a0
        rw [a0, a1, a2, ih3.1 fun j hj => by have := h (3 + j) (by omega); rw [← this]; congr 1; omega]
        simp only [Bool.not_true, Bool.false_eq_true, if_false, Option.some.injEq]
        omega
      · cases h0 : act k with
        | false => rfl
        | true =>
          cases h1 : act (k + 1) with
          | false => rfl
          | true =>
            cases h2 : act (k + 2) with
            | false => rfl
            | true =>
              simp only [Bool.not_true, Bool.false_eq_true, if_false]
              have : 3 ≤ j := by
                apply Nat.le_of_not_lt
                intro hl
                have : j = 0 ∨ j = 1 ∨ j = 2 := by omega
                rcases this with rfl | rfl | rfl
                · rw [Nat.add_zero, h0] at hb; cases hb
                · rw [h1] at hb; cases hb
                · rw [h2] at hb; cases hb
              exact ih3.2 ⟨j - 3, by omega, by rw [← hb]; congr 1; omega⟩
    · simp only [if_neg hf]
      refine ⟨fun h => ?_, fun ⟨j, hj, hb⟩ => ?_⟩
      · have a0 := h 0 (by omega)
        rw [Nat.add_zero] at a0
        rw [a0, ih1.1 fun j hj => by have := h (1 + j) (by omega); rw [← this]; congr 1; omega]
        simp only [Bool.not_true, Bool.false_eq_true, if_false, Option.some.injEq]
        omega
      · cases h0 : act k with
        | false => rfl
        | true =>
          simp only [Bool.not_true, Bool.false_eq_true, if_false]
          have : 1 ≤ j := by
            apply Nat.le_of_not_lt
            intro hl
            have : j = 0 := by omega
            subst this
            rw [Nat.add_zero, h0] at hb; cases hb
          exact ih1.2 ⟨j - 1, by omega, by rw [← hb]; congr 1; omega⟩

theorem actOut_spec (act : Nat → Bool) : ∀ (outs : List Int) (k : Nat),
    ((∀ fd ∈ outs, 0 ≤ fd) → (∀ j, j < 3 * outs.length → act (k + j) = true) → ∃ m, actOut act k outs = some m) ∧
      ((∃ fd ∈ outs, fd < 0) ∨ (∃ j, j < 3 * outs.length ∧ act (k + j) = false) → actOut act k outs = none)
  | [], k => ⟨fun _ _ => ⟨_, rfl⟩, fun h => by rcases h with ⟨_, h, _⟩ | ⟨j, hj, _⟩ <;> simp at *⟩
  | fd :: outs, k => by
    have ih := actOut_spec act outs (k + 3)
    simp only [List.length_cons, actOut]
    refine ⟨fun hf h => ?_, fun h => ?_⟩
    · have a0 := h 0 (by omega)
      have a1 := h 1 (by omega)
      have a2 := h 2 (by omega)
      rw [Nat.add_zero] at a0
      have hfd : ¬ fd < 0 := by have := hf fd List.mem_cons_self; omega
      simp only [a0, a1, a2, hfd, Bool.not_true, decide_false, Bool.or_false, Bool.false_eq_true, if_false]
      exact ih.1 (fun fd h => hf fd (List.mem_cons_of_mem _ h))
        fun j hj => by have := h (3 + j) (by omega); rw [← this]; congr 1; omega
    · cases h0 : act k with
      | false => rfl
      | true =>
        cases h1 : act (k + 1) with
        | false => rfl
        | true =>
          cases h2 : act (k + 2) with
          | false => simp
          | true =>
            by_cases hfd : fd < 0
            · simp [hfd]
            simp only [hfd, Bool.not_true, decide_false, Bool.or_false, Bool.false_eq_true, if_false]
            apply ih.2
            rcases h with ⟨x, hx, hneg⟩ | ⟨j, hj, hb⟩
            · rcases List.mem_cons.1 hx with rfl | hx
              · exact absurd hneg hfd
              · exact .inl ⟨x, hx, hneg⟩
            · have : 3 ≤ j := by
                apply Nat.le_of_not_lt
                intro hl
                have : j = 0 ∨ j = 1 ∨ j = 2 := by omega
                rcases this with rfl | rfl | rfl
                · rw [Nat.add_zero, h0] at hb; cases hb
                · rw [h1] at hb; cases hb
                · rw [h2] at hb; cases hb
              exact .inr ⟨j - 3, by omega, by rw [← hb]; congr 1; omega⟩

/-- **C160: when a process is started.** If all pipes can be made, a process is started exactly if it can be, no output has a negative
number and all of the preparations succeed; not a single one that fails goes unnoticed. -/
theorem C160_started (o : Ora) (args : Nat) (ha : 0 < args) (ins outs : List Int) (rest : Int) (hp : ∀ k, o.pipe k = true)
    {a : Int} {tr : List Event} (h : unixSystem o args ins outs rest = .ok (a, tr)) :
    .spawn ∈ tr ↔ o.spawn = true ∧ (∀ fd ∈ outs, 0 ≤ fd) ∧ ∀ k, k < calls ins outs → o.act k = true := by
  have h0 : args ≠ 0 := by omega
  have hall : (!(List.range (ins.length + outs.length)).all o.pipe) = false := by simp [hp]
  unfold unixSystem at h
  simp only [if_neg h0, hall, Bool.false_eq_true, if_false] at h
  obtain ⟨i1, i2⟩ := actIn_spec o.act ins 0
  have hc : calls ins outs = (ins.map fun fd => if fd ≥ 0 then 3 else 1).sum + 3 * outs.length := rfl
  generalize (ins.map fun fd => if fd ≥ 0 then 3 else 1).sum = n at i1 i2 hc
  obtain ⟨o1, o2⟩ := actOut_spec o.act outs (0 + n)
  have key : (∃ k, ((actIn o.act 0 ins).bind fun k => actOut o.act k outs) = some k) ↔
      (∀ fd ∈ outs, 0 ≤ fd) ∧ ∀ k, k < calls ins outs → o.act k = true := by
    constructor
    · rintro ⟨k, hk⟩
      have hi : ∀ j, j < n → o.act (0 + j) = true := fun j hj => by
        cases hb : o.act (0 + j) with
        | true => rfl
        | false => rw [i2 ⟨j, hj, hb⟩] at hk; cases hk
      rw [i1 hi, Option.bind_some] at hk
      refine ⟨fun fd hfd => ?_, fun k hk2 => ?_⟩
      · apply Int.not_lt.1
        intro hneg
        rw [o2 (.inl ⟨fd, hfd, hneg⟩)] at hk
        cases hk
      · cases hb : o.act k with
        | true => rfl
        | false =>
          by_cases hkn : k < n
          · have := hi k hkn
            rw [Nat.zero_add, hb] at this
            cases this
          · rw [o2 (.inr ⟨k - n, by omega, by rw [← hb]; congr 1; omega⟩)] at hk
            cases hk
    · rintro ⟨hf, hk⟩
      rw [i1 fun j hj => hk _ (by omega), Option.bind_some]
      exact o1 hf fun j hj => hk _ (by omega)
  rw [← key]
  cases hact : ((actIn o.act 0 ins).bind fun k => actOut o.act k outs) with
  | none =>
    rw [hact] at h
    cases h
    simp [shuts]
  | some k0 =>
    rw [hact] at h
    dsimp only at h
    cases hs : o.spawn with
    | false =>
      rw [hs] at h
      cases h
      simp [shuts]
    | true =>
      rw [hs] at h
      simp only [Bool.not_true, Bool.false_eq_true, if_false] at h
      split at h <;> cases h <;> simp

/-- Three preparations for each of an input and an output. If the last one fails there is no process. -/
example : unixSystem ⟨fun _ => true, fun k => k != 5, true, fun _ => true⟩ 1 [0] [1] 7 =
    .ok (-1, [.pipe 0, .pipe 1, .shut 1, .shut 0]) := by decide +kernel

/-- **C160 is violated if a thread cannot be made.** The threads made before go on to run with channels that are destroyed,
and nobody waits for the process. -/
theorem C160_thread_violated (o : Ora) (args : Nat) (ha : 0 < args) (ins outs : List Int) (rest : Int)
    (hp : ∀ k, o.pipe k = true) (hact : ∀ k, o.act k = true) (hout : ∀ fd ∈ outs, 0 ≤ fd) (hs : o.spawn = true) (t : Nat)
    (h1 : ∀ u, u < t → o.thread u = true) (h2 : o.thread t = false) (hlt : t < ins.length + outs.length) :
    ∃ a b, unixSystem o args ins outs rest = .ok (-1, a ++ .gone :: b) ∧ .spawn ∈ a ∧ .wait ∉ a ++ .gone :: b ∧
      ∀ u, u < t → .start u ∈ a ∧ .join u ∉ a ++ .gone :: b := by
  have h0 : args ≠ 0 := by omega
  have hall : (!(List.range (ins.length + outs.length)).all o.pipe) = false := by simp [hp]
  have e1 : ∀ (l : List Int) (k : Nat), ∃ m, actIn o.act k l = some m := by
    intro l
    induction l with
    | nil => exact fun k => ⟨k, rfl⟩
    | cons fd l ih =>
      intro k
      simp only [actIn, hact, Bool.not_true, Bool.false_eq_true, if_false]
      split
      · exact ih _
      · exact ih _
  have e2 : ∀ (l : List Int), (∀ fd ∈ l, 0 ≤ fd) → ∀ (k : Nat), ∃ m, actOut o.act k l = some m := by
    intro l
    induction l with
    | nil => exact fun _ k => ⟨k, rfl⟩
    | cons fd l ih =>
      intro hl k
      have : ¬ fd < 0 := by have := hl fd List.mem_cons_self; omega
      simp only [actOut, hact, Bool.not_true, this, decide_false, Bool.or_false, Bool.false_eq_true, if_false]
      exact ih (fun fd h => hl fd (List.mem_cons_of_mem _ h)) _
  obtain ⟨m1, q1⟩ := e1 ins 0
  obtain ⟨m2, q2⟩ := e2 outs hout m1
  unfold unixSystem
  simp only [if_neg h0, hall, Bool.false_eq_true, if_false, q1, Option.bind_some, q2, hs, Bool.not_true]
  rw [starts_until _ 0 t hlt (fun u hu => h1 u (by omega)) (by rw [Nat.zero_add]; exact h2)]
  dsimp only
  rw [List.append_assoc _ [Event.gone]]
  refine ⟨_, _, rfl, ?_, ?_, ?_⟩
  · simp
  · simp [shuts]
  · intro u hu
    constructor
    · simp [hu]
    · simp [shuts]

/-- **C160 is violated if a pipe cannot be made**, for instance since too many files are open: the result of `pipe` is not
looked at and descriptors without values are used. -/
theorem C160_pipe_violated (o : Ora) (args : Nat) (ha : 0 < args) (ins outs : List Int) (rest : Int) (k : Nat)
    (hk : k < ins.length + outs.length) (h : o.pipe k = false) : unixSystem o args ins outs rest = .ub := by
  have h0 : args ≠ 0 := by omega
  unfold unixSystem
  dsimp only
  rw [if_neg h0, if_pos]
  rw [Bool.not_eq_true', List.all_eq_false]
  exact ⟨k, List.mem_range.2 hk, by simp [h]⟩

/-! ## The signal -/

variable {σ ι κ : Type} [DecidableEq ι] [DecidableEq κ]

/-- As long as the caller lives, the network does what it does when the signal is ignored, and no write has failed. -/
theorem alive_steps {prog : σ → Act σ ι κ} {cap n : Nat} {s : σ} {d : ι → Bytes} {z : Out σ ι κ}
    (h : SigSteps prog cap n (.alive (start s d)) z) : ∀ x, z = .alive x →
      Steps prog cap n (start s d) x ∧ ∀ i, (x.ws i).failed = false := by
  generalize hz : (Out.alive (start s d) : Out σ ι κ) = z0 at h
  induction h with
  | nil y =>
    intro x hx
    rw [← hz] at hx
    cases hx
    exact ⟨.nil _, fun i => rfl⟩
  | snoc h1 h2 ih =>
    intro x hx
    cases h2 with
    | move y y' st hf =>
      cases hx
      obtain ⟨i1, i2⟩ := ih hz y rfl
      exact ⟨.snoc i1 st, fun i => (hf i).trans (i2 i)⟩
    | signal => cases hx

/-- **C160, the signal.** A program that reads all of its inputs before it exits never causes the signal, in whatever order
process and threads move. -/
theorem C160_signal_partial {prog : σ → Act σ ι κ} {cap : Nat} {s : σ} {d : ι → Bytes} {o : κ → Bytes} {c : UInt8} {n : Nat}
    (h : SpawnProps.Eval prog s d o (fun _ => []) c n) (is : List ι) (ks : List κ) (his : ∀ i, i ∈ is) (hks : ∀ j, j ∈ ks)
    (hnd : ks.Nodup) {k : Nat} : ¬ SigSteps prog cap k (.alive (start s d)) .killed := by
  intro hx
  cases hx with
  | snoc h1 h2 =>
    cases h2 with
    | signal x c' i hc hd =>
      obtain ⟨st, -⟩ := alive_steps h1 x rfl
      obtain ⟨n', r1, -⟩ := SpawnProps.ref_steps (SpawnProps.inv_start cap s d) (SpawnProps.ref_start h) st is ks his hks hnd
      have hi := SpawnProps.inv_steps (SpawnProps.inv_start cap s d) st
      unfold SpawnProps.Ref at r1
      rw [hc] at r1
      obtain ⟨-, -, -, r2⟩ := r1
      have := (hi.ws i).todo_done (List.append_eq_nil_iff.1 (r2 i)).2
      rw [hd] at this
      cases this

/-- **C160 is violated by programs that leave input unread.** If more of an input is left unread than a pipe holds, then
every run ends with the death of the caller (if no input is empty; then there are runs that do not end, `C94`). -/
theorem C160_signal_violated {prog : σ → Act σ ι κ} {cap : Nat} (hcap : chunk ≤ cap) {s : σ} {d : ι → Bytes} {o : κ → Bytes}
    {r : ι → Bytes} {c : UInt8} {n : Nat} (h : SpawnProps.Eval prog s d o r c n) (hd : ∀ i, d i ≠ []) (is : List ι) (ks : List κ)
    (his : ∀ i, i ∈ is) (hks : ∀ j, j ∈ ks) (hnd : ks.Nodup) (i : ι) (hr : cap < (r i).length) {k : Nat} {z : Out σ ι κ}
    (hz : SigSteps prog cap k (.alive (start s d)) z) (hstop : ∀ y, ¬ SigStep prog cap z y) : z = .killed := by
  cases z with
  | killed => rfl
  | alive x =>
    exfalso
    obtain ⟨st, nf⟩ := alive_steps hz x rfl
    rcases SpawnProps.C94_no_deadlock_partial hcap s d hd st with hf | ⟨y, hy⟩
    · have := SpawnProps.C95_unread_violated h is ks his hks hnd st hf i hr
      obtain ⟨⟨c', hc⟩, -, -⟩ := hf
      unfold answer Process.systemResult at this
      rw [hc, if_neg] at this
      · simp at this
      · rw [Bool.not_eq_true, List.any_eq_false]
        intro b hb
        obtain ⟨i, _, rfl⟩ := List.mem_map.1 hb
        simp [nf i]
    · by_cases hq : ∀ i, (y.ws i).failed = (x.ws i).failed
      · exact hstop _ (.move x y hy hq)
      · cases hy with
        | epipe c' i' hc hdn => exact hstop _ (.signal x c' i' hc hdn)
        | write s' i' m a1 a2 a3 a4 =>
          apply hq
          intro j
          dsimp only
          unfold upd
          split
          · rename_i e; rw [e]; rfl
          · rfl
        | get s' i' kk b rr a1 a2 a3 =>
          apply hq
          intro j
          dsimp only
          unfold upd
          split
          · rename_i e; rw [e]
          · rfl
        | eof => exact hq fun _ => rfl
        | put => exact hq fun _ => rfl
        | halt => exact hq fun _ => rfl
        | read => exact hq fun _ => rfl
        | end_ => exact hq fun _ => rfl

/-- A program that exits at once, with an input of more characters than a pipe holds, kills the caller. -/
example : ∃ (d : Unit → Bytes), SpawnProps.Eval SpawnProps.true0 () d (fun _ => []) d 0 1 ∧ (∀ i, d i ≠ []) ∧ 65536 < (d ()).length :=
  ⟨fun _ => List.replicate 65537 97, .halt _ rfl, fun _ => (by
    intro h
    have := congrArg List.length h
    rw [List.length_replicate] at this
    cases this), by rw [List.length_replicate]; decide⟩

/-- Of three threads the last one cannot be made. -/
example : unixSystem ⟨fun _ => true, fun _ => true, true, fun t => t != 2⟩ 1 [0] [1, 2] 0 =
    .ok (-1, [.pipe 0, .pipe 1, .pipe 2, .newArg 0, .spawn, .freeArg 0, .start 0, .start 1, .gone, .shut 2, .shut 1, .shut 0]) := by
  decide +kernel

end Lolly.SpawnFailProps
