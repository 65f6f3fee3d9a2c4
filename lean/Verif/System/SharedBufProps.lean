import Verif.System.SharedBuf

set_option autoImplicit false

/-!
# C163: values written by several threads to streams of their own
-/

namespace Lolly.SharedBufProps

open Lolly.SharedBuf

/-- What a stream has to receive for some values. -/
def texts (l : List (Kind × Bytes)) : Bytes := l.flatMap (·.2)

/-- The texts are C strings that fit into the arrays. -/
def Printable (prog : Nat → List (Kind × Bytes)) : Prop :=
  ∀ t, ∀ p ∈ prog t, p.2.length < size p.1 ∧ (0 : UInt8) ∉ p.2

/-- The thread has written all its values. -/
def Finished (st : State) (t : Nat) : Prop := (st.th t).todo = [] ∧ (st.th t).phase = .idle

/-- The type of the value that the thread is writing. -/
def using? (st : State) (t : Nat) : Option Kind :=
  match (st.th t).phase with
  | .idle => none
  | .fmt k _ _ => some k
  | .read k _ _ => some k

/-- No two threads are writing values of the same type. -/
def Exclusive (st : State) : Prop := ∀ t u k, using? st t = some k → using? st u = some k → t = u

/-- A stream has received the texts of the first values of its thread, of all if the thread has finished. -/
def Faithful (prog : Nat → List (Kind × Bytes)) (st : State) (t : Nat) : Prop :=
  (∃ n, (st.th t).out = texts ((prog t).take n)) ∧ (Finished st t → (st.th t).out = texts (prog t))

/-- The number of accesses a thread needs for some values. -/
def cost : List (Kind × Bytes) → Nat
  | [] => 0
  | p :: l => 2 * p.2.length + 4 + cost l

/-! ## Accesses stay within the arrays -/

structure Th1 (x : Th) : Prop where
  todo : ∀ p ∈ x.todo, p.2.length < size p.1 ∧ (0 : UInt8) ∉ p.2
  fmt : ∀ k r i, x.phase = .fmt k r i → i + r.length ≤ size k ∧ (r = [] ∨ ∃ q, r = q ++ [0])
  read : ∀ k i g, x.phase = .read k i g → i < size k

structure Inv1 (st : State) : Prop where
  len : ∀ k, (st.buf k).length = size k
  last : ∀ k, (st.buf k)[size k - 1]? = some 0
  th : ∀ t, Th1 (st.th t)

theorem size_pos (k : Kind) : 0 < size k := by cases k <;> decide

theorem setTh_self (st : State) (t : Nat) (x : Th) : (setTh st t x).th t = x := by simp [setTh]

theorem setTh_ne (st : State) {t u : Nat} (x : Th) (h : u ≠ t) : (setTh st t x).th u = st.th u := by simp [setTh, h]

theorem inv1_setTh {st : State} (h : Inv1 st) {t : Nat} {x : Th} (hx : Th1 x) : Inv1 (setTh st t x) := by
  refine ⟨h.len, h.last, fun u => ?_⟩
  by_cases hu : u = t
  · subst hu; rw [setTh_self]; exact hx
  · rw [setTh_ne _ _ hu]; exact h.th u

theorem step_inv1 {st : State} (h : Inv1 st) (t : Nat) : ∃ st', step st t = .ok st' ∧ Inv1 st' := by
  have ht := h.th t
  unfold step
  cases hp : (st.th t).phase with
  | idle =>
    dsimp only
    cases hd : (st.th t).todo with
    | nil => exact ⟨_, rfl, h⟩
    | cons p l =>
      obtain ⟨k, s⟩ := p
      refine ⟨_, rfl, inv1_setTh h ⟨fun p hm => ?_, fun k' r i e => ?_, nofun⟩⟩
      · exact ht.todo p (by rw [hd]; exact List.mem_cons_of_mem _ hm)
      · cases e
        have := (ht.todo (k, s) (by rw [hd]; exact List.mem_cons_self)).1
        refine ⟨?_, .inr ⟨s, rfl⟩⟩
        simp only [List.length_append, List.length_cons, List.length_nil] at this ⊢
        omega
  | fmt k r i =>
    obtain ⟨h1, h2⟩ := ht.fmt k r i hp
    cases r with
    | nil =>
      refine ⟨_, rfl, inv1_setTh h ⟨ht.todo, nofun, fun k' j g e => ?_⟩⟩
      cases e
      exact size_pos k
    | cons c r =>
      simp only [List.length_cons] at h1
      have hi : i < (st.buf k).length := by rw [h.len]; omega
      dsimp only
      rw [wr_ok hi, Res.ok_bind]
      have hr : r = [] ∨ ∃ q, r = q ++ [0] := by
        rcases h2 with h2 | ⟨q, h2⟩
        · cases h2
        · cases q with
          | nil => left; simp at h2; exact h2.2
          | cons d q => right; refine ⟨q, ?_⟩; injection h2
      refine ⟨_, rfl, inv1_setTh (st := setBuf st k ((st.buf k).set i c)) ⟨fun j => ?_, fun j => ?_, h.th⟩
        ⟨ht.todo, fun k' r' j e => ?_, nofun⟩⟩
      · simp only [setBuf]
        split
        · next e => subst e; rw [List.length_set, h.len]
        · exact h.len j
      · simp only [setBuf]
        split
        · next e =>
          subst e
          rw [List.getElem?_set]
          split
          · next e =>
            have hr0 : r = [] := List.length_eq_zero_iff.1 (by omega)
            subst hr0
            rcases h2 with h2 | ⟨q, h2⟩
            · cases h2
            · have : q = [] := by
                have := congrArg List.length h2
                simp at this
                exact this
              subst this
              simp at h2
              subst h2
              rfl
          · exact h.last j
        · exact h.last j
      · cases e
        exact ⟨by omega, hr⟩
  | read k i g =>
    have h1 := ht.read k i g hp
    have hi : i < (st.buf k).length := by rw [h.len]; exact h1
    dsimp only
    rw [rd_ok hi, Res.ok_bind]
    by_cases hc : (st.buf k)[i] = 0
    · rw [if_pos hc]
      exact ⟨_, rfl, inv1_setTh h ⟨ht.todo, nofun, nofun⟩⟩
    · rw [if_neg hc]
      refine ⟨_, rfl, inv1_setTh h ⟨ht.todo, nofun, fun k' j g' e => ?_⟩⟩
      cases e
      have hl := h.last k
      have : i ≠ size k - 1 := by
        intro e
        rw [← e, List.getElem?_eq_getElem hi] at hl
        exact hc (Option.some.inj hl)
      omega

theorem inv1_start {prog : Nat → List (Kind × Bytes)} (hp : Printable prog) : Inv1 (start prog) := by
  refine ⟨fun k => by simp [start], fun k => ?_, fun t => ⟨hp t, nofun, nofun⟩⟩
  have := size_pos k
  simp only [start, List.getElem?_replicate]
  rw [if_pos (by omega)]

theorem run_inv1 {st : State} (h : Inv1 st) (sched : List Nat) : ∃ st', run st sched = .ok st' ∧ Inv1 st' := by
  induction sched generalizing st with
  | nil => exact ⟨st, rfl, h⟩
  | cons t l ih =>
    obtain ⟨st1, e1, h1⟩ := step_inv1 h t
    obtain ⟨st2, e2, h2⟩ := ih h1
    exact ⟨st2, by rw [run, e1, Res.ok_bind, e2], h2⟩

/-- Whatever the schedule, and whoever writes which types: no access is outside the arrays. -/
theorem C163_inside {prog : Nat → List (Kind × Bytes)} (hp : Printable prog) (sched : List Nat) :
    ∃ st, run (start prog) sched = .ok st :=
  let ⟨st, e, _⟩ := run_inv1 (inv1_start hp) sched
  ⟨st, e⟩

/-! ## Contents -/

/-- What is known about a thread that has done `pre` and is at work on `cur`. -/
inductive Doing (buf : Kind → Bytes) : Phase → List (Kind × Bytes) → Nat → Prop
  | idle : Doing buf .idle [] 0
  | fmt {k : Kind} {s w r : Bytes} (hs : s ++ [0] = w ++ r) (hb : (buf k).take w.length = w) :
      Doing buf (.fmt k r w.length) [(k, s)] (r.length + 1 + (s.length + 1))
  | read {k : Kind} {s : Bytes} {i : Nat} (hb : (s ++ [0]) <+: buf k) (hi : i ≤ s.length) :
      Doing buf (.read k i (s.take i)) [(k, s)] (s.length + 1 - i)

/-- `done` counts the steps the thread has taken. -/
def Inv2 (prog : List (Kind × Bytes)) (buf : Kind → Bytes) (x : Th) (done : Nat) : Prop :=
  ∃ pre cur left, prog = pre ++ cur ++ x.todo ∧ x.out = texts pre ∧ Doing buf x.phase cur left ∧
    left + cost x.todo ≤ cost prog - done

theorem Doing.frame {b b' : Kind → Bytes} {p : Phase} {cur : List (Kind × Bytes)} {left : Nat} (h : Doing b p cur left)
    (he : ∀ k, (∃ r i, p = .fmt k r i) ∨ (∃ i g, p = .read k i g) → b' k = b k) : Doing b' p cur left := by
  cases h with
  | idle => exact .idle
  | fmt hs hb => exact .fmt hs (by rw [he _ (.inl ⟨_, _, rfl⟩)]; exact hb)
  | read hb hi => exact .read (by rw [he _ (.inr ⟨_, _, rfl⟩)]; exact hb) hi

theorem texts_append (a b : List (Kind × Bytes)) : texts (a ++ b) = texts a ++ texts b := by simp [texts]

/-- A step of the thread itself. -/
theorem step_self {prog : List (Kind × Bytes)} (hpr : ∀ p ∈ prog, p.2.length < size p.1 ∧ (0 : UInt8) ∉ p.2)
    {st st' : State} {t n : Nat} (hl : ∀ k, (st.buf k).length = size k)
    (h : Inv2 prog st.buf (st.th t) n) (e : step st t = .ok st') : Inv2 prog st'.buf (st'.th t) (n + 1) := by
  obtain ⟨pre, cur, left, h1, h2, h3, h4⟩ := h
  unfold step at e
  generalize hp : (st.th t).phase = ph at e h3
  cases h3 with
  | idle =>
    dsimp only at e
    cases hd : (st.th t).todo with
    | nil =>
      rw [hd] at e h1 h4
      cases e
      exact ⟨pre, [], 0, by rw [hd]; exact h1, h2, by rw [hp]; exact .idle, by rw [hd]; simp [cost]⟩
    | cons p l =>
      obtain ⟨k, s⟩ := p
      rw [hd] at e h1 h4
      cases e
      refine ⟨pre, [(k, s)], (s ++ [0]).length + 1 + (s.length + 1), ?_, ?_, ?_, ?_⟩
      rotate_left 2
      · rw [setTh_self]
        exact Doing.fmt (w := []) rfl rfl
      · rw [setTh_self]
        simp only [cost, List.length_append, List.length_cons, List.length_nil] at h4 ⊢
        omega
      · rw [setTh_self]
        simpa using h1
      · rw [setTh_self]
        exact h2
  | @fmt k s w r hs hb =>
    have hks := hpr (k, s) (by rw [h1]; simp)
    cases r with
    | nil =>
      cases e
      refine ⟨pre, [(k, s)], s.length + 1, ?_, ?_, ?_, ?_⟩
      · rw [setTh_self]; exact h1
      · rw [setTh_self]; exact h2
      · rw [setTh_self]
        rw [List.append_nil] at hs
        refine Doing.read (s := s) (i := 0) ?_ (Nat.zero_le _)
        rw [hs, ← hb]
        exact List.take_prefix _ _
      · rw [setTh_self]
        simp only [List.length_nil] at h4
        dsimp only
        omega
    | cons c r =>
      dsimp only at e
      have hi : w.length < (st.buf k).length := by
        have := congrArg List.length hs
        simp only [List.length_append, List.length_cons, List.length_nil] at this
        have := hks.1
        dsimp only at this
        rw [hl]; omega
      rw [wr_ok hi, Res.ok_bind] at e
      cases e
      refine ⟨pre, [(k, s)], r.length + 1 + (s.length + 1), ?_, ?_, ?_, ?_⟩
      · rw [setTh_self]; exact h1
      · rw [setTh_self]; exact h2
      · rw [setTh_self]
        have hd := @Doing.fmt (setTh (setBuf st k ((st.buf k).set w.length c)) t
            ⟨(st.th t).todo, .fmt k r (w.length + 1), (st.th t).out⟩).buf k s (w ++ [c]) r (by rw [hs]; simp) (by
          simp only [setTh, setBuf, if_true, List.length_append, List.length_cons, List.length_nil]
          rw [List.take_add_one, List.take_set_of_le (Nat.le_refl _), hb, List.getElem?_set_self hi]
          rfl)
        rw [List.length_append] at hd
        exact hd
      · rw [setTh_self]
        simp only [List.length_cons] at h4
        dsimp only
        omega
  | @read k s i hb hi =>
    have hks := hpr (k, s) (by rw [h1]; simp)
    dsimp only at e
    obtain ⟨q, hq⟩ := hb
    have hlen : i < (st.buf k).length := by
      rw [← hq]; simp only [List.length_append, List.length_cons, List.length_nil]; omega
    rw [rd_ok hlen, Res.ok_bind] at e
    have hget : (st.buf k)[i]? = (s ++ [0])[i]? := by
      rw [← hq, List.getElem?_append_left]
      simp only [List.length_append, List.length_cons, List.length_nil]; omega
    rw [List.getElem?_eq_getElem hlen] at hget
    by_cases hii : i = s.length
    · subst hii
      have hz : (st.buf k)[s.length] = 0 := by
        simpa using hget
      rw [if_pos hz] at e
      cases e
      refine ⟨pre ++ [(k, s)], [], 0, ?_, ?_, ?_, ?_⟩
      · rw [setTh_self]
        simpa using h1
      · rw [setTh_self]
        dsimp only
        rw [texts_append, h2, List.take_length]
        simp [texts]
      · rw [setTh_self]; exact .idle
      · rw [setTh_self]
        dsimp only
        omega
    · have hi' : i < s.length := by omega
      have hv : (st.buf k)[i] = s[i] := by
        rw [List.getElem?_append_left hi', List.getElem?_eq_getElem hi'] at hget
        exact Option.some.inj hget
      have hz : (st.buf k)[i] ≠ 0 := by
        rw [hv]
        intro h0
        exact hks.2 (h0 ▸ List.getElem_mem hi')
      rw [if_neg hz] at e
      cases e
      refine ⟨pre, [(k, s)], s.length + 1 - (i + 1), ?_, ?_, ?_, ?_⟩
      · rw [setTh_self]; exact h1
      · rw [setTh_self]; exact h2
      · rw [setTh_self]
        have hd := @Doing.read st.buf k s (i + 1) ⟨q, hq⟩ hi'
        rw [List.take_add_one, List.getElem?_eq_getElem hi'] at hd
        rw [hv]
        exact hd
      · rw [setTh_self]
        dsimp only
        omega

/-- A step of another thread. -/
theorem step_other {st st' : State} {t u : Nat} (hne : u ≠ t) (hx : Exclusive st) (e : step st t = .ok st') :
    st'.th u = st.th u ∧ ∀ k, using? st u = some k → st'.buf k = st.buf k := by
  unfold step at e
  cases hp : (st.th t).phase with
  | idle =>
    rw [hp] at e
    dsimp only at e
    split at e
    · cases e; exact ⟨rfl, fun _ _ => rfl⟩
    · cases e; exact ⟨setTh_ne _ _ hne, fun _ _ => rfl⟩
  | fmt k r i =>
    rw [hp] at e
    cases r with
    | nil => cases e; exact ⟨setTh_ne _ _ hne, fun _ _ => rfl⟩
    | cons c r =>
      obtain ⟨b, _, e⟩ := Res.bind_eq_ok.1 e
      cases e
      refine ⟨setTh_ne _ _ hne, fun j hj => ?_⟩
      have : j ≠ k := by
        intro hjk
        subst hjk
        exact hne (hx u t j hj (by simp [using?, hp]))
      simp [setTh, setBuf, this]
  | read k i g =>
    rw [hp] at e
    obtain ⟨c, _, e⟩ := Res.bind_eq_ok.1 e
    split at e <;> cases e <;> exact ⟨setTh_ne _ _ hne, fun _ _ => rfl⟩

theorem inv2_other {prog : List (Kind × Bytes)} {st st' : State} {t u n : Nat} (hne : u ≠ t) (hx : Exclusive st)
    (e : step st t = .ok st') (h : Inv2 prog st.buf (st.th u) n) : Inv2 prog st'.buf (st'.th u) n := by
  obtain ⟨h1, h2⟩ := step_other hne hx e
  rw [h1]
  obtain ⟨pre, cur, left, a, b, c, d⟩ := h
  refine ⟨pre, cur, left, a, b, c.frame fun k hk => h2 k ?_, d⟩
  rcases hk with ⟨r, i, hk⟩ | ⟨i, g, hk⟩ <;> simp [using?, hk]

theorem run_append (st : State) (l : List Nat) (t : Nat) :
    run st (l ++ [t]) = (do let st' ← run st l; step st' t) := by
  induction l generalizing st with
  | nil => simp [run]; cases step st t <;> rfl
  | cons u l ih =>
    simp only [List.cons_append, run]
    cases step st u with
    | ok st1 => simp only [Res.ok_bind]; exact ih st1
    | _ => rfl

theorem run_inv2 {prog : Nat → List (Kind × Bytes)} (hp : Printable prog) (sched : List Nat)
    (hx : ∀ l st, l <+: sched → run (start prog) l = .ok st → Exclusive st) (l : List Nat) (hl : l <+: sched)
    {st : State} (e : run (start prog) l = .ok st) :
    Inv1 st ∧ ∀ t, Inv2 (prog t) st.buf (st.th t) (l.count t) := by
  induction hn : l.length generalizing l st with
  | zero =>
    have := List.length_eq_zero_iff.1 hn
    subst this
    cases e
    exact ⟨inv1_start hp, fun t => ⟨[], [], 0, rfl, rfl, .idle, by simp [start]⟩⟩
  | succ n ih =>
    obtain ⟨l', t, rfl⟩ : ∃ l' t, l = l' ++ [t] := by
      rcases List.eq_nil_or_concat l with h | ⟨l', t, h⟩
      · subst h; cases hn
      · exact ⟨l', t, by rw [h, List.concat_eq_append]⟩
    rw [run_append] at e
    obtain ⟨st1, e1, e2⟩ := Res.bind_eq_ok.1 e
    have hl' : l' <+: sched := (List.prefix_append l' [t]).trans hl
    obtain ⟨i1, i2⟩ := ih l' hl' e1 (by simpa using hn)
    obtain ⟨st2, e3, i3⟩ := step_inv1 i1 t
    rw [e2] at e3
    cases e3
    refine ⟨i3, fun u => ?_⟩
    by_cases hu : u = t
    · subst hu
      have := step_self (hp u) i1.len (i2 u) e2
      simpa using this
    · have := inv2_other hu (hx l' st1 hl' e1) e2 (i2 u)
      have hc : (l' ++ [t]).count u = l'.count u := by
        rw [List.count_append, List.count_singleton]
        have : (t == u) = false := by simpa using fun h => hu h.symm
        rw [this]; simp
      rw [hc]
      exact this

theorem cost_eq_zero {l : List (Kind × Bytes)} (h : cost l = 0) : l = [] := by
  cases l with
  | nil => rfl
  | cons p l => simp [cost] at h

theorem Doing.left_zero {b : Kind → Bytes} {p : Phase} {cur : List (Kind × Bytes)} {left : Nat} (h : Doing b p cur left)
    (h0 : left = 0) : p = .idle := by
  cases h with
  | idle => rfl
  | fmt => omega
  | read hb hi => omega

theorem Doing.idle_cur {b : Kind → Bytes} {p : Phase} {cur : List (Kind × Bytes)} {left : Nat} (h : Doing b p cur left)
    (h0 : p = .idle) : cur = [] := by
  cases h with
  | idle => rfl
  | fmt => cases h0
  | read => cases h0

/-- As long as no two threads are writing values of the same type at the same time, every stream receives the texts of
the values of its thread in order, and a thread that has had enough steps has finished. -/
theorem C163_exclusive_partial {prog : Nat → List (Kind × Bytes)} (hp : Printable prog) (sched : List Nat)
    (hx : ∀ l st, l <+: sched → run (start prog) l = .ok st → Exclusive st) :
    ∃ st, run (start prog) sched = .ok st ∧ ∀ t, Faithful prog st t ∧ (cost (prog t) ≤ sched.count t → Finished st t) := by
  obtain ⟨st, e⟩ := C163_inside hp sched
  refine ⟨st, e, fun t => ?_⟩
  obtain ⟨pre, cur, left, h1, h2, h3, h4⟩ := (run_inv2 hp sched hx sched (List.prefix_refl _) e).2 t
  refine ⟨⟨⟨pre.length, ?_⟩, fun hf => ?_⟩, fun hc => ?_⟩
  · rw [h2, h1, List.append_assoc, List.take_left]
  · have hcur := h3.idle_cur hf.2
    rw [hf.1, hcur] at h1
    rw [h2, h1]; simp
  · exact ⟨cost_eq_zero (by omega), h3.left_zero (by omega)⟩

/-! ## Threads that write different types -/

theorem step_kinds {prog : Nat → List (Kind × Bytes)} {st st' : State} {t : Nat}
    (h : ∀ u, (∀ p ∈ (st.th u).todo, p ∈ prog u) ∧ ∀ k, using? st u = some k → k ∈ (prog u).map (·.1))
    (e : step st t = .ok st') :
    ∀ u, (∀ p ∈ (st'.th u).todo, p ∈ prog u) ∧ ∀ k, using? st' u = some k → k ∈ (prog u).map (·.1) := by
  have key : ∀ (s0 : State) (x : Th), (∀ u, s0.th u = st.th u) → (∀ p ∈ x.todo, p ∈ prog t) →
      (∀ k, using? (setTh s0 t x) t = some k → k ∈ (prog t).map (·.1)) →
      ∀ u, (∀ p ∈ ((setTh s0 t x).th u).todo, p ∈ prog u) ∧
        ∀ k, using? (setTh s0 t x) u = some k → k ∈ (prog u).map (·.1) := by
    intro s0 x hs ha hb u
    by_cases hu : u = t
    · subst hu; rw [setTh_self]; exact ⟨ha, hb⟩
    · have : (setTh s0 t x).th u = st.th u := by rw [setTh_ne _ _ hu, hs]
      refine ⟨by rw [this]; exact (h u).1, fun k hk => (h u).2 k ?_⟩
      rw [using?, this] at hk
      exact hk
  unfold step at e
  cases hph : (st.th t).phase with
  | idle =>
    rw [hph] at e
    dsimp only at e
    cases hd : (st.th t).todo with
    | nil => rw [hd] at e; cases e; exact h
    | cons p l =>
      rw [hd] at e
      cases e
      refine key st _ (fun _ => rfl) (fun q hq => (h t).1 q (by rw [hd]; exact List.mem_cons_of_mem _ hq)) fun k hk => ?_
      simp only [using?, setTh_self, Option.some.injEq] at hk
      subst hk
      exact List.mem_map_of_mem ((h t).1 p (by rw [hd]; exact List.mem_cons_self))
  | fmt k r i =>
    have hk0 : k ∈ (prog t).map (·.1) := (h t).2 k (by simp [using?, hph])
    rw [hph] at e
    cases r with
    | nil =>
      cases e
      refine key st _ (fun _ => rfl) (h t).1 fun j hj => ?_
      simp only [using?, setTh_self, Option.some.injEq] at hj
      exact hj ▸ hk0
    | cons c r =>
      obtain ⟨b, _, e⟩ := Res.bind_eq_ok.1 e
      cases e
      refine key (setBuf st k b) _ (fun _ => rfl) (h t).1 fun j hj => ?_
      simp only [using?, setTh_self, Option.some.injEq] at hj
      exact hj ▸ hk0
  | read k i g =>
    have hk0 : k ∈ (prog t).map (·.1) := (h t).2 k (by simp [using?, hph])
    rw [hph] at e
    obtain ⟨c, _, e⟩ := Res.bind_eq_ok.1 e
    split at e <;> cases e
    · refine key st _ (fun _ => rfl) (h t).1 fun j hj => ?_
      simp only [using?, setTh_self] at hj
      cases hj
    · refine key st _ (fun _ => rfl) (h t).1 fun j hj => ?_
      simp only [using?, setTh_self, Option.some.injEq] at hj
      exact hj ▸ hk0

theorem run_kinds {prog : Nat → List (Kind × Bytes)} (l : List Nat) {st st' : State}
    (h : ∀ u, (∀ p ∈ (st.th u).todo, p ∈ prog u) ∧ ∀ k, using? st u = some k → k ∈ (prog u).map (·.1))
    (e : run st l = .ok st') : ∀ u k, using? st' u = some k → k ∈ (prog u).map (·.1) := by
  induction l generalizing st with
  | nil => cases e; exact fun u => (h u).2
  | cons t l ih =>
    obtain ⟨st1, e1, e2⟩ := Res.bind_eq_ok.1 e
    exact ih (step_kinds h e1) e2

/-- If no type is written by two threads, every schedule is as good as one thread after the other. -/
theorem C163_types_partial {prog : Nat → List (Kind × Bytes)} (hp : Printable prog)
    (hd : ∀ t u k, k ∈ (prog t).map (·.1) → k ∈ (prog u).map (·.1) → t = u) (sched : List Nat) :
    ∃ st, run (start prog) sched = .ok st ∧ ∀ t, Faithful prog st t ∧ (cost (prog t) ≤ sched.count t → Finished st t) := by
  refine C163_exclusive_partial hp sched fun l st _ e t u k h1 h2 => ?_
  have := run_kinds (prog := prog) l (fun u => ⟨fun p hm => hm, fun k hk => by simp [start, using?] at hk⟩) e
  exact hd t u k (this t k h1) (this u k h2)

/-- The first thread writes the `int` 1, the second one the `int` 2. -/
def ints : Nat → List (Kind × Bytes)
  | 0 => [(.int, b!"1")]
  | 1 => [(.int, b!"2")]
  | _ => []

/-- Two threads write different numbers to different streams: both streams receive the second number. -/
theorem C163_violated : Printable ints ∧ ∃ st, run (start ints) [0, 0, 0, 0, 1, 1, 1, 1, 0, 0, 1, 1] = .ok st ∧
    Finished st 0 ∧ Finished st 1 ∧ (st.th 0).out = b!"2" ∧ (st.th 1).out = b!"2" := by
  have hp : Printable ints := by
    intro t p hm
    match t, hm with
    | 0, hm => simp [ints] at hm; subst hm; decide
    | 1, hm => simp [ints] at hm; subst hm; decide
  obtain ⟨st, e⟩ := C163_inside hp [0, 0, 0, 0, 1, 1, 1, 1, 0, 0, 1, 1]
  refine ⟨hp, st, e, ?_⟩
  have h : (do let st ← run (start ints) [0, 0, 0, 0, 1, 1, 1, 1, 0, 0, 1, 1]
               Res.ok ((st.th 0).todo, (st.th 0).phase, (st.th 0).out, (st.th 1).todo, (st.th 1).phase, (st.th 1).out)) =
      .ok ([], .idle, b!"2", [], .idle, b!"2") := rfl
  rw [e, Res.ok_bind] at h
  injection h with h
  simp only [Prod.mk.injEq] at h
  exact ⟨⟨h.1, h.2.1⟩, ⟨h.2.2.2.1, h.2.2.2.2.1⟩, h.2.2.1, h.2.2.2.2.2⟩

/-- The first thread writes two `int`s, the second one a `long`. -/
def mixed : Nat → List (Kind × Bytes)
  | 0 => [(.int, b!"-17"), (.int, b!"5")]
  | 1 => [(.long, b!"42")]
  | _ => []

/-- The hypotheses hold for them. -/
example (sched : List Nat) : ∃ st, run (start mixed) sched = .ok st ∧
    ∀ t, Faithful mixed st t ∧ (cost (mixed t) ≤ sched.count t → Finished st t) := by
  refine C163_types_partial (fun t p hm => ?_) (fun t u k h1 h2 => ?_) sched
  · match t, hm with
    | 0, hm => simp [mixed] at hm; rcases hm with rfl | rfl <;> decide
    | 1, hm => simp [mixed] at hm; subst hm; decide
  · match t, u, h1, h2 with
    | 0, 0, _, _ => rfl
    | 1, 1, _, _ => rfl
    | 0, 1, h1, h2 => simp [mixed] at h1 h2; subst h1; cases h2
    | 1, 0, h1, h2 => simp [mixed] at h1 h2; subst h1; cases h2

/-- The two threads take turns. -/
example : (do let st ← run (start mixed) ((List.range 18).flatMap fun _ => [0, 1])
              Res.ok ((st.th 0).out, (st.th 1).out)) = .ok (b!"-175", b!"42") := rfl

end Lolly.SharedBufProps
