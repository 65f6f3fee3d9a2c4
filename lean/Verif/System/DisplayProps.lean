import Verif.System.Display

set_option autoImplicit false

/-!
# C96, C97: indentation of output, visibility of lines
-/

namespace Lolly.DisplayProps
open Display

/-! ## Specification -/

/-- The column of a terminal after it was sent some text: a line feed goes to column 0, a backspace one column back. -/
def column (s : Bytes) : Nat := s.foldl (fun c b => if b = 10 then 0 else if b = 8 then c - 1 else c + 1) 0

/-- How many `INDENT` have not been undone. -/
def depth : List Op → Int
  | [] => 0
  | .ctrl _ .indent :: l => depth l + 1
  | .ctrl _ .unindent :: l => depth l - 1
  | _ :: l => depth l

/-- No `UNINDENT` without an `INDENT` before. -/
def Balanced (l : List Op) : Prop := ∀ p, p <+: l → 0 ≤ depth p

/-- Whether stream `k` is at the start of a line: only controls were sent to it since the last new line, and the
indentation was not changed on another stream. -/
def atMargin (k : Nat) (l : List Op) : Bool :=
  l.foldl (fun b o =>
    match o with
    | .text j _ => b && decide (j ≠ k)
    | .ctrl j .hrule => b || decide (j = k)
    | .ctrl j .lf => b || decide (j = k)
    | .ctrl j _ => b && decide (j = k)) true

/-! ## Lemmas -/

theorem run_append (st : St) (l m : List Op) : run st (l ++ m) = run st l >>= fun st => run st m := by
  induction l generalizing st with
  | nil => rfl
  | cons o l ih =>
    simp only [List.cons_append, run]
    cases step st o <;> simp [ih]

theorem depth_append (l m : List Op) : depth (l ++ m) = depth l + depth m := by
  induction l with
  | nil => simp [depth]
  | cons o l ih =>
    cases o with
    | text k s => simpa [depth] using ih
    | ctrl k c => cases c <;> simp only [List.cons_append, depth, ih] <;> omega

/-- The property of states reached from the start. -/
theorem run_ind : ∀ (l : List Op) (st st' : St), run st l = .ok st' → st'.ind = st.ind + 2 * depth l := by
  intro l
  induction l with
  | nil => intro st st' h; cases h; simp [depth]
  | cons o l ih =>
    intro st st' h
    simp only [run, Res.bind_eq_ok] at h
    obtain ⟨st1, h1, h2⟩ := h
    have := ih _ _ h2
    cases o with
    | text k s =>
      simp only [step, Res.ok.injEq] at h1
      subst h1
      simpa [St.put, depth] using this
    | ctrl k c =>
      simp only [step, Res.bind_eq_ok] at h1
      obtain ⟨⟨s, i⟩, h3, h4⟩ := h1
      simp only [Res.ok.injEq] at h4
      subst h4
      cases c <;> simp only [display, addIndent, Res.bind_eq_ok] at h3 <;> simp only [depth]
      · obtain ⟨j, h3, h5⟩ := h3
        split at h3 <;> simp_all
        omega
      · obtain ⟨j, h3, h5⟩ := h3
        split at h3 <;> simp_all
        omega
      · simp_all
      · simp_all

theorem snoc_induction {α : Type} {P : List α → Prop} (h0 : P []) (h1 : ∀ l x, P l → P (l ++ [x])) : ∀ l, P l := by
  intro l
  have : ∀ m : List α, P m.reverse := by
    intro m
    induction m with
    | nil => exact h0
    | cons x m ih => simpa using h1 _ x ih
  simpa using this l.reverse

theorem column_append (s t : Bytes) :
    column (s ++ t) = t.foldl (fun c b => if b = 10 then 0 else if b = 8 then c - 1 else c + 1) (column s) := by
  simp [column]

theorem column_fill (c : UInt8) (h1 : c ≠ 10) (h2 : c ≠ 8) : ∀ (n a : Nat),
    (List.replicate n c).foldl (fun c b => if b = 10 then 0 else if b = 8 then c - 1 else c + 1) a = a + n := by
  intro n
  induction n with
  | zero => intro a; rfl
  | succ n ih =>
    intro a
    simp only [List.replicate_succ, List.foldl_cons, if_neg h1, if_neg h2]
    rw [ih]
    omega

theorem column_newLine (s : Bytes) (ind : Int) : column (s ++ newLine ind) = ind.toNat := by
  unfold newLine fill
  rw [column_append, List.foldl_append]
  simp only [List.foldl_cons, List.foldl_nil, if_true]
  rw [column_fill _ (by decide) (by decide)]
  omega

theorem balanced_append {l : List Op} {o : Op} (h : Balanced (l ++ [o])) : Balanced l ∧ 0 ≤ depth (l ++ [o]) :=
  ⟨fun p hp => h p (hp.trans (List.prefix_append _ _)), h _ (List.prefix_refl _)⟩

/-! ## C96 -/

/-- C96: wherever a new line is asked for, and whatever was written before, it starts with two spaces for every `INDENT`
that has not been undone; nothing else changes.
Missing: that the `INDENT`s of other streams do not count, see `C96_streams_violated`. -/
theorem C96_new_line_partial (l : List Op) (k : Nat) (st : St) (h : run start l = .ok st) :
    ∃ st', run start (l ++ [.ctrl k .lf]) = .ok st' ∧
      st'.out k = st.out k ++ (10 :: List.replicate (2 * depth l).toNat 32) ∧ ∀ j, j ≠ k → st'.out j = st.out j := by
  have hi : st.ind = 2 * depth l := by simpa [start] using run_ind l _ _ h
  refine ⟨_, by rw [run_append, h]; rfl, ?_, ?_⟩
  · simp only [St.put, if_true, newLine, fill, hi]
    simp
  · intro j hj
    simp [St.put, hj]

/-- C96: at the start of a line the column is the indentation, whatever controls have been used. -/
theorem C96_column (k : Nat) : ∀ (l : List Op) (st : St), Balanced l → run start l = .ok st → atMargin k l = true →
    (column (st.out k) : Int) = 2 * depth l := by
  intro l
  induction l using snoc_induction with
  | h0 => intro st _ h _; cases h; rfl
  | h1 l o ih =>
    intro st hb h hm
    obtain ⟨hb1, hb2⟩ := balanced_append hb
    rw [run_append] at h
    simp only [Res.bind_eq_ok] at h
    obtain ⟨st1, h1, h2⟩ := h
    have hi : st1.ind = 2 * depth l := by simpa [start] using run_ind l _ _ h1
    have hd : 0 ≤ depth l := hb1 _ (List.prefix_refl _)
    simp only [run, Res.bind_eq_ok] at h2
    obtain ⟨st2, h2, h3⟩ := h2
    cases h3
    simp only [atMargin, List.foldl_append, List.foldl_cons, List.foldl_nil] at hm
    rw [depth_append] at hb2 ⊢
    cases o with
    | text j s =>
      simp only [step, Res.ok.injEq] at h2
      subst h2
      simp only [Bool.and_eq_true, decide_eq_true_eq] at hm
      have := ih st1 hb1 h1 hm.1
      simp only [St.put, if_neg (Ne.symm hm.2), depth]
      omega
    | ctrl j c =>
      simp only [step, Res.bind_eq_ok] at h2
      obtain ⟨⟨s, i⟩, h4, h5⟩ := h2
      simp only [Res.ok.injEq] at h5
      subst h5
      cases c with
      | indent =>
        simp only [Bool.and_eq_true, decide_eq_true_eq] at hm
        have hc := ih st1 hb1 h1 hm.1
        obtain ⟨i', _, h6⟩ := Res.bind_eq_ok.mp h4
        cases h6
        simp only [St.put, if_pos hm.2.symm, depth, column_append]
        simp
        omega
      | unindent =>
        simp only [Bool.and_eq_true, decide_eq_true_eq] at hm
        have hc := ih st1 hb1 h1 hm.1
        obtain ⟨i', _, h6⟩ := Res.bind_eq_ok.mp h4
        cases h6
        simp only [depth] at hb2
        simp only [St.put, if_pos hm.2.symm, depth, column_append]
        simp
        omega
      | hrule =>
        simp only [display, Res.ok.injEq, Prod.mk.injEq] at h4
        obtain ⟨rfl, rfl⟩ := h4
        simp only [depth]
        by_cases hjk : j = k
        · simp only [St.put, if_pos hjk.symm]
          rw [← List.append_assoc, column_newLine]
          omega
        · have hm' : atMargin k l = true := by simpa [hjk, atMargin] using hm
          have hc := ih st1 hb1 h1 hm'
          simp only [St.put, if_neg (fun e : k = j => hjk e.symm)]
          omega
      | lf =>
        simp only [display, Res.ok.injEq, Prod.mk.injEq] at h4
        obtain ⟨rfl, rfl⟩ := h4
        simp only [depth]
        by_cases hjk : j = k
        · simp only [St.put, if_pos hjk.symm]
          rw [column_newLine]
          omega
        · have hm' : atMargin k l = true := by simpa [hjk, atMargin] using hm
          have hc := ih st1 hb1 h1 hm'
          simp only [St.put, if_neg (fun e : k = j => hjk e.symm)]
          omega

/-- C96: a rule drawn at the start of a line consists of dashes up to column 78, whatever the indentation, followed by a
new line. -/
theorem C96_rule (k : Nat) (l : List Op) (st : St) (hb : Balanced l) (h : run start l = .ok st)
    (hm : atMargin k l = true) (hd : depth l ≤ 39) :
    ∃ st' dashes rest, run start (l ++ [.ctrl k .hrule]) = .ok st' ∧ st'.out k = st.out k ++ dashes ++ 10 :: rest ∧
      (∀ c ∈ dashes, c = 45) ∧ column (st.out k ++ dashes) = 78 ∧
      rest = List.replicate (2 * depth l).toNat 32 := by
  have hi : st.ind = 2 * depth l := by simpa [start] using run_ind l _ _ h
  have hc := C96_column k l st hb h hm
  have h0 : 0 ≤ depth l := hb _ (List.prefix_refl _)
  refine ⟨_, fill st.ind 78 45, List.replicate (2 * depth l).toNat 32, by rw [run_append, h]; rfl, ?_, ?_, ?_, rfl⟩
  · simp [St.put, newLine, fill, hi]
  · intro c hc
    exact List.eq_of_mem_replicate hc
  · rw [column_append]
    unfold fill
    rw [column_fill _ (by decide) (by decide)]
    omega

/-- C96: nothing is undefined for programs of fewer than 2^30 operations. -/
theorem C96_total (l : List Op) (hl : l.length < 2 ^ 30) : ∃ st, run start l = .ok st := by
  have key : ∀ (l : List Op) (st : St), -(2 ^ 31 : Int) + 2 * l.length ≤ st.ind → st.ind + 2 * l.length < 2 ^ 31 →
      ∃ st', run st l = .ok st' := by
    intro l
    induction l with
    | nil => intro st _ _; exact ⟨st, rfl⟩
    | cons o l ih =>
      intro st h1 h2
      simp only [List.length_cons, Int.natCast_add, Int.natCast_one] at h1 h2
      have : ∃ st1, step st o = .ok st1 ∧ st.ind - 2 ≤ st1.ind ∧ st1.ind ≤ st.ind + 2 := by
        cases o with
        | text k s => exact ⟨_, rfl, by simp [St.put]; omega, by simp [St.put]; omega⟩
        | ctrl k c =>
          cases c with
          | indent =>
            simp only [step, display, addIndent]
            rw [if_pos (by omega)]
            exact ⟨_, rfl, by dsimp only; omega, by dsimp only; omega⟩
          | unindent =>
            simp only [step, display, addIndent]
            rw [if_pos (by omega)]
            exact ⟨_, rfl, by dsimp only; omega, by dsimp only; omega⟩
          | hrule => exact ⟨_, rfl, by dsimp only; omega, by dsimp only; omega⟩
          | lf => exact ⟨_, rfl, by dsimp only; omega, by dsimp only; omega⟩
      obtain ⟨st1, h3, h4, h5⟩ := this
      obtain ⟨st', h6⟩ := ih st1 (by omega) (by omega)
      exact ⟨st', by simp only [run, h3, Res.ok_bind, h6]⟩
  exact key l start (by simp only [start]; omega) (by simp only [start]; omega)

/-- C96: exactly the programs that never have 2^30 more `INDENT` than `UNINDENT`, nor more than 2^30 more `UNINDENT`, are
defined; with others the variable overflows. -/
theorem C96_defined (l : List Op) :
    (∃ st, run start l = .ok st) ↔ ∀ p, p <+: l → -(2 ^ 30) ≤ depth p ∧ depth p < 2 ^ 30 := by
  have key : ∀ (l : List Op) (st : St), -(2 ^ 31 : Int) ≤ st.ind → st.ind < 2 ^ 31 →
      ((∃ st', run st l = .ok st') ↔
        ∀ p, p <+: l → -(2 ^ 31) ≤ st.ind + 2 * depth p ∧ st.ind + 2 * depth p < 2 ^ 31) := by
    intro l
    induction l with
    | nil =>
      intro st h1 h2
      refine ⟨fun _ p hp => ?_, fun _ => ⟨st, rfl⟩⟩
      rw [List.prefix_nil.1 hp]
      simp only [depth]
      omega
    | cons o l ih =>
      intro st h1 h2
      have hd : ∀ p, depth (o :: p) = depth [o] + depth p := fun p => depth_append [o] p
      have hstep : (∃ st1, step st o = .ok st1 ∧ st1.ind = st.ind + 2 * depth [o]) ↔
          -(2 ^ 31) ≤ st.ind + 2 * depth [o] ∧ st.ind + 2 * depth [o] < 2 ^ 31 := by
        cases o with
        | text k s => simp only [step, depth]; exact ⟨fun _ => by omega, fun _ => ⟨_, rfl, by simp [St.put]⟩⟩
        | ctrl k c =>
          cases c with
          | indent =>
            simp only [step, display, addIndent, depth]
            by_cases h : -2 ^ 31 ≤ st.ind + 2 ∧ st.ind + 2 < 2 ^ 31
            · rw [if_pos h]; exact ⟨fun _ => by omega, fun _ => ⟨_, rfl, by dsimp only; omega⟩⟩
            · rw [if_neg h]
              refine ⟨fun hx => ?_, fun hx => by omega⟩
              obtain ⟨_, hx, _⟩ := hx
              cases hx
          | unindent =>
            simp only [step, display, addIndent, depth]
            by_cases h : -2 ^ 31 ≤ st.ind + -2 ∧ st.ind + -2 < 2 ^ 31
            · rw [if_pos h]; exact ⟨fun _ => by omega, fun _ => ⟨_, rfl, by dsimp only; omega⟩⟩
            · rw [if_neg h]
              refine ⟨fun hx => ?_, fun hx => by omega⟩
              obtain ⟨_, hx, _⟩ := hx
              cases hx
          | hrule => simp only [step, display, depth]; exact ⟨fun _ => by omega, fun _ => ⟨_, rfl, by dsimp only; omega⟩⟩
          | lf => simp only [step, display, depth]; exact ⟨fun _ => by omega, fun _ => ⟨_, rfl, by dsimp only; omega⟩⟩
      constructor
      · rintro ⟨st', hr⟩ p hp
        rw [run, Res.bind_eq_ok] at hr
        obtain ⟨st1, e1, e2⟩ := hr
        have hi : st1.ind = st.ind + 2 * depth [o] :=
          run_ind [o] st st1 (by rw [run, e1, Res.ok_bind, run])
        have hb := hstep.1 ⟨st1, e1, hi⟩
        have hall := (ih st1 (by omega) (by omega)).1 ⟨st', e2⟩
        cases p with
        | nil => simp only [depth]; omega
        | cons o' p =>
          obtain ⟨rfl, hp'⟩ := List.cons_prefix_cons.1 hp
          have := hall p hp'
          rw [hd]; omega
      · intro hall
        have h0 := hall [o] (List.cons_prefix_cons.2 ⟨rfl, List.nil_prefix⟩)
        obtain ⟨st1, e1, hi⟩ := hstep.2 h0
        obtain ⟨st', e2⟩ := (ih st1 (by omega) (by omega)).2 (fun p hp => by
          have := hall (o :: p) (List.cons_prefix_cons.2 ⟨rfl, hp⟩)
          rw [hd] at this; omega)
        exact ⟨st', by rw [run, e1]; exact e2⟩
  rw [key l start (by simp only [start]; omega) (by simp only [start]; omega)]
  simp only [start]
  exact ⟨fun h p hp => by have := h p hp; omega, fun h p hp => by have := h p hp; omega⟩

/-- The part of the operations that concerns stream `k`. -/
def ofStream (k : Nat) (l : List Op) : List Op :=
  l.filter fun o => match o with | .ctrl j _ => decide (j = k) | .text j _ => decide (j = k)

/-- What one would expect of several streams: what stream `k` shows depends only on what was done with stream `k`. -/
def Independent : Prop :=
  ∀ (k : Nat) (l : List Op) (st st' : St), run start l = .ok st → run start (ofStream k l) = .ok st' →
    st.out k = st'.out k

/-- C96, violated: all streams share one indentation. -/
theorem C96_streams_violated : ¬ Independent := by
  intro h
  have := h 1 [.ctrl 0 .indent, .ctrl 1 .lf] _ _ rfl rfl
  exact absurd this (by decide)

/-- An indented block with a rule. -/
example : (match run start [.text 0 (b!"a"), .ctrl 0 .lf, .ctrl 0 .indent, .text 0 (b!"b"), .ctrl 0 .lf, .text 0 (b!"c"),
    .ctrl 0 .lf, .ctrl 0 .unindent, .text 0 (b!"d")] with | .ok st => st.out 0 | _ => []) =
    b!"a\n  b\n  c\n  \x08\x08d" := by decide

example : Balanced [.ctrl 0 .indent, .ctrl 0 .lf, .ctrl 0 .unindent] ∧
    atMargin 0 [.text 0 (b!"x"), .ctrl 0 .lf, .ctrl 0 .indent] = true := by
  refine ⟨?_, by decide⟩
  intro p hp
  obtain ⟨q, hq⟩ := hp
  have hl := congrArg List.length hq
  have : p = [Op.ctrl 0 .indent, .ctrl 0 .lf, .ctrl 0 .unindent].take p.length := by rw [← hq]; simp
  rw [this]
  simp only [List.length_append, List.length_cons, List.length_nil] at hl
  have : p.length = 0 ∨ p.length = 1 ∨ p.length = 2 ∨ p.length = 3 := by omega
  rcases this with h | h | h | h <;> rw [h] <;> decide

/-! ## C97 -/

/-- The text of a use of a stream. -/
def textOf : Use → Bytes
  | .puts _ s => s.takeWhile (· ≠ 0)
  | .write _ s => s.filter (· ≠ 0)
  | .flush => []

/-- The text up to the end of the last complete line. -/
def completeLines (s : Bytes) : Bytes := (s.reverse.dropWhile (· ≠ 10)).reverse

theorem hasLine_iff : ∀ s : Bytes, (∀ c ∈ s, c ≠ 0) → (hasLine s = true ↔ (10 : UInt8) ∈ s)
  | [], _ => by simp [hasLine]
  | c :: s, h => by
    have h0 : c ≠ 0 := h c (by simp)
    have ih := hasLine_iff s fun d hd => h d (by simp [hd])
    unfold hasLine
    by_cases hc : c = 10
    · subst hc; simp
    · simp [h0, hc, ih, Ne.symm hc]

/-- The state of a stream that was given the text `t` and has not failed. -/
def Good (f : Std) (t : Bytes) : Prop := f.isW = true → f.visible ++ f.pending = t ∧ (10 : UInt8) ∉ f.pending

theorem good_write (f : Std) (a : Answer) (s t : Bytes) (hs : ∀ c ∈ s, c ≠ 0) (h : Good f t) :
    Good (f.write a s) (t ++ s) := by
  unfold Std.write
  by_cases hw : f.isW = true
  · obtain ⟨h1, h2⟩ := h hw
    simp only [hw, if_true]
    cases a with
    | none => intro h3; exact absurd h3 (by simp)
    | some n =>
      dsimp only
      have hl := hasLine_iff s hs
      split
      · intro _
        simp only [Std.flush, if_true]
        refine ⟨?_, by simp⟩
        rw [← h1]
        simp [List.append_assoc]
      · next hn =>
        intro _
        refine ⟨?_, ?_⟩
        · rw [← h1]
          dsimp only
          rw [List.append_assoc, List.take_append_drop, List.append_assoc]
        · intro hm
          have hm := List.mem_of_mem_drop hm
          rw [List.mem_append] at hm
          rcases hm with hm | hm
          · exact h2 hm
          · exact hn (hl.mpr hm)
  · simp only [hw]
    intro h3
    exact absurd h3 hw

theorem good_writeString : ∀ (s : Bytes) (as : List Answer) (f : Std) (t : Bytes), Good f t →
    Good (f.writeString as s) (t ++ s.filter (· ≠ 0))
  | [], as, f, t, h => by simpa [Std.writeString] using h
  | c :: s, as, f, t, h => by
    simp only [Std.writeString]
    have h1 := good_write f (as.headD (some 0)) (Ostream.cstr [c]) t (by
      intro d hd
      simp only [Ostream.cstr, List.takeWhile_cons, List.takeWhile_nil] at hd
      split at hd
      · rename_i hc
        simp only [List.mem_singleton] at hd
        subst hd
        simpa using hc
      · simp at hd) h
    have h2 := good_writeString s as.tail _ _ h1
    have : t ++ (c :: s).filter (· ≠ 0) = (t ++ Ostream.cstr [c]) ++ s.filter (· ≠ 0) := by
      by_cases hc : c = 0 <;> simp [Ostream.cstr, hc]
    rw [this]
    exact h2

theorem cstr_ne (c : UInt8) : ∀ s : Bytes, c ∈ Ostream.cstr s → c ≠ 0
  | [], h => by simp [Ostream.cstr] at h
  | d :: s, h => by
    unfold Ostream.cstr at h
    rw [List.takeWhile_cons] at h
    split at h
    · next hd =>
      rw [List.mem_cons] at h
      rcases h with rfl | h
      · simpa using hd
      · exact cstr_ne c s h
    · simp at h

theorem dropWhile_all (q : UInt8 → Bool) : ∀ l : Bytes, (∀ c ∈ l, q c = true) → l.dropWhile q = []
  | [], _ => rfl
  | d :: l, h => by
    rw [List.dropWhile_cons, if_pos (h d (by simp))]
    exact dropWhile_all q l fun c hc => h c (by simp [hc])

theorem good_use (f : Std) (u : Use) (t : Bytes) (h : Good f t) : Good (f.use u) (t ++ textOf u) := by
  cases u with
  | puts a s =>
    exact good_write f a _ t (fun c hc => by
      exact cstr_ne c s hc) h
  | write as s => exact good_writeString s as f t h
  | flush =>
    simp only [Std.use, Std.flush, textOf, List.append_nil]
    split
    · next hw =>
      intro _
      exact ⟨by simpa using (h hw).1, by simp⟩
    · exact h

theorem completeLines_append (u p : Bytes) (hp : (10 : UInt8) ∉ p) : completeLines (u ++ p) = completeLines u := by
  unfold completeLines
  rw [List.reverse_append, List.dropWhile_append]
  rw [if_pos]
  simp only [List.isEmpty_iff]
  apply dropWhile_all
  intro c hc
  simp only [decide_eq_true_eq]
  rintro rfl
  exact hp (by simpa using hc)

/-- C97: as long as printing works, the text printed so far has arrived at the system but for the part in the buffer, and
every complete line has arrived, at whatever points the buffer was emptied. NUL characters are left out of the text. -/
theorem C97_lines (us : List Use) (f : Std) (h0 : f = ⟨[], [], true⟩) (hw : (us.foldl Std.use f).isW = true) :
    (us.foldl Std.use f).visible ++ (us.foldl Std.use f).pending = (us.map textOf).flatten ∧
      completeLines ((us.map textOf).flatten) <+: (us.foldl Std.use f).visible := by
  have key : ∀ (us : List Use) (f : Std) (t : Bytes), Good f t → Good (us.foldl Std.use f) (t ++ (us.map textOf).flatten) := by
    intro us
    induction us with
    | nil => intro f t h; simpa using h
    | cons u us ih =>
      intro f t h
      have := ih _ _ (good_use f u t h)
      simpa [List.append_assoc] using this
  have hg := key us f [] (by subst h0; intro _; simp)
  obtain ⟨h1, h2⟩ := hg hw
  simp only [List.nil_append] at h1
  refine ⟨h1, ?_⟩
  rw [← h1, completeLines_append _ _ h2]
  unfold completeLines
  obtain ⟨x, hx⟩ := List.dropWhile_suffix (l := (us.foldl Std.use f).visible.reverse) (fun c => decide (c ≠ 10))
  refine ⟨x.reverse, ?_⟩
  have := congrArg List.reverse hx
  simpa using this

/-- C97: after `flush` all the text printed so far has arrived. -/
theorem C97_flush (us : List Use) (f : Std) (h0 : f = ⟨[], [], true⟩) (hw : (us.foldl Std.use f).isW = true) :
    ((us ++ [Use.flush]).foldl Std.use f).visible = (us.map textOf).flatten := by
  have := (C97_lines us f h0 hw).1
  rw [List.foldl_append]
  simp only [List.foldl_cons, List.foldl_nil, Std.use, Std.flush, hw, if_true]
  exact this

/-- C97: after an error nothing more is printed. -/
theorem C97_error (us : List Use) (f : Std) (hw : f.isW = false) : us.foldl Std.use f = f := by
  have hwr : ∀ a s, f.write a s = f := by intro a s; simp [Std.write, hw]
  have hws : ∀ s as, f.writeString as s = f := by
    intro s
    induction s with
    | nil => intro as; rfl
    | cons c s ih => intro as; simp only [Std.writeString, hwr]; exact ih _
  induction us with
  | nil => rfl
  | cons u us ih =>
    rw [List.foldl_cons]
    have : f.use u = f := by
      cases u with
      | puts a s => exact hwr _ _
      | write as s => exact hws _ _
      | flush => simp [Std.use, Std.flush, hw]
    rw [this, ih]

example : ([Use.write [] (b!"a\nb"), .puts (some 1) (b!"c"), .write [none] (b!"d")].foldl Std.use ⟨[], [], true⟩) =
    ⟨b!"a\nb", b!"c", false⟩ := by decide

example : ([Use.write [] (b!"a\nb"), .puts (some 0) (b!"c\nd"), .write [] (b!"e")].foldl Std.use ⟨[], [], true⟩) =
    ⟨b!"a\nbc\nd", b!"e", true⟩ := by decide

end Lolly.DisplayProps
