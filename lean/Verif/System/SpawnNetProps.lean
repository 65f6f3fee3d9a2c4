import Verif.System.Spawn

set_option autoImplicit false

/-!
# Properties C94 (running a process never blocks for ever) and C95 (its results do not depend on the schedule)

Specification: `Eval` tells what a program does if it is run alone, with the inputs as files that are read from
beginning to end: what it writes to each output, what it leaves unread, its exit status, and in how many steps.
-/

namespace Lolly.SpawnProps

open Spawn

variable {σ ι κ : Type} [DecidableEq ι] [DecidableEq κ]

/-- The program in state `s` with inputs `d` writes `o`, leaves `r` unread and exits with status `c`, in `n` steps. -/
inductive Eval (prog : σ → Act σ ι κ) : σ → (ι → Bytes) → (κ → Bytes) → (ι → Bytes) → UInt8 → Nat → Prop
  | halt {s : σ} {c : UInt8} (d : ι → Bytes) : prog s = .halt c → Eval prog s d (fun _ => []) d c 1
  | put {s s' : σ} {j : κ} {b : UInt8} {d r : ι → Bytes} {o : κ → Bytes} {c : UInt8} {n : Nat} :
      prog s = .put j b s' → Eval prog s' d o r c n → Eval prog s d (upd o j (b :: o j)) r c (n + 1)
  | get {s : σ} {i : ι} {k : Option UInt8 → σ} {b : UInt8} {l : Bytes} {d r : ι → Bytes} {o : κ → Bytes} {c : UInt8}
      {n : Nat} : prog s = .get i k → d i = b :: l → Eval prog (k (some b)) (upd d i l) o r c n →
      Eval prog s d o r c (n + 1)
  | eof {s : σ} {i : ι} {k : Option UInt8 → σ} {d r : ι → Bytes} {o : κ → Bytes} {c : UInt8} {n : Nat} :
      prog s = .get i k → d i = [] → Eval prog (k none) d o r c n → Eval prog s d o r c (n + 1)

theorem upd_same {α : Type} (f : ι → α) (i : ι) (a : α) : upd f i a i = a := by simp [upd]

theorem upd_ne {α : Type} (f : ι → α) {i x : ι} (a : α) (h : x ≠ i) : upd f i a x = f x := by simp [upd, h]

/-! ## Facts true of all reachable states -/

/-- The state of one writer that started with data `d`. -/
structure WInv (d : Bytes) (run : Bool) (w : Writer) : Prop where
  done_todo : w.done = true → w.failed = false → w.todo = []
  todo_done : w.todo = [] → w.done = true
  closed : w.closed = true ↔ (w.done = true ∧ d ≠ [])
  live : w.done = false → d ≠ []
  failed : w.failed = true → run = false ∧ w.todo ≠ [] ∧ w.done = true

/-- The invariant of the network. -/
structure Inv (cap : Nat) (d : ι → Bytes) (x : Net σ ι κ) : Prop where
  ws : ∀ i, WInv (d i) x.child.isLeft (x.ws i)
  rdone : ∀ j, (x.rs j).done = true → (x.rs j).pipe = [] ∧ x.child.isLeft = false
  wcap : ∀ i, (x.ws i).pipe.length ≤ cap

omit [DecidableEq ι] [DecidableEq κ] in
theorem inv_start (cap : Nat) (s : σ) (d : ι → Bytes) : Inv cap d (start s d : Net σ ι κ) := by
  refine ⟨fun i => ⟨?_, ?_, ?_, ?_, ?_⟩, ?_, fun i => by simp [start, Writer.start]⟩
  · intro h _
    simpa [start, Writer.start] using h
  · intro h
    simpa [start, Writer.start] using h
  · simp [start, Writer.start]
  · simp [start, Writer.start]
  · simp [start, Writer.start]
  · intro j h; simp [start] at h

theorem winv_write {d : Bytes} {w : Writer} (hw : WInv d true w) (hd : w.done = false) :
    WInv d true (w.write (min chunk w.todo.length)) := by
  have ht : w.todo ≠ [] := fun e => by rw [hw.todo_done e] at hd; cases hd
  have hcl : w.closed = false := by
    cases hcl : w.closed with
    | false => rfl
    | true => rw [(hw.closed.1 hcl).1] at hd; cases hd
  have hf : w.failed = false := by
    cases hf : w.failed with
    | false => rfl
    | true => exact absurd (hw.failed hf).1 (by decide)
  have hpos : 0 < w.todo.length := List.length_pos_iff.2 ht
  refine ⟨?_, ?_, ?_, ?_, ?_⟩
  · simp only [Writer.write, decide_eq_true_eq]
    intro h _
    rw [← h]; simp
  · simp only [Writer.write, decide_eq_true_eq]
    intro h
    have := congrArg List.length h
    simp only [List.length_drop, List.length_nil] at this
    omega
  · simp only [Writer.write, hcl, Bool.false_or, hw.live hd, ne_eq, not_false_eq_true, and_true]
  · intro _; exact hw.live hd
  · simp only [Writer.write, hf]
    intro h; cases h

theorem winv_fail {d : Bytes} {w : Writer} (hw : WInv d false w) (hd : w.done = false) : WInv d false w.fail := by
  have ht : w.todo ≠ [] := fun e => by rw [hw.todo_done e] at hd; cases hd
  exact ⟨fun _ h => by simp [Writer.fail] at h, fun _ => rfl, ⟨fun _ => ⟨rfl, hw.live hd⟩, fun _ => rfl⟩,
    fun h => by simp [Writer.fail] at h, fun _ => ⟨rfl, ht, rfl⟩⟩

theorem winv_pipe {d : Bytes} {run : Bool} {w : Writer} (hw : WInv d run w) (p : Bytes) :
    WInv d run { w with pipe := p } := ⟨hw.done_todo, hw.todo_done, hw.closed, hw.live, hw.failed⟩

theorem winv_halt {d : Bytes} {w : Writer} (hw : WInv d true w) : WInv d false w :=
  ⟨hw.done_todo, hw.todo_done, hw.closed, hw.live, fun h => ⟨rfl, (hw.failed h).2⟩⟩

theorem inv_step {prog : σ → Act σ ι κ} {cap : Nat} {d : ι → Bytes} {x y : Net σ ι κ} (h : Inv cap d x)
    (hs : Step prog cap x y) : Inv cap d y := by
  have hws : ∀ (i : ι) (w : Writer), WInv (d i) x.child.isLeft w → ∀ i', WInv (d i') x.child.isLeft (upd x.ws i w i') := by
    intro i w hw i'
    by_cases hi : i' = i
    · subst hi; rw [upd_same]; exact hw
    · rw [upd_ne _ _ hi]; exact h.ws i'
  have hwc : ∀ (i : ι) (w : Writer), w.pipe.length ≤ cap → ∀ i', (upd x.ws i w i').pipe.length ≤ cap := by
    intro i w hw i'
    by_cases hi : i' = i
    · subst hi; rw [upd_same]; exact hw
    · rw [upd_ne _ _ hi]; exact h.wcap i'
  cases hs with
  | write s i m hc hd hm hcap =>
    refine ⟨hws i _ ?_, h.rdone, hwc i _ (by
      simp only [Writer.write, List.length_append, List.length_take]; omega)⟩
    have hw := h.ws i
    rw [hc] at hw ⊢
    rw [hm]; exact winv_write hw hd
  | epipe c i hc hd =>
    refine ⟨hws i _ ?_, h.rdone, hwc i _ (h.wcap i)⟩
    have hw := h.ws i
    rw [hc] at hw ⊢
    exact winv_fail hw hd
  | get s i k b r hc hp he =>
    have hl : x.child.isLeft = true := by rw [hc]; rfl
    refine ⟨fun i' => ?_, fun j hj => ?_, hwc i _ (by
      have := h.wcap i; rw [he] at this; simp only [List.length_cons] at this; dsimp only; omega)⟩
    · have := hws i _ (winv_pipe (h.ws i) r) i'
      rw [hl] at this; exact this
    · have := (h.rdone j hj).2
      rw [hl] at this; cases this
  | eof s i k hc hp he hcl =>
    have hl : x.child.isLeft = true := by rw [hc]; rfl
    refine ⟨fun i' => ?_, fun j hj => ?_, h.wcap⟩
    · have := h.ws i'; rw [hl] at this; exact this
    · have := (h.rdone j hj).2
      rw [hl] at this; cases this
  | put s j b s' hc hp hcap =>
    have hl : x.child.isLeft = true := by rw [hc]; rfl
    refine ⟨fun i' => ?_, fun j' hj => ?_, h.wcap⟩
    · have := h.ws i'; rw [hl] at this; exact this
    · exfalso
      have hd : (x.rs j').done = true := by
        by_cases hjj : j' = j
        · subst hjj
          simp only [upd_same] at hj; exact hj
        · simp only [upd_ne _ _ hjj] at hj; exact hj
      have := (h.rdone j' hd).2
      rw [hl] at this; cases this
  | halt s c hc hp =>
    have hl : x.child.isLeft = true := by rw [hc]; rfl
    refine ⟨fun i' => ?_, fun j hj => ?_, h.wcap⟩
    · have := h.ws i'; rw [hl] at this; exact winv_halt this
    · exact ⟨(h.rdone j hj).1, rfl⟩
  | read j m hd h1 hm =>
    refine ⟨h.ws, fun j' hj => ?_, h.wcap⟩
    by_cases hjj : j' = j
    · subst hjj
      simp only [upd_same, Reader.read] at hj
      rw [hd] at hj; cases hj
    · simp only [upd_ne _ _ hjj] at hj ⊢; exact h.rdone j' hj
  | end_ c j hc hd hp =>
    refine ⟨h.ws, fun j' hj => ?_, h.wcap⟩
    by_cases hjj : j' = j
    · subst hjj
      simp only [upd_same]
      exact ⟨hp, by rw [hc]; rfl⟩
    · simp only [upd_ne _ _ hjj] at hj ⊢; exact h.rdone j' hj

theorem inv_steps {prog : σ → Act σ ι κ} {cap n : Nat} {d : ι → Bytes} {x y : Net σ ι κ} (h : Inv cap d x)
    (hs : Steps prog cap n x y) : Inv cap d y := by
  induction hs with
  | nil => exact h
  | snoc _ h2 ih => exact inv_step (ih h) h2

/-! ## C94 -/

/-- C94: as long as not everything has ended, something can move, unless the process waits for an input for which the
empty string was given. For every program, all inputs, every schedule so far. -/
theorem C94_blocked_only {prog : σ → Act σ ι κ} {cap n : Nat} (hcap : chunk ≤ cap) (s : σ) (d : ι → Bytes)
    {x : Net σ ι κ} (hx : Steps prog cap n (start s d) x) :
    Final x ∨ (∃ y, Step prog cap x y) ∨
      ∃ (s' : σ) (i : ι) (k : Option UInt8 → σ), x.child = .inl s' ∧ prog s' = .get i k ∧ d i = [] := by
  have hi := inv_steps (inv_start cap s d) hx
  cases hc : x.child with
  | inl s' =>
    right
    cases hp : prog s' with
    | halt c => exact .inl ⟨_, .halt x s' c hc hp⟩
    | put j b s2 =>
      left
      by_cases hl : (x.rs j).pipe.length < cap
      · exact ⟨_, .put x s' j b s2 hc hp hl⟩
      · have hnd : (x.rs j).done = false := by
          cases hd : (x.rs j).done with
          | false => rfl
          | true => have := (hi.rdone j hd).2; rw [hc] at this; cases this
        exact ⟨_, .read x j 1 hnd (Nat.le_refl 1) (by unfold chunk at *; omega)⟩
    | get i k =>
      cases he : (x.ws i).pipe with
      | cons b r => exact .inl ⟨_, .get x s' i k b r hc hp he⟩
      | nil =>
        have hw := hi.ws i
        cases hd : (x.ws i).done with
        | false =>
          refine .inl ⟨_, .write x s' i _ hc hd rfl ?_⟩
          rw [he]
          simp only [List.length_nil]
          omega
        | true =>
          by_cases hdi : d i = []
          · exact .inr ⟨s', i, k, rfl, hp, hdi⟩
          · exact .inl ⟨_, .eof x s' i k hc hp he (hw.closed.2 ⟨hd, hdi⟩)⟩
  | inr c =>
    by_cases hw : ∃ i, (x.ws i).done = false
    · obtain ⟨i, hd⟩ := hw
      exact .inr (.inl ⟨_, .epipe x c i hc hd⟩)
    by_cases hr : ∃ j, (x.rs j).done = false
    · obtain ⟨j, hd⟩ := hr
      right; left
      cases hp : (x.rs j).pipe with
      | nil => exact ⟨_, .end_ x c j hc hd hp⟩
      | cons b l => exact ⟨_, .read x j 1 hd (Nat.le_refl 1) (by rw [hp]; unfold chunk; simp only [List.length_cons]; omega)⟩
    · left
      refine ⟨⟨c, hc⟩, fun i => ?_, fun j => ?_⟩
      · cases hd : (x.ws i).done with
        | true => rfl
        | false => exact absurd ⟨i, hd⟩ hw
      · cases hd : (x.rs j).done with
        | true => rfl
        | false => exact absurd ⟨j, hd⟩ hr

/-- C94: without empty inputs there is no deadlock. Missing: empty inputs, see `C94_empty_violated`. -/
theorem C94_no_deadlock_partial {prog : σ → Act σ ι κ} {cap n : Nat} (hcap : chunk ≤ cap) (s : σ) (d : ι → Bytes)
    (hd : ∀ i, d i ≠ []) {x : Net σ ι κ} (hx : Steps prog cap n (start s d) x) :
    Final x ∨ ∃ y, Step prog cap x y := by
  rcases C94_blocked_only hcap s d hx with h | h | ⟨_, i, _, _, _, h⟩
  · exact .inl h
  · exact .inr h
  · exact absurd h (hd i)

/-- A program that reads its only input to the end. -/
def cat0 : Bool → Act Bool Unit Unit
  | true => .get () fun b => b.isSome
  | false => .halt 0

/-- C94 fails if the empty string is sent to a process that reads its input: nothing can ever move. -/
theorem C94_empty_violated (cap : Nat) : ¬ Final (start true (fun _ => []) : Net Bool Unit Unit) ∧
    ∀ y, ¬ Step cat0 cap (start true (fun _ => [])) y := by
  refine ⟨(fun h => by obtain ⟨⟨c, hc⟩, _⟩ := h; cases hc), fun y hs => ?_⟩
  cases hs with
  | write s i m hc hd hm hcap => cases hd
  | epipe c i hc hd => cases hc
  | get s i k b r hc hp he => cases he
  | eof s i k hc hp he hcl => cases hcl
  | put s j b s' hc hp hcap =>
    have : s = true := by cases hc; rfl
    subst this; cases hp
  | halt s c hc hp =>
    have : s = true := by cases hc; rfl
    subst this; cases hp
  | read j m hd h1 hm => simp [start] at hm; omega
  | end_ c j hc hd hp => cases hc

/-! ## C95: the network does what the program does alone -/

/-- The network is at a point of the run of the program that ends with outputs `O`, leftovers `R` and status `C`; the
process has `n` steps to go. -/
def Ref (prog : σ → Act σ ι κ) (O : κ → Bytes) (R : ι → Bytes) (C : UInt8) (n : Nat) (x : Net σ ι κ) : Prop :=
  match x.child with
  | .inl s => ∃ o, Eval prog s (fun i => (x.ws i).pipe ++ (x.ws i).todo) o R C n ∧
      ∀ j, (x.rs j).got ++ (x.rs j).pipe ++ o j = O j
  | .inr c => n = 0 ∧ c = C ∧ (∀ j, (x.rs j).got ++ (x.rs j).pipe = O j) ∧
      ∀ i, (x.ws i).pipe ++ (x.ws i).todo = R i

/-- What the threads have still to do. -/
def wsize (w : Writer) : Nat := w.todo.length + if w.done then 0 else 1
def rsize (r : Reader) : Nat := r.pipe.length + if r.done then 0 else 1

/-- The work that remains. -/
def work (is : List ι) (ks : List κ) (n : Nat) (x : Net σ ι κ) : Nat :=
  (is.map fun i => wsize (x.ws i)).sum + (ks.map fun j => rsize (x.rs j)).sum + 2 * n

theorem sum_upd_le {α : Type} (f : α → Nat) (g : ι → α) (l : List ι) (i : ι) (a : α) (h : f a ≤ f (g i)) :
    (l.map fun x => f (upd g i a x)).sum ≤ (l.map fun x => f (g x)).sum := by
  induction l with
  | nil => simp
  | cons x l ih =>
    simp only [List.map_cons, List.sum_cons]
    by_cases hx : x = i
    · subst hx; rw [upd_same]; omega
    · rw [upd_ne _ _ hx]; omega

theorem sum_upd_lt {α : Type} (f : α → Nat) (g : ι → α) (l : List ι) (i : ι) (a : α) (h : f a < f (g i)) (hi : i ∈ l) :
    (l.map fun x => f (upd g i a x)).sum < (l.map fun x => f (g x)).sum := by
  induction l with
  | nil => cases hi
  | cons x l ih =>
    simp only [List.map_cons, List.sum_cons]
    by_cases hx : x = i
    · subst hx
      have := sum_upd_le f g l x a (by omega)
      rw [upd_same]; omega
    · have := ih (by rcases List.mem_cons.1 hi with h | h; exact absurd h.symm hx; exact h)
      rw [upd_ne _ _ hx]; omega

theorem sum_upd_succ {α : Type} (f : α → Nat) (g : ι → α) (l : List ι) (hl : l.Nodup) (i : ι) (a : α)
    (h : f a ≤ f (g i) + 1) : (l.map fun x => f (upd g i a x)).sum ≤ (l.map fun x => f (g x)).sum + 1 := by
  induction l with
  | nil => simp
  | cons x l ih =>
    rw [List.nodup_cons] at hl
    simp only [List.map_cons, List.sum_cons]
    by_cases hx : x = i
    · subst hx
      have : (l.map fun y => f (upd g x a y)) = l.map fun y => f (g y) := by
        apply List.map_congr_left
        intro y hy
        rw [upd_ne]
        rintro rfl; exact hl.1 hy
      rw [upd_same, this]; omega
    · have := ih hl.2
      rw [upd_ne _ _ hx]; omega

theorem upd_fun {α β : Type} (f : α → β) (g : ι → α) (i : ι) (a : α) :
    (fun x => f (upd g i a x)) = upd (fun x => f (g x)) i (f a) := by
  funext x
  by_cases h : x = i
  · subst h; rw [upd_same, upd_same]
  · rw [upd_ne _ _ h, upd_ne _ _ h]

theorem upd_id {α : Type} (g : ι → α) (i : ι) : upd g i (g i) = g := by
  funext x
  by_cases h : x = i
  · subst h; rw [upd_same]
  · rw [upd_ne _ _ h]

theorem ref_step {prog : σ → Act σ ι κ} {cap n : Nat} {d : ι → Bytes} {O : κ → Bytes} {R : ι → Bytes} {C : UInt8}
    {x y : Net σ ι κ} (hi : Inv cap d x) (h : Ref prog O R C n x) (hs : Step prog cap x y)
    (is : List ι) (ks : List κ) (his : ∀ i, i ∈ is) (hks : ∀ j, j ∈ ks) (hnd : ks.Nodup) :
    ∃ n', Ref prog O R C n' y ∧ work is ks n' y < work is ks n x := by
  cases hs with
  | write s i m hc hd hm hcap =>
    have ht : (x.ws i).todo ≠ [] := fun e => by rw [(hi.ws i).todo_done e] at hd; cases hd
    have hpos : 0 < (x.ws i).todo.length := List.length_pos_iff.2 ht
    refine ⟨n, ?_, ?_⟩
    · unfold Ref at h ⊢
      dsimp only
      rw [hc] at h ⊢
      obtain ⟨o, h1, h2⟩ := h
      refine ⟨o, ?_, h2⟩
      rw [upd_fun (fun w : Writer => w.pipe ++ w.todo)]
      have : ((x.ws i).write m).pipe ++ ((x.ws i).write m).todo = (x.ws i).pipe ++ (x.ws i).todo := by
        simp only [Writer.write, List.append_assoc, List.take_append_drop]
      rw [this, upd_id (fun i => (x.ws i).pipe ++ (x.ws i).todo)]
      exact h1
    · unfold work
      dsimp only
      have := sum_upd_lt wsize x.ws is i ((x.ws i).write m) (by
        simp only [wsize, Writer.write, List.length_drop, hd]
        have : 1 ≤ m := by unfold chunk at hm; omega
        by_cases he : (x.ws i).todo.length = m <;> simp [he] <;> omega) (his i)
      omega
  | epipe c i hc hd =>
    refine ⟨n, ?_, ?_⟩
    · unfold Ref at h ⊢
      dsimp only
      rw [hc] at h ⊢
      obtain ⟨h0, h1, h2, h3⟩ := h
      refine ⟨h0, h1, h2, fun i' => ?_⟩
      by_cases hii : i' = i
      · subst hii; rw [upd_same]; exact h3 i'
      · rw [upd_ne _ _ hii]; exact h3 i'
    · unfold work
      dsimp only
      have := sum_upd_lt wsize x.ws is i (x.ws i).fail (by simp [wsize, Writer.fail, hd]) (his i)
      omega
  | get s i k b r hc hp he =>
    unfold Ref at h
    rw [hc] at h
    obtain ⟨o, h1, h2⟩ := h
    cases h1 with
    | halt _ hp' => rw [hp] at hp'; cases hp'
    | put hp' _ => rw [hp] at hp'; cases hp'
    | eof hp' hd' h3 =>
      rw [hp] at hp'
      injection hp' with e1 e2
      subst e1; subst e2
      simp only [he, List.cons_append] at hd'; cases hd'
    | get hp' hd' h3 =>
      rename_i i' k' b' l n'
      rw [hp] at hp'
      injection hp' with e1 e2
      subst e1; subst e2
      simp only [he, List.cons_append, List.cons.injEq] at hd'
      obtain ⟨rfl, rfl⟩ := hd'
      refine ⟨n', ⟨o, ?_, h2⟩, ?_⟩
      · dsimp only
        rw [upd_fun (fun w : Writer => w.pipe ++ w.todo)]
        exact h3
      · unfold work
        dsimp only
        have := sum_upd_le wsize x.ws is i { x.ws i with pipe := r } (Nat.le_refl _)
        dsimp only at this
        omega
  | eof s i k hc hp he hcl =>
    unfold Ref at h
    rw [hc] at h
    obtain ⟨o, h1, h2⟩ := h
    have hw := hi.ws i
    rw [hc] at hw
    have hf : (x.ws i).failed = false := by
      cases hf : (x.ws i).failed with
      | false => rfl
      | true => have := (hw.failed hf).1; cases this
    have ht : (x.ws i).todo = [] := hw.done_todo (hw.closed.1 hcl).1 hf
    cases h1 with
    | halt _ hp' => rw [hp] at hp'; cases hp'
    | put hp' _ => rw [hp] at hp'; cases hp'
    | get hp' hd' h3 =>
      rw [hp] at hp'
      injection hp' with e1 e2
      subst e1; subst e2
      simp only [he, ht, List.append_nil] at hd'; cases hd'
    | eof hp' hd' h3 =>
      rename_i i' k' n'
      rw [hp] at hp'
      injection hp' with e1 e2
      subst e1; subst e2
      exact ⟨n', ⟨o, h3, h2⟩, by unfold work; dsimp only; omega⟩
  | put s j b s' hc hp hcap =>
    unfold Ref at h
    rw [hc] at h
    obtain ⟨o, h1, h2⟩ := h
    cases h1 with
    | halt _ hp' => rw [hp] at hp'; cases hp'
    | get hp' _ _ => rw [hp] at hp'; cases hp'
    | eof hp' _ _ => rw [hp] at hp'; cases hp'
    | put hp' h3 =>
      rename_i s2 j' b' o' n'
      rw [hp] at hp'
      injection hp' with e1 e2 e3
      subst e1; subst e2; subst e3
      refine ⟨n', ⟨o', h3, fun j' => ?_⟩, ?_⟩
      · rw [← h2 j']
        dsimp only
        by_cases hjj : j' = j
        · subst hjj
          rw [upd_same, upd_same]
          simp only [List.append_assoc, List.singleton_append]
        · rw [upd_ne _ _ hjj, upd_ne _ _ hjj]
      · unfold work
        dsimp only
        have := sum_upd_succ rsize x.rs ks hnd j { x.rs j with pipe := (x.rs j).pipe ++ [b] } (by
          simp only [rsize, List.length_append, List.length_singleton]; omega)
        dsimp only at this
        omega
  | halt s c hc hp =>
    unfold Ref at h
    rw [hc] at h
    obtain ⟨o, h1, h2⟩ := h
    cases h1 with
    | put hp' _ => rw [hp] at hp'; cases hp'
    | get hp' _ _ => rw [hp] at hp'; cases hp'
    | eof hp' _ _ => rw [hp] at hp'; cases hp'
    | halt _ hp' =>
      rw [hp] at hp'
      injection hp' with e1
      refine ⟨0, ⟨rfl, e1, fun j => ?_, fun i => rfl⟩, by unfold work; dsimp only; omega⟩
      have := h2 j
      rwa [List.append_nil] at this
  | read j m hd h1 hm =>
    have hgp : ∀ j', (upd x.rs j ((x.rs j).read m) j').got ++ (upd x.rs j ((x.rs j).read m) j').pipe =
        (x.rs j').got ++ (x.rs j').pipe := by
      intro j'
      by_cases hjj : j' = j
      · subst hjj
        rw [upd_same]; simp only [Reader.read, List.append_assoc, List.take_append_drop]
      · rw [upd_ne _ _ hjj]
    refine ⟨n, ?_, ?_⟩
    · unfold Ref at h ⊢
      dsimp only
      split at h
      · obtain ⟨o, h2, h3⟩ := h
        refine ⟨o, h2, fun j' => ?_⟩
        rw [hgp]; exact h3 j'
      · obtain ⟨h0, h2, h3, h4⟩ := h
        refine ⟨h0, h2, fun j' => ?_, h4⟩
        rw [hgp]; exact h3 j'
    · unfold work
      dsimp only
      have := sum_upd_lt rsize x.rs ks j ((x.rs j).read m) (by
        simp only [rsize, Reader.read, List.length_drop, hd, Bool.false_eq_true, if_false]; omega) (hks j)
      omega
  | end_ c j hc hd hp =>
    refine ⟨n, ?_, ?_⟩
    · unfold Ref at h ⊢
      dsimp only
      rw [hc] at h ⊢
      obtain ⟨h0, h1, h2, h3⟩ := h
      refine ⟨h0, h1, fun j' => ?_, h3⟩
      by_cases hjj : j' = j
      · subst hjj; rw [upd_same]; exact h2 j'
      · rw [upd_ne _ _ hjj]; exact h2 j'
    · unfold work
      dsimp only
      have := sum_upd_lt rsize x.rs ks j { x.rs j with done := true } (by simp [rsize, hd]) (hks j)
      dsimp only at this
      omega

theorem ref_steps {prog : σ → Act σ ι κ} {cap n : Nat} {d : ι → Bytes} {O : κ → Bytes} {R : ι → Bytes} {C : UInt8}
    {x y : Net σ ι κ} (hi : Inv cap d x) (h : Ref prog O R C n x) {k : Nat} (hs : Steps prog cap k x y)
    (is : List ι) (ks : List κ) (his : ∀ i, i ∈ is) (hks : ∀ j, j ∈ ks) (hnd : ks.Nodup) :
    ∃ n', Ref prog O R C n' y ∧ k + work is ks n' y ≤ work is ks n x := by
  induction hs with
  | nil => exact ⟨n, h, by omega⟩
  | snoc h1 h2 ih =>
    obtain ⟨n1, h3, h4⟩ := ih hi h
    obtain ⟨n2, h5, h6⟩ := ref_step (inv_steps hi h1) h3 h2 is ks his hks hnd
    exact ⟨n2, h5, by omega⟩

theorem ref_start {prog : σ → Act σ ι κ} {s : σ} {d : ι → Bytes} {o : κ → Bytes} {r : ι → Bytes} {c : UInt8} {n : Nat}
    (h : Eval prog s d o r c n) : Ref prog o r c n (start s d) := by
  refine ⟨o, ?_, fun j => by simp [start]⟩
  simp only [start, Writer.start, List.nil_append]
  exact h

/-- C94: if the program alone ends on these inputs, then every run with pipes ends: after at most so many moves in
whatever order. `is` and `ks` are the inputs and outputs. -/
theorem C94_terminates {prog : σ → Act σ ι κ} {cap : Nat} {s : σ} {d : ι → Bytes} {o : κ → Bytes} {r : ι → Bytes}
    {c : UInt8} {n : Nat} (h : Eval prog s d o r c n) (is : List ι) (ks : List κ) (his : ∀ i, i ∈ is)
    (hks : ∀ j, j ∈ ks) (hnd : ks.Nodup) {k : Nat} {x : Net σ ι κ} (hx : Steps prog cap k (start s d) x) :
    k ≤ (is.map fun i => (d i).length + 1).sum + ks.length + 2 * n := by
  obtain ⟨n', _, h2⟩ := ref_steps (inv_start cap s d) (ref_start h) hx is ks his hks hnd
  have hw : work is ks n (start s d : Net σ ι κ) ≤ (is.map fun i => (d i).length + 1).sum + ks.length + 2 * n := by
    unfold work
    have h1 : (is.map fun i => wsize ((start s d : Net σ ι κ).ws i)).sum ≤ (is.map fun i => (d i).length + 1).sum := by
      clear his h2
      induction is with
      | nil => simp
      | cons i is ih =>
        simp only [List.map_cons, List.sum_cons]
        have : wsize ((start s d : Net σ ι κ).ws i) ≤ (d i).length + 1 := by
          simp only [wsize, start, Writer.start]
          by_cases he : (d i).length = 0 <;> simp [he]
        omega
    have h3 : (ks.map fun j => rsize ((start s d : Net σ ι κ).rs j)).sum = ks.length := by
      clear hks h2 hnd
      induction ks with
      | nil => simp
      | cons j ks ih =>
        simp only [List.map_cons, List.sum_cons, List.length_cons]
        have : rsize ((start s d : Net σ ι κ).rs j) = 1 := rfl
        omega
    omega
  omega

/-- C95: whatever the schedule and the sizes of the parts, when `unix_system` returns the strings for the outputs hold
exactly what the program writes when it is run alone, and its exit status is the one of that run. -/
theorem C95_output {prog : σ → Act σ ι κ} {cap : Nat} {s : σ} {d : ι → Bytes} {o : κ → Bytes} {r : ι → Bytes}
    {c : UInt8} {n : Nat} (h : Eval prog s d o r c n) (is : List ι) (ks : List κ) (his : ∀ i, i ∈ is)
    (hks : ∀ j, j ∈ ks) (hnd : ks.Nodup) {k : Nat} {x : Net σ ι κ} (hx : Steps prog cap k (start s d) x) (hf : Final x) :
    (∀ j, (x.rs j).got = o j) ∧ x.child = .inr c := by
  obtain ⟨n', h1, _⟩ := ref_steps (inv_start cap s d) (ref_start h) hx is ks his hks hnd
  have hi := inv_steps (inv_start cap s d) hx
  obtain ⟨⟨c', hc⟩, _, hr⟩ := hf
  unfold Ref at h1
  rw [hc] at h1
  obtain ⟨_, rfl, h2, _⟩ := h1
  refine ⟨fun j => ?_, hc⟩
  have := h2 j
  rwa [(hi.rdone j (hr j)).1, List.append_nil] at this

/-- C95: the answer of `unix_system` is the exit status if the program reads all of its inputs. -/
theorem C95_answer_partial {prog : σ → Act σ ι κ} {cap : Nat} {s : σ} {d : ι → Bytes} {o : κ → Bytes} {r : ι → Bytes}
    {c : UInt8} {n : Nat} (h : Eval prog s d o r c n) (is : List ι) (ks : List κ) (his : ∀ i, i ∈ is)
    (hks : ∀ j, j ∈ ks) (hnd : ks.Nodup) {k : Nat} {x : Net σ ι κ} (hx : Steps prog cap k (start s d) x) (hf : Final x)
    (hr : ∀ i, r i = []) : answer is x = c.toNat := by
  obtain ⟨n', h1, _⟩ := ref_steps (inv_start cap s d) (ref_start h) hx is ks his hks hnd
  have hi := inv_steps (inv_start cap s d) hx
  obtain ⟨⟨c', hc⟩, _, _⟩ := hf
  unfold Ref at h1
  rw [hc] at h1
  obtain ⟨_, rfl, _, h4⟩ := h1
  have hnf : ∀ i, (x.ws i).failed = false := by
    intro i
    cases hfl : (x.ws i).failed with
    | false => rfl
    | true =>
      have := h4 i
      rw [hr i] at this
      exact absurd (List.append_eq_nil_iff.1 this).2 ((hi.ws i).failed hfl).2.1
  unfold answer Process.systemResult
  rw [hc, if_neg]
  · rfl
  · rw [Bool.not_eq_true, List.any_eq_false]
    intro b hb
    obtain ⟨i, _, rfl⟩ := List.mem_map.1 hb
    simp [hnf i]

/-- C95: if the program leaves more of an input unread than a pipe holds, the answer is -1, even if its status is 0. -/
theorem C95_unread_violated {prog : σ → Act σ ι κ} {cap : Nat} {s : σ} {d : ι → Bytes} {o : κ → Bytes} {r : ι → Bytes}
    {c : UInt8} {n : Nat} (h : Eval prog s d o r c n) (is : List ι) (ks : List κ) (his : ∀ i, i ∈ is)
    (hks : ∀ j, j ∈ ks) (hnd : ks.Nodup) {k : Nat} {x : Net σ ι κ} (hx : Steps prog cap k (start s d) x) (hf : Final x)
    (i : ι) (hr : cap < (r i).length) : answer is x = -1 := by
  obtain ⟨n', h1, _⟩ := ref_steps (inv_start cap s d) (ref_start h) hx is ks his hks hnd
  have hi := inv_steps (inv_start cap s d) hx
  obtain ⟨⟨c', hc⟩, hd, _⟩ := hf
  unfold Ref at h1
  rw [hc] at h1
  obtain ⟨_, rfl, _, h4⟩ := h1
  have hfl : (x.ws i).failed = true := by
    cases hfl : (x.ws i).failed with
    | true => rfl
    | false =>
      have h5 := h4 i
      rw [(hi.ws i).done_todo (hd i) hfl, List.append_nil] at h5
      have := hi.wcap i
      rw [h5] at this; omega
  unfold answer Process.systemResult
  rw [if_pos]
  rw [List.any_eq_true]
  exact ⟨true, List.mem_map.2 ⟨i, his i, hfl⟩, rfl⟩

/-- C94 and C95 together: with no empty inputs, a program that ends when run alone and reads all of its inputs, every
run of `unix_system` gets to its end, and then returns the outputs and the status of the program. -/
theorem C95_total {prog : σ → Act σ ι κ} {cap : Nat} (hcap : chunk ≤ cap) {s : σ} {d : ι → Bytes} {o : κ → Bytes}
    {c : UInt8} {n : Nat} (h : Eval prog s d o (fun _ => []) c n) (hd : ∀ i, d i ≠ []) (is : List ι) (ks : List κ)
    (his : ∀ i, i ∈ is) (hks : ∀ j, j ∈ ks) (hnd : ks.Nodup) {k : Nat} {x : Net σ ι κ}
    (hx : Steps prog cap k (start s d) x) (hstop : ∀ y, ¬ Step prog cap x y) :
    (∀ j, (x.rs j).got = o j) ∧ answer is x = c.toNat := by
  rcases C94_no_deadlock_partial hcap s d hd hx with hf | ⟨y, hy⟩
  · exact ⟨(C95_output h is ks his hks hnd hx hf).1, C95_answer_partial h is ks his hks hnd hx hf fun _ => rfl⟩
  · exact absurd hy (hstop y)

/-- A program that exits at once with status 0. -/
def true0 : Unit → Act Unit Unit Empty := fun _ => .halt 0

/-- C95: for a program that does not read its input the answer depends on the schedule: 0 if the thread has written before
the process exits, -1 otherwise. -/
theorem C95_race_violated : ∃ (k : Nat) (x y : Net Unit Unit Empty),
    Steps true0 65536 k (start () fun _ => b!"a") x ∧ Final x ∧ answer [()] x = 0 ∧
    Steps true0 65536 k (start () fun _ => b!"a") y ∧ Final y ∧ answer [()] y = -1 := by
  exact ⟨2, _, _,
    .snoc (.snoc (.nil _) (.write _ () () 1 rfl rfl (by decide) (by decide))) (.halt _ () 0 rfl rfl),
    ⟨⟨0, rfl⟩, fun i => rfl, nofun⟩, rfl,
    .snoc (.snoc (.nil _) (.halt _ () 0 rfl rfl)) (.epipe _ 0 () rfl rfl),
    ⟨⟨0, rfl⟩, fun i => rfl, nofun⟩, rfl⟩

/-- A program that copies its input (states: read, write `b`, end). -/
def copy : Option (Option UInt8) → Act (Option (Option UInt8)) Unit Unit
  | none => .get () some
  | some (some b) => .put () b none
  | some none => .halt 0

/-- It meets the hypotheses of `C95_total`: on every input it ends with a copy and reads everything. -/
example (d : Bytes) : Eval copy none (fun _ => d) (fun _ => d) (fun _ => []) 0 (2 * d.length + 2) := by
  induction d with
  | nil => exact .eof (k := some) rfl rfl (.halt _ rfl)
  | cons b d ih =>
    refine .get (k := some) (b := b) (l := d) rfl rfl ?_
    have h1 : upd (fun _ : Unit => b :: d) () d = fun _ => d := by funext u; rfl
    have h2 : (fun _ : Unit => b :: d) = upd (fun _ : Unit => d) () (b :: d) := by funext u; rfl
    rw [h1, h2]
    exact .put (d := fun _ => d) rfl ih

end Lolly.SpawnProps
