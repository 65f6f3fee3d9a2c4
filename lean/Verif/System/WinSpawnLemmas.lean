import Verif.System.WinSpawn
import Verif.System.SpawnNetProps

set_option autoImplicit false

/-!
# C116: processes on Windows

Specification: `SpawnProps.Eval` tells what a program does if it is run alone, with the inputs as files.
-/

namespace Lolly.WinSpawnProps

open WinSpawn
open Spawn (Act Reader upd)
open SpawnProps (Eval upd_same upd_ne upd_fun upd_id rsize sum_upd_le sum_upd_lt sum_upd_succ)

variable {σ ι κ : Type} [DecidableEq ι] [DecidableEq κ]

/-! ## Facts true of all reachable states -/

/-- What the phase says about the inputs `is` and the outputs `ks`. -/
def PhaseInv (slow : Bool) (is : List ι) (ks : List κ) (d : ι → Bytes) (x : Net σ ι κ) : Prop :=
  match x.phase with
  | .visit rest busy => (∀ i ∈ rest, i ∈ is) ∧ rest.length ≤ is.length ∧
      (x.child.isLeft = true → busy = false → ∀ i ∈ is, i ∉ rest → (x.ins i).todo = [])
  | .writing i rest busy left => i ∈ is ∧ (∀ i ∈ rest, i ∈ is) ∧ rest.length ≤ is.length ∧ d i ≠ [] ∧
      left ≤ (x.ins i).todo.length ∧
      (x.child.isLeft = true → busy = false → ∀ i' ∈ is, i' ∉ rest → i' ≠ i → (x.ins i').todo = [])
  | .waiting => x.child.isLeft = true → ∀ i ∈ is, (x.ins i).todo = []
  | .joining rest => x.child.isLeft = false ∧ (∀ j ∈ rest, j ∈ ks) ∧ rest.length ≤ ks.length ∧
      (slow = false → ∀ j ∈ ks, j ∉ rest → (x.rs j).done = true)
  | .returned => x.child.isLeft = false ∧ (slow = false → ∀ j ∈ ks, (x.rs j).done = true)

/-- The invariant of the network. -/
structure Inv (slow : Bool) (is : List ι) (ks : List κ) (d : ι → Bytes) (x : Net σ ι κ) : Prop where
  data : ∀ i, d i = [] → (x.ins i).todo = []
  closed : ∀ i, (x.ins i).closed = true → (x.ins i).todo = []
  todo : ∀ i, (x.ins i).todo = [] → d i = [] ∨ (x.ins i).closed = true ∨
    ∃ rest busy left, x.phase = .writing i rest busy left
  rdone : ∀ j, (x.rs j).done = true → (x.rs j).pipe = [] ∧ x.child.isLeft = false
  phase : PhaseInv slow is ks d x

omit [DecidableEq ι] [DecidableEq κ] in
theorem inv_start (slow : Bool) (is : List ι) (ks : List κ) (s : σ) (d : ι → Bytes) :
    Inv slow is ks d (start s d is : Net σ ι κ) := by
  refine ⟨fun i h => h, fun i h => ?_, fun i h => .inl h, fun j h => ?_, ?_⟩
  · simp [start] at h
  · simp [start] at h
  · exact ⟨fun _ h => h, Nat.le_refl _, fun _ _ i hi hn => absurd hi hn⟩

omit [DecidableEq ι] [DecidableEq κ] in
/-- Moves of the process and of the readers keep what the phase says. -/
theorem phase_mono {slow : Bool} {is : List ι} {ks : List κ} {d : ι → Bytes} {x y : Net σ ι κ}
    (h : PhaseInv slow is ks d x) (hp : y.phase = x.phase) (hc : x.child.isLeft = false → y.child.isLeft = false)
    (ht : ∀ i, (y.ins i).todo = (x.ins i).todo) (hr : ∀ j, (x.rs j).done = true → (y.rs j).done = true) :
    PhaseInv slow is ks d y := by
  have hc' : y.child.isLeft = true → x.child.isLeft = true := by
    intro e
    cases hx : x.child.isLeft with
    | true => rfl
    | false => rw [hc hx] at e; cases e
  unfold PhaseInv at h ⊢
  rw [hp]
  split
  · rename_i e; rw [e] at h
    exact ⟨h.1, h.2.1, fun a b i hi hn => by rw [ht]; exact h.2.2 (hc' a) b i hi hn⟩
  · rename_i e; rw [e] at h
    refine ⟨h.1, h.2.1, h.2.2.1, h.2.2.2.1, by rw [ht]; exact h.2.2.2.2.1, fun a b i hi hn hne => ?_⟩
    rw [ht]; exact h.2.2.2.2.2 (hc' a) b i hi hn hne
  · rename_i e; rw [e] at h
    exact fun a i hi => by rw [ht]; exact h (hc' a) i hi
  · rename_i e; rw [e] at h
    exact ⟨hc h.1, h.2.1, h.2.2.1, fun a j hj hn => hr j (h.2.2.2 a j hj hn)⟩
  · rename_i e; rw [e] at h
    exact ⟨hc h.1, fun a j hj => hr j (h.2 a j hj)⟩

theorem inv_step {prog : σ → Act σ ι κ} {cap : Nat} {slow : Bool} {is : List ι} {ks : List κ} {d : ι → Bytes}
    {x y : Net σ ι κ} (h : Inv slow is ks d x) (hs : Step prog cap slow is ks x y) : Inv slow is ks d y := by
  have hph := h.phase
  unfold PhaseInv at hph
  -- in a phase other than `writing` the data of an input is empty only if it was empty or the input is closed
  have hnw : (∀ i rest busy left, x.phase ≠ .writing i rest busy left) → ∀ i, (x.ins i).todo = [] →
      d i = [] ∨ (x.ins i).closed = true := by
    intro hw i hi
    rcases h.todo i hi with e | e | ⟨_, _, _, e⟩
    · exact .inl e
    · exact .inr e
    · exact absurd e (hw _ _ _ _)
  -- an input that is not being written to
  have hne : ∀ {i rest busy left}, x.phase = .writing i rest busy left → ∀ i', i' ≠ i → (x.ins i').todo = [] →
      d i' = [] ∨ (x.ins i').closed = true := by
    intro i rest busy left hp i' hi' ht
    rcases h.todo i' ht with e | e | ⟨_, _, _, e⟩
    · exact .inl e
    · exact .inr e
    · rw [hp] at e; injection e with e; exact absurd e.symm hi'
  cases hs with
  | again hp =>
    rw [hp] at hph
    refine ⟨h.data, h.closed, fun i hi => (hnw (by rw [hp]; intros; simp) i hi).imp_right .inl, h.rdone,
      ⟨fun _ h => h, Nat.le_refl _, fun _ _ i hi hn => absurd hi hn⟩⟩
  | leave hp =>
    rw [hp] at hph
    exact ⟨h.data, h.closed, fun i hi => (hnw (by rw [hp]; intros; simp) i hi).imp_right .inl, h.rdone,
      fun hl i hi => hph.2.2 hl rfl i hi (by simp)⟩
  | skip i rest busy hp ht =>
    rw [hp] at hph
    obtain ⟨h1, h2, h3⟩ := hph
    rw [List.length_cons] at h2
    refine ⟨h.data, h.closed, fun i hi => (hnw (by rw [hp]; intros; simp) i hi).imp_right .inl, h.rdone,
      ⟨fun i hi => h1 i (List.mem_cons_of_mem _ hi), by omega, fun hl hb i' hi' hn => ?_⟩⟩
    by_cases e : i' = i
    · subst e; exact ht
    · exact h3 hl hb i' hi' (by simp [e, hn])
  | call i rest busy hp ht =>
    rw [hp] at hph
    obtain ⟨h1, h2, h3⟩ := hph
    rw [List.length_cons] at h2
    exact ⟨h.data, h.closed, fun i hi => (hnw (by rw [hp]; intros; simp) i hi).imp_right .inl, h.rdone,
      ⟨h1 i (List.mem_cons_self ..), fun i hi => h1 i (List.mem_cons_of_mem _ hi), by omega, fun hd => ht (h.data i hd),
      Nat.min_le_right _ _, fun hl hb i' hi' hn hne => h3 hl hb i' hi' (by simp [hne, hn])⟩⟩
  | push s i rest busy left m hc hp h1 h2 h3 =>
    rw [hp] at hph
    obtain ⟨p1, p2, p3, p4, p5, p6⟩ := hph
    refine ⟨fun i' hd => ?_, fun i' hcl => ?_, fun i' ht => ?_, h.rdone, ⟨p1, p2, p3, p4, ?_, fun a b i' hi' hn hne' => ?_⟩⟩
    · by_cases e : i' = i
      · subst e; exact absurd hd p4
      · dsimp only; rw [upd_ne _ _ e]; exact h.data i' hd
    · dsimp only at hcl ⊢
      by_cases e : i' = i
      · subst e
        rw [upd_same] at hcl ⊢
        have := h.closed i' hcl
        dsimp only
        rw [this, List.drop_nil]
      · rw [upd_ne _ _ e] at hcl ⊢; exact h.closed i' hcl
    · dsimp only at ht ⊢
      by_cases e : i' = i
      · subst e; exact .inr (.inr ⟨_, _, _, rfl⟩)
      · rw [upd_ne _ _ e] at ht ⊢; exact (hne hp i' e ht).imp_right .inl
    · dsimp only; rw [upd_same]; dsimp only; rw [List.length_drop]; omega
    · dsimp only; rw [upd_ne _ _ hne']; exact p6 a b i' hi' hn hne'
  | ret i rest busy hp =>
    rw [hp] at hph
    obtain ⟨p1, p2, p3, p4, p5, p6⟩ := hph
    refine ⟨fun i' hd => ?_, fun i' hcl => ?_, fun i' ht => ?_, h.rdone, ⟨p2, p3, fun a b i' hi' hn => ?_⟩⟩
    · by_cases e : i' = i
      · subst e; exact absurd hd p4
      · dsimp only; rw [upd_ne _ _ e]; exact h.data i' hd
    · dsimp only at hcl ⊢
      by_cases e : i' = i
      · subst e
        rw [upd_same] at hcl ⊢
        simp only [In.finish, Bool.or_eq_true, List.isEmpty_iff] at hcl ⊢
        rcases hcl with hcl | hcl
        · exact h.closed i' hcl
        · exact hcl
      · rw [upd_ne _ _ e] at hcl ⊢; exact h.closed i' hcl
    · dsimp only at ht ⊢
      by_cases e : i' = i
      · subst e
        rw [upd_same] at ht ⊢
        simp only [In.finish] at ht ⊢
        exact .inr (.inl (by rw [ht]; simp))
      · rw [upd_ne _ _ e] at ht ⊢; exact (hne hp i' e ht).imp_right .inl
    · simp only [Bool.or_eq_false_iff, Bool.not_eq_false', List.isEmpty_iff] at b
      dsimp only
      by_cases e : i' = i
      · subst e; rw [upd_same]; exact b.2
      · rw [upd_ne _ _ e]; exact p6 a b.1 i' hi' hn e
  | fail c i rest busy left hc hp h0 =>
    rw [hp] at hph
    obtain ⟨p1, p2, p3, p4, p5, p6⟩ := hph
    refine ⟨h.data, h.closed, fun i' ht => ?_, h.rdone, ⟨p2, p3, fun a => ?_⟩⟩
    · by_cases e : i' = i
      · subst e
        dsimp only at ht
        rw [ht] at p5; simp only [List.length_nil] at p5; omega
      · exact (hne hp i' e ht).imp_right .inl
    · dsimp only at a; rw [hc] at a; cases a
  | get s i k b r hc hp he =>
    have ht : ∀ i', ((upd x.ins i { x.ins i with pipe := r }) i').todo = (x.ins i').todo ∧
        ((upd x.ins i { x.ins i with pipe := r }) i').closed = (x.ins i').closed := by
      intro i'
      by_cases e : i' = i
      · subst e; rw [upd_same]; exact ⟨rfl, rfl⟩
      · rw [upd_ne _ _ e]; exact ⟨rfl, rfl⟩
    refine ⟨fun i' hd => by dsimp only; rw [(ht i').1]; exact h.data i' hd, fun i' hcl => ?_, fun i' hti => ?_, fun j hj => ?_,
      phase_mono h.phase rfl (fun e => by rw [hc] at e; cases e) (fun i' => (ht i').1) (fun j hj => hj)⟩
    · dsimp only at hcl ⊢; rw [(ht i').2] at hcl; rw [(ht i').1]; exact h.closed i' hcl
    · dsimp only at hti ⊢; rw [(ht i').1] at hti; rw [(ht i').2]; exact h.todo i' hti
    · have := (h.rdone j hj).2
      rw [hc] at this; cases this
  | eof s i k hc hp he hcl =>
    refine ⟨h.data, h.closed, h.todo, fun j hj => ?_,
      phase_mono h.phase rfl (fun e => by rw [hc] at e; cases e) (fun i' => rfl) (fun j hj => hj)⟩
    have := (h.rdone j hj).2
    rw [hc] at this; cases this
  | put s j b s' hc hp hcap =>
    have hd : ∀ j', ((upd x.rs j { x.rs j with pipe := (x.rs j).pipe ++ [b] }) j').done = (x.rs j').done := by
      intro j'
      by_cases e : j' = j
      · subst e; rw [upd_same]
      · rw [upd_ne _ _ e]
    refine ⟨h.data, h.closed, h.todo, fun j' hj => ?_,
      phase_mono h.phase rfl (fun e => by rw [hc] at e; cases e) (fun i' => rfl) (fun j' hj => by dsimp only; rw [hd]; exact hj)⟩
    dsimp only at hj
    rw [hd] at hj
    have := (h.rdone j' hj).2
    rw [hc] at this; cases this
  | halt s c hc hp =>
    exact ⟨h.data, h.closed, h.todo, fun j hj => ⟨(h.rdone j hj).1, rfl⟩,
      phase_mono h.phase rfl (fun _ => rfl) (fun i' => rfl) (fun j hj => hj)⟩
  | read j m hd h1 hm =>
    have hd' : ∀ j', ((upd x.rs j ((x.rs j).read m)) j').done = (x.rs j').done := by
      intro j'
      by_cases e : j' = j
      · subst e; rw [upd_same]; rfl
      · rw [upd_ne _ _ e]
    refine ⟨h.data, h.closed, h.todo, fun j' hj => ?_,
      phase_mono h.phase rfl (fun e => e) (fun i' => rfl) (fun j' hj => by dsimp only; rw [hd']; exact hj)⟩
    dsimp only at hj ⊢
    by_cases e : j' = j
    · subst e; rw [hd'] at hj; rw [hd] at hj; cases hj
    · rw [upd_ne _ _ e] at hj ⊢; exact h.rdone j' hj
  | end_ c j hc hd hp =>
    refine ⟨h.data, h.closed, h.todo, fun j' hj => ?_,
      phase_mono h.phase rfl (fun e => e) (fun i' => rfl) (fun j' hj => ?_)⟩
    · dsimp only at hj ⊢
      by_cases e : j' = j
      · subst e; rw [upd_same]; exact ⟨hp, by rw [hc]; rfl⟩
      · rw [upd_ne _ _ e] at hj ⊢; exact h.rdone j' hj
    · dsimp only
      by_cases e : j' = j
      · subst e; rw [upd_same]
      · rw [upd_ne _ _ e]; exact hj
  | wait c hc hp =>
    exact ⟨h.data, h.closed, fun i hi => (hnw (by rw [hp]; intros; simp) i hi).imp_right .inl, h.rdone,
      ⟨by rw [hc]; rfl, fun _ h => h, Nat.le_refl _, fun _ j hj hn => absurd hj hn⟩⟩
  | join j rest hp hd =>
    rw [hp] at hph
    obtain ⟨p1, p2, p3, p4⟩ := hph
    rw [List.length_cons] at p3
    refine ⟨h.data, h.closed, fun i hi => (hnw (by rw [hp]; intros; simp) i hi).imp_right .inl, h.rdone,
      ⟨p1, fun j hj => p2 j (List.mem_cons_of_mem _ hj), by omega, fun a j' hj hn => ?_⟩⟩
    by_cases e : j' = j
    · subst e; exact hd
    · exact p4 a j' hj (by simp [e, hn])
  | late j rest hsl hp hd =>
    rw [hp] at hph
    obtain ⟨p1, p2, p3, p4⟩ := hph
    rw [List.length_cons] at p3
    exact ⟨h.data, h.closed, fun i hi => (hnw (by rw [hp]; intros; simp) i hi).imp_right .inl, h.rdone,
      ⟨p1, fun j hj => p2 j (List.mem_cons_of_mem _ hj), by omega, fun a => by rw [hsl] at a; cases a⟩⟩
  | finish hp =>
    rw [hp] at hph
    obtain ⟨p1, p2, p3, p4⟩ := hph
    exact ⟨h.data, h.closed, fun i hi => (hnw (by rw [hp]; intros; simp) i hi).imp_right .inl, h.rdone,
      ⟨p1, fun a j hj => p4 a j hj (by simp)⟩⟩

theorem inv_steps {prog : σ → Act σ ι κ} {cap : Nat} {slow : Bool} {is : List ι} {ks : List κ} {d : ι → Bytes}
    {x y : Net σ ι κ} {n : Nat} (h : Inv slow is ks d x) (hs : Steps prog cap slow is ks n x y) : Inv slow is ks d y := by
  induction hs with
  | nil => exact h
  | snoc _ h2 ih => exact inv_step (ih h) h2

/-! ## The network does what the program does alone -/

/-- The network is at a point of the run of the program that ends with outputs `O` and status `C`; the process has `n`
steps to go. -/
def Ref (prog : σ → Act σ ι κ) (O : κ → Bytes) (R : ι → Bytes) (C : UInt8) (n : Nat) (x : Net σ ι κ) : Prop :=
  match x.child with
  | .inl s => ∃ o, Eval prog s (fun i => (x.ins i).pipe ++ (x.ins i).todo) o R C n ∧
      ∀ j, (x.rs j).got ++ (x.rs j).pipe ++ o j = O j
  | .inr c => n = 0 ∧ c = C ∧ ∀ j, (x.rs j).got ++ (x.rs j).pipe = O j

/-- What is left of the current call of `_write`. -/
def left (x : Net σ ι κ) : Nat :=
  match x.phase with
  | .writing _ _ _ l => l
  | _ => 0

/-- The cost of one more turn of the loop over the inputs. -/
def turn (is : List ι) : Nat := 4 * is.length + 4

/-- What the caller has to do in its phase while the process runs. -/
def phaseRun (is : List ι) : Phase ι κ → Nat
  | .visit rest busy => 4 * rest.length + 1 + if busy then turn is else 0
  | .writing _ rest _ _ => 4 * rest.length + 3 + turn is
  | _ => 0

/-- What the caller has to do in its phase after the end of the process. -/
def phaseEnd (is : List ι) (ks : List κ) : Phase ι κ → Nat
  | .visit rest busy => 4 * rest.length + 1 + (ks.length + 2) + if busy then turn is else 0
  | .writing _ rest busy l => 4 * rest.length + 3 + (ks.length + 2) + if busy ∨ l = 0 then turn is else 0
  | .waiting => ks.length + 2
  | .joining rest => rest.length + 1
  | .returned => 0

/-- The data of all inputs that is still to be written. -/
def total (is : List ι) (x : Net σ ι κ) : Nat := (is.map fun i => (x.ins i).todo.length).sum

/-- The work that remains. -/
def work (is : List ι) (ks : List κ) (n : Nat) (x : Net σ ι κ) : Nat :=
  (ks.map fun j => rsize (x.rs j)).sum +
  match x.child with
  | .inl _ => (turn is + 2) * (total is x - left x) + left x + phaseRun is x.phase + 2 * n +
      (4 * is.length + 4 + (ks.length + 2) + turn is)
  | .inr _ => phaseEnd is ks x.phase

theorem sum_upd_eq {α : Type} (f : α → Nat) (g : ι → α) (l : List ι) (hl : l.Nodup) (i : ι) (hi : i ∈ l) (a : α) :
    (l.map fun x => f (upd g i a x)).sum + f (g i) = (l.map fun x => f (g x)).sum + f a := by
  induction l with
  | nil => cases hi
  | cons x l ih =>
    rw [List.nodup_cons] at hl
    simp only [List.map_cons, List.sum_cons]
    by_cases hx : x = i
    · subst hx
      have : (l.map fun y => f (upd g x a y)) = l.map fun y => f (g y) := by
        apply List.map_congr_left
        intro y hy
        rw [upd_ne]
        rintro rfl; exact hl.1 hy
      rw [upd_same, this]; omega
    · have := ih hl.2 (by rcases List.mem_cons.1 hi with h | h; exact absurd h.symm hx; exact h)
      rw [upd_ne _ _ hx]; omega

omit [DecidableEq ι] [DecidableEq κ] in
theorem le_total {is : List ι} {x : Net σ ι κ} {i : ι} (hi : i ∈ is) : (x.ins i).todo.length ≤ total is x := by
  unfold total
  induction is with
  | nil => cases hi
  | cons a l ih =>
    simp only [List.map_cons, List.sum_cons]
    rcases List.mem_cons.1 hi with h | h
    · subst h; omega
    · have := ih h; omega

omit [DecidableEq ι] [DecidableEq κ] in
theorem total_congr {is : List ι} {x y : Net σ ι κ} (h : ∀ i, (y.ins i).todo.length = (x.ins i).todo.length) :
    total is y = total is x := by
  unfold total
  congr 1
  apply List.map_congr_left
  intro i _; exact h i

omit [DecidableEq ι] [DecidableEq κ] in
theorem phaseEnd_le {slow : Bool} {is : List ι} {ks : List κ} {d : ι → Bytes} {x : Net σ ι κ} (h : PhaseInv slow is ks d x) :
    phaseEnd is ks x.phase < 4 * is.length + 4 + (ks.length + 2) + turn is := by
  unfold PhaseInv at h
  unfold phaseEnd
  split
  · rename_i e; rw [e] at h; have := h.2.1; split <;> omega
  · rename_i e; rw [e] at h; have := h.2.2.1; split <;> omega
  · omega
  · rename_i e; rw [e] at h; have := h.2.2.1; omega
  · omega

theorem ref_step {prog : σ → Act σ ι κ} {cap n : Nat} {slow : Bool} {is : List ι} {ks : List κ} {d : ι → Bytes}
    {O : κ → Bytes} {R : ι → Bytes} {C : UInt8} {x y : Net σ ι κ} (hi : Inv slow is ks d x) (h : Ref prog O R C n x)
    (hs : Step prog cap slow is ks x y) (his : is.Nodup) (hks : ∀ j, j ∈ ks) (hnd : ks.Nodup) :
    ∃ n', Ref prog O R C n' y ∧ work is ks n' y < work is ks n x := by
  have hph := hi.phase
  unfold PhaseInv at hph
  cases hs with
  | again hp =>
    refine ⟨n, h, ?_⟩
    unfold work total left
    dsimp only
    rw [hp]
    cases x.child <;> simp only [phaseRun, phaseEnd, turn, List.length_nil] <;> simp <;> omega
  | leave hp =>
    refine ⟨n, h, ?_⟩
    unfold work total left
    dsimp only
    rw [hp]
    cases x.child <;> simp only [phaseRun, phaseEnd] <;> simp
  | skip i rest busy hp ht =>
    refine ⟨n, h, ?_⟩
    unfold work total left
    dsimp only
    rw [hp]
    cases x.child <;> simp only [phaseRun, phaseEnd, List.length_cons] <;> omega
  | call i rest busy hp ht =>
    refine ⟨n, h, ?_⟩
    rw [hp] at hph
    have hpos : 0 < (x.ins i).todo.length := List.length_pos_iff.2 ht
    have hT := le_total (x := x) (hph.1 i (List.mem_cons_self ..))
    unfold work left
    have e : total is ({ x with phase := .writing i rest busy (min sz (x.ins i).todo.length) } : Net σ ι κ) = total is x := rfl
    rw [e]
    dsimp only
    rw [hp]
    cases x.child with
    | inl s =>
      simp only [phaseRun, List.length_cons]
      generalize total is x = T at hT
      generalize hm : min sz (x.ins i).todo.length = m
      have hm1 : 1 ≤ m := by unfold sz at hm; omega
      have hmT : m ≤ T := by omega
      obtain ⟨U, rfl⟩ : ∃ U, T = U + m := ⟨T - m, by omega⟩
      rw [Nat.add_sub_cancel, Nat.sub_zero, Nat.mul_add, Nat.add_mul (turn is) 2 m]
      have : turn is ≤ turn is * m := Nat.le_mul_of_pos_right _ hm1
      generalize (turn is + 2) * U = V
      split <;> omega
    | inr c =>
      simp only [phaseEnd, List.length_cons]
      have : ¬ min sz (x.ins i).todo.length = 0 := by unfold sz; omega
      simp only [this, or_false]
      omega
  | push s i rest busy l m hc hp h1 h2 h3 =>
    rw [hp] at hph
    obtain ⟨p1, p2, p3, p4, p5, p6⟩ := hph
    refine ⟨n, ?_, ?_⟩
    · unfold Ref at h ⊢
      dsimp only
      rw [hc] at h ⊢
      obtain ⟨o, e1, e2⟩ := h
      refine ⟨o, ?_, e2⟩
      rw [upd_fun (fun w : In => w.pipe ++ w.todo)]
      have : ((x.ins i).pipe ++ (x.ins i).todo.take m) ++ (x.ins i).todo.drop m = (x.ins i).pipe ++ (x.ins i).todo := by
        rw [List.append_assoc, List.take_append_drop]
      dsimp only
      rw [this, upd_id (fun i => (x.ins i).pipe ++ (x.ins i).todo)]
      exact e1
    · have hT := le_total (x := x) p1
      have e := sum_upd_eq (fun w : In => w.todo.length) x.ins is his i p1
        { x.ins i with todo := (x.ins i).todo.drop m, pipe := (x.ins i).pipe ++ (x.ins i).todo.take m }
      dsimp only at e
      rw [List.length_drop] at e
      unfold work left
      dsimp only
      rw [hp, hc]
      dsimp only
      have e2 : total is ({ x with
          ins := upd x.ins i { x.ins i with todo := (x.ins i).todo.drop m, pipe := (x.ins i).pipe ++ (x.ins i).todo.take m }
          phase := .writing i rest busy (l - m) } : Net σ ι κ) - (l - m) = total is x - l := by
        unfold total at hT ⊢
        dsimp only
        omega
      rw [hc] at e2
      rw [e2]
      simp only [phaseRun]
      omega
  | ret i rest busy hp =>
    refine ⟨n, ?_, ?_⟩
    · have hf : ∀ i', (upd x.ins i (x.ins i).finish i').pipe ++ (upd x.ins i (x.ins i).finish i').todo =
          (x.ins i').pipe ++ (x.ins i').todo := by
        intro i'
        by_cases e : i' = i
        · subst e; rw [upd_same]; rfl
        · rw [upd_ne _ _ e]
      unfold Ref at h ⊢
      dsimp only
      split at h
      · simp only [hf]; exact h
      · exact h
    · have hT : ∀ p, total is (⟨upd x.ins i (x.ins i).finish, x.rs, x.child, p⟩ : Net σ ι κ) = total is x := by
        intro p
        apply total_congr
        intro i'
        dsimp only
        by_cases e : i' = i
        · subst e; rw [upd_same]; rfl
        · rw [upd_ne _ _ e]
      unfold work left
      rw [hT]
      dsimp only
      rw [hp]
      cases x.child with
      | inl s => simp only [phaseRun]; split <;> omega
      | inr c => simp only [phaseEnd, or_true, if_true]; split <;> omega
  | fail c i rest busy l hc hp h0 =>
    refine ⟨n, h, ?_⟩
    unfold work
    dsimp only
    rw [hp, hc]
    simp only [phaseEnd]
    have : ¬ l = 0 := by omega
    simp only [this, or_false]
    omega
  | get s i k b r hc hp he =>
    have hT : total is ({ x with ins := upd x.ins i { x.ins i with pipe := r }, child := .inl (k (some b)) } : Net σ ι κ) =
        total is x := by
      apply total_congr
      intro i'
      dsimp only
      by_cases e : i' = i
      · subst e; rw [upd_same]
      · rw [upd_ne _ _ e]
    unfold Ref at h
    rw [hc] at h
    obtain ⟨o, h1, h2⟩ := h
    cases h1 with
    | halt _ hp' => rw [hp] at hp'; cases hp'
    | put hp' _ => rw [hp] at hp'; cases hp'
    | eof hp' hd' h3 =>
      rw [hp] at hp'
      injection hp' with e1 e2
      subst e1; subst e2
      simp only [he, List.cons_append] at hd'; cases hd'
    | get hp' hd' h3 =>
      rename_i i' k' b' l n'
      rw [hp] at hp'
      injection hp' with e1 e2
      subst e1; subst e2
      simp only [he, List.cons_append, List.cons.injEq] at hd'
      obtain ⟨rfl, rfl⟩ := hd'
      refine ⟨n', ⟨o, ?_, h2⟩, ?_⟩
      · dsimp only
        rw [upd_fun (fun w : In => w.pipe ++ w.todo)]
        exact h3
      · unfold work left
        rw [hT]
        dsimp only
        rw [hc]
        dsimp only
        omega
  | eof s i k hc hp he hcl =>
    unfold Ref at h
    rw [hc] at h
    obtain ⟨o, h1, h2⟩ := h
    have ht := hi.closed i hcl
    cases h1 with
    | halt _ hp' => rw [hp] at hp'; cases hp'
    | put hp' _ => rw [hp] at hp'; cases hp'
    | get hp' hd' h3 =>
      rw [hp] at hp'
      injection hp' with e1 e2
      subst e1; subst e2
      simp only [he, ht, List.append_nil] at hd'; cases hd'
    | eof hp' hd' h3 =>
      rename_i i' k' n'
      rw [hp] at hp'
      injection hp' with e1 e2
      subst e1; subst e2
      refine ⟨n', ⟨o, h3, h2⟩, ?_⟩
      unfold work left total
      dsimp only
      rw [hc]
      dsimp only
      omega
  | put s j b s' hc hp hcap =>
    unfold Ref at h
    rw [hc] at h
    obtain ⟨o, h1, h2⟩ := h
    cases h1 with
    | halt _ hp' => rw [hp] at hp'; cases hp'
    | get hp' _ _ => rw [hp] at hp'; cases hp'
    | eof hp' _ _ => rw [hp] at hp'; cases hp'
    | put hp' h3 =>
      rename_i s2 j' b' o' n'
      rw [hp] at hp'
      injection hp' with e1 e2 e3
      subst e1; subst e2; subst e3
      refine ⟨n', ⟨o', h3, fun j' => ?_⟩, ?_⟩
      · rw [← h2 j']
        dsimp only
        by_cases hjj : j' = j
        · subst hjj
          rw [upd_same, upd_same]
          simp only [List.append_assoc, List.singleton_append]
        · rw [upd_ne _ _ hjj, upd_ne _ _ hjj]
      · unfold work left total
        dsimp only
        have := sum_upd_succ rsize x.rs ks hnd j { x.rs j with pipe := (x.rs j).pipe ++ [b] } (by
          simp only [rsize, List.length_append, List.length_singleton]; omega)
        dsimp only at this
        rw [hc]
        dsimp only
        omega
  | halt s c hc hp =>
    unfold Ref at h
    rw [hc] at h
    obtain ⟨o, h1, h2⟩ := h
    cases h1 with
    | put hp' _ => rw [hp] at hp'; cases hp'
    | get hp' _ _ => rw [hp] at hp'; cases hp'
    | eof hp' _ _ => rw [hp] at hp'; cases hp'
    | halt _ hp' =>
      rw [hp] at hp'
      injection hp' with e1
      refine ⟨0, ⟨rfl, e1, fun j => ?_⟩, ?_⟩
      · have := h2 j
        rwa [List.append_nil] at this
      · have := phaseEnd_le hi.phase
        unfold work
        dsimp only
        rw [hc]
        dsimp only
        omega
  | read j m hd h1 hm =>
    have hgp : ∀ j', (upd x.rs j ((x.rs j).read m) j').got ++ (upd x.rs j ((x.rs j).read m) j').pipe =
        (x.rs j').got ++ (x.rs j').pipe := by
      intro j'
      by_cases hjj : j' = j
      · subst hjj
        rw [upd_same]; simp only [Reader.read, List.append_assoc, List.take_append_drop]
      · rw [upd_ne _ _ hjj]
    refine ⟨n, ?_, ?_⟩
    · unfold Ref at h ⊢
      dsimp only
      split at h
      · obtain ⟨o, h2, h3⟩ := h
        refine ⟨o, h2, fun j' => ?_⟩
        rw [hgp]; exact h3 j'
      · obtain ⟨h0, h2, h3⟩ := h
        refine ⟨h0, h2, fun j' => ?_⟩
        rw [hgp]; exact h3 j'
    · have := sum_upd_lt rsize x.rs ks j ((x.rs j).read m) (by
        simp only [rsize, Reader.read, List.length_drop, hd, Bool.false_eq_true, if_false]; omega) (hks j)
      unfold work
      dsimp only
      exact Nat.add_lt_add_of_lt_of_le this (Nat.le_refl _)
  | end_ c j hc hd hp =>
    refine ⟨n, ?_, ?_⟩
    · unfold Ref at h ⊢
      dsimp only
      rw [hc] at h ⊢
      obtain ⟨h0, h1, h2⟩ := h
      refine ⟨h0, h1, fun j' => ?_⟩
      by_cases hjj : j' = j
      · subst hjj; rw [upd_same]; exact h2 j'
      · rw [upd_ne _ _ hjj]; exact h2 j'
    · have := sum_upd_lt rsize x.rs ks j { x.rs j with done := true } (by simp [rsize, hd]) (hks j)
      unfold work
      dsimp only at this ⊢
      exact Nat.add_lt_add_of_lt_of_le this (Nat.le_refl _)
  | wait c hc hp =>
    refine ⟨n, h, ?_⟩
    unfold work
    dsimp only
    rw [hp, hc]
    simp only [phaseEnd]
    omega
  | join j rest hp hd =>
    rw [hp] at hph
    refine ⟨n, h, ?_⟩
    unfold work
    dsimp only
    rw [hp]
    cases hc : x.child with
    | inl s => rw [hc] at hph; cases hph.1
    | inr c => simp only [phaseEnd, List.length_cons]; omega
  | late j rest hsl hp hd =>
    rw [hp] at hph
    refine ⟨n, h, ?_⟩
    unfold work
    dsimp only
    rw [hp]
    cases hc : x.child with
    | inl s => rw [hc] at hph; cases hph.1
    | inr c => simp only [phaseEnd, List.length_cons]; omega
  | finish hp =>
    rw [hp] at hph
    refine ⟨n, h, ?_⟩
    unfold work
    dsimp only
    rw [hp]
    cases hc : x.child with
    | inl s => rw [hc] at hph; cases hph.1
    | inr c => simp only [phaseEnd, List.length_nil]; omega

theorem ref_steps {prog : σ → Act σ ι κ} {cap n k : Nat} {slow : Bool} {is : List ι} {ks : List κ} {d : ι → Bytes}
    {O : κ → Bytes} {R : ι → Bytes} {C : UInt8} {x y : Net σ ι κ} (hi : Inv slow is ks d x) (h : Ref prog O R C n x)
    (hs : Steps prog cap slow is ks k x y) (his : is.Nodup) (hks : ∀ j, j ∈ ks) (hnd : ks.Nodup) :
    ∃ n', Ref prog O R C n' y ∧ k + work is ks n' y ≤ work is ks n x := by
  induction hs with
  | nil => exact ⟨n, h, by omega⟩
  | snoc h1 h2 ih =>
    obtain ⟨n1, h3, h4⟩ := ih hi h
    obtain ⟨n2, h5, h6⟩ := ref_step (inv_steps hi h1) h3 h2 his hks hnd
    exact ⟨n2, h5, by omega⟩

omit [DecidableEq κ] in
theorem ref_start {prog : σ → Act σ ι κ} {s : σ} {d : ι → Bytes} {o : κ → Bytes} {r : ι → Bytes} {c : UInt8} {n : Nat}
    (is : List ι) [DecidableEq κ] (h : Eval prog s d o r c n) : Ref prog o r c n (start s d is : Net σ ι κ) := by
  refine ⟨o, ?_, fun j => by simp [start]⟩
  simp only [start, List.nil_append]
  exact h

end Lolly.WinSpawnProps
