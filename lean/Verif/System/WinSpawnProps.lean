import Verif.System.WinSpawnLemmas

set_option autoImplicit false

/-!
# Property C116: processes on Windows

Specification: `SpawnProps.Eval prog s d o r c n` tells that the program, run alone with files that hold `d`, writes `o`,
leaves `r` unread and ends with status `c`.
-/

namespace Lolly.WinSpawnProps

open WinSpawn
open Spawn (Act Reader upd)
open SpawnProps (Eval upd_same upd_ne upd_fun upd_id)

variable {σ ι κ : Type} [DecidableEq ι] [DecidableEq κ]

/-- C116: whatever the schedule and the sizes of the parts, when `win_system` returns, it gives the exit status, and the
strings for the outputs hold exactly what the program writes if it is run alone. `slow = false`: the threads get the time
they need. -/
theorem C116_output_partial {prog : σ → Act σ ι κ} {cap : Nat} {s : σ} {d : ι → Bytes} {o : κ → Bytes} {r : ι → Bytes}
    {c : UInt8} {n k : Nat} (h : Eval prog s d o r c n) (is : List ι) (ks : List κ) (his : is.Nodup) (hks : ∀ j, j ∈ ks)
    (hnd : ks.Nodup) {x : Net σ ι κ} (hx : Steps prog cap false is ks k (start s d is) x) (hf : x.phase = .returned) :
    result ks x = .ok (c, ks.map o) := by
  have hi := inv_steps (inv_start false is ks s d) hx
  obtain ⟨n', h1, _⟩ := ref_steps (inv_start false is ks s d) (ref_start is h) hx his hks hnd
  have hp := hi.phase
  unfold PhaseInv at hp
  rw [hf] at hp
  unfold Ref at h1
  unfold result
  cases hc : x.child with
  | inl s' => rw [hc] at hp; cases hp.1
  | inr c' =>
    rw [hc] at h1
    dsimp only at h1 ⊢
    rw [if_pos (hp.2 rfl), h1.2.1]
    congr 2
    apply List.map_congr_left
    intro j hj
    have := h1.2.2 j
    rwa [(hi.rdone j (hp.2 rfl j hj)).1, List.append_nil] at this

/-- C116: if the program alone ends on these inputs, no run goes on for ever: there is a number of moves that no run
exceeds. -/
theorem C116_terminates {prog : σ → Act σ ι κ} {s : σ} {d : ι → Bytes} {o : κ → Bytes} {r : ι → Bytes} {c : UInt8}
    {n : Nat} (h : Eval prog s d o r c n) (is : List ι) (ks : List κ) (his : is.Nodup) (hks : ∀ j, j ∈ ks)
    (hnd : ks.Nodup) : ∃ B, ∀ (cap : Nat) (slow : Bool) (k : Nat) (x : Net σ ι κ),
      Steps prog cap slow is ks k (start s d is) x → k ≤ B := by
  refine ⟨work is ks n (start s d is : Net σ ι κ), fun cap slow k x hx => ?_⟩
  obtain ⟨n', _, h2⟩ := ref_steps (inv_start slow is ks s d) (ref_start is h) hx his hks hnd
  omega

/-- C116: as long as `win_system` has not returned, something can move, unless the process waits for an input `i` and
either the empty string was given for `i`, or the caller is writing another input whose pipe is full. -/
theorem C116_blocked_only {prog : σ → Act σ ι κ} {cap k : Nat} (hcap : 1 ≤ cap) {slow : Bool} (s : σ) (d : ι → Bytes)
    (is : List ι) (ks : List κ) (hmem : ∀ i, i ∈ is) {x : Net σ ι κ}
    (hx : Steps prog cap slow is ks k (start s d is) x) :
    x.phase = .returned ∨ (∃ y, Step prog cap slow is ks x y) ∨
      ∃ (s' : σ) (i : ι) (g : Option UInt8 → σ), x.child = .inl s' ∧ prog s' = .get i g ∧
        (d i = [] ∨ ∃ i' rest busy l, x.phase = .writing i' rest busy l ∧ i' ≠ i ∧ cap ≤ (x.ins i').pipe.length ∧
          (x.ins i').todo ≠ []) := by
  have hi := inv_steps (inv_start slow is ks s d) hx
  have hph := hi.phase
  unfold PhaseInv at hph
  -- a thread that has not ended can move after the end of the process
  have hread : ∀ c j, x.child = .inr c → (x.rs j).done = false → ∃ y, Step prog cap slow is ks x y := by
    intro c j hc hd
    cases hp : (x.rs j).pipe with
    | nil => exact ⟨_, .end_ x c j hc hd hp⟩
    | cons b l =>
      exact ⟨_, .read x j 1 hd (Nat.le_refl 1) (by rw [hp]; unfold bufSize; simp only [List.length_cons]; omega)⟩
  cases hpx : x.phase with
  | visit rest busy =>
    right; left
    cases rest with
    | nil =>
      cases busy with
      | true => exact ⟨_, .again x hpx⟩
      | false => exact ⟨_, .leave x hpx⟩
    | cons i rest =>
      by_cases ht : (x.ins i).todo = []
      · exact ⟨_, .skip x i rest busy hpx ht⟩
      · exact ⟨_, .call x i rest busy hpx ht⟩
  | returned => exact .inl rfl
  | joining rest =>
    rw [hpx] at hph
    right; left
    cases rest with
    | nil => exact ⟨_, .finish x hpx⟩
    | cons j rest =>
      cases hd : (x.rs j).done with
      | true => exact ⟨_, .join x j rest hpx hd⟩
      | false =>
        cases hc : x.child with
        | inl s' => rw [hc] at hph; cases hph.1
        | inr c => exact hread c j hc hd
  | waiting =>
    rw [hpx] at hph
    cases hc : x.child with
    | inr c => exact .inr (.inl ⟨_, .wait x c hc hpx⟩)
    | inl s' =>
      right
      cases hp : prog s' with
      | halt c => exact .inl ⟨_, .halt x s' c hc hp⟩
      | put j b s2 =>
        left
        by_cases hl : (x.rs j).pipe.length < cap
        · exact ⟨_, .put x s' j b s2 hc hp hl⟩
        · have hnd : (x.rs j).done = false := by
            cases hd : (x.rs j).done with
            | false => rfl
            | true => have := (hi.rdone j hd).2; rw [hc] at this; cases this
          exact ⟨_, .read x j 1 hnd (Nat.le_refl 1) (by unfold bufSize; omega)⟩
      | get i g =>
        cases he : (x.ins i).pipe with
        | cons b r => exact .inl ⟨_, .get x s' i g b r hc hp he⟩
        | nil =>
          rcases hi.todo i (hph (by rw [hc]; rfl) i (hmem i)) with e | e | ⟨_, _, _, e⟩
          · exact .inr ⟨s', i, g, rfl, hp, .inl e⟩
          · exact .inl ⟨_, .eof x s' i g hc hp he e⟩
          · rw [hpx] at e; cases e
  | writing i' rest busy l =>
    rw [hpx] at hph
    right
    by_cases hl0 : l = 0
    · subst hl0; exact .inl ⟨_, .ret x i' rest busy hpx⟩
    cases hc : x.child with
    | inr c => exact .inl ⟨_, .fail x c i' rest busy l hc hpx (by omega)⟩
    | inl s' =>
      by_cases hroom : (x.ins i').pipe.length + 1 ≤ cap
      · exact .inl ⟨_, .push x s' i' rest busy l 1 hc hpx (Nat.le_refl 1) (by omega) hroom⟩
      cases hp : prog s' with
      | halt c => exact .inl ⟨_, .halt x s' c hc hp⟩
      | put j b s2 =>
        left
        by_cases hl : (x.rs j).pipe.length < cap
        · exact ⟨_, .put x s' j b s2 hc hp hl⟩
        · have hnd : (x.rs j).done = false := by
            cases hd : (x.rs j).done with
            | false => rfl
            | true => have := (hi.rdone j hd).2; rw [hc] at this; cases this
          exact ⟨_, .read x j 1 hnd (Nat.le_refl 1) (by unfold bufSize; omega)⟩
      | get i g =>
        cases he : (x.ins i).pipe with
        | cons b r => exact .inl ⟨_, .get x s' i g b r hc hp he⟩
        | nil =>
          refine .inr ⟨s', i, g, rfl, hp, .inr ⟨i', rest, busy, l, rfl, ?_, by omega, ?_⟩⟩
          · rintro rfl
            rw [he] at hroom
            simp only [List.length_nil] at hroom
            omega
          · intro e
            have := hph.2.2.2.2.1
            rw [e] at this
            simp only [List.length_nil] at this
            omega

/-- What is in the pipe and what is still to be written are part of the input. -/
theorem within {prog : σ → Act σ ι κ} {cap k : Nat} {slow : Bool} {s : σ} {d : ι → Bytes} {is : List ι} {ks : List κ}
    {x : Net σ ι κ} (hx : Steps prog cap slow is ks k (start s d is) x) (i : ι) :
    (x.ins i).pipe.length + (x.ins i).todo.length ≤ (d i).length := by
  generalize hs : (start s d is : Net σ ι κ) = x0 at hx
  induction hx with
  | nil => subst hs; simp [start]
  | snoc _ h2 ih =>
    have ih := ih hs
    cases h2 with
    | push s i' rest busy l m hc hp h1 h2 h3 =>
      dsimp only
      by_cases e : i = i'
      · subst e
        rw [upd_same]
        simp only [List.length_append, List.length_take, List.length_drop]; omega
      · rw [upd_ne _ _ e]; exact ih
    | ret i' rest busy hp =>
      dsimp only
      by_cases e : i = i'
      · subst e; rw [upd_same]; exact ih
      · rw [upd_ne _ _ e]; exact ih
    | get s i' g b r hc hp he =>
      dsimp only
      by_cases e : i = i'
      · subst e; rw [upd_same]; rw [he, List.length_cons] at ih; dsimp only; omega
      · rw [upd_ne _ _ e]; exact ih
    | _ => exact ih

/-- C116: if there is one input, or if all inputs fit into their pipes, and none is empty, there is no deadlock. -/
theorem C116_no_deadlock_partial {prog : σ → Act σ ι κ} {cap k : Nat} (hcap : 1 ≤ cap) {slow : Bool} (s : σ)
    (d : ι → Bytes) (is : List ι) (ks : List κ) (hmem : ∀ i, i ∈ is) (hd : ∀ i, d i ≠ [])
    (hone : (∀ i i' : ι, i = i') ∨ ∀ i, (d i).length ≤ cap) {x : Net σ ι κ}
    (hx : Steps prog cap slow is ks k (start s d is) x) :
    x.phase = .returned ∨ ∃ y, Step prog cap slow is ks x y := by
  rcases C116_blocked_only hcap s d is ks hmem hx with h | h | ⟨s', i, g, hc, hp, h | ⟨i', rest, busy, l, hw, hne, hfull, ht⟩⟩
  · exact .inl h
  · exact .inr h
  · exact absurd h (hd i)
  · rcases hone with h | h
    · exact absurd (h i' i) hne
    · have h1 := within hx i'
      have h2 := h i'
      have h3 := List.length_pos_iff.2 ht
      omega

/-- C116 for one input, or inputs that fit into their pipes: a program that ends when it is run alone. Every run that
cannot go on has returned, with its status and its outputs; and no run goes on for ever. -/
theorem C116_total_partial {prog : σ → Act σ ι κ} {cap k : Nat} (hcap : 1 ≤ cap) {s : σ} {d : ι → Bytes} {o : κ → Bytes}
    {r : ι → Bytes} {c : UInt8} {n : Nat} (h : Eval prog s d o r c n) (hd : ∀ i, d i ≠ []) (is : List ι) (ks : List κ)
    (his : is.Nodup) (hmem : ∀ i, i ∈ is) (hks : ∀ j, j ∈ ks) (hnd : ks.Nodup)
    (hone : (∀ i i' : ι, i = i') ∨ ∀ i, (d i).length ≤ cap) {x : Net σ ι κ}
    (hx : Steps prog cap false is ks k (start s d is) x) (hstop : ∀ y, ¬ Step prog cap false is ks x y) :
    x.phase = .returned ∧ result ks x = .ok (c, ks.map o) := by
  rcases C116_no_deadlock_partial hcap s d is ks hmem hd hone hx with hf | ⟨y, hy⟩
  · exact ⟨hf, C116_output_partial h is ks his hks hnd hx hf⟩
  · exact absurd hy (hstop y)

/-- The program that copies its input meets the hypotheses, for every input. -/
example (d : Bytes) : Eval SpawnProps.copy none (fun _ => d) (fun _ => d) (fun _ => []) 0 (2 * d.length + 2) := by
  induction d with
  | nil => exact .eof (k := some) rfl rfl (.halt _ rfl)
  | cons b d ih =>
    refine .get (k := some) (b := b) (l := d) rfl rfl ?_
    have h1 : upd (fun _ : Unit => b :: d) () d = fun _ => d := by funext u; rfl
    have h2 : (fun _ : Unit => b :: d) = upd (fun _ : Unit => d) () (b :: d) := by funext u; rfl
    rw [h1, h2]
    exact .put (d := fun _ => d) rfl ih

/-! ## Two long inputs -/

/-- A program that reads its second input to the end, then its first input, then ends. -/
def second : Option Bool → Act (Option Bool) Bool Empty
  | some true => .get true fun b => some b.isSome
  | some false => .get false fun b => if b.isSome then some false else none
  | none => .halt 0

theorem second_alone (d : Bool → Bytes) : ∃ n, Eval second (some true) d (fun _ => []) (fun _ => []) 0 n := by
  have h2 : ∀ (l : Bytes) (d : Bool → Bytes), d false = l → d true = [] →
      ∃ n, Eval second (some false) d (fun _ => []) (fun _ => []) 0 n := by
    intro l
    induction l with
    | nil =>
      intro d h1 h2
      have e : d = fun _ => [] := by funext b; cases b <;> assumption
      refine ⟨2, .eof (i := false) rfl h1 ?_⟩
      rw [e]
      exact .halt _ rfl
    | cons b l ih =>
      intro d h1 h2
      obtain ⟨n, hn⟩ := ih (upd d false l) (upd_same ..) (by rw [upd_ne _ _ (by decide)]; exact h2)
      exact ⟨n + 1, .get (i := false) rfl h1 hn⟩
  have h1 : ∀ (l : Bytes) (d : Bool → Bytes), d true = l →
      ∃ n, Eval second (some true) d (fun _ => []) (fun _ => []) 0 n := by
    intro l
    induction l with
    | nil =>
      intro d h1
      obtain ⟨n, hn⟩ := h2 _ d rfl h1
      exact ⟨n + 1, .eof (i := true) rfl h1 hn⟩
    | cons b l ih =>
      intro d h1
      obtain ⟨n, hn⟩ := ih (upd d true l) (upd_same ..)
      exact ⟨n + 1, .get (i := true) rfl h1 hn⟩
  exact h1 _ d rfl

/-- What holds while the program reads its second input and the caller writes both. -/
structure Stuck (cap : Nat) (d : Bool → Bytes) (x : Net (Option Bool) Bool Empty) : Prop where
  child : x.child = .inl (some true)
  first : (x.ins false).pipe.length + (x.ins false).todo.length = (d false).length
  full : (x.ins false).pipe.length ≤ cap
  part : (x.ins true).todo.length ≤ (d true).length
  opened : (x.ins true).closed = false
  phase : match x.phase with
    | .visit [false, true] _ => (x.ins false).pipe.length + (x.ins true).todo.length = (d true).length
    | .writing false [true] _ l =>
        (x.ins false).pipe.length + l + (x.ins true).todo.length = (d true).length + sz
    | .visit [true] busy => busy = true ∧
        (x.ins false).pipe.length + (x.ins true).todo.length = (d true).length + sz
    | .writing true [] busy l => busy = true ∧
        (x.ins false).pipe.length + (x.ins true).todo.length = (d true).length + l ∧ l ≤ sz
    | .visit [] busy => busy = true ∧ (x.ins false).pipe.length + (x.ins true).todo.length = (d true).length
    | _ => False

theorem stuck_step {cap : Nat} {slow : Bool} {d : Bool → Bytes} {x y : Net (Option Bool) Bool Empty}
    (h0 : cap + sz < (d false).length) (h1 : cap + sz < (d true).length) (h : Stuck cap d x)
    (hs : Step second cap slow [false, true] [] x y) : Stuck cap d y := by
  obtain ⟨i1, i2, i3, i4, i5, i6⟩ := h
  have hft : false ≠ true := by decide
  have htf : true ≠ false := by decide
  cases hs with
  | again hp =>
    rw [hp] at i6
    exact ⟨i1, i2, i3, i4, i5, i6.2⟩
  | leave hp => rw [hp] at i6; cases i6.1
  | skip i rest busy hp ht =>
    rw [hp] at i6
    exfalso
    cases i with
    | false => rw [ht] at i2; simp only [List.length_nil] at i2; omega
    | true =>
      cases rest with
      | nil => rw [ht] at i6; simp only [List.length_nil] at i6; have := i6.2; omega
      | cons a l => exact i6
  | call i rest busy hp ht =>
    rw [hp] at i6
    cases i with
    | false =>
      match rest, i6, hp with
      | [true], i6, hp =>
        refine ⟨i1, i2, i3, i4, i5, ?_⟩
        dsimp only at i6 ⊢
        have : min sz (x.ins false).todo.length = sz := by omega
        rw [this]; omega
    | true =>
      cases rest with
      | nil =>
        have := i6.2
        refine ⟨i1, i2, i3, i4, i5, i6.1, ?_⟩
        dsimp only
        omega
      | cons a l => exact i6.elim
  | push s i rest busy l m hc hp a1 a2 a3 =>
    rw [hp] at i6
    cases i with
    | false =>
      match rest, i6, hp with
      | [true], i6, hp =>
        dsimp only at i6
        refine ⟨i1, ?_, ?_, ?_, ?_, ?_⟩
        · dsimp only
          rw [upd_same]
          simp only [List.length_append, List.length_take, List.length_drop]; omega
        · dsimp only
          rw [upd_same]
          simp only [List.length_append, List.length_take]; omega
        · dsimp only
          rw [upd_ne _ _ htf]; exact i4
        · dsimp only
          rw [upd_ne _ _ htf]; exact i5
        · dsimp only
          rw [upd_same, upd_ne _ _ htf]
          simp only [List.length_append, List.length_take]; omega
    | true =>
      cases rest with
      | nil =>
        have i7 := i6.2
        refine ⟨i1, ?_, ?_, ?_, ?_, i6.1, ?_⟩
        · dsimp only
          rw [upd_ne _ _ hft]; exact i2
        · dsimp only
          rw [upd_ne _ _ hft]; exact i3
        · dsimp only
          rw [upd_same]
          simp only [List.length_drop]; omega
        · dsimp only
          rw [upd_same]; exact i5
        · dsimp only
          rw [upd_same, upd_ne _ _ hft]
          simp only [List.length_drop]; omega
      | cons a l => exact i6.elim
  | ret i rest busy hp =>
    rw [hp] at i6
    cases i with
    | false =>
      match rest, i6, hp with
      | [true], i6, hp =>
        dsimp only at i6
        have ht : (x.ins false).todo ≠ [] := by
          intro e; rw [e, List.length_nil] at i2; omega
        refine ⟨i1, ?_, ?_, ?_, ?_, ?_, ?_⟩
        · dsimp only
          rw [upd_same]; exact i2
        · dsimp only
          rw [upd_same]; exact i3
        · dsimp only
          rw [upd_ne _ _ htf]; exact i4
        · dsimp only
          rw [upd_ne _ _ htf]; exact i5
        · cases hq : (x.ins false).todo with
          | nil => exact absurd hq ht
          | cons a l => simp
        · dsimp only
          rw [upd_same, upd_ne _ _ htf]
          exact i6
    | true =>
      cases rest with
      | nil =>
        have i7 := i6.2
        have ht : (x.ins true).todo ≠ [] := by
          intro e; rw [e, List.length_nil] at i7; omega
        have he : (x.ins true).todo.isEmpty = false := by
          cases hq : (x.ins true).todo with
          | nil => exact absurd hq ht
          | cons a l => rfl
        refine ⟨i1, ?_, ?_, ?_, ?_, ?_, ?_⟩
        · dsimp only
          rw [upd_ne _ _ hft]; exact i2
        · dsimp only
          rw [upd_ne _ _ hft]; exact i3
        · dsimp only
          rw [upd_same]; exact i4
        · dsimp only
          rw [upd_same]
          simp only [In.finish, i5, he, Bool.or_false]
        · rw [i6.1]; rfl
        · dsimp only
          rw [upd_same, upd_ne _ _ hft]
          exact i7.1
      | cons a l => exact i6.elim
  | fail c i rest busy l hc => rw [i1] at hc; cases hc
  | get s i g b r hc hp he =>
    rw [i1] at hc
    injection hc with hc
    subst hc
    injection hp with e1 e2
    subst e1; subst e2
    have hu : ∀ z, ((upd x.ins true { x.ins true with pipe := r }) z).todo = (x.ins z).todo := by
      intro z
      cases z with
      | false => rw [upd_ne _ _ hft]
      | true => rw [upd_same]
    refine ⟨rfl, ?_, ?_, ?_, ?_, ?_⟩
    · dsimp only
      rw [upd_ne _ _ hft]; exact i2
    · dsimp only
      rw [upd_ne _ _ hft]; exact i3
    · dsimp only
      rw [upd_same]; exact i4
    · dsimp only
      rw [upd_same]; exact i5
    · dsimp only
      rw [hu, upd_ne _ _ hft]
      exact i6
  | eof s i g hc hp he hcl =>
    rw [i1] at hc
    injection hc with hc
    subst hc
    injection hp with e _
    subst e
    rw [i5] at hcl; cases hcl
  | put s j => exact j.elim
  | halt s c hc hp =>
    rw [i1] at hc
    injection hc with hc
    subst hc; cases hp
  | read j => exact j.elim
  | end_ c j => exact j.elim
  | wait c hc hp => rw [hp] at i6; exact i6.elim
  | join j => exact j.elim
  | late j => exact j.elim
  | finish hp => rw [hp] at i6; exact i6.elim

/-- C116 is violated by two inputs that are longer than their pipes, if the program reads the second one first: alone it
ends, but `win_system` never returns, in no run. (No run goes on for ever by `C116_terminates`, so this is a deadlock.) -/
theorem C116_two_inputs_violated (cap : Nat) (slow : Bool) (d : Bool → Bytes) (h : ∀ i, cap + sz < (d i).length) :
    (∃ n, Eval second (some true) d (fun _ => []) (fun _ => []) 0 n) ∧
    ∀ (k : Nat) (x : Net (Option Bool) Bool Empty),
      Steps second cap slow [false, true] [] k (start (some true) d [false, true]) x → x.phase ≠ .returned := by
  refine ⟨second_alone d, fun k x hx => ?_⟩
  have key : Stuck cap d x := by
    generalize hs : (start (some true) d [false, true] : Net (Option Bool) Bool Empty) = x0 at hx
    induction hx with
    | nil => subst hs; exact ⟨rfl, by simp [start], by simp [start], Nat.le_refl _, rfl, by simp [start]⟩
    | snoc _ h2 ih => exact stuck_step (h false) (h true) (ih hs) h2
  intro e
  have := key.phase
  rw [e] at this
  exact this

/-! ## Empty inputs, slow threads, programs that cannot be started -/

/-- C116 is violated if the empty string is sent to a process that reads its input: the input is never closed, and
`win_system` does not return. -/
theorem C116_empty_violated (cap : Nat) (slow : Bool) (k : Nat) (x : Net Bool Unit Unit)
    (hx : Steps SpawnProps.cat0 cap slow [()] [()] k (start true (fun _ => []) [()]) x) : x.phase ≠ .returned := by
  have key : x.child = .inl true ∧ (x.ins ()).todo = [] ∧ (x.ins ()).pipe = [] ∧ (x.ins ()).closed = false ∧
      (x.phase = .visit [()] false ∨ x.phase = .visit [] false ∨ x.phase = .waiting) := by
    generalize hs : (start true (fun _ => []) [()] : Net Bool Unit Unit) = x0 at hx
    induction hx with
    | nil => subst hs; exact ⟨rfl, rfl, rfl, rfl, .inl rfl⟩
    | snoc _ h2 ih =>
      obtain ⟨i1, i2, i3, i4, i5⟩ := ih hs
      cases h2 with
      | again hp => rw [hp] at i5; rcases i5 with h | h | h <;> cases h
      | leave hp => exact ⟨i1, i2, i3, i4, .inr (.inr rfl)⟩
      | skip i rest busy hp ht =>
        rw [hp] at i5
        rcases i5 with h | h | h
        · injection h with a b
          injection a with _ a
          subst a; subst b
          exact ⟨i1, i2, i3, i4, .inr (.inl rfl)⟩
        · cases h
        · cases h
      | call i rest busy hp ht => exact absurd i2 ht
      | push s i rest busy l m hc hp => rw [hp] at i5; rcases i5 with h | h | h <;> cases h
      | ret i rest busy hp => rw [hp] at i5; rcases i5 with h | h | h <;> cases h
      | fail c i rest busy l hc => rw [i1] at hc; cases hc
      | get s i g b r hc hp he => rw [show i = () from rfl, i3] at he; cases he
      | eof s i g hc hp he hcl => rw [show i = () from rfl, i4] at hcl; cases hcl
      | put s j b s' hc hp => rw [i1] at hc; cases hc; cases hp
      | halt s c hc hp => rw [i1] at hc; cases hc; cases hp
      | read j m => exact ⟨i1, i2, i3, i4, i5⟩
      | end_ c j hc => rw [i1] at hc; cases hc
      | wait c hc => rw [i1] at hc; cases hc
      | join j rest hp => rw [hp] at i5; rcases i5 with h | h | h <;> cases h
      | late j rest _ hp => rw [hp] at i5; rcases i5 with h | h | h <;> cases h
      | finish hp => rw [hp] at i5; rcases i5 with h | h | h <;> cases h
  intro e
  rw [e] at key
  rcases key.2.2.2.2 with h | h | h <;> cases h

/-- A program that writes one character. -/
def hello : Bool → Act Bool Empty Unit
  | true => .put () 104 false
  | false => .halt 0

/-- C116 is violated if a thread that reads takes longer than five seconds after the end of the process: `win_system`
goes on while the thread still uses the string. -/
theorem C116_slow_violated : Eval hello true (fun i => i.elim) (fun _ => [104]) (fun i => i.elim) 0 2 ∧
    ∃ (k : Nat) (x : Net Bool Empty Unit), Steps hello 2048 true [] [()] k (start true (fun i => i.elim) []) x ∧
      x.phase = .returned ∧ result [()] x = .ub := by
  constructor
  · have e : (fun _ : Unit => ([104] : Bytes)) = upd (fun _ => []) () [104] := by funext u; rfl
    rw [e]
    exact .put (o := fun _ => []) rfl (.halt _ rfl)
  · exact ⟨6, _,
      .snoc (.snoc (.snoc (.snoc (.snoc (.snoc (.nil _) (.put _ true () 104 false rfl rfl (by decide)))
        (.halt _ false 0 rfl rfl)) (.leave _ rfl)) (.wait _ 0 rfl rfl)) (.late _ () [] rfl rfl rfl)) (.finish _ rfl),
      rfl, rfl⟩

/-- C116 is violated if the program cannot be started: `_spawnvp` gives -1, which is not recognised, and then shifted to
the left. -/
theorem C116_start_violated : afterSpawn (-1) = .ub := rfl

example : afterSpawn 5 = .ok none ∧ afterSpawn 0 = .ok (some (-1)) := ⟨rfl, rfl⟩

end Lolly.WinSpawnProps
