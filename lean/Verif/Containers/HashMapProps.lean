import Verif.Containers.HashMapPatchLemmas
import Verif.ListUtil

/-!
# Properties C01 - C04 of hashmaps

Specification: a map is a partial function from keys to values together with the default value
given at construction. `Built` relates a concrete map to the partial function obtained by replaying
its history: it has one constructor for each operation a client can apply.
-/

set_option linter.unusedSectionVars false

namespace Lolly.HashMapProps

open HashMap

variable {K V : Type} [DecidableEq K] [DecidableEq V]

/-- The abstract map of a history: default value and bindings present. -/
structure Spec (K V : Type) where
  dflt : V
  val : K → Option V

/-- Change the binding of one key. -/
def Spec.upd (s : Spec K V) (x : K) (o : Option V) : Spec K V :=
  { s with val := fun y => if y = x then o else s.val y }

/-- The value read for a key: its binding, else the default. -/
def Spec.read (s : Spec K V) (x : K) : V := (s.val x).getD s.dflt

/-- All histories: `Built hash h s` says that `h` was produced by a sequence of API calls whose
meaning is `s`. -/
inductive Built (hash : K → BitVec 32) : HashMap K V → Spec K V → Prop
  | new (d : V) (n : Nat) (max : Int) : 1 ≤ n → Built hash (new d n max) ⟨d, fun _ => none⟩
  | set {h s h'} (x : K) (v : V) : Built hash h s → h.set hash x v = .ok h' →
      Built hash h' (s.upd x (some v))
  | touch {h s h'} (x : K) : Built hash h s → h.touch hash x = .ok h' →
      Built hash h' (s.upd x (some (s.read x)))
  | reset {h s h'} (x : K) : Built hash h s → h.reset hash x = .ok h' →
      Built hash h' (s.upd x none)
  | resize {h s h'} (m : Nat) : 1 ≤ m → Built hash h s → h.resize hash m = .ok h' →
      Built hash h' s
  | join {h s g t h'} : Built hash h s → Built hash g t → h.join hash g = .ok h' →
      Built hash h' { s with val := fun x => (t.val x).or (s.val x) }
  | writeBack {h s b t h'} (x : K) : Built hash h s → Built hash b t →
      h.writeBack hash x b = .ok h' →
      Built hash h' (if (s.val x).isSome then s else s.upd x (some (t.read x)))
  | postPatch {h s p t b u h'} : Built hash h s → Built hash p t → Built hash b u →
      h.postPatch hash p b = .ok h' →
      Built hash h' { s with val := fun x => match t.val x with
        | none => s.val x
        | some v => if u.read x = v then none else some v }
  | prePatch {h s p t b u h'} : Built hash h s → Built hash p t → Built hash b u →
      h.prePatch hash p b = .ok h' →
      Built hash h' { s with val := fun x => match t.val x with
        | none => s.val x
        | some v => if u.read x = (s.val x).getD v then none else some ((s.val x).getD v) }
  | copy {h s} : Built hash h s → Built hash h.copy s
  | changes {p t b u h'} : Built hash p t → Built hash b u → HashMap.changes hash p b = .ok h' →
      Built hash h' ⟨u.dflt, fun x => (t.val x).filter (fun v => decide (v ≠ u.read x))⟩
  | invert {p t b u h'} : Built hash p t → Built hash b u → HashMap.invert hash p b = .ok h' →
      Built hash h' ⟨u.dflt, fun x =>
        ((t.val x).filter (fun v => decide (v ≠ u.read x))).map (fun _ => u.read x)⟩

variable {hash : K → BitVec 32}

private theorem ok_eq {α : Type} {x : Res α} {a b : α} (h1 : x = .ok a) (h2 : x = .ok b) : a = b := by
  rw [h1] at h2; exact Res.ok.inj h2

/-- The refinement invariant (helper). -/
theorem built_inv {h : HashMap K V} {s : Spec K V} (b : Built hash h s) :
    h.WF hash ∧ h.abs = s.val ∧ h.init = s.dflt := by
  induction b with
  | new d n max hn => exact ⟨new_wf _ _ _ hn, new_abs _ _ _, rfl⟩
  | set x v _ e ih =>
    obtain ⟨w, a, i⟩ := ih
    obtain ⟨h', e', w', a', i', _⟩ := set_spec w x v
    obtain rfl := ok_eq e e'
    exact ⟨w', by rw [a', a]; rfl, i'.trans i⟩
  | touch x _ e ih =>
    obtain ⟨w, a, i⟩ := ih
    obtain ⟨h', e', w', a', i', _⟩ := touch_spec w x
    obtain rfl := ok_eq e e'
    exact ⟨w', by rw [a', a, i]; rfl, i'.trans i⟩
  | reset x _ e ih =>
    obtain ⟨w, a, i⟩ := ih
    obtain ⟨h', e', w', a', i', _⟩ := reset_spec w x
    obtain rfl := ok_eq e e'
    exact ⟨w', by rw [a', a]; rfl, i'.trans i⟩
  | resize m hm _ e ih =>
    obtain ⟨w, a, i⟩ := ih
    obtain ⟨h', e', w', p', i', _⟩ := resize_spec w hm
    obtain rfl := ok_eq e e'
    exact ⟨w', by rw [abs_congr w p', a], i'.trans i⟩
  | join _ _ e ih1 ih2 =>
    obtain ⟨w1, a1, i1⟩ := ih1
    obtain ⟨w2, a2, i2⟩ := ih2
    obtain ⟨h', e', w', a', i', _⟩ := join_spec w1 w2
    obtain rfl := ok_eq e e'
    exact ⟨w', by rw [a', a1, a2], i'.trans i1⟩
  | @writeBack h s b t h' x _ _ e ih1 ih2 =>
    obtain ⟨w1, a1, i1⟩ := ih1
    obtain ⟨w2, a2, i2⟩ := ih2
    obtain ⟨h', e', w', a', i', _⟩ := writeBack_spec w1 w2 x
    obtain rfl := ok_eq e e'
    rw [a1, a2, i2] at a'
    cases hx : s.val x with
    | none =>
      refine ⟨w', ?_, i'.trans i1⟩
      rw [a']; simp [Spec.upd, Spec.read, hx]
    | some v =>
      refine ⟨w', ?_, i'.trans i1⟩
      rw [a']; funext y
      by_cases hy : y = x
      · subst hy; simp [hx]
      · simp [hy]
  | postPatch _ _ _ e ih1 ih2 ih3 =>
    obtain ⟨w1, a1, i1⟩ := ih1
    obtain ⟨w2, a2, i2⟩ := ih2
    obtain ⟨w3, a3, i3⟩ := ih3
    obtain ⟨h', e', w', a', i', _⟩ := postPatchL_spec w1 w3 _ w2.nodup
    obtain rfl := ok_eq e e'
    refine ⟨w', ?_, i'.trans i1⟩
    rw [a', ← a1, ← a2]; simp only [Spec.read, ← a3, ← i3]; rfl
  | prePatch _ _ _ e ih1 ih2 ih3 =>
    obtain ⟨w1, a1, i1⟩ := ih1
    obtain ⟨w2, a2, i2⟩ := ih2
    obtain ⟨w3, a3, i3⟩ := ih3
    obtain ⟨h', e', w', a', i', _⟩ := prePatchL_spec w1 w3 _ w2.nodup
    obtain rfl := ok_eq e e'
    refine ⟨w', ?_, i'.trans i1⟩
    rw [a', ← a1, ← a2]; simp only [Spec.read, ← a3, ← i3]; rfl
  | copy _ ih => rw [copy_eq]; exact ih
  | @changes p t b u h' _ _ e ih1 ih2 =>
    obtain ⟨w1, a1, i1⟩ := ih1
    obtain ⟨w2, a2, i2⟩ := ih2
    obtain ⟨h', e', w', a', i', _⟩ := changesL_spec (new_wf b.init 1 1 (Nat.le_refl 1)) w2
      p.a.flatten w1.nodup
    obtain rfl := ok_eq e e'
    refine ⟨w', ?_, i'.trans i2⟩
    rw [a', ← a1, ← i2]; funext x
    simp only [Spec.read, ← a2, ← i2, new_abs]
    show (match p.abs x with | none => none | some v => _) = _
    cases p.abs x with
    | none => rfl
    | some v => simp [Option.filter]
  | @invert p t b u h' _ _ e ih1 ih2 =>
    obtain ⟨w1, a1, i1⟩ := ih1
    obtain ⟨w2, a2, i2⟩ := ih2
    obtain ⟨h', e', w', a', i', _⟩ := invertL_spec (new_wf b.init 1 1 (Nat.le_refl 1)) w2
      p.a.flatten w1.nodup
    obtain rfl := ok_eq e e'
    refine ⟨w', ?_, i'.trans i2⟩
    rw [a', ← a1, ← i2]; funext x
    simp only [Spec.read, ← a2, ← i2, new_abs]
    show (match p.abs x with | none => none | some v => _) = _
    cases p.abs x with
    | none => rfl
    | some v =>
      by_cases hv : v = (b.abs x).getD b.init <;> simp [Option.filter, hv]

/-! ## C01 -/

/-- C01, reads: after any history `h[x]` is the binding of `x` if present and the default
otherwise, and reading never goes out of range. -/
theorem C01_get {h : HashMap K V} {s : Spec K V} (b : Built hash h s) (x : K) :
    h.get hash x = .ok (s.read x) := by
  obtain ⟨w, a, i⟩ := built_inv b
  rw [get_spec w, a, i]; rfl

/-- C01, membership. -/
theorem C01_contains {h : HashMap K V} {s : Spec K V} (b : Built hash h s) (x : K) :
    h.contains hash x = .ok (s.val x).isSome := by
  obtain ⟨w, a, i⟩ := built_inv b
  rw [contains_spec w, a]

/-- C01, progress: no operation is ever undefined, throws or loops, so that every history of
calls (with `resize` to at least one bucket) is covered by `Built`. -/
theorem C01_progress {h g b : HashMap K V} {s t u : Spec K V} (bh : Built hash h s)
    (bg : Built hash g t) (bb : Built hash b u) (x : K) (v : V) (m : Nat) (hm : 1 ≤ m) :
    (∃ h', h.set hash x v = .ok h') ∧ (∃ h', h.touch hash x = .ok h') ∧
    (∃ h', h.reset hash x = .ok h') ∧ (∃ h', h.resize hash m = .ok h') ∧
    (∃ h', h.join hash g = .ok h') ∧ (∃ h', h.writeBack hash x g = .ok h') ∧
    (∃ h', h.postPatch hash g b = .ok h') ∧ (∃ h', h.prePatch hash g b = .ok h') ∧
    (∃ h', changes hash g b = .ok h') ∧ (∃ h', invert hash g b = .ok h') := by
  have w := (built_inv bh).1
  have wg := (built_inv bg).1
  have wb := (built_inv bb).1
  refine ⟨?_, ?_, ?_, ?_, ?_, ?_, ?_, ?_, ?_, ?_⟩
  · obtain ⟨h', e, _⟩ := set_spec w x v; exact ⟨h', e⟩
  · obtain ⟨h', e, _⟩ := touch_spec w x; exact ⟨h', e⟩
  · obtain ⟨h', e, _⟩ := reset_spec w x; exact ⟨h', e⟩
  · obtain ⟨h', e, _⟩ := resize_spec w hm; exact ⟨h', e⟩
  · obtain ⟨h', e, _⟩ := join_spec w wg; exact ⟨h', e⟩
  · obtain ⟨h', e, _⟩ := writeBack_spec w wg x; exact ⟨h', e⟩
  · obtain ⟨h', e, _⟩ := postPatchL_spec w wb _ wg.nodup; exact ⟨h', e⟩
  · obtain ⟨h', e, _⟩ := prePatchL_spec w wb _ wg.nodup; exact ⟨h', e⟩
  · obtain ⟨h', e, _⟩ := changesL_spec (new_wf b.init 1 1 (Nat.le_refl 1)) wb _ wg.nodup
    exact ⟨h', e⟩
  · obtain ⟨h', e, _⟩ := invertL_spec (new_wf b.init 1 1 (Nat.le_refl 1)) wb _ wg.nodup
    exact ⟨h', e⟩

/-- Client commands on one map. -/
inductive Cmd (K V : Type)
  | set (x : K) (v : V)
  | reset (x : K)
  | resize (m : Nat)

/-- Run a list of commands. -/
def run (hash : K → BitVec 32) : HashMap K V → List (Cmd K V) → Res (HashMap K V)
  | h, [] => .ok h
  | h, .set x v :: cs => do run hash (← h.set hash x v) cs
  | h, .reset x :: cs => do run hash (← h.reset hash x) cs
  | h, .resize m :: cs => do run hash (← h.resize hash m) cs

/-- The last write to `x` in a list of commands in reverse order (most recent first):
`none` if there is none or if `x` was reset since. -/
def lastWrite (x : K) : List (Cmd K V) → Option V
  | [] => none
  | .set y v :: cs => if y = x then some v else lastWrite x cs
  | .reset y :: cs => if y = x then none else lastWrite x cs
  | .resize _ :: cs => lastWrite x cs

theorem run_append (h : HashMap K V) (cs ds : List (Cmd K V)) :
    run hash h (cs ++ ds) = (run hash h cs >>= fun h' => run hash h' ds) := by
  induction cs generalizing h with
  | nil => rfl
  | cons c cs ih =>
    cases c with
    | set x v => simp only [List.cons_append, run]; cases h.set hash x v <;> simp [ih]
    | reset x => simp only [List.cons_append, run]; cases h.reset hash x <;> simp [ih]
    | resize m => simp only [List.cons_append, run]; cases h.resize hash m <;> simp [ih]

/-- C01 in terms of explicit histories: from a fresh map with any number of buckets and load
factor, every list of commands runs to completion, and the value read afterwards is that of the
last write to the key, or the default. -/
theorem C01_last_write (d : V) (n : Nat) (max : Int) (hn : 1 ≤ n) (cs : List (Cmd K V))
    (hm : ∀ m, Cmd.resize m ∈ cs → 1 ≤ m) (x : K) :
    ∃ h, run hash (new d n max) cs = .ok h ∧
      h.get hash x = .ok ((lastWrite x cs.reverse).getD d) ∧
      h.contains hash x = .ok (lastWrite x cs.reverse).isSome := by
  suffices H : ∀ rs : List (Cmd K V), (∀ m, Cmd.resize m ∈ rs → 1 ≤ m) →
      ∃ h s, run hash (new d n max) rs.reverse = .ok h ∧ Built hash h s ∧ s.dflt = d ∧
        ∀ x, s.val x = lastWrite x rs by
    obtain ⟨h, s, e, b, hd, hs⟩ := H cs.reverse (by simpa using hm)
    rw [List.reverse_reverse] at e
    refine ⟨h, e, ?_, ?_⟩
    · rw [C01_get b, Spec.read, hs, hd]
    · rw [C01_contains b, hs]
  intro rs hrs
  induction rs with
  | nil => exact ⟨_, _, rfl, .new d n max hn, rfl, fun _ => rfl⟩
  | cons c rs ih =>
    obtain ⟨h, s, e, b, hd, hs⟩ := ih fun m hm' => hrs m (List.mem_cons_of_mem _ hm')
    have P := C01_progress b b b
    cases c with
    | set y v =>
      obtain ⟨h', e'⟩ := (P y v 1 (Nat.le_refl 1)).1
      refine ⟨h', _, ?_, .set y v b e', hd, ?_⟩
      · rw [List.reverse_cons, run_append, e]; simp [run, e']
      · intro x; simp only [Spec.upd, lastWrite, hs]
        by_cases hx : x = y
        · simp [hx]
        · have : y ≠ x := fun e => hx e.symm
          simp [hx, this]
    | reset y =>
      obtain ⟨h', e'⟩ := (P y d 1 (Nat.le_refl 1)).2.2.1
      refine ⟨h', _, ?_, .reset y b e', hd, ?_⟩
      · rw [List.reverse_cons, run_append, e]; simp [run, e']
      · intro x; simp only [Spec.upd, lastWrite, hs]
        by_cases hx : x = y
        · simp [hx]
        · have : y ≠ x := fun e => hx e.symm
          simp [hx, this]
    | resize m =>
      have hm1 := hrs m List.mem_cons_self
      obtain ⟨h', e', _⟩ := resize_spec (built_inv b).1 hm1
      refine ⟨h', s, ?_, .resize m hm1 b e', hd, hs⟩
      rw [List.reverse_cons, run_append, e]; simp [run, e']

/-- Non-vacuity: a history with a collision, a growth, a shrink and a reset. -/
example : ∃ h : HashMap Nat Nat,
    run (fun _ => 0xffffffff#32) (new 7 1 1) [.set 1 10, .set 2 20, .reset 1, .set 2 21] = .ok h ∧
    h.get (fun _ => 0xffffffff#32) 2 = .ok 21 ∧ h.get (fun _ => 0xffffffff#32) 1 = .ok 7 :=
  ⟨_, rfl, rfl, rfl⟩

/-! ## C02 -/

/-- `l` lists exactly the keys satisfying `p`, each once. -/
def Enumerates (l : List K) (p : K → Prop) : Prop := l.Nodup ∧ ∀ x, x ∈ l ↔ p x

theorem wf_enum {h : HashMap K V} {s : Spec K V} (b : Built hash h s) :
    Enumerates (h.a.flatten.map (·.key)) (fun x => (s.val x).isSome = true) := by
  obtain ⟨w, a, i⟩ := built_inv b
  refine ⟨w.nodup, fun x => ?_⟩
  show _ ↔ (s.val x).isSome = true
  rw [← a, abs]
  constructor
  · intro hx
    have : look h.a.flatten x ≠ none := fun e => look_eq_none.1 e hx
    cases hl : look h.a.flatten x with
    | none => exact absurd hl this
    | some v => rfl
  · intro hx
    apply Classical.byContradiction
    intro hn
    rw [look_eq_none.2 hn] at hx; simp at hx

/-- C02: `generate` visits each present key exactly once, `N` is their number and `empty` says
whether there is none. -/
theorem C02_generate_size {h : HashMap K V} {s : Spec K V} (b : Built hash h s) :
    Enumerates h.generate (fun x => (s.val x).isSome = true) ∧
    h.N = h.generate.length ∧ (h.empty = true ↔ ∀ x, s.val x = none) := by
  have he := wf_enum b
  obtain ⟨w, a, i⟩ := built_inv b
  refine ⟨he, by rw [N, w.size, generate, List.length_map], ?_⟩
  rw [empty, decide_eq_true_iff, w.size]
  constructor
  · intro h0 x
    have h0 : h.a.flatten = [] := by
      apply List.eq_nil_of_length_eq_zero; omega
    rw [← a, abs, h0]; rfl
  · intro hx
    have : h.a.flatten.map (·.key) = [] := by
      apply List.eq_nil_iff_forall_not_mem.2
      intro x hm
      have : (s.val x).isSome = true := (he.2 x).1 hm
      rw [hx x] at this; simp at this
    have := congrArg List.length this
    simp only [List.length_map, List.length_nil] at this
    simp [this]

/-- C02, size in terms of any enumeration of the keys present. -/
theorem C02_size_any {h : HashMap K V} {s : Spec K V} (b : Built hash h s) (l : List K)
    (hl : Enumerates l (fun x => (s.val x).isSome = true)) : h.N = l.length := by
  obtain ⟨⟨h1, h2⟩, h3, _⟩ := C02_generate_size b
  rw [h3]
  have : l.Perm h.generate := by
    rw [List.perm_ext_iff_of_nodup hl.1 h1]
    intro x; rw [hl.2, h2]
  rw [this.length_eq]

/-- C02, iterator: `it = iterate (h); while (it->busy ()) f (it->next ())` stops after `N (h)`
rounds, never throws, and passes each present key to `f` exactly once. -/
theorem C02_iterator {h : HashMap K V} {s : Spec K V} (b : Built hash h s) (fuel : Nat)
    (hf : h.N < fuel) :
    ∃ it es, Iter.new h.a = .ok it ∧ it.drain fuel = .ok es ∧
      Enumerates (es.map (·.key)) (fun x => (s.val x).isSome = true) := by
  have he := wf_enum b
  obtain ⟨w, a, i⟩ := built_inv b
  have hne : h.a ≠ [] := by
    intro e; have := w.len; rw [e] at this; have := w.pos; simp at *; omega
  have hlt : h.a.flatten.length < fuel := by
    have := w.size; simp only [N] at hf; omega
  obtain ⟨it, h1, h2⟩ := Iter.drain_new h.a hne fuel hlt
  exact ⟨it, _, h1, h2, he⟩

example : ∃ h : HashMap Nat Nat, ∃ s, Built (fun x => BitVec.ofNat 32 x) h s ∧ h.N = 2 ∧
    (s.val 5).isSome = true := by
  refine ⟨_, _, .set 5 1 (.set 4 1 (.new 0 1 1 (by decide)) rfl) rfl, rfl, rfl⟩

/-! ## C03 -/

/-- The value seen through a map of differences over a base: `h[x]` if `h` contains `x`,
`base[x]` otherwise. -/
def Value (hash : K → BitVec 32) (h base : HashMap K V) (x : K) (v : V) : Prop :=
  (h.contains hash x = .ok true ∧ h.get hash x = .ok v) ∨
  (h.contains hash x = .ok false ∧ base.get hash x = .ok v)

theorem value_iff {h base : HashMap K V} {s u : Spec K V} (bh : Built hash h s)
    (bb : Built hash base u) (x : K) (v : V) :
    Value hash h base x v ↔ (s.val x).getD (u.read x) = v := by
  unfold Value
  rw [C01_contains bh, C01_get bh, C01_get bb]
  cases hx : s.val x with
  | none => simp
  | some w => simp [Spec.read, hx]

/-- The value seen through a difference map is always defined and unique. -/
theorem C03_value_unique {h base : HashMap K V} {s u : Spec K V} (bh : Built hash h s)
    (bb : Built hash base u) (x : K) : ∃ v, Value hash h base x v ∧
      ∀ v', Value hash h base x v' → v' = v := by
  refine ⟨_, (value_iff bh bb x _).2 rfl, fun v' hv' => ?_⟩
  rw [value_iff bh bb] at hv'; exact hv'.symm

/-- C03, `post_patch`: for keys of the patch the value seen becomes that of the patch, other values
are unchanged, and an entry of the patch is only stored if it differs from the base. -/
theorem C03_post_patch {h p base : HashMap K V} {s t u : Spec K V} (bh : Built hash h s)
    (bp : Built hash p t) (bb : Built hash base u) :
    ∃ h', h.postPatch hash p base = .ok h' ∧
      (∀ x v, p.contains hash x = .ok true → p.get hash x = .ok v → Value hash h' base x v) ∧
      (∀ x v, p.contains hash x = .ok false → Value hash h base x v → Value hash h' base x v) ∧
      (∀ x, p.contains hash x = .ok true → h'.contains hash x = .ok true →
        h'.get hash x ≠ base.get hash x) := by
  obtain ⟨h', e, _⟩ := postPatchL_spec (built_inv bh).1 (built_inv bb).1 _ (built_inv bp).1.nodup
  have b' := Built.postPatch bh bp bb e
  refine ⟨h', e, ?_, ?_, ?_⟩
  · intro x v h1 h2
    rw [C01_contains bp] at h1; rw [C01_get bp] at h2
    rw [value_iff b' bb]; dsimp only
    cases hx : t.val x with
    | none => simp [hx] at h1
    | some w =>
      simp only [Spec.read, hx, Option.getD_some, Res.ok.injEq] at h2
      subst h2
      by_cases hu : u.read x = w <;> simp [hu]
  · intro x v h1 h2
    rw [C01_contains bp] at h1; rw [value_iff bh bb] at h2
    rw [value_iff b' bb]; dsimp only
    cases hx : t.val x with
    | none => simpa using h2
    | some w => simp [hx] at h1
  · intro x h1 h2
    rw [C01_contains bp] at h1; rw [C01_contains b'] at h2
    rw [C01_get b', C01_get bb]; dsimp only [Spec.read] at *
    cases hx : t.val x with
    | none => simp [hx] at h1
    | some w =>
      rw [hx] at h2
      by_cases hu : (u.val x).getD u.dflt = w
      · simp [hu] at h2
      · simpa [hu] using fun e => hu e.symm

/-- C03, `pre_patch`: only keys of the patch that are not already in the map change. -/
theorem C03_pre_patch {h p base : HashMap K V} {s t u : Spec K V} (bh : Built hash h s)
    (bp : Built hash p t) (bb : Built hash base u) :
    ∃ h', h.prePatch hash p base = .ok h' ∧
      (∀ x v, p.contains hash x = .ok true → h.contains hash x = .ok false →
        p.get hash x = .ok v → Value hash h' base x v) ∧
      (∀ x v, p.contains hash x = .ok false ∨ h.contains hash x = .ok true →
        Value hash h base x v → Value hash h' base x v) ∧
      (∀ x, p.contains hash x = .ok true → h'.contains hash x = .ok true →
        h'.get hash x ≠ base.get hash x) := by
  obtain ⟨h', e, _⟩ := prePatchL_spec (built_inv bh).1 (built_inv bb).1 _ (built_inv bp).1.nodup
  have b' := Built.prePatch bh bp bb e
  refine ⟨h', e, ?_, ?_, ?_⟩
  · intro x v h1 h0 h2
    rw [C01_contains bp] at h1; rw [C01_get bp] at h2; rw [C01_contains bh] at h0
    rw [value_iff b' bb]; dsimp only
    have h0 : s.val x = none := by simpa using h0
    cases hx : t.val x with
    | none => simp [hx] at h1
    | some w =>
      simp only [Spec.read, hx, Option.getD_some, Res.ok.injEq] at h2
      subst h2
      by_cases hu : u.read x = w <;> simp [h0, hu]
  · intro x v h1 h2
    rw [C01_contains bp, C01_contains bh] at h1; rw [value_iff bh bb] at h2
    rw [value_iff b' bb]; dsimp only
    cases hx : t.val x with
    | none => simpa using h2
    | some w =>
      cases hs : s.val x with
      | none => simp [hx, hs] at h1
      | some z =>
        simp only [hs, Option.getD_some] at h2; subst h2
        by_cases hu : u.read x = z <;> simp [hu]
  · intro x h1 h2
    rw [C01_contains bp] at h1; rw [C01_contains b'] at h2
    rw [C01_get b', C01_get bb]; dsimp only [Spec.read] at *
    cases hx : t.val x with
    | none => simp [hx] at h1
    | some w =>
      rw [hx] at h2
      by_cases hu : (u.val x).getD u.dflt = (s.val x).getD w
      · simp [hu] at h2
      · simpa [hu] using fun e => hu e.symm

/-- C03, `changes`: exactly the entries of the patch that differ from the base. -/
theorem C03_changes {p base : HashMap K V} {t u : Spec K V}
    (bp : Built hash p t) (bb : Built hash base u) :
    ∃ c, changes hash p base = .ok c ∧ ∀ x,
      (c.contains hash x = .ok true ↔
        p.contains hash x = .ok true ∧ p.get hash x ≠ base.get hash x) ∧
      (c.contains hash x = .ok true → c.get hash x = p.get hash x) := by
  obtain ⟨c, e, _⟩ := changesL_spec (new_wf base.init 1 1 (Nat.le_refl 1)) (built_inv bb).1
    p.a.flatten (built_inv bp).1.nodup
  have b' := Built.changes bp bb e
  refine ⟨c, e, fun x => ?_⟩
  rw [C01_contains b', C01_contains bp, C01_get bb, C01_get bp, C01_get b']; dsimp only [Spec.read]
  cases hx : t.val x with
  | none => simp
  | some w =>
    by_cases hu : w = (u.val x).getD u.dflt
    · simp [hu]
    · simp [hu, Option.filter]

/-- C03, `invert`: the base values of the entries of the patch that differ from the base. -/
theorem C03_invert {p base : HashMap K V} {t u : Spec K V}
    (bp : Built hash p t) (bb : Built hash base u) :
    ∃ c, invert hash p base = .ok c ∧ ∀ x,
      (c.contains hash x = .ok true ↔
        p.contains hash x = .ok true ∧ p.get hash x ≠ base.get hash x) ∧
      (c.contains hash x = .ok true → c.get hash x = base.get hash x) := by
  obtain ⟨c, e, _⟩ := invertL_spec (new_wf base.init 1 1 (Nat.le_refl 1)) (built_inv bb).1
    p.a.flatten (built_inv bp).1.nodup
  have b' := Built.invert bp bb e
  refine ⟨c, e, fun x => ?_⟩
  rw [C01_contains b', C01_contains bp, C01_get bb, C01_get bp, C01_get b']; dsimp only [Spec.read]
  cases hx : t.val x with
  | none => simp
  | some w =>
    by_cases hu : w = (u.val x).getD u.dflt
    · simp [hu]
    · simp [hu, Option.filter]

/-- C03, undo: if `h` agrees with the base at the keys of the patch, post-patching with
`changes (patch, base)` makes every key of the patch take the value of the patch, and
post-patching next with `invert (patch, base)` restores the value of every key. -/
theorem C03_undo {h p base : HashMap K V} {s t u : Spec K V} (bh : Built hash h s)
    (bp : Built hash p t) (bb : Built hash base u)
    (hagree : ∀ x v, p.contains hash x = .ok true → base.get hash x = .ok v →
      Value hash h base x v) :
    ∃ c i h1 h2, changes hash p base = .ok c ∧ invert hash p base = .ok i ∧
      h.postPatch hash c base = .ok h1 ∧ h1.postPatch hash i base = .ok h2 ∧
      (∀ x v, p.contains hash x = .ok true → p.get hash x = .ok v → Value hash h1 base x v) ∧
      (∀ x v, Value hash h2 base x v ↔ Value hash h base x v) := by
  obtain ⟨c, ec, _⟩ := changesL_spec (new_wf base.init 1 1 (Nat.le_refl 1)) (built_inv bb).1
    p.a.flatten (built_inv bp).1.nodup
  obtain ⟨i, ei, _⟩ := invertL_spec (new_wf base.init 1 1 (Nat.le_refl 1)) (built_inv bb).1
    p.a.flatten (built_inv bp).1.nodup
  have bc := Built.changes bp bb ec
  have bi := Built.invert bp bb ei
  obtain ⟨h1, e1, _⟩ := postPatchL_spec (built_inv bh).1 (built_inv bb).1 _ (built_inv bc).1.nodup
  have b1 := Built.postPatch bh bc bb e1
  obtain ⟨h2, e2, _⟩ := postPatchL_spec (built_inv b1).1 (built_inv bb).1 _ (built_inv bi).1.nodup
  have b2 := Built.postPatch b1 bi bb e2
  refine ⟨c, i, h1, h2, ec, ei, e1, e2, ?_, ?_⟩
  · intro x v hp hv
    have hg := hagree x (u.read x) hp (C01_get bb x)
    rw [value_iff bh bb] at hg
    rw [C01_contains bp] at hp; rw [C01_get bp] at hv
    rw [value_iff b1 bb]; dsimp only
    cases hx : t.val x with
    | none => simp [hx] at hp
    | some w =>
      simp only [Spec.read, hx, Option.getD_some, Res.ok.injEq] at hv
      subst hv
      by_cases hu : w = u.read x
      · simp [hu, hg, Option.filter]
      · have hu' : ¬ u.read x = w := fun e => hu e.symm
        simp [hu, hu', Option.filter]
  · intro x v
    rw [value_iff bh bb, value_iff b2 bb]; dsimp only
    cases hx : t.val x with
    | none => simp
    | some w =>
      have hg := hagree x (u.read x) (by rw [C01_contains bp, hx]; rfl) (C01_get bb x)
      rw [value_iff bh bb] at hg
      by_cases hu : w = u.read x
      · simp [hu, Option.filter]
      · simp [hu, hg, Option.filter]

/-- Non-vacuity of `C03_undo`: a non-trivial patch over a non-trivial base. -/
example : ∃ h p base : HashMap Nat Nat, ∃ s t u,
    Built (fun x => BitVec.ofNat 32 x) h s ∧ Built (fun x => BitVec.ofNat 32 x) p t ∧
    Built (fun x => BitVec.ofNat 32 x) base u ∧ p.contains (fun x => BitVec.ofNat 32 x) 3 = .ok true ∧
    (∀ x v, p.contains (fun x => BitVec.ofNat 32 x) x = .ok true →
      base.get (fun x => BitVec.ofNat 32 x) x = .ok v →
      Value (fun x => BitVec.ofNat 32 x) h base x v) := by
  have bh : Built (fun x => BitVec.ofNat 32 x) (new (K := Nat) 0) _ := .new 0 1 1 (by decide)
  have bp := Built.set (h' := _) 3 30 bh rfl
  have bb := Built.set (h' := _) 3 31 bh rfl
  refine ⟨_, _, _, _, _, _, bh, bp, bb, rfl, fun x v hp hv => .inr ⟨?_, hv⟩⟩
  rw [C01_contains bh]; rfl

/-! ## C04 -/

/-- Two maps have the same bindings. -/
def SameBindings (hash : K → BitVec 32) (h1 h2 : HashMap K V) : Prop :=
  ∀ x, h1.contains hash x = h2.contains hash x ∧
    (h1.contains hash x = .ok true → h1.get hash x = h2.get hash x)

/-- C04, one direction, without restriction: maps with the same bindings compare equal. -/
theorem C04_complete {h1 h2 : HashMap K V} {s1 s2 : Spec K V} (b1 : Built hash h1 s1)
    (b2 : Built hash h2 s2) (h : SameBindings hash h1 h2) : eqv hash h1 h2 = .ok true := by
  obtain ⟨w1, a1, i1⟩ := built_inv b1
  obtain ⟨w2, a2, i2⟩ := built_inv b2
  obtain ⟨b, e, hb⟩ := eqv_spec w1 w2
  rw [e, Res.ok.injEq, hb]
  constructor
  · have hk : Enumerates (h1.generate) (fun x => (s2.val x).isSome = true) := by
      obtain ⟨⟨hn, hm⟩, _⟩ := C02_generate_size b1
      refine ⟨hn, fun x => (hm x).trans ?_⟩
      have := (h x).1
      rw [C01_contains b1, C01_contains b2, Res.ok.injEq] at this
      show (s1.val x).isSome = true ↔ (s2.val x).isSome = true
      rw [this]
    have h3 := C02_size_any b2 _ hk
    have h4 := (C02_generate_size b1).2.1
    simp only [N] at h3 h4; omega
  · intro x v hv
    have h1' := (h x).2
    rw [C01_contains b1, C01_get b1, C01_get b2, ← a1, hv] at h1'
    have h2' := Res.ok.inj (h1' rfl)
    simp only [Spec.read, ← a1, ← a2, ← i2, hv, Option.getD_some] at h2'
    exact h2'.symm

/-- What `==` says for any two maps: they have as many keys, and what is bound in the first map is read with the same value from
the second (where a missing key reads as the default). -/
theorem C04_exact {h1 h2 : HashMap K V} {s1 s2 : Spec K V} (b1 : Built hash h1 s1) (b2 : Built hash h2 s2) :
    ∃ b, eqv hash h1 h2 = .ok b ∧ (b = true ↔ h1.N = h2.N ∧
      ∀ x, h1.contains hash x = .ok true → h1.get hash x = h2.get hash x) := by
  obtain ⟨w1, a1, i1⟩ := built_inv b1
  obtain ⟨w2, a2, i2⟩ := built_inv b2
  obtain ⟨b, e, hb⟩ := eqv_spec w1 w2
  refine ⟨b, e, hb.trans (and_congr Iff.rfl ⟨fun h x hx => ?_, fun h x v hv => ?_⟩)⟩
  · rw [C01_contains b1, Res.ok.injEq] at hx
    obtain ⟨v, hv⟩ := Option.isSome_iff_exists.1 hx
    have := h x v (by rw [a1]; exact hv)
    rw [C01_get b1, C01_get b2]
    simp only [Spec.read, hv, Option.getD_some]
    rw [a2, i2] at this
    rw [this]
  · have h1' := h x
    rw [C01_contains b1, C01_get b1, C01_get b2, ← a1, hv] at h1'
    have h2' := Res.ok.inj (h1' rfl)
    simp only [Spec.read, ← a1, ← a2, ← i2, hv, Option.getD_some] at h2'
    exact h2'.symm

example : ∃ h1 h2 : HashMap Nat Nat, ∃ s1 s2, Built (fun x => BitVec.ofNat 32 x) h1 s1 ∧ Built (fun x => BitVec.ofNat 32 x) h2 s2 ∧
    eqv (fun x => BitVec.ofNat 32 x) h1 h2 = .ok false := by
  have b0 : Built (fun x => BitVec.ofNat 32 x) (new (K := Nat) 0) _ := .new 0 1 1 (by decide)
  exact ⟨_, _, _, _, .set 1 7 b0 rfl, .set 2 5 b0 rfl, rfl⟩

/-- C04, partial: `==` is exact for maps in which the left-hand side stores no value equal to the
default of the right-hand side. Missing: the general statement is false, see `C04_violated`. -/
theorem C04_partial {h1 h2 : HashMap K V} {s1 s2 : Spec K V} (b1 : Built hash h1 s1)
    (b2 : Built hash h2 s2) (hd : ∀ x, s1.val x ≠ some s2.dflt) :
    ∃ b, eqv hash h1 h2 = .ok b ∧ (b = true ↔ SameBindings hash h1 h2) := by
  obtain ⟨w1, a1, i1⟩ := built_inv b1
  obtain ⟨w2, a2, i2⟩ := built_inv b2
  obtain ⟨b, e, hb⟩ := eqv_spec w1 w2
  refine ⟨b, e, fun h => ?_, fun h => Res.ok.inj (e.symm.trans (C04_complete b1 b2 h))⟩
  obtain ⟨hs, hv⟩ := hb.1 h
  have hin : ∀ x v, s1.val x = some v → s2.val x = some v := by
    intro x v hx
    have := hv x v (by rw [a1]; exact hx)
    rw [a2, i2] at this
    cases hx2 : s2.val x with
    | some w => rw [hx2] at this; simpa using this
    | none =>
      rw [hx2] at this
      simp only [Option.getD_none] at this
      subst this
      exact absurd hx (hd x)
  obtain ⟨⟨n1, m1⟩, l1, _⟩ := C02_generate_size b1
  obtain ⟨⟨n2, m2⟩, l2, _⟩ := C02_generate_size b2
  have hback := nodup_subset_of_length n1 (l' := h2.generate) (fun x hx => by
      have hx' : (s1.val x).isSome = true := (m1 x).1 hx
      obtain ⟨v, hv⟩ := Option.isSome_iff_exists.1 hx'
      exact (m2 x).2 (by show (s2.val x).isSome = true; rw [hin x v hv]; rfl))
    (by simp only [N] at l1 l2; omega)
  intro x
  rw [C01_contains b1, C01_contains b2, C01_get b1, C01_get b2]
  cases hx : s1.val x with
  | some v => simp [Spec.read, hx, hin x v hx]
  | none =>
    cases hx2 : s2.val x with
    | none => simp
    | some w =>
      have : (s1.val x).isSome = true := (m1 x).1 (hback x ((m2 x).2 (by show (s2.val x).isSome = true; rw [hx2]; rfl)))
      rw [hx] at this; simp at this

/-- C04 is violated: with default 0, the maps {1 ↦ 0} and {2 ↦ 5} compare equal (and the
comparison is not symmetric). -/
theorem C04_violated :
    ∃ (h1 h2 : HashMap Nat Nat) (s1 s2 : Spec Nat Nat),
      Built (fun x => BitVec.ofNat 32 x) h1 s1 ∧ Built (fun x => BitVec.ofNat 32 x) h2 s2 ∧
      eqv (fun x => BitVec.ofNat 32 x) h1 h2 = .ok true ∧
      eqv (fun x => BitVec.ofNat 32 x) h2 h1 = .ok false ∧
      ¬ SameBindings (fun x => BitVec.ofNat 32 x) h1 h2 := by
  have b0 : Built (fun x => BitVec.ofNat 32 x) (new (K := Nat) 0) _ := .new 0 1 1 (by decide)
  refine ⟨_, _, _, _, .set 1 0 b0 rfl, .set 2 5 b0 rfl, rfl, rfl, fun h => ?_⟩
  have := (h 1).1
  revert this; decide

end Lolly.HashMapProps
