import Verif.System.SharedLib
import Verif.Containers.HashTreeProps

/-!
# C109: shared libraries
-/

set_option autoImplicit false

namespace Lolly.SharedLibProps

open Lolly.SharedLib
open HashMap hiding empty
open HashMapProps hiding run

variable {K : Type} [DecidableEq K] {hash : K → BitVec 32}

/-! ## Specification -/

/-- A library that is loaded. -/
structure Lib (K : Type) where
  name : K
  object : Nat
  handle : Nat
deriving DecidableEq

/-- Loading: a library that is there is the result. Otherwise the file is opened; if this fails, nothing changes. -/
def specLoad (ls : List (Lib K)) (name : K) (p : Nat) (h : Option Nat) : Option Nat × List (Lib K) :=
  match ls.find? (fun x => x.name = name) with
  | some x => (some x.object, ls)
  | none =>
    match h with
    | none => (none, ls)
    | some h => (some p, ⟨name, p, h⟩ :: ls)

def specUnload (ls : List (Lib K)) (p : Nat) : List (Lib K) := ls.filter (fun x => x.object ≠ p)

/-- What the loads give and the libraries that are loaded at the end. -/
def spec : List (Lib K) → List (Op K) → List (Option Nat) × List (Lib K)
  | ls, [] => ([], ls)
  | ls, .load name p h :: os =>
    let r := specLoad ls name p h
    let r' := spec r.2 os
    (r.1 :: r'.1, r'.2)
  | ls, .unload p :: os => spec (specUnload ls p) os

/-- Sensible programs: new objects have new addresses, and only loaded libraries are unloaded. -/
def Sensible : List (Lib K) → List (Op K) → Prop
  | _, [] => True
  | ls, .load name p h :: os => p ≠ 0 ∧ (∀ x ∈ ls, x.object ≠ p) ∧ Sensible (specLoad ls name p h).2 os
  | ls, .unload p :: os => (∃ x ∈ ls, x.object = p) ∧ Sensible (specUnload ls p) os

/-! ## Invariant -/

structure Inv (hash : K → BitVec 32) (l : Libs K) (ls : List (Lib K)) : Prop where
  wf : l.res.instances.WF hash
  init : l.res.instances.init = 0
  abs : ∀ s q, l.res.instances.abs s = some q ↔ ∃ x ∈ ls, x.name = s ∧ x.object = q
  names : ∀ p s, l.res.names p = some s ↔ ∃ x ∈ ls, x.object = p ∧ x.name = s
  ref : ∀ p h, l.ref p = some h ↔ ∃ x ∈ ls, x.object = p ∧ x.handle = h
  name_inj : ∀ x ∈ ls, ∀ y ∈ ls, x.name = y.name → x = y
  object_inj : ∀ x ∈ ls, ∀ y ∈ ls, x.object = y.object → x = y
  nodup : ls.Nodup
  opened : l.opened.Perm (ls.map (·.handle))

theorem inv_empty : Inv hash (empty : Libs K) [] where
  wf := new_wf _ _ _ (Nat.le_refl 1)
  init := rfl
  abs := fun s q => by simp [empty, Resources.empty, new_abs]
  names := fun p s => by simp [empty, Resources.empty]
  ref := fun p h => by simp [empty]
  name_inj := by simp
  object_inj := by simp
  nodup := List.nodup_nil
  opened := List.Perm.refl _

theorem load_inv {l : Libs K} {ls : List (Lib K)} (h : Inv hash l ls) (name : K) (p : Nat)
    (hp : ∀ x ∈ ls, x.object ≠ p) (o : Option Nat) :
    ∃ l', load hash l name p o = .ok ((specLoad ls name p o).1, l') ∧ Inv hash l' (specLoad ls name p o).2 ∧
      (o = none → ∀ s, l'.res.lookup hash s = l.res.lookup hash s) := by
  unfold specLoad
  cases hf : ls.find? (fun x => x.name = name) with
  | some x =>
    have hx := List.mem_of_find?_eq_some hf
    have hn : x.name = name := by simpa using List.find?_some hf
    have ha := (h.abs name x.object).2 ⟨x, hx, hn, rfl⟩
    refine ⟨l, ?_, h, fun _ _ => rfl⟩
    simp [load, contains_spec h.wf, Resources.lookup, get_spec h.wf, ha]
  | none =>
    have hno : ∀ x ∈ ls, x.name ≠ name := by simpa using hf
    have ha : l.res.instances.abs name = none := by
      cases hc : l.res.instances.abs name with
      | none => rfl
      | some q =>
        obtain ⟨x, hx, e, _⟩ := (h.abs name q).1 hc
        exact absurd e (hno x hx)
    obtain ⟨i, e1, w1, a1, i1, _⟩ := set_spec h.wf name p
    cases o with
    | none =>
      obtain ⟨i2, e2, w2, a2, i2', _⟩ := reset_spec w1 name
      have hab : ∀ s, i2.abs s = l.res.instances.abs s := by
        intro s
        rw [a2, a1]
        by_cases hs : s = name
        · simp [hs, ha]
        · simp [hs]
      refine ⟨{ l with res := { instances := i2, names :=
        fun q => if q = p then none else if q = p then some name else l.res.names q } }, ?_, ?_, ?_⟩
      · simp [load, contains_spec h.wf, ha, Resources.create, Resources.destroy, e1, e2]
      · exact
        { wf := w2
          init := i2'.trans (i1.trans h.init)
          abs := fun s q => by rw [hab]; exact h.abs s q
          names := fun q s => by
            by_cases hq : q = p
            · subst hq
              simp only [if_true]
              refine ⟨fun e => (by cases e), ?_⟩
              rintro ⟨x, hx, e, _⟩
              exact absurd e (hp x hx)
            · simp only [hq, if_false]; exact h.names q s
          ref := h.ref
          name_inj := h.name_inj
          object_inj := h.object_inj
          nodup := h.nodup
          opened := h.opened }
      · intro _ s
        simp only [Resources.lookup, get_spec w2, get_spec h.wf, hab, i2', i1]
    | some d =>
      refine ⟨⟨{ instances := i, names := fun q => if q = p then some name else l.res.names q },
        fun q => if q = p then some d else l.ref q, d :: l.opened⟩, ?_, ?_, fun e => by cases e⟩
      · simp [load, contains_spec h.wf, ha, Resources.create, e1]
      · exact
        { wf := w1
          init := i1.trans h.init
          abs := fun s q => by
            simp only [a1, List.mem_cons, exists_eq_or_imp]
            by_cases hs : s = name
            · subst hs
              simp only [if_true, Option.some.injEq, true_and]
              refine ⟨fun e => .inl e, ?_⟩
              rintro (e | ⟨x, hx, e, _⟩)
              · exact e
              · exact absurd e (hno x hx)
            · have hs' : ¬ name = s := fun e => hs e.symm
              simp only [hs, hs', if_false, false_and, false_or]
              exact h.abs s q
          names := fun q s => by
            simp only [List.mem_cons, exists_eq_or_imp]
            by_cases hq : q = p
            · subst hq
              simp only [if_true, Option.some.injEq, true_and]
              refine ⟨fun e => .inl e, ?_⟩
              rintro (e | ⟨x, hx, e, _⟩)
              · exact e
              · exact absurd e (hp x hx)
            · have hq' : ¬ p = q := fun e => hq e.symm
              simp only [hq, hq', if_false, false_and, false_or]
              exact h.names q s
          ref := fun q s => by
            simp only [List.mem_cons, exists_eq_or_imp]
            by_cases hq : q = p
            · subst hq
              simp only [if_true, Option.some.injEq, true_and]
              refine ⟨fun e => .inl e, ?_⟩
              rintro (e | ⟨x, hx, e, _⟩)
              · exact e
              · exact absurd e (hp x hx)
            · have hq' : ¬ p = q := fun e => hq e.symm
              simp only [hq, hq', if_false, false_and, false_or]
              exact h.ref q s
          name_inj := by
            intro x hx y hy e
            rcases List.mem_cons.1 hx with rfl | hx <;> rcases List.mem_cons.1 hy with rfl | hy
            · rfl
            · exact absurd e.symm (hno y hy)
            · exact absurd e (hno x hx)
            · exact h.name_inj x hx y hy e
          object_inj := by
            intro x hx y hy e
            rcases List.mem_cons.1 hx with rfl | hx <;> rcases List.mem_cons.1 hy with rfl | hy
            · rfl
            · exact absurd e.symm (hp y hy)
            · exact absurd e (hp x hx)
            · exact h.object_inj x hx y hy e
          nodup := List.nodup_cons.2 ⟨fun hm => hp _ hm rfl, h.nodup⟩
          opened := List.Perm.cons _ h.opened }

theorem unload_inv {l : Libs K} {ls : List (Lib K)} (h : Inv hash l ls) (p : Nat) (hp : ∃ x ∈ ls, x.object = p) :
    ∃ l', unload hash l p = .ok l' ∧ Inv hash l' (specUnload ls p) := by
  obtain ⟨x, hx, rfl⟩ := hp
  have hr := (h.ref x.object x.handle).2 ⟨x, hx, rfl, rfl⟩
  have hn := (h.names x.object x.name).2 ⟨x, hx, rfl, rfl⟩
  have ho : x.handle ∈ l.opened := h.opened.mem_iff.2 (List.mem_map.2 ⟨x, hx, rfl⟩)
  obtain ⟨i1, e1, w1, a1, j1, _⟩ := reset_spec h.wf x.name
  obtain ⟨i2, e2, w2, a2, j2, _⟩ := reset_spec w1 x.name
  have hmem : ∀ y, y ∈ specUnload ls x.object ↔ y ∈ ls ∧ y ≠ x := by
    intro y
    simp only [specUnload, List.mem_filter, decide_eq_true_eq]
    refine and_congr_right fun hy => ⟨fun e he => e (by rw [he]), fun e he => e (h.object_inj y hy x hx he)⟩
  have hperm : ls.Perm (x :: specUnload ls x.object) := by
    have h1 := List.perm_cons_erase hx
    have h2 : ls.erase x = specUnload ls x.object := by
      rw [h.nodup.erase_eq_filter, specUnload]
      apply List.filter_congr
      intro y hy
      by_cases he : y = x
      · simp [he]
      · have : y.object ≠ x.object := fun e => he (h.object_inj y hy x hx e)
        simp [he, this]
    rwa [h2] at h1
  have hsub : ∀ y ∈ specUnload ls x.object, y ∈ ls := fun y hy => ((hmem y).1 hy).1
  refine ⟨⟨{ instances := i2, names := fun q => if q = x.object then none else l.res.names q },
    fun q => if q = x.object then none else l.ref q, l.opened.erase x.handle⟩, ?_, ?_⟩
  · simp [unload, hr, hn, close, ho, e1, Resources.destroy, e2]
  · have hex : ∀ (A B : Lib K → Prop), ((∃ y ∈ specUnload ls x.object, A y ∧ B y) ↔ ∃ y ∈ ls, y ≠ x ∧ A y ∧ B y) := by
      intro A B
      constructor
      · rintro ⟨y, hy, hab⟩; exact ⟨y, ((hmem y).1 hy).1, ((hmem y).1 hy).2, hab⟩
      · rintro ⟨y, hy, hne, hab⟩; exact ⟨y, (hmem y).2 ⟨hy, hne⟩, hab⟩
    exact
    { wf := w2
      init := j2.trans (j1.trans h.init)
      abs := fun s q => by
        rw [hex]
        simp only [a2, a1]
        by_cases hs : s = x.name
        · subst hs
          simp only [if_true]
          refine ⟨fun e => (by cases e), ?_⟩
          rintro ⟨y, hy, hne, e, _⟩
          exact absurd (h.name_inj y hy x hx e) hne
        · simp only [hs, if_false]
          rw [h.abs]
          constructor
          · rintro ⟨y, hy, e1, e2⟩; exact ⟨y, hy, fun e => hs (by rw [← e1, e]), e1, e2⟩
          · rintro ⟨y, hy, _, hab⟩; exact ⟨y, hy, hab⟩
      names := fun q s => by
        rw [hex]
        dsimp only
        by_cases hq : q = x.object
        · subst hq
          simp only [if_true]
          refine ⟨fun e => (by cases e), ?_⟩
          rintro ⟨y, hy, hne, e, _⟩
          exact absurd (h.object_inj y hy x hx e) hne
        · simp only [hq, if_false]
          rw [h.names]
          constructor
          · rintro ⟨y, hy, e1, e2⟩; exact ⟨y, hy, fun e => hq (by rw [← e1, e]), e1, e2⟩
          · rintro ⟨y, hy, _, hab⟩; exact ⟨y, hy, hab⟩
      ref := fun q s => by
        rw [hex]
        dsimp only
        by_cases hq : q = x.object
        · subst hq
          simp only [if_true]
          refine ⟨fun e => (by cases e), ?_⟩
          rintro ⟨y, hy, hne, e, _⟩
          exact absurd (h.object_inj y hy x hx e) hne
        · simp only [hq, if_false]
          rw [h.ref]
          constructor
          · rintro ⟨y, hy, e1, e2⟩; exact ⟨y, hy, fun e => hq (by rw [← e1, e]), e1, e2⟩
          · rintro ⟨y, hy, _, hab⟩; exact ⟨y, hy, hab⟩
      name_inj := fun y hy z hz e => h.name_inj y (hsub y hy) z (hsub z hz) e
      object_inj := fun y hy z hz e => h.object_inj y (hsub y hy) z (hsub z hz) e
      nodup := h.nodup.filter _
      opened := by
        have h1 := (h.opened.trans (hperm.map (·.handle))).erase x.handle
        simpa using h1 }

theorem run_inv (os : List (Op K)) : ∀ {l : Libs K} {ls : List (Lib K)}, Inv hash l ls → Sensible ls os →
    ∃ l', run hash l os = .ok ((spec ls os).1, l') ∧ Inv hash l' (spec ls os).2 := by
  induction os with
  | nil => intro l ls h _; exact ⟨l, rfl, h⟩
  | cons o os ih =>
    intro l ls h hs
    cases o with
    | load name p d =>
      obtain ⟨l1, e1, h1, _⟩ := load_inv h name p hs.2.1 d
      obtain ⟨l2, e2, h2⟩ := ih h1 hs.2.2
      exact ⟨l2, by simp [run, e1, e2, spec], h2⟩
    | unload p =>
      obtain ⟨l1, e1, h1⟩ := unload_inv h p hs.1
      obtain ⟨l2, e2, h2⟩ := ih h1 hs.2
      exact ⟨l2, by simp [run, e1, e2, spec], h2⟩

/-! ## C109 -/

/-- C109: in every program that loads and unloads libraries, each load gives the library that is loaded under the name
or the new one, or fails if the file cannot be opened; a name finds exactly the library that is loaded under it; and the
files that are open are those of the loaded libraries.
Missing: that the library found under a name was loaded from the same path, see `C109_path_violated`. -/
theorem C109_refines_partial (os : List (Op K)) (hs : Sensible [] os) :
    ∃ l, run hash empty os = .ok ((spec [] os).1, l) ∧
      (∀ s, l.res.lookup hash s = .ok (((spec [] os).2.find? (fun x => x.name = s)).elim 0 (·.object))) ∧
      l.opened.Perm ((spec [] os).2.map (·.handle)) := by
  obtain ⟨l, e, h⟩ := run_inv (hash := hash) os inv_empty hs
  refine ⟨l, e, fun s => ?_, h.opened⟩
  rw [Resources.lookup, get_spec h.wf, h.init]
  cases hf : (spec [] os).2.find? (fun x => x.name = s) with
  | some x =>
    rw [(h.abs s x.object).2 ⟨x, List.mem_of_find?_eq_some hf, by simpa using List.find?_some hf, rfl⟩]
    rfl
  | none =>
    have hno : ∀ x ∈ (spec [] os).2, x.name ≠ s := by simpa using hf
    cases hc : l.res.instances.abs s with
    | none => rfl
    | some q =>
      obtain ⟨x, hx, e, _⟩ := (h.abs s q).1 hc
      exact absurd e (hno x hx)

/-- C109: when every library that was loaded has been unloaded, no file is open. -/
theorem C109_closed (os : List (Op K)) (hs : Sensible [] os) (he : (spec [] os).2 = []) :
    ∃ qs l, run hash empty os = .ok (qs, l) ∧ l.opened = [] := by
  obtain ⟨l, e, _, h⟩ := C109_refines_partial (hash := hash) os hs
  rw [he] at h
  exact ⟨_, l, e, List.Perm.eq_nil h⟩

/-- C109: a load that fails registers nothing. -/
theorem C109_failure (os : List (Op K)) (hs : Sensible [] os) (name : K) (p : Nat)
    (hp : ∀ x ∈ (spec [] os).2, x.object ≠ p) :
    ∃ qs l q l', run hash empty os = .ok (qs, l) ∧ load hash l name p none = .ok (q, l') ∧
      (∀ s, l'.res.lookup hash s = l.res.lookup hash s) ∧ l'.opened.Perm l.opened := by
  obtain ⟨l, e, h⟩ := run_inv (hash := hash) os inv_empty hs
  obtain ⟨l', e', h', hl⟩ := load_inv h name p hp none
  refine ⟨_, l, _, l', e, e', hl rfl, h'.opened.trans ?_⟩
  have : (specLoad (spec [] os).2 name p none).2 = (spec [] os).2 := by
    unfold specLoad
    cases (spec [] os).2.find? (fun x => x.name = name) <;> rfl
  rw [this]
  exact h.opened.symm

/-- Two libraries of the same file, one of them unloaded; a failure; the name that exists. -/
example : Sensible ([] : List (Lib Nat)) [.load 1 10 (some 7), .load 2 20 (some 7), .load 3 30 none, .load 1 40 (some 8),
      .unload 10] ∧
    spec ([] : List (Lib Nat)) [.load 1 10 (some 7), .load 2 20 (some 7), .load 3 30 none, .load 1 40 (some 8),
      .unload 10] = ([some 10, some 20, none, some 10], [⟨2, 20, 7⟩]) := by
  refine ⟨?_, by decide⟩
  simp [Sensible, specLoad]

/-- C109 fails for the path: under a name that is loaded, another file (which the system would open as `h'`) is not
opened, and the result is the library of the first file. -/
theorem C109_path_violated (name : K) (p p' h h' : Nat) (hp : p ≠ 0) (hpp : p' ≠ 0 ∧ p' ≠ p) :
    ∃ l, run hash empty [.load name p (some h), .load name p' (some h')] = .ok ([some p, some p], l) ∧
      l.opened.Perm [h] := by
  have := run_inv (hash := hash) [.load name p (some h), .load name p' (some h')] inv_empty
    (by simp [Sensible, specLoad, hp, hpp.1, hpp.2.symm])
  obtain ⟨l, e, hi⟩ := this
  exact ⟨l, by rw [e]; simp [spec, specLoad], by simpa [spec, specLoad] using hi.opened⟩

end Lolly.SharedLibProps
