import Verif.Kernel.RefcountRun

set_option autoImplicit false

/-!
# C55: reference counting frees exactly at the last handle

`srun` is the program in a world where nothing is ever destroyed (RefcountSpec.lean); it gives `none` only when the
program itself follows `NULL` or names a variable or a field that does not exist. In `run`, to touch a destroyed object
in any way, to destroy an object twice, and to destroy for ever are outcomes of their own. Nodes of trees whose destructor
does not destroy their fields (`NoGeneric` says that there are none) are the subject of C111.
-/

namespace Lolly.RefcountProps

open Lolly.Refcount

/-- Every program that is free of mistakes of its own runs without touching a destroyed object and without destroying
twice, whatever is shared; its variables, and the fields of the objects that are left, are as if nothing was destroyed. -/
theorem C55_refines {ops : List Op} {t : SState} (h : srun ⟨[], []⟩ ops = some t) :
    ∃ s, run ⟨[], []⟩ ops = .ok s ∧ s.vars = t.vars ∧ s.heap.length = t.objs.length ∧
      (∀ (o : Nat) (x : Obj), Live s o x → t.objs[o]? = some x.fields) ∧
      (∀ o, Reachable s o → ∃ x, Live s o x) := by
  obtain ⟨s, e, hr⟩ := run_rel rel_init h
  refine ⟨s, e, hr.vars, hr.len, fun o x hx => hr.fields o x hx.1 hx.2, fun o ho => ?_⟩
  obtain ⟨-, x, hx, hl⟩ := (reach_of_reachable ho).anchored hr.inv
  exact ⟨x, hx, hl⟩

/-- After every operation, the objects that are not destroyed are those with a handle in a variable or in an object that
is not destroyed; the count of an object is the number of these handles. -/
theorem C55_last_handle {ops : List Op} {t : SState} (h : srun ⟨[], []⟩ ops = some t) (hp : NoGeneric ops) {s : State}
    (hs : run ⟨[], []⟩ ops = .ok s) (o : Nat) :
    ((∃ x, Live s o x) ↔ 0 < handles s o) ∧ (∀ x, Live s o x → x.count = (handles s o : Int)) := by
  obtain ⟨s', e, hr⟩ := run_rel rel_init h
  rw [hs] at e
  injection e with e
  subst e
  rw [handles_eq s (run_keeps hs hp)]
  refine ⟨⟨fun ⟨x, hx, hl⟩ => (hr.inv.alive_at hx hl).2.1, fun hp => ?_⟩, fun x hx => (hr.inv.alive_at hx.1 hx.2).1⟩
  obtain ⟨x, hx, hl⟩ := hr.inv.alive_of hp
  exact ⟨x, hx, hl⟩

/-- Without cycles the objects that are not destroyed are those the program can get at. -/
theorem C55_acyclic {ops : List Op} {t : SState} (h : srun ⟨[], []⟩ ops = some t) (hp : NoGeneric ops) {s : State}
    (hs : run ⟨[], []⟩ ops = .ok s) (ha : Acyclic s) (o : Nat) : (∃ x, Live s o x) ↔ Reachable s o := by
  obtain ⟨s', e, hr⟩ := run_rel rel_init h
  rw [hs] at e
  injection e with e
  subst e
  rw [alive_iff hr.inv ha]
  refine ⟨fun h => h.resolve_right fun hk => ?_, .inl⟩
  clear h
  induction hk with
  | lost hx _ hk hop _ =>
    have := run_keeps hs hp _ (List.mem_of_getElem? hx)
    rw [keeps_iff.2 ⟨_, hk, hop⟩] at this
    cases this
  | field _ _ _ ih => exact ih

/-- When all variables are gone and there was no cycle, every object is destroyed. -/
theorem C55_all_freed {ops : List Op} {t : SState} (h : srun ⟨[], []⟩ ops = some t) (hp : NoGeneric ops) {s : State}
    (hs : run ⟨[], []⟩ ops = .ok s) (ha : Acyclic s) (hv : t.vars = []) : ∀ x ∈ s.heap, x.life = .dead := by
  intro x hx
  obtain ⟨o, ho, hox⟩ := List.mem_iff_getElem.1 hx
  have hget : s.heap[o]? = some x := by rw [List.getElem?_eq_getElem ho, hox]
  obtain ⟨s', e, hr⟩ := run_rel rel_init h
  rw [hs] at e
  injection e with e
  subst e
  cases hl : x.life with
  | dead => rfl
  | dying => have := (hr.inv.dying_at hget hl).2; simp at this
  | alive =>
    have hnone : ∀ p, ¬ Reachable s p := by
      intro p hp
      induction hp with
      | var hm => rw [hr.vars, hv] at hm; simp at hm
      | field _ _ _ ih => exact ih
    exact absurd ((C55_acyclic h hp hs ha o).1 ⟨x, hget, hl⟩) (hnone o)

/-- An object with a handle on itself keeps itself alive after the program has lost it: without the condition on cycles
the two statements above are false. -/
theorem C55_cycle : ∃ ops s, run ⟨[], []⟩ ops = .ok s ∧ s.vars = [] ∧ ∃ x, Live s 0 x :=
  ⟨[.new [none], .assign ⟨0, [0]⟩ ⟨0, []⟩, .drop 0], _, rfl, rfl, _, rfl, rfl⟩

/-- `l = l->next` on a list of two nodes (0 is the end): the first node is destroyed, the second stays. -/
example : srun ⟨[], []⟩ [.new [none], .new [some ⟨0, []⟩], .drop 0, .assign ⟨0, []⟩ ⟨0, [0]⟩] =
      some ⟨[some 0], [[none], [some 0]]⟩ ∧
    run ⟨[], []⟩ [.new [none], .new [some ⟨0, []⟩], .drop 0, .assign ⟨0, []⟩ ⟨0, [0]⟩] =
      .ok ⟨[some 0], [⟨1, [none], .alive, .plain⟩, ⟨0, [some 0], .dead, .plain⟩]⟩ := ⟨rfl, rfl⟩

/-- `l = l`, and `l->next = l->next->next` on three nodes. -/
example : run ⟨[], []⟩ [.new [none], .assign ⟨0, []⟩ ⟨0, []⟩] = .ok ⟨[some 0], [⟨1, [none], .alive, .plain⟩]⟩ ∧
    run ⟨[], []⟩ [.new [none], .new [some ⟨0, []⟩], .drop 0, .new [some ⟨0, []⟩], .drop 0, .assign ⟨0, [0]⟩ ⟨0, [0, 0]⟩] =
      .ok ⟨[some 2], [⟨1, [none], .alive, .plain⟩, ⟨0, [some 0], .dead, .plain⟩, ⟨1, [some 0], .alive, .plain⟩]⟩ := ⟨rfl, rfl⟩

/-- A shared tail and a cascade, and the end of all variables. -/
example : srun ⟨[], []⟩ [.new [none], .new [some ⟨0, []⟩], .new [some ⟨0, []⟩, some ⟨1, []⟩], .drop 0, .drop 0, .drop 0] =
      some ⟨[], [[none], [some 0], [some 0, some 1]]⟩ ∧
    run ⟨[], []⟩ [.new [none], .new [some ⟨0, []⟩], .new [some ⟨0, []⟩, some ⟨1, []⟩], .drop 0, .drop 0, .drop 0] =
      .ok ⟨[], [⟨0, [none], .dead, .plain⟩, ⟨0, [some 0], .dead, .plain⟩, ⟨0, [some 0, some 1], .dead, .plain⟩]⟩ := ⟨rfl, rfl⟩

example : Acyclic ⟨[some 0], [⟨1, [none], .alive, .plain⟩, ⟨0, [some 0], .dead, .plain⟩, ⟨1, [some 0], .alive, .plain⟩]⟩ := by
  refine ⟨id, fun o p x hx hp => ?_⟩
  obtain ⟨h1, h2⟩ := hx
  match o with
  | 0 => simp at h1; subst h1; simp at hp
  | 1 => simp at h1; subst h1; simp at h2
  | 2 => simp at h1; subst h1; simp at hp; subst hp; simp
  | n + 3 => simp at h1

end Lolly.RefcountProps
