import Verif.Data.TreeLifeLemmas

set_option autoImplicit false

/-!
# C111: the objects behind trees

Programs and states are those of C55: handles in variables and in objects, and an object is destroyed when its last handle
is. `srun` is the program in a world where nothing is destroyed; it gives `none` when the program makes a mistake, and one
mistake is to make a node with children whose operator is 0.
-/

namespace Lolly.TreeLifeProps

open Lolly.Refcount Lolly.TreeLife

/-- Whatever is shared, copied and assigned, no destroyed object is touched, also with negative operators, and everything
that the program can get at is alive. -/
theorem C111_defined {ops : List Op} {t : SState} (h : srun ⟨[], []⟩ ops = some t) :
    ∃ s, run ⟨[], []⟩ ops = .ok s ∧ s.vars = t.vars ∧
      ∀ o, Reachable s o → ∃ x, Live s o x ∧ t.objs[o]? = some x.fields := by
  obtain ⟨s, e, hr⟩ := run_rel rel_init h
  refine ⟨s, e, hr.vars, fun o ho => ?_⟩
  obtain ⟨-, x, hx, hl⟩ := (reach_of_reachable ho).anchored hr.inv
  exact ⟨x, ⟨hx, hl⟩, hr.fields o x hx hl⟩

/-- Without cycles, the objects that are not destroyed are those the program can get at and those that were below a
node with a negative operator that is destroyed: these are never destroyed.
Missing: that the latter are destroyed, see `C111_leak_violated`. -/
theorem C111_alive_partial {ops : List Op} {t : SState} (h : srun ⟨[], []⟩ ops = some t) {s : State}
    (hs : run ⟨[], []⟩ ops = .ok s) (ha : Acyclic s) (o : Nat) : (∃ x, Live s o x) ↔ Reachable s o ∨ Kept s o := by
  obtain ⟨s', e, hr⟩ := run_rel rel_init h
  rw [hs] at e
  injection e with e
  subst e
  exact alive_iff hr.inv ha o

/-- Also with cycles, what was below such a node is not destroyed. -/
theorem C111_kept {ops : List Op} {t : SState} (h : srun ⟨[], []⟩ ops = some t) {s : State}
    (hs : run ⟨[], []⟩ ops = .ok s) {o : Nat} (hk : Kept s o) : ∃ x, Live s o x := by
  obtain ⟨s', e, hr⟩ := run_rel rel_init h
  rw [hs] at e
  injection e with e
  subst e
  exact kept_alive hr.inv hk

/-- A program that makes a tree and drops it. -/
def makeAndDrop (t : T) : List Op := build 0 t ++ [.drop 0]

theorem srun_makeAndDrop {t : T} (h : AllOps (· ≠ 0) t) : ∃ objs, srun ⟨[], []⟩ (makeAndDrop t) = some ⟨[], objs⟩ ∧
    ∀ (i : Nat) (op : Int), (kindsOf (build 0 t))[i]? = some (.tree op) → ∃ m, objs[i]? = some [some m] := by
  obtain ⟨rs, new, e, hl, -, hg⟩ := (makes_build 0 t h).ok ⟨[], []⟩ rfl
  match rs, hl with
  | [r], _ =>
    refine ⟨new, ?_, hg⟩
    rw [makeAndDrop, srun_append, e]
    simp [srun, sstep]

theorem kindsOf_makeAndDrop (t : T) : kindsOf (makeAndDrop t) = kindsOf (build 0 t) := by
  rw [makeAndDrop, kindsOf_append]
  simp [kindsOf]

/-- Every tree whose operators are positive can be made and dropped, and then all of its objects are destroyed.
Missing: other operators, see `C111_leak_violated`, `C111_zero_violated`. -/
theorem C111_tree_partial {t : T} (h : AllOps (0 < ·) t) :
    ∃ s, run ⟨[], []⟩ (makeAndDrop t) = .ok s ∧ s.vars = [] ∧ ∀ x ∈ s.heap, x.life = .dead := by
  have h0 : AllOps (· ≠ 0) t := by
    rw [kinds_build _ 0] at h ⊢
    exact fun op ho => by have := h op ho; omega
  obtain ⟨objs, e, -⟩ := srun_makeAndDrop h0
  have hna : NoAssign (makeAndDrop t) := noAssign_append (noAssign_build 0 t) (by intro d s h; simp at h)
  obtain ⟨s, es, hr, -⟩ := run_fields rel_init hna e rfl
  have hold : Old ⟨[], objs⟩ := Old.run (t := ⟨[], []⟩) ⟨by simp, by simp⟩ hna e
  have hv : s.vars = [] := hr.vars
  refine ⟨s, es, hv, fun x hx => ?_⟩
  obtain ⟨o, hget⟩ := List.getElem?_of_mem hx
  have hk : ∀ y ∈ s.heap, keeps y = false := run_keeps es fun f op hm => by
    have h1 : Kind.tree op ∈ kindsOf (makeAndDrop t) := mem_kindsOf.2 ⟨f, hm⟩
    rw [kindsOf_makeAndDrop] at h1
    have := (kinds_build _ 0 t).1 h op h1
    omega
  cases hl : x.life with
  | dead => rfl
  | dying => have := (hr.inv.dying_at hget hl).2; simp at this
  | alive =>
    rcases (alive_iff hr.inv (acyclic_of_old hr hold) o).1 ⟨x, hget, hl⟩ with h1 | h1
    · have hnone : ∀ p, ¬ Reachable s p := by
        intro p hp
        induction hp with
        | var hm => rw [hv] at hm; simp at hm
        | field _ _ _ ih => exact ih
      exact absurd h1 (hnone o)
    · have hnone : ∀ p, ¬ Kept s p := by
        intro p hp
        induction hp with
        | lost hy _ hky hop _ =>
          have := hk _ (List.mem_of_getElem? hy)
          rw [keeps_iff.2 ⟨_, hky, hop⟩] at this
          cases this
        | field _ _ _ ih => exact ih
      exact absurd h1 (hnone o)

/-- A tree with a negative operator anywhere, and none that is 0, can be made and dropped, but objects are left for ever:
no variable is left to get at them. -/
theorem C111_leak_violated {t : T} (h0 : AllOps (· ≠ 0) t) (h : ¬ AllOps (0 < ·) t) :
    ∃ s, run ⟨[], []⟩ (makeAndDrop t) = .ok s ∧ s.vars = [] ∧ ∃ o x, Live s o x := by
  obtain ⟨objs, e, hg⟩ := srun_makeAndDrop h0
  have hna : NoAssign (makeAndDrop t) := noAssign_append (noAssign_build 0 t) (by intro d s h; simp at h)
  obtain ⟨s, es, hr, hf⟩ := run_fields rel_init hna e rfl
  refine ⟨s, es, hr.vars, ?_⟩
  rw [kinds_build _ 0] at h h0
  have ⟨op, hop, hneg⟩ : ∃ op, Kind.tree op ∈ kindsOf (build 0 t) ∧ op < 0 := by
    apply Classical.byContradiction
    intro hc
    apply h
    intro op ho
    have h1 := h0 op ho
    rcases Int.lt_trichotomy op 0 with h2 | h2 | h2
    · exact absurd ⟨op, ho, h2⟩ hc
    · exact absurd h2 h1
    · exact h2
  obtain ⟨i, hi⟩ := List.getElem?_of_mem hop
  obtain ⟨m, hm⟩ := hg i op hi
  have hkinds := run_kind es
  simp only [List.map_nil, List.nil_append, kindsOf_makeAndDrop] at hkinds
  rw [← hkinds, List.getElem?_map] at hi
  cases hx : s.heap[i]? with
  | none => rw [hx] at hi; simp at hi
  | some x =>
    rw [hx] at hi
    simp only [Option.map_some, Option.some.injEq] at hi
    have hfx : x.fields = [some m] := by
      have h1 : (s.heap.map Obj.fields)[i]? = objs[i]? := by rw [hf]
      rw [List.getElem?_map, hx, hm] at h1
      simpa using h1
    cases hl : x.life with
    | alive => exact ⟨i, x, hx, hl⟩
    | dying => have := (hr.inv.dying_at hx hl).2; simp at this
    | dead =>
      obtain ⟨y, hy⟩ := kept_alive hr.inv (.lost hx hl hi hneg (p := m) (by rw [hfx]; simp))
      exact ⟨m, y, hy⟩

/-- When the last handle of a node with children and the operator 0 is destroyed, the behaviour is undefined. -/
theorem C111_zero_violated {s : State} {i o : Nat} {x : Obj} (hi : s.vars[i]? = some (some o)) (hx : s.heap[o]? = some x)
    (hl : x.life = .alive) (hk : x.kind = .tree 0) (hc : x.count = 1) : step s (.drop i) = .ub := by
  have h1 : relStep s.heap (.release (some o)) [] = .ub := by
    simp only [relStep, hx]
    rw [if_neg (by rw [hl]; simp), if_pos (by omega), destroyed, hk]
    rfl
  have h2 : fuel s.heap = (fuel s.heap - 1) + 1 := by unfold fuel; omega
  rw [step, hi]
  simp only
  rw [release, h2, relLoop, h1]
  rfl

/-- `lolly_tree<T> t (0, 0);` -/
example : run ⟨[], []⟩ (makeAndDrop (.node 0 [])) = .ub := rfl

/-- A node with two children, one of which has children again. -/
example : AllOps (0 < ·) (.node 1 [.leaf, .node 2 [.leaf, .leaf]]) ∧
    (∃ s, run ⟨[], []⟩ (makeAndDrop (.node 1 [.leaf, .node 2 [.leaf, .leaf]])) = .ok s ∧ s.heap.length = 10) :=
  ⟨by simp [AllOps, AllOpsL], _, rfl, rfl⟩

/-- A node with a negative operator and one leaf: of the four objects the node alone is destroyed. -/
example : run ⟨[], []⟩ (makeAndDrop (.node (-1) [.leaf])) =
    .ok ⟨[], [⟨1, [], .alive, .plain⟩, ⟨1, [some 0], .alive, .plain⟩, ⟨1, [some 1], .alive, .plain⟩,
      ⟨0, [some 2], .dead, .tree (-1)⟩]⟩ := rfl

example : AllOps (· ≠ 0) (.node (-1) [.leaf]) ∧ ¬ AllOps (0 < ·) (.node (-1) [.leaf]) := by simp [AllOps, AllOpsL]

/-- Two handles of one node, and a child that is assigned: a program that `C111_alive_partial` speaks about. -/
example : (srun ⟨[], []⟩ [.new [], .new [some ⟨0, []⟩] (.tree (-3)), .drop 0, .copy ⟨0, []⟩, .drop 0, .new [],
    .assign ⟨0, [0]⟩ ⟨1, []⟩]).isSome = true := rfl

end Lolly.TreeLifeProps
