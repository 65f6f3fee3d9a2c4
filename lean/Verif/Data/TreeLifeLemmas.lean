import Verif.Data.TreeLife
import Verif.Kernel.RefcountRun

set_option autoImplicit false

/-!
# Lemmas about making trees
-/

namespace Lolly.TreeLife

open Lolly.Refcount

/-! ## Programs that do not assign -/

def NoAssign (ops : List Op) : Prop := ∀ dst src, Op.assign dst src ∉ ops

/-- Objects point to older ones. -/
structure Old (t : SState) : Prop where
  objs : ∀ (o : Nat) (l : List (Option Nat)), t.objs[o]? = some l → ∀ p, some p ∈ l → p < o
  vars : ∀ p, some p ∈ t.vars → p < t.objs.length

theorem Old.read {t : SState} (h : Old t) {l : Loc} {p : Nat} (hr : sread t l = some (some p)) : p < t.objs.length := by
  cases l with
  | var i => exact h.vars p (List.mem_of_getElem? hr)
  | field o f =>
    simp only [sread] at hr
    cases ho : t.objs[o]? with
    | none => rw [ho] at hr; simp at hr
    | some l =>
      rw [ho] at hr
      have h1 := h.objs o l ho p (List.mem_of_getElem? hr)
      have h2 := (List.getElem?_eq_some_iff.1 ho).1
      omega

theorem Old.place {t : SState} (h : Old t) {q : Place} {p : Nat} (hr : splace t q = some (some p)) : p < t.objs.length := by
  unfold splace at hr
  cases hl : sfollow t (.var q.root) q.path with
  | none => rw [hl] at hr; simp at hr
  | some l => rw [hl] at hr; exact h.read hr

theorem Old.fields {t : SState} (h : Old t) {l : List (Option Place)} {rs : List (Option Nat)} (hr : sfields t l = some rs) :
    ∀ p, some p ∈ rs → p < t.objs.length := by
  induction l generalizing rs with
  | nil => injection hr with hr; subst hr; simp
  | cons q l ih =>
    cases q with
    | none =>
      rw [sfields] at hr
      cases h1 : sfields t l with
      | none => rw [h1] at hr; simp at hr
      | some rs1 =>
        rw [h1] at hr
        simp only [Option.map_some, Option.some.injEq] at hr
        subst hr
        intro p hp
        simp only [List.mem_cons, reduceCtorEq, false_or] at hp
        exact ih h1 p hp
    | some q =>
      rw [sfields] at hr
      cases h2 : splace t q with
      | none => rw [h2] at hr; simp at hr
      | some r =>
      rw [h2] at hr
      simp only [Option.bind_some] at hr
      cases h1 : sfields t l with
      | none => rw [h1] at hr; simp at hr
      | some rs1 =>
        rw [h1] at hr
        simp only [Option.map_some, Option.some.injEq] at hr
        subst hr
        intro p hp
        simp only [List.mem_cons] at hp
        rcases hp with hp | hp
        · subst hp; exact h.place h2
        · exact ih h1 p hp

theorem Old.step {t t' : SState} {op : Op} (h : Old t) (hn : ∀ dst src, op ≠ .assign dst src) (hs : sstep t op = some t') :
    Old t' := by
  cases op with
  | null =>
    injection hs with hs
    subst hs
    refine ⟨h.objs, fun p hp => h.vars p ?_⟩
    simpa using hp
  | copy src =>
    simp only [sstep] at hs
    cases hr : splace t src with
    | none => rw [hr] at hs; simp at hs
    | some r =>
      rw [hr] at hs
      simp only [Option.map_some, Option.some.injEq] at hs
      subst hs
      refine ⟨h.objs, fun p hp => ?_⟩
      simp only [List.mem_append, List.mem_singleton] at hp
      rcases hp with hp | hp
      · exact h.vars p hp
      · exact h.place (by rw [hr, hp])
  | new l k =>
    simp only [sstep] at hs
    split at hs
    · cases hs
    cases hr : sfields t l with
    | none => rw [hr] at hs; simp at hs
    | some rs =>
      rw [hr] at hs
      simp only [Option.map_some, Option.some.injEq] at hs
      subst hs
      refine ⟨fun o l ho p hp => ?_, fun p hp => ?_⟩
      · simp only at ho
        rcases Nat.lt_trichotomy o t.objs.length with hlt | heq | hgt
        · rw [List.getElem?_append_left hlt] at ho
          exact h.objs o l ho p hp
        · subst heq
          simp at ho
          subst ho
          exact h.fields hr p hp
        · rw [List.getElem?_eq_none (by simp; omega)] at ho
          cases ho
      · simp only [List.mem_append, List.mem_singleton, Option.some.injEq] at hp
        simp only [List.length_append, List.length_singleton]
        rcases hp with hp | hp
        · have := h.vars p hp; omega
        · omega
  | drop i =>
    simp only [sstep] at hs
    split at hs
    · injection hs with hs
      subst hs
      exact ⟨h.objs, fun p hp => h.vars p (List.mem_of_mem_eraseIdx hp)⟩
    · cases hs
  | assign dst src => exact absurd rfl (hn dst src)

theorem Old.run {t t' : SState} {ops : List Op} (h : Old t) (hn : NoAssign ops) (hs : srun t ops = some t') : Old t' := by
  induction ops generalizing t with
  | nil => injection hs with hs; subst hs; exact h
  | cons op ops ih =>
    rw [srun] at hs
    cases h1 : sstep t op with
    | none => rw [h1] at hs; simp at hs
    | some t1 =>
      rw [h1] at hs
      exact ih (h.step (fun d s e => hn d s (by rw [e]; exact List.mem_cons_self)) h1)
        (fun d s hm => hn d s (List.mem_cons_of_mem _ hm)) hs

theorem acyclic_of_old {s : State} {t : SState} (hr : Rel s t) (h : Old t) : Acyclic s :=
  ⟨id, fun o p x hx hp => h.objs o x.fields (hr.fields o x hx.1 hx.2) p hp⟩

/-- Also the fields of destroyed objects are those that were given to them. -/
theorem step_fields {s s' : State} {t t' : SState} {op : Op} (hn : ∀ dst src, op ≠ .assign dst src) (hr' : Rel s' t')
    (hs : sstep t op = some t') (e : step s op = .ok s') (hf : s.heap.map Obj.fields = t.objs) :
    s'.heap.map Obj.fields = t'.objs := by
  cases op with
  | null =>
    injection hs with hs
    subst hs
    rw [step] at e
    injection e with e
    subst e
    exact hf
  | copy src =>
    simp only [sstep] at hs
    cases hr : splace t src with
    | none => rw [hr] at hs; simp at hs
    | some r =>
      rw [hr] at hs
      simp only [Option.map_some, Option.some.injEq] at hs
      subst hs
      rw [step] at e
      obtain ⟨r, -, e⟩ := Res.bind_eq_ok.1 e
      obtain ⟨h1, e1, e⟩ := Res.bind_eq_ok.1 e
      injection e with e
      subst e
      exact (inc_map static_fields e1).trans hf
  | new l k =>
    simp only [sstep] at hs
    split at hs
    · cases hs
    cases hr : sfields t l with
    | none => rw [hr] at hs; simp at hs
    | some rs =>
      rw [hr] at hs
      simp only [Option.map_some, Option.some.injEq] at hs
      subst hs
      rw [step] at e
      obtain ⟨⟨h1, rs1⟩, e1, e⟩ := Res.bind_eq_ok.1 e
      injection e with e
      subst e
      have h2 : h1.map Obj.fields = t.objs := (copyFields_map static_fields e1).trans hf
      have hlen : h1.length = t.objs.length := by rw [← h2]; simp
      have h3 := hr'.fields h1.length ⟨1, rs1, .alive, k⟩ (by simp) rfl
      simp only [hlen] at h3
      simp at h3
      simp only [List.map_append, h2, List.map_cons, List.map_nil, h3]
  | drop i =>
    simp only [sstep] at hs
    split at hs
    · injection hs with hs
      subst hs
      rw [step] at e
      split at e
      · obtain ⟨h1, e1, e⟩ := Res.bind_eq_ok.1 e
        injection e with e
        subst e
        exact (relLoop_map static_fields e1).trans hf
      · cases e
    · cases hs
  | assign dst src => exact absurd rfl (hn dst src)

theorem run_fields {s : State} {t t' : SState} {ops : List Op} (hr : Rel s t) (hn : NoAssign ops)
    (hs : srun t ops = some t') (hf : s.heap.map Obj.fields = t.objs) :
    ∃ s', run s ops = .ok s' ∧ Rel s' t' ∧ s'.heap.map Obj.fields = t'.objs := by
  induction ops generalizing s t with
  | nil =>
    injection hs with hs
    subst hs
    exact ⟨s, rfl, hr, hf⟩
  | cons op ops ih =>
    rw [srun] at hs
    cases h1 : sstep t op with
    | none => rw [h1] at hs; simp at hs
    | some t1 =>
      rw [h1] at hs
      obtain ⟨s1, e1, hr1⟩ := step_rel hr h1
      have hf1 := step_fields (fun d s e => hn d s (by rw [e]; exact List.mem_cons_self)) hr1 h1 e1 hf
      obtain ⟨s2, e2, hr2, hf2⟩ := ih hr1 (fun d s hm => hn d s (List.mem_cons_of_mem _ hm)) hs hf1
      exact ⟨s2, by rw [run, e1, Res.ok_bind, e2], hr2, hf2⟩

/-! ## The programs that make trees -/

theorem srun_append (t : SState) (a b : List Op) : srun t (a ++ b) = (srun t a).bind fun t => srun t b := by
  induction a generalizing t with
  | nil => rfl
  | cons op a ih =>
    simp only [List.cons_append, srun]
    cases sstep t op with
    | none => rfl
    | some t1 => exact ih t1

theorem splace_var {t : SState} {i : Nat} {r : Option Nat} (h : t.vars[i]? = some r) : splace t ⟨i, []⟩ = some r := by
  simp [splace, sfollow, sread, h]

/-- What a program adds: variables, objects and their destructors; a node points to one object. -/
structure Makes (n : Nat) (ops : List Op) (k : Nat) : Prop where
  ok : ∀ t : SState, t.vars.length = n → ∃ (rs : List Nat) (new : List (List (Option Nat))),
    srun t ops = some ⟨t.vars ++ rs.map some, t.objs ++ new⟩ ∧ rs.length = k ∧ new.length = (kindsOf ops).length ∧
    ∀ (i : Nat) (op : Int), (kindsOf ops)[i]? = some (.tree op) → ∃ m, new[i]? = some [some m]

theorem kindsOf_append (a b : List Op) : kindsOf (a ++ b) = kindsOf a ++ kindsOf b := List.filterMap_append

theorem makes_leaf (n : Nat) : Makes n (mkLeaf n) 1 := by
  refine ⟨fun t ht => ⟨[t.objs.length + 1], [[], [some t.objs.length]], ?_, rfl, rfl, ?_⟩⟩
  · have h1 : splace ⟨t.vars ++ [some t.objs.length], t.objs ++ [[]]⟩ ⟨n, []⟩ = some (some t.objs.length) :=
      splace_var (by simp [← ht])
    have h2 : (t.vars ++ [some t.objs.length, some (t.objs.length + 1)]).eraseIdx n = t.vars ++ [some (t.objs.length + 1)] := by
      rw [List.eraseIdx_append_of_length_le (by omega), ht, Nat.sub_self]
      rfl
    simp [mkLeaf, srun, sstep, sfields, h1, h2, ht]
  · intro i op hi
    match i with
    | 0 => simp [mkLeaf, kindsOf] at hi
    | 1 => simp [mkLeaf, kindsOf] at hi
    | i + 2 => simp [mkLeaf, kindsOf] at hi

theorem sfields_vars {t : SState} {n : Nat} {f : Nat → Option Nat} {l : List Nat} (h : ∀ i ∈ l, t.vars[n + i]? = some (f i)) :
    sfields t (l.map fun i => some ⟨n + i, []⟩) = some (l.map f) := by
  induction l with
  | nil => rfl
  | cons a l ih =>
    rw [List.map_cons, sfields, splace_var (h a List.mem_cons_self), Option.bind_some,
      ih fun i hi => h i (List.mem_cons_of_mem _ hi)]
    rfl

theorem srun_drops (objs : List (List (Option Nat))) (v ks : List (Option Nat)) (x : Option Nat) :
    srun ⟨v ++ (ks ++ [x]), objs⟩ (List.replicate ks.length (.drop v.length)) = some ⟨v ++ [x], objs⟩ := by
  induction ks with
  | nil => rfl
  | cons k ks ih =>
    rw [List.length_cons, List.replicate_succ, srun, sstep, if_pos (by simp), Option.bind_some]
    simp only
    rw [List.eraseIdx_append_of_length_le (Nat.le_refl _), Nat.sub_self]
    exact ih

theorem srun_node (objs : List (List (Option Nat))) (v ks : List (Option Nat)) {op : Int} (ho : op ≠ 0) :
    srun ⟨v ++ ks, objs⟩ (mkNode v.length ks.length op) =
      some ⟨v ++ [some (objs.length + 1)], objs ++ [ks, [some objs.length]]⟩ := by
  have h1 : sfields ⟨v ++ ks, objs⟩ ((List.range ks.length).map fun i => some ⟨v.length + i, []⟩) = some ks := by
    rw [sfields_vars (f := fun i => (ks[i]?).getD none)]
    · congr 1
      apply List.ext_getElem?
      intro i
      rw [List.getElem?_map]
      rcases Nat.lt_or_ge i ks.length with hi | hi
      · rw [List.getElem?_range hi, List.getElem?_eq_getElem hi]; simp [hi]
      · rw [List.getElem?_eq_none (by simpa using hi), List.getElem?_eq_none hi]; rfl
    · intro i hi
      rw [List.mem_range] at hi
      simp only
      rw [List.getElem?_append_right (by omega), Nat.add_sub_cancel_left, List.getElem?_eq_getElem hi]
      rfl
  have h2 : splace ⟨v ++ ks ++ [some objs.length], objs ++ [ks]⟩ ⟨v.length + ks.length, []⟩ = some (some objs.length) :=
    splace_var (by rw [← List.length_append, List.getElem?_append_right (Nat.le_refl _), Nat.sub_self]; rfl)
  rw [mkNode, srun, sstep, if_neg (by simp), h1, Option.map_some, Option.bind_some, srun, sstep,
    if_neg (by simpa using ho)]
  simp only [sfields, h2, Option.bind_some, Option.map_some]
  rw [srun, sstep, if_pos (by simp), Option.bind_some]
  have h3 : (v ++ ks ++ [some objs.length] ++ [some (objs ++ [ks]).length]).eraseIdx (v.length + ks.length) =
      v ++ (ks ++ [some (objs.length + 1)]) := by
    rw [← List.length_append, List.append_assoc, List.eraseIdx_append_of_length_le (Nat.le_refl _), Nat.sub_self]
    simp
  rw [h3, srun_drops]
  simp

theorem kindsOf_node (n k : Nat) (op : Int) : kindsOf (mkNode n k op) = [.plain, .tree op] := by
  have : kindsOf (List.replicate k (.drop n)) = [] := by
    induction k with
    | zero => rfl
    | succ k ih => rw [List.replicate_succ]; exact ih
  have h2 : kindsOf (mkNode n k op) = .plain :: .tree op :: kindsOf (List.replicate k (.drop n)) := rfl
  rw [h2, this]

theorem Makes.trans {n k j : Nat} {a b : List Op} (h1 : Makes n a k) (h2 : Makes (n + k) b j) : Makes n (a ++ b) (k + j) := by
  refine ⟨fun t ht => ?_⟩
  obtain ⟨r1, n1, e1, l1, k1, g1⟩ := h1.ok t ht
  obtain ⟨r2, n2, e2, l2, k2, g2⟩ := h2.ok ⟨t.vars ++ r1.map some, t.objs ++ n1⟩ (by simp [ht, l1])
  refine ⟨r1 ++ r2, n1 ++ n2, ?_, by simp [l1, l2], by rw [kindsOf_append, List.length_append, List.length_append, k1, k2], ?_⟩
  · rw [srun_append, e1, Option.bind_some, e2]
    simp
  · intro i op hi
    rw [kindsOf_append] at hi
    rcases Nat.lt_or_ge i (kindsOf a).length with hlt | hge
    · rw [List.getElem?_append_left hlt] at hi
      rw [List.getElem?_append_left (by omega)]
      exact g1 i op hi
    · rw [List.getElem?_append_right hge] at hi
      rw [List.getElem?_append_right (by omega), k1]
      exact g2 _ op hi

mutual
theorem makes_build (n : Nat) : (t : T) → AllOps (· ≠ 0) t → Makes n (build n t) 1
  | .leaf, _ => makes_leaf n
  | .node op l, h => by
    have h1 := makes_buildAll n l h.2
    refine ⟨fun t ht => ?_⟩
    obtain ⟨r1, n1, e1, l1, k1, g1⟩ := h1.ok t ht
    have h2 := srun_node (t.objs ++ n1) t.vars (r1.map some) h.1
    rw [List.length_map, l1, ht] at h2
    refine ⟨[(t.objs ++ n1).length + 1], n1 ++ [r1.map some, [some (t.objs ++ n1).length]], ?_, rfl, ?_, ?_⟩
    · rw [build, srun_append, e1, Option.bind_some, h2]
      simp
    · rw [build, kindsOf_append, kindsOf_node]
      simp [k1]
    · intro i o hi
      rw [build, kindsOf_append, kindsOf_node] at hi
      rcases Nat.lt_or_ge i (kindsOf (buildAll n l)).length with hlt | hge
      · rw [List.getElem?_append_left hlt] at hi
        rw [List.getElem?_append_left (by omega)]
        exact g1 i o hi
      · rw [List.getElem?_append_right hge] at hi
        rw [List.getElem?_append_right (by omega), k1]
        generalize i - (kindsOf (buildAll n l)).length = j at hi
        match j with
        | 0 => simp at hi
        | 1 => exact ⟨_, rfl⟩
        | j + 2 => simp at hi

theorem makes_buildAll (n : Nat) : (l : List T) → AllOpsL (· ≠ 0) l → Makes n (buildAll n l) l.length
  | [], _ => by
    refine ⟨fun t _ => ⟨[], [], ?_, rfl, rfl, fun i op hi => ?_⟩⟩
    · simp [buildAll, srun]
    · simp [buildAll, kindsOf] at hi
  | t :: l, h => by
    have := (makes_build n t h.1).trans (makes_buildAll (n + 1) l h.2)
    rw [Nat.add_comm 1] at this
    exact this
end

theorem noAssign_append {a b : List Op} (h1 : NoAssign a) (h2 : NoAssign b) : NoAssign (a ++ b) := by
  intro d s h
  rcases List.mem_append.1 h with h | h
  · exact h1 d s h
  · exact h2 d s h

theorem noAssign_node (n k : Nat) (op : Int) : NoAssign (mkNode n k op) := by
  intro d s h
  simp [mkNode, List.mem_replicate] at h

mutual
theorem noAssign_build (n : Nat) : (t : T) → NoAssign (build n t)
  | .leaf => by intro d s h; simp [build, mkLeaf] at h
  | .node op l => by
    rw [build]
    exact noAssign_append (noAssign_buildAll n l) (noAssign_node _ _ _)

theorem noAssign_buildAll (n : Nat) : (l : List T) → NoAssign (buildAll n l)
  | [] => by intro d s h; simp [buildAll] at h
  | t :: l => by
    rw [buildAll]
    exact noAssign_append (noAssign_build n t) (noAssign_buildAll (n + 1) l)
end

mutual
/-- The operators in the program are those of the tree. -/
theorem kinds_build (P : Int → Prop) (n : Nat) : (t : T) → (AllOps P t ↔ ∀ op, Kind.tree op ∈ kindsOf (build n t) → P op)
  | .leaf => by simp [AllOps, build, mkLeaf, kindsOf]
  | .node op l => by
    rw [AllOps, kinds_buildAll P n l, build, kindsOf_append, kindsOf_node]
    constructor
    · rintro ⟨h1, h2⟩ o ho
      simp only [List.mem_append, List.mem_cons, reduceCtorEq, false_or, List.not_mem_nil, or_false, Kind.tree.injEq] at ho
      rcases ho with ho | ho
      · exact h2 o ho
      · subst ho; exact h1
    · intro h
      exact ⟨h op (by simp), fun o ho => h o (List.mem_append_left _ ho)⟩

theorem kinds_buildAll (P : Int → Prop) (n : Nat) :
    (l : List T) → (AllOpsL P l ↔ ∀ op, Kind.tree op ∈ kindsOf (buildAll n l) → P op)
  | [] => by simp [AllOpsL, buildAll, kindsOf]
  | t :: l => by
    rw [AllOpsL, kinds_build P n t, kinds_buildAll P (n + 1) l, buildAll, kindsOf_append]
    constructor
    · rintro ⟨h1, h2⟩ o ho
      rcases List.mem_append.1 ho with ho | ho
      · exact h1 o ho
      · exact h2 o ho
    · intro h
      exact ⟨fun o ho => h o (List.mem_append_left _ ho), fun o ho => h o (List.mem_append_right _ ho)⟩
end

end Lolly.TreeLife
