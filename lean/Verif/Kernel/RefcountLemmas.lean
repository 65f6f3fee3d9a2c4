import Verif.Kernel.Refcount

set_option autoImplicit false

/-!
# Lemmas about reference counting
-/

namespace Lolly.Refcount

/-- The destructor of the object does not destroy the fields. -/
def keeps (x : Obj) : Bool :=
  match x.kind with
  | .plain => false
  | .tree op => decide (op < 0)

/-- The handles to `o` in the fields of one object. -/
def inObj (o : Nat) (x : Obj) : Nat := if x.life = .alive ∨ keeps x = true then x.fields.count (some o) else 0

/-- The handles to `o` in objects. -/
def inHeap (h : Heap) (o : Nat) : Nat := (h.map (inObj o)).sum

/-- The handles to `o`: in variables, in objects, and those that are about to be destroyed. -/
def H (vars : List (Option Nat)) (h : Heap) (todo : List Task) (o : Nat) : Nat :=
  vars.count (some o) + inHeap h o + todo.count (.release (some o))

/-- The invariant while handles are being destroyed. -/
def J (vars : List (Option Nat)) (h : Heap) (todo : List Task) : Prop :=
  (∀ (o : Nat) (x : Obj), h[o]? = some x → x.kind ≠ .tree 0) ∧
  ∀ o, match h[o]? with
    | none => H vars h todo o = 0 ∧ todo.count (.free o) = 0
    | some x =>
      match x.life with
      | .alive => x.count = H vars h todo o ∧ 1 ≤ H vars h todo o ∧ todo.count (.free o) = 0
      | .dying => H vars h todo o = 0 ∧ todo.count (.free o) = 1
      | .dead => H vars h todo o = 0 ∧ todo.count (.free o) = 0

theorem J.none_at {vars : List (Option Nat)} {h : Heap} {todo : List Task} (hj : J vars h todo) {o : Nat} (ho : h[o]? = none) :
    H vars h todo o = 0 ∧ todo.count (.free o) = 0 := by
  have := hj.2 o; rw [ho] at this; exact this

theorem J.alive_at {vars : List (Option Nat)} {h : Heap} {todo : List Task} (hj : J vars h todo) {o : Nat} {x : Obj}
    (ho : h[o]? = some x) (hx : x.life = .alive) :
    x.count = H vars h todo o ∧ 1 ≤ H vars h todo o ∧ todo.count (.free o) = 0 := by
  have := hj.2 o; rw [ho] at this; simpa only [hx] using this

theorem J.dying_at {vars : List (Option Nat)} {h : Heap} {todo : List Task} (hj : J vars h todo) {o : Nat} {x : Obj}
    (ho : h[o]? = some x) (hx : x.life = .dying) : H vars h todo o = 0 ∧ todo.count (.free o) = 1 := by
  have := hj.2 o; rw [ho] at this; simpa only [hx] using this

theorem J.dead_at {vars : List (Option Nat)} {h : Heap} {todo : List Task} (hj : J vars h todo) {o : Nat} {x : Obj}
    (ho : h[o]? = some x) (hx : x.life = .dead) : H vars h todo o = 0 ∧ todo.count (.free o) = 0 := by
  have := hj.2 o; rw [ho] at this; simpa only [hx] using this

/-- A handle points to an object in use. -/
theorem J.alive_of {vars : List (Option Nat)} {h : Heap} {todo : List Task} (hj : J vars h todo) {o : Nat}
    (ho : 0 < H vars h todo o) : ∃ x, h[o]? = some x ∧ x.life = .alive := by
  cases hx : h[o]? with
  | none => have := hj.none_at hx; omega
  | some x =>
    refine ⟨x, rfl, ?_⟩
    cases hl : x.life with
    | alive => rfl
    | dying => have := hj.dying_at hx hl; omega
    | dead => have := hj.dead_at hx hl; omega

/-- The invariant from its parts. -/
theorem J.intro {vars : List (Option Nat)} {h : Heap} {todo : List Task}
    (h0 : ∀ (o : Nat) (x : Obj), h[o]? = some x → x.kind ≠ .tree 0)
    (h1 : ∀ o : Nat, h[o]? = none → H vars h todo o = 0 ∧ todo.count (.free o) = 0)
    (h2 : ∀ (o : Nat) (x : Obj), h[o]? = some x → x.life = .alive → x.count = H vars h todo o ∧ 1 ≤ H vars h todo o ∧ todo.count (.free o) = 0)
    (h3 : ∀ (o : Nat) (x : Obj), h[o]? = some x → x.life = .dying → H vars h todo o = 0 ∧ todo.count (.free o) = 1)
    (h4 : ∀ (o : Nat) (x : Obj), h[o]? = some x → x.life = .dead → H vars h todo o = 0 ∧ todo.count (.free o) = 0) : J vars h todo := by
  refine ⟨h0, fun o => ?_⟩
  cases hx : h[o]? with
  | none => exact h1 o hx
  | some x =>
    dsimp only
    cases hl : x.life with
    | alive => exact h2 o x hx hl
    | dying => exact h3 o x hx hl
    | dead => exact h4 o x hx hl

theorem sum_set {α : Type} (l : List α) (g : α → Nat) {i : Nat} {x : α} (y : α) (hi : l[i]? = some x) :
    ((l.set i y).map g).sum + g x = (l.map g).sum + g y := by
  induction l generalizing i with
  | nil => simp at hi
  | cons a l ih =>
    cases i with
    | zero =>
      simp only [List.getElem?_cons_zero, Option.some.injEq] at hi
      subst hi
      simp only [List.set_cons_zero, List.map_cons, List.sum_cons]
      omega
    | succ i =>
      simp only [List.getElem?_cons_succ] at hi
      simp only [List.set_cons_succ, List.map_cons, List.sum_cons]
      have := ih hi
      omega

theorem inHeap_set (h : Heap) {o : Nat} {x : Obj} (y : Obj) (ho : h[o]? = some x) (p : Nat) :
    inHeap (h.set o y) p + inObj p x = inHeap h p + inObj p y := sum_set h (inObj p) y ho

theorem le_inHeap {h : Heap} {o p : Nat} {x : Obj} (ho : h[o]? = some x) (hx : x.life = .alive ∨ keeps x = true) (hp : some p ∈ x.fields) :
    0 < inHeap h p := by
  have : 0 < inObj p x := by
    rw [inObj, if_pos hx]
    exact List.count_pos_iff.2 hp
  unfold inHeap
  have hm : inObj p x ∈ h.map (inObj p) := List.mem_map.2 ⟨x, List.mem_of_getElem? ho, rfl⟩
  clear ho hp
  generalize h.map (inObj p) = l at hm
  induction l with
  | nil => simp at hm
  | cons a l ih =>
    simp only [List.mem_cons] at hm
    simp only [List.sum_cons]
    rcases hm with hm | hm
    · omega
    · have := ih hm; omega

theorem inHeap_pos {h : Heap} {p : Nat} (hp : 0 < inHeap h p) : ∃ (o : Nat) (x : Obj), h[o]? = some x ∧ (x.life = .alive ∨ keeps x = true) ∧ some p ∈ x.fields := by
  unfold inHeap at hp
  induction h with
  | nil => simp at hp
  | cons x h ih =>
    simp only [List.map_cons, List.sum_cons] at hp
    by_cases h0 : 0 < inObj p x
    · refine ⟨0, x, rfl, ?_⟩
      unfold inObj at h0
      split at h0
      · next hl => exact ⟨hl, List.count_pos_iff.1 h0⟩
      · simp at h0
    · obtain ⟨o, y, h1, h2⟩ := ih (by omega)
      exact ⟨o + 1, y, by simpa using h1, h2⟩

/-- The objects that can be reached from the variables. -/
inductive Reach (vars : List (Option Nat)) (h : Heap) : Nat → Prop
  | var {o : Nat} : some o ∈ vars → Reach vars h o
  | field {o p : Nat} {x : Obj} : Reach vars h o → h[o]? = some x → some p ∈ x.fields → Reach vars h p

/-- Such an object has a handle that is not about to be destroyed, and is in use. -/
theorem Reach.anchored {vars : List (Option Nat)} {h : Heap} {todo : List Task} (hj : J vars h todo) {o : Nat}
    (hr : Reach vars h o) : 0 < vars.count (some o) + inHeap h o ∧ ∃ x, h[o]? = some x ∧ x.life = .alive := by
  induction hr with
  | var hv =>
    have := List.count_pos_iff.2 hv
    exact ⟨by omega, hj.alive_of (by unfold H; omega)⟩
  | field _ hx hp ih =>
    obtain ⟨-, y, hy, hl⟩ := ih
    rw [hx] at hy
    injection hy with hy
    subst hy
    have := le_inHeap hx (.inl hl) hp
    exact ⟨by omega, hj.alive_of (by unfold H; omega)⟩

/-! ## The slot that is being assigned -/

/-- Empty the slot that is being assigned. -/
def clear (h : Heap) : Option (Nat × Nat) → Heap
  | none => h
  | some (o, f) =>
    match h[o]? with
    | some x => h.set o { x with fields := x.fields.set f none }
    | none => h

theorem clear_length (h : Heap) (hole : Option (Nat × Nat)) : (clear h hole).length = h.length := by
  unfold clear
  split
  · rfl
  · split <;> simp

/-- The object at a place after the slot was emptied. -/
def clearObj (hole : Option (Nat × Nat)) (o : Nat) (x : Obj) : Obj :=
  match hole with
  | none => x
  | some (p, f) => if p = o then { x with fields := x.fields.set f none } else x

theorem clear_get (h : Heap) (hole : Option (Nat × Nat)) (o : Nat) : (clear h hole)[o]? = (h[o]?).map (clearObj hole o) := by
  unfold clear clearObj
  cases hole with
  | none => simp
  | some pf =>
    obtain ⟨p, f⟩ := pf
    dsimp only
    cases hp : h[p]? with
    | none =>
      dsimp only
      by_cases hpo : p = o
      · subst hpo; rw [hp]; rfl
      · simp [hpo]
    | some y =>
      dsimp only
      rw [List.getElem?_set]
      by_cases hpo : p = o
      · subst hpo
        have hlt : p < h.length := (List.getElem?_eq_some_iff.1 hp).1
        rw [if_pos rfl, if_pos hlt, hp]
        simp
      · rw [if_neg hpo]
        cases h[o]? <;> simp [hpo]

theorem clearObj_life (hole : Option (Nat × Nat)) (o : Nat) (x : Obj) : (clearObj hole o x).life = x.life := by
  unfold clearObj
  split
  · rfl
  · split <;> rfl

theorem clearObj_kind (hole : Option (Nat × Nat)) (o : Nat) (x : Obj) : (clearObj hole o x).kind = x.kind := by
  unfold clearObj
  split
  · rfl
  · split <;> rfl

theorem keeps_congr {x y : Obj} (h : y.kind = x.kind) : keeps y = keeps x := by unfold keeps; rw [h]

/-- What the destructor destroys, and what stays. -/
theorem destroyed_ok {x : Obj} (hk : x.kind ≠ .tree 0) :
    ∃ l, destroyed x = .ok l ∧ l.length ≤ x.fields.length ∧
      ∀ y : Obj, y.life ≠ .alive → y.fields = x.fields → y.kind = x.kind → ∀ p, inObj p y + l.count (some p) = x.fields.count (some p) := by
  unfold destroyed
  cases hx : x.kind with
  | plain =>
    refine ⟨x.fields, rfl, Nat.le_refl _, fun y hl hf hy p => ?_⟩
    rw [inObj, if_neg, Nat.zero_add]
    rw [keeps_congr (hy.trans hx.symm)]
    simp [hl, keeps, hx]
  | tree op =>
    have h0 : op ≠ 0 := fun h => hk (by rw [hx, h])
    dsimp only
    rw [if_neg h0]
    by_cases hp : op > 0
    · refine ⟨x.fields, by rw [if_pos hp], Nat.le_refl _, fun y hl hf hy p => ?_⟩
      rw [inObj, if_neg, Nat.zero_add]
      rw [keeps_congr (hy.trans hx.symm)]
      simp only [hl, keeps, hx, false_or, decide_eq_true_eq]
      omega
    · refine ⟨[], by rw [if_neg hp], Nat.zero_le _, fun y hl hf hy p => ?_⟩
      rw [inObj, if_pos, hf]
      · rfl
      · rw [keeps_congr (hy.trans hx.symm)]
        simp only [keeps, hx, decide_eq_true_eq]
        omega

theorem clearObj_count (hole : Option (Nat × Nat)) (o : Nat) (x : Obj) : (clearObj hole o x).count = x.count := by
  unfold clearObj
  split
  · rfl
  · split <;> rfl

/-- Emptying the slot and changing another part of an object. -/
theorem clear_set (h : Heap) (hole : Option (Nat × Nat)) (o : Nat) (x : Obj) :
    clear (h.set o x) hole = (clear h hole).set o (clearObj hole o x) := by
  apply List.ext_getElem?
  intro i
  rw [clear_get, List.getElem?_set, List.getElem?_set, clear_length, clear_get]
  by_cases hi : o = i
  · subst hi
    rw [if_pos rfl, if_pos rfl]
    split <;> simp
  · rw [if_neg hi, if_neg hi]

/-! ## Destroying handles -/

/-- How many steps are needed at most. -/
def weight (h : Heap) (todo : List Task) : Nat := todo.length + (h.map fun x => if x.life = .alive then x.fields.length + 1 else 0).sum

theorem count_release (l : List (Option Nat)) (o : Nat) :
    (l.map Task.release).count (.release (some o)) = l.count (some o) := by
  induction l with
  | nil => rfl
  | cons a l ih =>
    rw [List.map_cons, List.count_cons, List.count_cons, ih]
    congr 1
    by_cases h : a = some o
    · subst h; simp
    · have : ¬ Task.release a = Task.release (some o) := fun hc => h (by injection hc)
      simp [h, this]

theorem count_free_release (l : List (Option Nat)) (o : Nat) : (l.map Task.release).count (.free o) = 0 := by
  rw [List.count_eq_zero]
  simp

/-- The objects in use keep their fields and no object comes to life again. -/
def Older (h h' : Heap) : Prop :=
  h'.length = h.length ∧ ∀ (o : Nat) (y : Obj), h'[o]? = some y → y.life = .alive →
    ∃ x : Obj, h[o]? = some x ∧ x.life = .alive ∧ y.fields = x.fields

theorem Older.refl (h : Heap) : Older h h := ⟨rfl, fun _ y h1 h2 => ⟨y, h1, h2, rfl⟩⟩

theorem Older.trans {a b c : Heap} (h1 : Older a b) (h2 : Older b c) : Older a c := by
  refine ⟨h2.1.trans h1.1, fun o y hy hl => ?_⟩
  obtain ⟨x, hx, hxl, hf⟩ := h2.2 o y hy hl
  obtain ⟨z, hz, hzl, hf'⟩ := h1.2 o x hx hxl
  exact ⟨z, hz, hzl, hf.trans hf'⟩

/-- One step. The object with the slot that is being assigned can be reached, so it is not destroyed. -/
theorem relStep_ok {vars : List (Option Nat)} {h : Heap} {t : Task} {todo : List Task} {hole : Option (Nat × Nat)}
    (hj : J vars (clear h hole) (t :: todo)) (hh : ∀ p, hole = some p → Reach vars (clear h hole) p.1) :
    ∃ h' todo', relStep h t todo = .ok (h', todo') ∧ J vars (clear h' hole) todo' ∧
      (∀ p, hole = some p → Reach vars (clear h' hole) p.1) ∧ Older h h' ∧ weight h' todo' < weight h (t :: todo) := by
  cases t with
  | release r =>
    cases r with
    | none =>
      refine ⟨h, todo, rfl, ?_, hh, Older.refl h, by simp [weight]⟩
      refine ⟨hj.1, fun o => ?_⟩
      have := hj.2 o
      simpa [H, List.count_cons] using this
    | some o =>
      have hpos : 0 < H vars (clear h hole) (.release (some o) :: todo) o := by simp [H]; omega
      obtain ⟨x', hx', hl'⟩ := hj.alive_of hpos
      rw [clear_get] at hx'
      cases hx : h[o]? with
      | none => rw [hx] at hx'; simp at hx'
      | some x =>
      rw [hx] at hx'
      simp only [Option.map_some, Option.some.injEq] at hx'
      subst hx'
      rw [clearObj_life] at hl'
      have hlt : o < h.length := (List.getElem?_eq_some_iff.1 hx).1
      have hcx : (clear h hole)[o]? = some (clearObj hole o x) := by rw [clear_get, hx]; rfl
      have hcl : (clearObj hole o x).life = .alive := by rw [clearObj_life]; exact hl'
      obtain ⟨hc1, hc2, hc3⟩ := hj.alive_at hcx hcl
      rw [clearObj_count] at hc1
      simp only [relStep, hx]
      rw [if_neg (by rw [hl']; simp)]
      by_cases hz : x.count - 1 = 0
      · -- the last handle
        rw [if_pos hz]
        have hk : x.kind ≠ .tree 0 := by
          have := hj.1 o _ hcx
          rwa [clearObj_kind] at this
        obtain ⟨l, hd, hdl, hdc⟩ := destroyed_ok hk
        rw [hd, Res.ok_bind]
        have hH1 : H vars (clear h hole) (.release (some o) :: todo) o = 1 := by omega
        have hanch : vars.count (some o) + inHeap (clear h hole) o = 0 := by
          unfold H at hH1; simp at hH1; omega
        have hnr : ¬ Reach vars (clear h hole) o := fun hr => by
          have := (hr.anchored hj).1; omega
        have hne : clearObj hole o x = x := by
          unfold clearObj
          cases hole with
          | none => rfl
          | some p =>
            obtain ⟨p, f⟩ := p
            dsimp only
            rw [if_neg]
            rintro rfl
            exact hnr (hh _ rfl)
        have hself : x.fields.count (some o) = 0 := by
          have h0 : inHeap (clear h hole) o = 0 := by omega
          rcases Nat.eq_zero_or_pos (x.fields.count (some o)) with h | h
          · exact h
          · have := le_inHeap hcx (.inl hcl) (p := o) (by rw [hne]; exact List.count_pos_iff.1 h)
            omega
        let x2 : Obj := { x with count := 0, life := .dying }
        have hne2 : clearObj hole o x2 = x2 := by
          unfold clearObj at hne ⊢
          cases hole with
          | none => rfl
          | some p =>
            obtain ⟨p, f⟩ := p
            dsimp only at hne ⊢
            rw [if_neg]
            rintro rfl
            exact hnr (hh _ rfl)
        have hin : ∀ p, inHeap (clear (h.set o x2) hole) p + l.count (some p) = inHeap (clear h hole) p := by
          intro p
          rw [clear_set, hne2]
          have := inHeap_set (clear h hole) x2 hcx p
          rw [hne] at this
          have e1 : inObj p x = x.fields.count (some p) := by rw [inObj, if_pos (.inl hl')]
          have e2 := hdc x2 (by simp [x2]) rfl rfl p
          omega
        let todo2 : List Task := l.reverse.map .release ++ .free o :: todo
        have hH : ∀ p, H vars (clear (h.set o x2) hole) todo2 p =
            vars.count (some p) + inHeap (clear h hole) p + todo.count (.release (some p)) := by
          intro p
          have := hin p
          simp only [H, todo2, List.count_append, count_release, List.count_cons, List.count_reverse]
          simp
          omega
        have hHp : ∀ p, p ≠ o → H vars (clear (h.set o x2) hole) todo2 p = H vars (clear h hole) (.release (some o) :: todo) p := by
          intro p hp
          rw [hH p]
          simp [H, hp.symm]
        have hHo : H vars (clear (h.set o x2) hole) todo2 o = 0 := by
          rw [hH o]; unfold H at hH1; simp at hH1; omega
        have hfree : ∀ p, todo2.count (.free p) = todo.count (.free p) + (if p = o then 1 else 0) := by
          intro p
          simp only [todo2, List.count_append, count_free_release, List.count_cons]
          by_cases hp : p = o
          · subst hp; simp
          · have : ¬ o = p := fun h => hp h.symm
            simp [hp, this]
        have hget : ∀ p, (clear (h.set o x2) hole)[p]? = if o = p then some x2 else (clear h hole)[p]? := by
          intro p
          rw [clear_set, hne2, List.getElem?_set, clear_length]
          split
          · rfl
          · rfl
        have hfo := hc3
        simp only [List.count_cons] at hfo
        refine ⟨h.set o x2, todo2, rfl, ?_, ?_, ?_, ?_⟩
        · refine J.intro ?_ ?_ ?_ ?_ ?_
          · intro p y hp
            rw [hget] at hp
            split at hp
            · injection hp with hp; subst hp; first | exact hk | (rw [clearObj_kind]; have := hj.1 o _ hcx; rwa [clearObj_kind] at this)
            · exact hj.1 p y hp
          · intro p hp
            rw [hget] at hp
            split at hp
            · simp at hp
            · next hop =>
              rw [hHp p (Ne.symm hop), hfree p, if_neg (Ne.symm hop)]
              simpa [List.count_cons] using hj.none_at hp
          · intro p y hp hy
            rw [hget] at hp
            split at hp
            · injection hp with hp; subst hp; simp [x2] at hy
            · next hop =>
              rw [hHp p (Ne.symm hop), hfree p, if_neg (Ne.symm hop)]
              simpa [List.count_cons] using hj.alive_at hp hy
          · intro p y hp hy
            rw [hget] at hp
            split at hp
            · next hop =>
              subst hop
              rw [hfree, if_pos rfl]
              exact ⟨hHo, by simp at hfo ⊢; exact hfo⟩
            · next hop =>
              rw [hHp p (Ne.symm hop), hfree p, if_neg (Ne.symm hop)]
              simpa [List.count_cons] using hj.dying_at hp hy
          · intro p y hp hy
            rw [hget] at hp
            split at hp
            · injection hp with hp; subst hp; simp [x2] at hy
            · next hop =>
              rw [hHp p (Ne.symm hop), hfree p, if_neg (Ne.symm hop)]
              simpa [List.count_cons] using hj.dead_at hp hy
        · have key : ∀ q, Reach vars (clear h hole) q → Reach vars (clear (h.set o x2) hole) q := by
            intro q hq
            induction hq with
            | var hv => exact .var hv
            | @field a b y ha hy hb ih =>
              refine .field (x := y) ih ?_ hb
              rw [hget, if_neg]
              · exact hy
              · rintro rfl; exact hnr ha
          exact fun p hp => key _ (hh p hp)
        · refine ⟨by simp, fun p y hp hy => ?_⟩
          rw [List.getElem?_set] at hp
          split at hp
          · injection hp with hp; subst hp; simp [x2] at hy
          · exact ⟨y, hp, hy, rfl⟩
        · have := sum_set h (fun x => if x.life = .alive then x.fields.length + 1 else 0) x2 hx
          simp only [hl', if_true] at this
          rw [if_neg (by simp [x2])] at this
          simp only [weight, todo2, List.length_append, List.length_map, List.length_reverse, List.length_cons]
          omega
      · rw [if_neg hz]
        let x2 : Obj := { x with count := x.count - 1 }
        have hfl : (clearObj hole o x2).fields = (clearObj hole o x).fields := by
          unfold clearObj
          cases hole with
          | none => rfl
          | some p =>
            dsimp only
            split <;> rfl
        have hlf : (clearObj hole o x2).life = .alive := by rw [clearObj_life]; exact hl'
        have hin : ∀ p, inHeap (clear (h.set o x2) hole) p = inHeap (clear h hole) p := by
          intro p
          rw [clear_set]
          have := inHeap_set (clear h hole) (clearObj hole o x2) hcx p
          have e : inObj p (clearObj hole o x2) = inObj p (clearObj hole o x) := by
            rw [inObj, if_pos (.inl hlf), inObj, if_pos (.inl hcl), hfl]
          omega
        have hH : ∀ p, H vars (clear (h.set o x2) hole) todo p + (if p = o then 1 else 0) =
            H vars (clear h hole) (.release (some o) :: todo) p := by
          intro p
          simp only [H, hin p, List.count_cons]
          by_cases hp : p = o
          · subst hp; simp; omega
          · have : ¬ o = p := fun h => hp h.symm
            simp [hp, this]
        have hHp : ∀ p, p ≠ o → H vars (clear (h.set o x2) hole) todo p = H vars (clear h hole) (.release (some o) :: todo) p := by
          intro p hp
          have := hH p
          rw [if_neg hp] at this
          omega
        have hHo := hH o
        rw [if_pos rfl] at hHo
        have hget : ∀ p, (clear (h.set o x2) hole)[p]? = if o = p then some (clearObj hole o x2) else (clear h hole)[p]? := by
          intro p
          rw [clear_set, List.getElem?_set, clear_length]
          split
          · rfl
          · rfl
        have hfo := hc3
        refine ⟨h.set o x2, todo, rfl, ?_, ?_, ?_, ?_⟩
        · refine J.intro ?_ ?_ ?_ ?_ ?_
          · intro p y hp
            rw [hget] at hp
            split at hp
            · injection hp with hp; subst hp; first | exact hk | (rw [clearObj_kind]; have := hj.1 o _ hcx; rwa [clearObj_kind] at this)
            · exact hj.1 p y hp
          · intro p hp
            rw [hget] at hp
            split at hp
            · simp at hp
            · next hop =>
              rw [hHp p (Ne.symm hop)]
              simpa [List.count_cons] using hj.none_at hp
          · intro p y hp hy
            rw [hget] at hp
            split at hp
            · next hop =>
              subst hop
              injection hp with hp
              subst hp
              rw [clearObj_count]
              refine ⟨?_, ?_, by simpa [List.count_cons] using hc3⟩
              · show x.count - 1 = _; omega
              · omega
            · next hop =>
              rw [hHp p (Ne.symm hop)]
              simpa [List.count_cons] using hj.alive_at hp hy
          · intro p y hp hy
            rw [hget] at hp
            split at hp
            · injection hp with hp; subst hp; rw [hlf] at hy; cases hy
            · next hop =>
              rw [hHp p (Ne.symm hop)]
              simpa [List.count_cons] using hj.dying_at hp hy
          · intro p y hp hy
            rw [hget] at hp
            split at hp
            · injection hp with hp; subst hp; rw [hlf] at hy; cases hy
            · next hop =>
              rw [hHp p (Ne.symm hop)]
              simpa [List.count_cons] using hj.dead_at hp hy
        · have key : ∀ q, Reach vars (clear h hole) q → Reach vars (clear (h.set o x2) hole) q := by
            intro q hq
            induction hq with
            | var hv => exact .var hv
            | @field a b y ha hy hb ih =>
              by_cases hao : o = a
              · subst hao
                rw [hcx] at hy
                injection hy with hy
                subst hy
                refine .field (x := clearObj hole o x2) ih ?_ (by rw [hfl]; exact hb)
                rw [hget, if_pos rfl]
              · refine .field (x := y) ih ?_ hb
                rw [hget, if_neg hao]
                exact hy
          exact fun p hp => key _ (hh p hp)
        · refine ⟨by simp, fun p y hp hy => ?_⟩
          rw [List.getElem?_set] at hp
          split at hp
          · next hop =>
            subst hop
            injection hp with hp; subst hp
            exact ⟨x, hx, hl', rfl⟩
          · exact ⟨y, hp, hy, rfl⟩
        · have := sum_set h (fun x => if x.life = .alive then x.fields.length + 1 else 0) x2 hx
          have e1 : (if x.life = .alive then x.fields.length + 1 else 0) = x.fields.length + 1 := if_pos hl'
          have e2 : (if x2.life = .alive then x2.fields.length + 1 else 0) = x.fields.length + 1 := if_pos hl'
          simp only [weight, List.length_cons]
          omega
  | free o =>
    have hcnt : 0 < (Task.free o :: todo).count (.free o) := by simp
    cases hx : h[o]? with
    | none =>
      have := hj.none_at (o := o) (by rw [clear_get, hx]; rfl)
      omega
    | some x =>
      have hcx : (clear h hole)[o]? = some (clearObj hole o x) := by rw [clear_get, hx]; rfl
      have hlt : o < h.length := (List.getElem?_eq_some_iff.1 hx).1
      have hl : x.life = .dying := by
        have hle := clearObj_life hole o x
        cases hl : x.life with
        | alive => have := hj.alive_at hcx (hle.trans hl); omega
        | dying => rfl
        | dead => have := hj.dead_at hcx (hle.trans hl); omega
      have hcl : (clearObj hole o x).life = .dying := by rw [clearObj_life]; exact hl
      obtain ⟨hd1, hd2⟩ := hj.dying_at hcx hcl
      simp only [relStep, hx]
      rw [if_neg (by rw [hl]; simp)]
      let x2 : Obj := { x with life := .dead }
      have hlf : (clearObj hole o x2).life = .dead := by rw [clearObj_life]
      have hin : ∀ p, inHeap (clear (h.set o x2) hole) p = inHeap (clear h hole) p := by
        intro p
        rw [clear_set]
        have := inHeap_set (clear h hole) (clearObj hole o x2) hcx p
        have hk : (clearObj hole o x2).kind = (clearObj hole o x).kind := by rw [clearObj_kind, clearObj_kind]
        have hfl : (clearObj hole o x2).fields = (clearObj hole o x).fields := by
          unfold clearObj
          cases hole with
          | none => rfl
          | some p =>
            dsimp only
            split <;> rfl
        have e1 : inObj p (clearObj hole o x2) = inObj p (clearObj hole o x) := by
          simp only [inObj, hlf, hcl, keeps_congr hk, hfl]
          simp
        omega
      have hH : ∀ p, H vars (clear (h.set o x2) hole) todo p = H vars (clear h hole) (.free o :: todo) p := by
        intro p
        simp [H, hin p]
      have hget : ∀ p, (clear (h.set o x2) hole)[p]? = if o = p then some (clearObj hole o x2) else (clear h hole)[p]? := by
        intro p
        rw [clear_set, List.getElem?_set, clear_length]
        split
        · rfl
        · rfl
      have hfree : ∀ p, p ≠ o → (Task.free o :: todo).count (.free p) = todo.count (.free p) := by
        intro p hp
        have : ¬ o = p := fun h => hp h.symm
        simp [this]
      have hnr : ¬ Reach vars (clear h hole) o := fun hr => by
        have := (hr.anchored hj).1
        unfold H at hd1
        omega
      refine ⟨h.set o x2, todo, rfl, ?_, ?_, ?_, ?_⟩
      · refine J.intro ?_ ?_ ?_ ?_ ?_
        · intro p y hp
          rw [hget] at hp
          split at hp
          · injection hp with hp; subst hp; first | exact hk | (rw [clearObj_kind]; have := hj.1 o _ hcx; rwa [clearObj_kind] at this)
          · exact hj.1 p y hp
        · intro p hp
          rw [hget] at hp
          split at hp
          · simp at hp
          · next hop =>
            rw [hH p, ← hfree p (Ne.symm hop)]
            exact hj.none_at hp
        · intro p y hp hy
          rw [hget] at hp
          split at hp
          · injection hp with hp; subst hp; rw [hlf] at hy; cases hy
          · next hop =>
            rw [hH p, ← hfree p (Ne.symm hop)]
            exact hj.alive_at hp hy
        · intro p y hp hy
          rw [hget] at hp
          split at hp
          · injection hp with hp; subst hp; rw [hlf] at hy; cases hy
          · next hop =>
            rw [hH p, ← hfree p (Ne.symm hop)]
            exact hj.dying_at hp hy
        · intro p y hp hy
          rw [hget] at hp
          split at hp
          · next hop =>
            subst hop
            rw [hH]
            refine ⟨hd1, ?_⟩
            simp at hd2
            exact hd2
          · next hop =>
            rw [hH p, ← hfree p (Ne.symm hop)]
            exact hj.dead_at hp hy
      · have key : ∀ q, Reach vars (clear h hole) q → Reach vars (clear (h.set o x2) hole) q := by
          intro q hq
          induction hq with
          | var hv => exact .var hv
          | @field a b y ha hy hb ih =>
            refine .field (x := y) ih ?_ hb
            rw [hget, if_neg]
            · exact hy
            · rintro rfl; exact hnr ha
        exact fun p hp => key _ (hh p hp)
      · refine ⟨by simp, fun p y hp hy => ?_⟩
        rw [List.getElem?_set] at hp
        split at hp
        · injection hp with hp; subst hp; simp [x2] at hy
        · exact ⟨y, hp, hy, rfl⟩
      · have := sum_set h (fun x => if x.life = .alive then x.fields.length + 1 else 0) x2 hx
        have e1 : (if x.life = .alive then x.fields.length + 1 else 0) = 0 := if_neg (by rw [hl]; simp)
        have e2 : (if x2.life = .alive then x2.fields.length + 1 else 0) = 0 := if_neg (by simp [x2])
        simp only [weight, List.length_cons]
        omega

theorem relLoop_ok {vars : List (Option Nat)} {hole : Option (Nat × Nat)} {f : Nat} {h : Heap} {todo : List Task}
    (hj : J vars (clear h hole) todo) (hh : ∀ p, hole = some p → Reach vars (clear h hole) p.1) (hf : weight h todo ≤ f) :
    ∃ h', relLoop f h todo = .ok h' ∧ J vars (clear h' hole) [] ∧ (∀ p, hole = some p → Reach vars (clear h' hole) p.1) ∧
      Older h h' := by
  induction f generalizing h todo with
  | zero =>
    cases todo with
    | nil => exact ⟨h, by simp [relLoop], hj, hh, Older.refl h⟩
    | cons t todo => simp [weight] at hf
  | succ f ih =>
    cases todo with
    | nil => exact ⟨h, by simp [relLoop], hj, hh, Older.refl h⟩
    | cons t todo =>
      obtain ⟨h1, todo1, e1, hj1, hh1, ho1, hw1⟩ := relStep_ok hj hh
      obtain ⟨h2, e2, hj2, hh2, ho2⟩ := ih hj1 hh1 (by omega)
      refine ⟨h2, ?_, hj2, hh2, ho1.trans ho2⟩
      rw [relLoop, e1, Res.ok_bind]
      exact e2

theorem weight_le_fuel (h : Heap) (r : Option Nat) : weight h [.release r] ≤ fuel h := by
  unfold weight fuel
  have : (h.map fun x => if x.life = .alive then x.fields.length + 1 else 0).sum ≤ (h.map fun x => x.fields.length + 2).sum := by
    induction h with
    | nil => simp
    | cons x h ih =>
      simp only [List.map_cons, List.sum_cons]
      split <;> omega
  simp
  omega

theorem release_ok {vars : List (Option Nat)} {hole : Option (Nat × Nat)} {h : Heap} {r : Option Nat}
    (hj : J vars (clear h hole) [.release r]) (hh : ∀ p, hole = some p → Reach vars (clear h hole) p.1) :
    ∃ h', release h r = .ok h' ∧ J vars (clear h' hole) [] ∧ (∀ p, hole = some p → Reach vars (clear h' hole) p.1) ∧
      Older h h' := relLoop_ok hj hh (weight_le_fuel h r)

end Lolly.Refcount
