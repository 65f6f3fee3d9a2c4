import Verif.Kernel.RefcountLemmas
import Verif.Kernel.RefcountSpec

set_option autoImplicit false

/-!
# Programs with reference counts
-/

namespace Lolly.Refcount

/-- The invariant only depends on counts and on the number of handles. -/
theorem J.congr {vars vars' : List (Option Nat)} {h h' : Heap} {todo todo' : List Task} (hj : J vars h todo)
    (h1 : ∀ o : Nat, (h'[o]?).map (fun x => (x.life, x.count, x.kind)) = (h[o]?).map (fun x => (x.life, x.count, x.kind)))
    (h2 : ∀ o, H vars' h' todo' o = H vars h todo o) (h3 : ∀ o, todo'.count (.free o) = todo.count (.free o)) :
    J vars' h' todo' := by
  have key : ∀ (o : Nat) (x : Obj), h'[o]? = some x → ∃ y : Obj, h[o]? = some y ∧ y.life = x.life ∧ y.count = x.count ∧ y.kind = x.kind := by
    intro o x hx
    have := h1 o
    rw [hx] at this
    cases hy : h[o]? with
    | none => rw [hy] at this; simp at this
    | some y =>
      rw [hy] at this
      simp only [Option.map_some, Option.some.injEq, Prod.mk.injEq] at this
      exact ⟨y, rfl, this.1.symm, this.2.1.symm, this.2.2.symm⟩
  refine J.intro ?_ ?_ ?_ ?_ ?_
  · intro o x hx
    obtain ⟨y, hy, -, -, hyk⟩ := key o x hx
    rw [← hyk]
    exact hj.1 o y hy
  · intro o ho
    rw [h2, h3]
    have := h1 o
    rw [ho] at this
    cases hy : h[o]? with
    | none => exact hj.none_at hy
    | some y => rw [hy] at this; simp at this
  · intro o x hx hl
    obtain ⟨y, hy, hyl, hyc, -⟩ := key o x hx
    rw [h2, h3, ← hyc]
    exact hj.alive_at hy (hyl.trans hl)
  · intro o x hx hl
    obtain ⟨y, hy, hyl, hyc, -⟩ := key o x hx
    rw [h2, h3]
    exact hj.dying_at hy (hyl.trans hl)
  · intro o x hx hl
    obtain ⟨y, hy, hyl, hyc, -⟩ := key o x hx
    rw [h2, h3]
    exact hj.dead_at hy (hyl.trans hl)

/-- The heaps differ in counts only. -/
def Same (h h' : Heap) : Prop := ∀ o : Nat, (h'[o]?).map (fun x => (x.fields, x.life)) = (h[o]?).map (fun x => (x.fields, x.life))

theorem Same.trans {a b c : Heap} (h1 : Same a b) (h2 : Same b c) : Same a c := fun o => (h2 o).trans (h1 o)

theorem Same.symm {a b : Heap} (h1 : Same a b) : Same b a := fun o => (h1 o).symm

theorem Same.refl (h : Heap) : Same h h := fun _ => rfl

theorem Same.get {h h' : Heap} (hs : Same h h') {o : Nat} {x : Obj} (hx : h[o]? = some x) :
    ∃ y : Obj, h'[o]? = some y ∧ y.fields = x.fields ∧ y.life = x.life := by
  have := hs o
  rw [hx] at this
  cases hy : h'[o]? with
  | none => rw [hy] at this; simp at this
  | some y =>
    rw [hy] at this
    simp only [Option.map_some, Option.some.injEq, Prod.mk.injEq] at this
    exact ⟨y, rfl, this.1, this.2⟩

theorem Same.length {h h' : Heap} (hs : Same h h') : h'.length = h.length := by
  have key : ∀ {a b : Heap}, Same a b → a.length ≤ b.length := by
    intro a b hab
    rcases Nat.lt_or_ge b.length a.length with hlt | hge
    · have h1 := hab b.length
      rw [List.getElem?_eq_none (Nat.le_refl _), List.getElem?_eq_getElem hlt] at h1
      simp at h1
    · exact hge
  exact Nat.le_antisymm (key hs.symm) (key hs)

theorem Same.reach {h h' : Heap} (hs : Same h h') {vars : List (Option Nat)} {o : Nat} (hr : Reach vars h o) : Reach vars h' o := by
  induction hr with
  | var hv => exact .var hv
  | field _ hx hp ih =>
    obtain ⟨y, hy, hf, -⟩ := hs.get hx
    exact .field ih hy (by rw [hf]; exact hp)

theorem Reach.mono {vars vars' : List (Option Nat)} {h : Heap} {o : Nat} (hr : Reach vars h o) (hv : ∀ r ∈ vars, r ∈ vars') :
    Reach vars' h o := by
  induction hr with
  | var h1 => exact .var (hv _ h1)
  | field _ hx hp ih => exact .field ih hx hp

/-- A handle that may be copied. -/
def Valid (vars : List (Option Nat)) (h : Heap) (r : Option Nat) : Prop := ∀ o, r = some o → Reach vars h o

theorem inc_ok {vars : List (Option Nat)} {h : Heap} {r : Option Nat} (hj : J vars h []) (hr : Valid vars h r) :
    ∃ h', inc h r = .ok h' ∧ J (r :: vars) h' [] ∧ Same h h' := by
  cases r with
  | none =>
    refine ⟨h, rfl, hj.congr (fun _ => rfl) (fun o => ?_) (fun _ => rfl), Same.refl h⟩
    simp [H]
  | some o =>
    obtain ⟨-, x, hx, hl⟩ := (hr o rfl).anchored hj
    have hlt : o < h.length := (List.getElem?_eq_some_iff.1 hx).1
    have hin : ∀ p, inHeap (h.set o { x with count := x.count + 1 }) p = inHeap h p := by
      intro p
      have := inHeap_set h { x with count := x.count + 1 } hx p
      have e : inObj p { x with count := x.count + 1 } = inObj p x := rfl
      omega
    have hH : ∀ p, H (some o :: vars) (h.set o { x with count := x.count + 1 }) [] p = H vars h [] p + (if p = o then 1 else 0) := by
      intro p
      simp only [H, hin p, List.count_cons]
      by_cases hp : p = o
      · subst hp; simp; omega
      · have : ¬ o = p := fun h => hp h.symm
        simp [hp, this]
    refine ⟨h.set o { x with count := x.count + 1 }, ?_, ?_, ?_⟩
    · simp only [inc, hx]
      rw [if_neg (by rw [hl]; simp)]
    · refine J.intro ?_ ?_ ?_ ?_ ?_
      · intro p y hp
        rw [List.getElem?_set] at hp
        split at hp
        · injection hp with hp; subst hp; exact hj.1 o x hx
        · exact hj.1 p y hp
      · intro p hp
        rw [List.getElem?_set] at hp
        split at hp
        · simp at hp
        · next hop =>
          rw [hH, if_neg (Ne.symm hop)]
          exact hj.none_at hp
      · intro p y hp hy
        rw [List.getElem?_set] at hp
        split at hp
        · next hop =>
          subst hop
          injection hp with hp
          subst hp
          obtain ⟨h1, h2, h3⟩ := hj.alive_at hx hl
          rw [hH, if_pos rfl]
          refine ⟨?_, by omega, h3⟩
          show x.count + 1 = _
          omega
        · next hop =>
          rw [hH, if_neg (Ne.symm hop)]
          exact hj.alive_at hp hy
      · intro p y hp hy
        rw [List.getElem?_set] at hp
        split at hp
        · injection hp with hp; subst hp; rw [show _ = x.life from rfl, hl] at hy; cases hy
        · next hop =>
          rw [hH, if_neg (Ne.symm hop)]
          exact hj.dying_at hp hy
      · intro p y hp hy
        rw [List.getElem?_set] at hp
        split at hp
        · injection hp with hp; subst hp; rw [show _ = x.life from rfl, hl] at hy; cases hy
        · next hop =>
          rw [hH, if_neg (Ne.symm hop)]
          exact hj.dead_at hp hy
    · intro p
      rw [List.getElem?_set]
      split
      · next hop =>
        subst hop
        rw [hx]
        rfl
      · rfl

/-- The program and the one without counts. -/
structure Rel (s : State) (t : SState) : Prop where
  vars : s.vars = t.vars
  len : s.heap.length = t.objs.length
  inv : J s.vars s.heap []
  fields : ∀ (o : Nat) (x : Obj), s.heap[o]? = some x → x.life = .alive → t.objs[o]? = some x.fields

/-- As long as the counts are not looked at. -/
structure View (s : State) (t : SState) : Prop where
  vars : s.vars = t.vars
  alive : ∀ o, Reach s.vars s.heap o → ∃ x : Obj, s.heap[o]? = some x ∧ x.life = .alive ∧ t.objs[o]? = some x.fields

theorem Rel.view {s : State} {t : SState} (h : Rel s t) {h' : Heap} (hs : Same s.heap h') : View ⟨s.vars, h'⟩ t := by
  refine ⟨h.vars, fun o hr => ?_⟩
  obtain ⟨-, x, hx, hl⟩ := (hs.symm.reach hr).anchored h.inv
  obtain ⟨y, hy, hyf, hyl⟩ := hs.get hx
  exact ⟨y, hy, hyl.trans hl, by rw [hyf]; exact h.fields o x hx hl⟩

/-- A place that can be reached. -/
def LocOk (s : State) : Loc → Prop
  | .var _ => True
  | .field o _ => Reach s.vars s.heap o

theorem read_ok {s : State} {t : SState} (hv : View s t) {l : Loc} (hl : LocOk s l) {r : Option Nat} (hr : sread t l = some r) :
    readLoc s l = .ok r ∧ Valid s.vars s.heap r := by
  cases l with
  | var i =>
    simp only [sread] at hr
    refine ⟨?_, fun o ho => ?_⟩
    · simp only [readLoc]; rw [hv.vars, hr]
    · subst ho
      exact .var (by rw [hv.vars]; exact List.mem_of_getElem? hr)
  | field o f =>
    obtain ⟨x, hx, hxl, hxf⟩ := hv.alive o hl
    simp only [sread, hxf, Option.bind_some] at hr
    refine ⟨?_, fun p hp => ?_⟩
    · simp only [readLoc, hx]
      rw [if_neg (by rw [hxl]; simp), hr]
    · subst hp
      exact .field hl hx (List.mem_of_getElem? hr)

theorem follow_ok {s : State} {t : SState} (hv : View s t) {p : List Nat} {l l' : Loc} (hl : LocOk s l)
    (hf : sfollow t l p = some l') : follow s l p = .ok l' ∧ LocOk s l' := by
  induction p generalizing l with
  | nil =>
    injection hf with hf
    subst hf
    exact ⟨rfl, hl⟩
  | cons f p ih =>
    rw [sfollow] at hf
    cases hr : sread t l with
    | none => rw [hr] at hf; simp at hf
    | some r =>
      rw [hr] at hf
      cases r with
      | none => simp at hf
      | some o =>
        obtain ⟨h1, h2⟩ := read_ok hv hl hr
        obtain ⟨h3, h4⟩ := ih (l := .field o f) (h2 o rfl) hf
        exact ⟨by rw [follow, h1, Res.ok_bind]; exact h3, h4⟩

theorem place_ok {s : State} {t : SState} (hv : View s t) {p : Place} {r : Option Nat} (h : splace t p = some r) :
    evalPlace s p = .ok r ∧ Valid s.vars s.heap r := by
  unfold splace at h
  cases hl : sfollow t (.var p.root) p.path with
  | none => rw [hl] at h; simp at h
  | some l =>
    rw [hl] at h
    obtain ⟨h1, h2⟩ := follow_ok hv (l := .var p.root) trivial hl
    obtain ⟨h3, h4⟩ := read_ok hv h2 h
    exact ⟨by rw [evalPlace, locate, h1, Res.ok_bind, h3], h4⟩

theorem fields_ok {s : State} {t : SState} (h : Rel s t) {l : List (Option Place)} {rs extra : List (Option Nat)} {h0 : Heap}
    (hs : Same s.heap h0) (hj : J (extra ++ s.vars) h0 []) (hf : sfields t l = some rs) :
    ∃ h', copyFields s.vars h0 l = .ok (h', rs) ∧ J (rs.reverse ++ extra ++ s.vars) h' [] ∧ Same s.heap h' := by
  induction l generalizing rs extra h0 with
  | nil =>
    injection hf with hf
    subst hf
    exact ⟨h0, rfl, by simpa using hj, hs⟩
  | cons p l ih =>
    cases p with
    | none =>
      rw [sfields] at hf
      cases h1 : sfields t l with
      | none => rw [h1] at hf; simp at hf
      | some rs1 =>
        rw [h1] at hf
        simp only [Option.map_some, Option.some.injEq] at hf
        subst hf
        obtain ⟨h', e, hj', hs'⟩ := ih (extra := none :: extra) hs (by
          refine hj.congr (fun _ => rfl) (fun o => ?_) (fun _ => rfl)
          simp [H]) h1
        refine ⟨h', by rw [copyFields, e]; rfl, by simpa using hj', hs'⟩
    | some p =>
      rw [sfields] at hf
      cases h2 : splace t p with
      | none => rw [h2] at hf; simp at hf
      | some r =>
      rw [h2] at hf
      simp only [Option.bind_some] at hf
      cases h1 : sfields t l with
      | none => rw [h1] at hf; simp at hf
      | some rs1 =>
        rw [h1] at hf
        simp only [Option.map_some, Option.some.injEq] at hf
        subst hf
        obtain ⟨e1, hval⟩ := place_ok (h.view hs) h2
        obtain ⟨h3, e3, hj3, hs3⟩ := inc_ok (r := r) hj (fun o ho => (hval o ho).mono fun r hr => List.mem_append_right _ hr)
        obtain ⟨h', e, hj', hs'⟩ := ih (extra := r :: extra) (hs.trans hs3) hj3 h1
        refine ⟨h', ?_, by simpa using hj', hs'⟩
        rw [copyFields, e1, Res.ok_bind, e3, Res.ok_bind, e]
        rfl

theorem H_cons_release (vars : List (Option Nat)) (h : Heap) (r : Option Nat) (todo : List Task) (o : Nat) :
    H vars h (.release r :: todo) o = H (r :: vars) h todo o := by
  simp only [H, List.count_cons]
  by_cases hr : r = some o
  · subst hr; simp; omega
  · have : ¬ Task.release r = Task.release (some o) := fun hc => hr (by injection hc)
    simp [hr, this]

/-- A variable becomes a handle that is about to be destroyed. -/
theorem J.drop {vars : List (Option Nat)} {h : Heap} {r : Option Nat} (hj : J (r :: vars) h []) : J vars h [.release r] :=
  hj.congr (fun _ => rfl) (fun o => H_cons_release vars h r [] o) (fun _ => rfl)

theorem count_set {l : List (Option Nat)} {i : Nat} {r : Option Nat} (hi : l[i]? = some r) (x : Option Nat) (o : Nat) :
    (l.set i x).count (some o) + (if r = some o then 1 else 0) = l.count (some o) + (if x = some o then 1 else 0) := by
  induction l generalizing i with
  | nil => simp at hi
  | cons a l ih =>
    cases i with
    | zero =>
      simp only [List.getElem?_cons_zero, Option.some.injEq] at hi
      subst hi
      simp only [List.set_cons_zero, List.count_cons, beq_iff_eq]
      omega
    | succ i =>
      simp only [List.getElem?_cons_succ] at hi
      simp only [List.set_cons_succ, List.count_cons, beq_iff_eq]
      have := ih hi
      omega

theorem count_eraseIdx {l : List (Option Nat)} {i : Nat} {r : Option Nat} (hi : l[i]? = some r) (o : Nat) :
    (l.eraseIdx i).count (some o) + (if r = some o then 1 else 0) = l.count (some o) := by
  induction l generalizing i with
  | nil => simp at hi
  | cons a l ih =>
    cases i with
    | zero =>
      simp only [List.getElem?_cons_zero, Option.some.injEq] at hi
      subst hi
      simp only [List.eraseIdx_cons_zero, List.count_cons, beq_iff_eq]
    | succ i =>
      simp only [List.getElem?_cons_succ] at hi
      simp only [List.eraseIdx_cons_succ, List.count_cons, beq_iff_eq]
      have := ih hi
      omega

theorem inObj_alive (p : Nat) {x : Obj} (hl : x.life = .alive) : inObj p x = x.fields.count (some p) := by
  simp [inObj, hl]

theorem H_cons (vars : List (Option Nat)) (h : Heap) (r : Option Nat) (todo : List Task) (o : Nat) :
    H (r :: vars) h todo o = H vars h todo o + (if r = some o then 1 else 0) := by
  simp only [H, List.count_cons, beq_iff_eq]
  omega

/-- The object with the slot can still be reached after the slot was emptied. -/
theorem Reach.cleared {vars : List (Option Nat)} {h : Heap} {o f : Nat} {q : Nat} (hr : Reach vars h q) :
    Reach vars (clear h (some (o, f))) q ∨ Reach vars (clear h (some (o, f))) o := by
  induction hr with
  | var hv => exact .inl (.var hv)
  | @field a b x ha hx hb ih =>
    rcases ih with ih | ih
    · by_cases hao : o = a
      · subst hao; exact .inr ih
      · refine .inl (.field (x := x) ih ?_ hb)
        rw [clear_get, hx]
        simp [clearObj, hao]
    · exact .inr ih

theorem older_fields {s : Heap} {t : List (List (Option Nat))} {h' : Heap}
    (hf : ∀ (o : Nat) (x : Obj), s[o]? = some x → x.life = .alive → t[o]? = some x.fields) (ho : Older s h') :
    ∀ (o : Nat) (x : Obj), h'[o]? = some x → x.life = .alive → t[o]? = some x.fields := by
  intro o x hx hl
  obtain ⟨y, hy, hyl, hyf⟩ := ho.2 o x hx hl
  rw [hyf]
  exact hf o y hy hyl

theorem same_fields {s : Heap} {t : List (List (Option Nat))} {h' : Heap}
    (hf : ∀ (o : Nat) (x : Obj), s[o]? = some x → x.life = .alive → t[o]? = some x.fields) (ho : Same s h') :
    ∀ (o : Nat) (x : Obj), h'[o]? = some x → x.life = .alive → t[o]? = some x.fields := by
  intro o x hx hl
  obtain ⟨y, hy, hyf, hyl⟩ := ho.symm.get hx
  rw [← hyf]
  exact hf o y hy (hyl.trans hl)

/-- The end of an assignment: the copy of the argument is destroyed. -/
theorem finish {vars : List (Option Nat)} {h : Heap} {x : Option Nat} {t : SState} (hv : vars = t.vars)
    (hlen : h.length = t.objs.length) (hj : J (x :: vars) h [])
    (hf : ∀ (o : Nat) (y : Obj), h[o]? = some y → y.life = .alive → t.objs[o]? = some y.fields) :
    ∃ h', release h x = .ok h' ∧ Rel ⟨vars, h'⟩ t := by
  obtain ⟨h', e, hj', -, ho⟩ := release_ok (hole := none) hj.drop (by simp)
  exact ⟨h', e, hv, ho.1.trans hlen, hj', older_fields hf ho⟩

theorem step_rel {s : State} {t t' : SState} {op : Op} (h : Rel s t) (hs : sstep t op = some t') :
    ∃ s', step s op = .ok s' ∧ Rel s' t' := by
  cases op with
  | null =>
    injection hs with hs
    subst hs
    refine ⟨_, rfl, by simp [h.vars], h.len, ?_, h.fields⟩
    refine h.inv.congr (fun _ => rfl) (fun o => ?_) (fun _ => rfl)
    simp [H, List.count_append]
  | copy src =>
    simp only [sstep] at hs
    cases hr : splace t src with
    | none => rw [hr] at hs; simp at hs
    | some r =>
      rw [hr] at hs
      simp only [Option.map_some, Option.some.injEq] at hs
      subst hs
      obtain ⟨e1, hv⟩ := place_ok (h.view (Same.refl _)) hr
      obtain ⟨h', e2, hj, hsm⟩ := inc_ok h.inv hv
      refine ⟨⟨s.vars ++ [r], h'⟩, ?_, by simp [h.vars], by rw [hsm.length]; exact h.len, ?_, same_fields h.fields hsm⟩
      · simp only [step]
        rw [show evalPlace s src = .ok r from e1, Res.ok_bind, e2, Res.ok_bind]
      · refine hj.congr (fun _ => rfl) (fun o => ?_) (fun _ => rfl)
        simp [H, List.count_append, List.count_cons]
  | new l k =>
    simp only [sstep] at hs
    split at hs
    · cases hs
    next hk =>
    cases hr : sfields t l with
    | none => rw [hr] at hs; simp at hs
    | some rs =>
      rw [hr] at hs
      simp only [Option.map_some, Option.some.injEq] at hs
      subst hs
      obtain ⟨h', e, hj, hsm⟩ := fields_ok (extra := []) h (Same.refl _) (by simpa using h.inv) hr
      have hlen : h'.length = t.objs.length := by rw [hsm.length]; exact h.len
      refine ⟨⟨s.vars ++ [some h'.length], h' ++ [⟨1, rs, .alive, k⟩]⟩, ?_, by simp [h.vars, hlen], by simp [hlen], ?_, ?_⟩
      · simp only [step]
        rw [e]; rfl
      · have hlt : ∀ o, o < h'.length ∨ H (rs.reverse ++ [] ++ s.vars) h' [] o = 0 := by
          intro o
          rcases Nat.lt_or_ge o h'.length with hlt | hge
          · exact .inl hlt
          · exact .inr (hj.none_at (List.getElem?_eq_none hge)).1
        have hH : ∀ o, H (s.vars ++ [some h'.length]) (h' ++ [⟨1, rs, .alive, k⟩]) [] o =
            H (rs.reverse ++ [] ++ s.vars) h' [] o + (if h'.length = o then 1 else 0) := by
          intro o
          simp only [H, inHeap, List.map_append, List.sum_append_nat, List.count_append, List.count_cons, List.map_cons,
            List.map_nil, List.sum_cons, List.sum_nil, inObj, true_or, if_true, List.count_reverse, List.append_nil, List.count_nil]
          simp
          omega
        refine J.intro ?_ ?_ ?_ ?_ ?_
        · intro o x hx
          rcases List.mem_append.1 (List.mem_of_getElem? hx) with hm | hm
          · obtain ⟨i, hi⟩ := List.getElem?_of_mem hm
            exact hj.1 i x hi
          · simp only [List.mem_singleton] at hm
            subst hm
            exact hk
        · intro o ho
          have hge : h'.length + 1 ≤ o := by
            have := List.getElem?_eq_none_iff.1 ho
            simpa using this
          rw [hH, if_neg (by omega)]
          exact hj.none_at (List.getElem?_eq_none (by omega))
        all_goals
          intro o x hx hl
          rcases Nat.lt_trichotomy o h'.length with hlt' | heq | hgt
          · rw [List.getElem?_append_left hlt'] at hx
            rw [hH, if_neg (by omega)]
            first
              | exact hj.alive_at hx hl
              | exact hj.dying_at hx hl
              | exact hj.dead_at hx hl
          · subst heq
            simp at hx
            subst hx
            first
              | (have hz := (hlt h'.length).resolve_left (by omega)
                 rw [hH, if_pos rfl, hz]
                 exact ⟨rfl, by omega, rfl⟩)
              | cases hl
          · rw [List.getElem?_eq_none (by simp; omega)] at hx
            cases hx
      · intro o x hx hl
        rcases Nat.lt_trichotomy o h'.length with hlt' | heq | hgt
        · rw [List.getElem?_append_left hlt'] at hx
          simp only
          rw [List.getElem?_append_left (by omega)]
          exact same_fields h.fields hsm o x hx hl
        · subst heq
          simp at hx
          subst hx
          simp [hlen]
        · rw [List.getElem?_eq_none (by simp; omega)] at hx
          cases hx
  | drop i =>
    simp only [sstep] at hs
    split at hs
    · next hi =>
      injection hs with hs
      subst hs
      have hi' : i < s.vars.length := by rw [h.vars]; exact hi
      have hget : s.vars[i]? = some s.vars[i] := List.getElem?_eq_getElem hi'
      have hj : J (s.vars[i] :: s.vars.eraseIdx i) s.heap [] := by
        refine h.inv.congr (fun _ => rfl) (fun o => ?_) (fun _ => rfl)
        have := count_eraseIdx hget o
        rw [H_cons]
        simp only [H]
        omega
      obtain ⟨h', e, hr⟩ := finish (t := { t with vars := t.vars.eraseIdx i }) (by simp [h.vars]) h.len hj h.fields
      refine ⟨_, ?_, hr⟩
      simp only [step, hget]
      rw [e, Res.ok_bind]
    · cases hs
  | assign dst src =>
    simp only [sstep] at hs
    cases hr : splace t src with
    | none => rw [hr] at hs; simp at hs
    | some x =>
    rw [hr] at hs
    simp only [Option.bind_some] at hs
    cases hl : sfollow t (.var dst.root) dst.path with
    | none => rw [hl] at hs; simp at hs
    | some l =>
    rw [hl] at hs
    simp only [Option.bind_some] at hs
    obtain ⟨e1, hv1⟩ := place_ok (h.view (Same.refl _)) hr
    obtain ⟨h1, e2, hj1, hs1⟩ := inc_ok h.inv hv1
    obtain ⟨e3, hlok⟩ := follow_ok (h.view hs1) (l := .var dst.root) trivial hl
    have hv2 : Valid (x :: s.vars) h1 x := fun o ho => ((hs1.reach (hv1 o ho)).mono fun r hr => by simp [hr])
    obtain ⟨h2, e4, hj2, hs2⟩ := inc_ok hj1 hv2
    have hs12 := hs1.trans hs2
    have hf2 := same_fields h.fields hs12
    have hlen2 : h2.length = t.objs.length := by rw [hs12.length]; exact h.len
    -- the rest, for the two kinds of places
    suffices hrest : ∃ old h3 s4 h5, readLoc ⟨s.vars, h2⟩ l = .ok old ∧ release h2 old = .ok h3 ∧
        writeLoc ⟨s.vars, h3⟩ x l = .ok s4 ∧ release s4.heap x = .ok h5 ∧ Rel ⟨s4.vars, h5⟩ t' by
      obtain ⟨old, h3, s4, h5, e5, e6, e7, e8, hrel⟩ := hrest
      refine ⟨⟨s4.vars, h5⟩, ?_, hrel⟩
      simp only [step]
      rw [show evalPlace s src = .ok x from e1, Res.ok_bind, e2, Res.ok_bind, locate, e3, Res.ok_bind, e4, Res.ok_bind, e5,
        Res.ok_bind, e6, Res.ok_bind, e7, Res.ok_bind, e8, Res.ok_bind]
    cases l with
    | var i =>
      simp only [swrite] at hs
      split at hs
      · next hi =>
        injection hs with hs
        subst hs
        have hi' : i < s.vars.length := by rw [h.vars]; exact hi
        have hget : s.vars[i]? = some s.vars[i] := List.getElem?_eq_getElem hi'
        have hj3 : J (x :: x :: s.vars.set i none) h2 [.release s.vars[i]] := by
          refine hj2.congr (fun _ => rfl) (fun o => ?_) (fun _ => rfl)
          rw [H_cons_release]
          have := count_set hget none o
          simp only [H, List.count_cons, beq_iff_eq] at this ⊢
          simp at this
          omega
        obtain ⟨h3, e6, hj4, -, ho⟩ := release_ok (hole := none) hj3 (by simp)
        have hj5 : J (x :: s.vars.set i x) h3 [] := by
          refine hj4.congr (fun _ => rfl) (fun o => ?_) (fun _ => rfl)
          have h6 := count_set hget none o
          have h7 := count_set hget x o
          simp only [H, List.count_cons, beq_iff_eq, clear] at h6 h7 ⊢
          simp at h6
          omega
        obtain ⟨h5, e8, hrel⟩ := finish (t := { t with vars := t.vars.set i x }) (by simp [h.vars])
          (by rw [ho.1]; exact hlen2) hj5 (older_fields hf2 ho)
        refine ⟨s.vars[i], h3, ⟨s.vars.set i x, h3⟩, h5, ?_, e6, ?_, e8, hrel⟩
        · simp only [readLoc, hget]
        · simp only [writeLoc]; rw [if_pos hi']
      · cases hs
    | field o f =>
      simp only [swrite] at hs
      obtain ⟨y, hy, hyl, hyf⟩ := (h.view hs12).alive o (hs2.reach hlok)
      simp only at hy
      simp only [hyf, Option.bind_some] at hs
      split at hs
      · next hfl =>
        injection hs with hs
        subst hs
        have hget : y.fields[f]? = some y.fields[f] := List.getElem?_eq_getElem hfl
        have hclear : clear h2 (some (o, f)) = h2.set o { y with fields := y.fields.set f none } := by
          simp only [clear, hy]
        have hylt : o < h2.length := (List.getElem?_eq_some_iff.1 hy).1
        have hj3 : J (x :: x :: s.vars) (clear h2 (some (o, f))) [.release y.fields[f]] := by
          refine hj2.congr (fun p => ?_) (fun p => ?_) (fun _ => rfl)
          · rw [clear_get]
            cases h2[p]? with
            | none => rfl
            | some z => simp [clearObj_life, clearObj_count, clearObj_kind]
          · rw [H_cons_release, hclear]
            have h6 := inHeap_set h2 { y with fields := y.fields.set f none } hy p
            have h7 := count_set hget none p
            rw [inObj_alive p hyl, inObj_alive p (x := { y with fields := y.fields.set f none }) hyl] at h6
            dsimp only at h6
            simp only [H, List.count_cons, beq_iff_eq] at h7 ⊢
            simp at h7
            omega
        have hreach : Reach (x :: x :: s.vars) (clear h2 (some (o, f))) o := by
          have hr2 : Reach s.vars h2 o := hs2.reach hlok
          rcases (hr2.mono (vars' := x :: x :: s.vars) fun r hr => by simp [hr]).cleared (o := o) (f := f) with h | h <;> exact h
        obtain ⟨h3, e6, hj4, hr4, ho⟩ := release_ok (hole := some (o, f)) hj3 (fun p hp => by
          injection hp with hp; subst hp; exact hreach)
        obtain ⟨-, z', hz', hzl'⟩ := (hr4 (o, f) rfl).anchored hj4
        rw [clear_get] at hz'
        cases hz : h3[o]? with
        | none => rw [hz] at hz'; simp at hz'
        | some z =>
        rw [hz] at hz'
        simp only [Option.map_some, Option.some.injEq] at hz'
        subst hz'
        rw [clearObj_life] at hzl'
        obtain ⟨y', hy', -, hyf'⟩ := ho.2 o z hz hzl'
        rw [hy] at hy'
        injection hy' with hy'
        subst hy'
        have hzlt : o < h3.length := (List.getElem?_eq_some_iff.1 hz).1
        have hzget : z.fields[f]? = some y.fields[f] := by rw [hyf']; exact hget
        have hclear3 : clear h3 (some (o, f)) = h3.set o { z with fields := z.fields.set f none } := by
          simp only [clear, hz]
        let h4 : Heap := h3.set o { z with fields := z.fields.set f x }
        have hj5 : J (x :: s.vars) h4 [] := by
          refine hj4.congr (fun p => ?_) (fun p => ?_) (fun _ => rfl)
          · rw [clear_get, List.getElem?_set]
            split
            · next hop =>
              subst hop
              rw [hz]
              simp [clearObj_life, clearObj_count, clearObj_kind]
            · cases h3[p]? with
              | none => rfl
              | some u => simp [clearObj_life, clearObj_count, clearObj_kind]
          · rw [hclear3]
            have h6 := inHeap_set h3 { z with fields := z.fields.set f none } hz p
            have h7 := count_set hzget none p
            have h8 := inHeap_set h3 { z with fields := z.fields.set f x } hz p
            have h9 := count_set hzget x p
            rw [inObj_alive p hzl', inObj_alive p (x := { z with fields := z.fields.set f none }) hzl'] at h6
            rw [inObj_alive p hzl', inObj_alive p (x := { z with fields := z.fields.set f x }) hzl'] at h8
            dsimp only at h6 h8
            simp only [H, List.count_cons, beq_iff_eq, h4] at h7 ⊢
            simp at h7
            omega
        have hf4 : ∀ (p : Nat) (u : Obj), h4[p]? = some u → u.life = .alive →
            (t.objs.set o (y.fields.set f x))[p]? = some u.fields := by
          intro p u hu hul
          rw [List.getElem?_set] at hu ⊢
          split at hu
          · next hop =>
            subst hop
            injection hu with hu
            subst hu
            rw [if_pos rfl, if_pos (by have := ho.1; omega), hyf']
          · next hop =>
            rw [if_neg hop]
            exact older_fields hf2 ho p u hu hul
        obtain ⟨h5, e8, hrel⟩ := finish (t := { t with objs := t.objs.set o (y.fields.set f x) }) h.vars
          (by simp only [h4, List.length_set]; rw [ho.1]; exact hlen2) hj5 hf4
        refine ⟨y.fields[f], h3, ⟨s.vars, h4⟩, h5, ?_, e6, ?_, e8, hrel⟩
        · simp only [readLoc, hy]
          rw [if_neg (by rw [hyl]; simp), hget]
        · simp only [writeLoc, hz]
          rw [if_neg (by rw [hzl']; simp), if_pos (by rw [hyf']; exact hfl)]
      · cases hs

theorem run_rel {s : State} {t t' : SState} {ops : List Op} (h : Rel s t) (hs : srun t ops = some t') :
    ∃ s', run s ops = .ok s' ∧ Rel s' t' := by
  induction ops generalizing s t with
  | nil =>
    injection hs with hs
    subst hs
    exact ⟨s, rfl, h⟩
  | cons op ops ih =>
    rw [srun] at hs
    cases h1 : sstep t op with
    | none => rw [h1] at hs; simp at hs
    | some t1 =>
      rw [h1] at hs
      obtain ⟨s1, e1, hr1⟩ := step_rel h h1
      obtain ⟨s2, e2, hr2⟩ := ih hr1 hs
      exact ⟨s2, by rw [run, e1, Res.ok_bind, e2], hr2⟩

theorem rel_init : Rel ⟨[], []⟩ ⟨[], []⟩ :=
  ⟨rfl, rfl, ⟨by simp, fun o => by simp [H, inHeap]⟩, by simp⟩

/-! ## What only counts and lives do not change -/

/-- Depends neither on the count nor on the life of an object. -/
def Static {α : Type} (g : Obj → α) : Prop := ∀ (x : Obj) (c : Int) (l : Life), g { x with count := c, life := l } = g x

theorem map_set {α : Type} {g : Obj → α} {h : Heap} {o : Nat} {x y : Obj} (hx : h[o]? = some x) (hk : g y = g x) :
    (h.set o y).map g = h.map g := by
  apply List.ext_getElem?
  intro i
  rw [List.getElem?_map, List.getElem?_map, List.getElem?_set]
  split
  · next hi =>
    subst hi
    rw [if_pos (List.getElem?_eq_some_iff.1 hx).1, hx]
    simp [hk]
  · rfl

theorem inc_map {α : Type} {g : Obj → α} (hg : Static g) {h h' : Heap} {r : Option Nat} (e : inc h r = .ok h') :
    h'.map g = h.map g := by
  unfold inc at e
  split at e
  · injection e with e; rw [e]
  · split at e
    · next hx =>
      split at e
      · cases e
      · injection e with e; subst e; exact map_set hx (hg _ _ _)
    · cases e

theorem relStep_map {α : Type} {g : Obj → α} (hg : Static g) {h h' : Heap} {t : Task} {todo todo' : List Task}
    (e : relStep h t todo = .ok (h', todo')) : h'.map g = h.map g := by
  unfold relStep at e
  split at e
  · injection e with e; injection e with e1 _; rw [e1]
  · split at e
    · next hx =>
      split at e
      · cases e
      · split at e
        · obtain ⟨l, -, e⟩ := Res.bind_eq_ok.1 e
          injection e with e; injection e with e1 _; subst e1; exact map_set hx (hg _ _ _)
        · injection e with e; injection e with e1 _; subst e1; exact map_set hx (hg _ _ _)
    · cases e
  · split at e
    · next hx =>
      split at e
      · cases e
      · injection e with e; injection e with e1 _; subst e1; exact map_set hx (hg _ _ _)
    · cases e

theorem relLoop_map {α : Type} {g : Obj → α} (hg : Static g) {f : Nat} {h h' : Heap} {todo : List Task}
    (e : relLoop f h todo = .ok h') : h'.map g = h.map g := by
  induction f generalizing h todo with
  | zero =>
    cases todo with
    | nil => rw [relLoop] at e; injection e with e; rw [e]
    | cons t todo => rw [relLoop] at e; cases e
  | succ f ih =>
    cases todo with
    | nil => rw [relLoop] at e; injection e with e; rw [e]
    | cons t todo =>
      rw [relLoop] at e
      obtain ⟨⟨h1, todo1⟩, e1, e2⟩ := Res.bind_eq_ok.1 e
      exact (ih e2).trans (relStep_map hg e1)

theorem copyFields_map {α : Type} {g : Obj → α} (hg : Static g) {vars : List (Option Nat)} {h h' : Heap}
    {l : List (Option Place)} {rs : List (Option Nat)} (e : copyFields vars h l = .ok (h', rs)) : h'.map g = h.map g := by
  induction l generalizing h rs with
  | nil => rw [copyFields] at e; injection e with e; injection e with e _; rw [e]
  | cons p l ih =>
    cases p with
    | none =>
      rw [copyFields] at e
      obtain ⟨⟨h1, rs1⟩, e1, e2⟩ := Res.bind_eq_ok.1 e
      injection e2 with e2; injection e2 with e2 _; subst e2
      exact ih e1
    | some p =>
      rw [copyFields] at e
      obtain ⟨r, -, e⟩ := Res.bind_eq_ok.1 e
      obtain ⟨h1, e1, e⟩ := Res.bind_eq_ok.1 e
      obtain ⟨⟨h2, rs2⟩, e2, e⟩ := Res.bind_eq_ok.1 e
      injection e with e; injection e with e _; subst e
      exact (ih e2).trans (inc_map hg e1)

theorem static_kind : Static Obj.kind := fun _ _ _ => rfl

theorem static_fields : Static Obj.fields := fun _ _ _ => rfl

theorem writeLoc_kind {s s' : State} {r : Option Nat} {l : Loc} (e : writeLoc s r l = .ok s') :
    s'.heap.map Obj.kind = s.heap.map Obj.kind := by
  unfold writeLoc at e
  split at e
  · split at e
    · injection e with e; rw [← e]
    · cases e
  · split at e
    · next hx =>
      split at e
      · cases e
      · split at e
        · injection e with e; subst e; exact map_set hx rfl
        · cases e
    · cases e

/-- The destructors of the objects that a program makes. -/
def kindsOf (ops : List Op) : List Kind :=
  ops.filterMap fun op =>
    match op with
    | .new _ k => some k
    | _ => none

theorem step_kind {s s' : State} {op : Op} (e : step s op = .ok s') :
    s'.heap.map Obj.kind = s.heap.map Obj.kind ++ kindsOf [op] := by
  cases op with
  | null => rw [step] at e; injection e with e; subst e; simp [kindsOf]
  | new fields k =>
    rw [step] at e
    obtain ⟨⟨h1, rs⟩, e1, e⟩ := Res.bind_eq_ok.1 e
    injection e with e
    subst e
    rw [List.map_append, copyFields_map static_kind e1]
    rfl
  | copy src =>
    rw [step] at e
    obtain ⟨r, -, e⟩ := Res.bind_eq_ok.1 e
    obtain ⟨h1, e1, e⟩ := Res.bind_eq_ok.1 e
    injection e with e
    subst e
    rw [show (⟨s.vars ++ [r], h1⟩ : State).heap = h1 from rfl, inc_map static_kind e1]
    simp [kindsOf]
  | assign dst src =>
    rw [step] at e
    obtain ⟨r, -, e⟩ := Res.bind_eq_ok.1 e
    obtain ⟨h1, e1, e⟩ := Res.bind_eq_ok.1 e
    obtain ⟨l, -, e⟩ := Res.bind_eq_ok.1 e
    obtain ⟨h2, e2, e⟩ := Res.bind_eq_ok.1 e
    obtain ⟨old, -, e⟩ := Res.bind_eq_ok.1 e
    obtain ⟨h3, e3, e⟩ := Res.bind_eq_ok.1 e
    obtain ⟨s4, e4, e⟩ := Res.bind_eq_ok.1 e
    obtain ⟨h5, e5, e⟩ := Res.bind_eq_ok.1 e
    injection e with e
    subst e
    have h6 : h5.map Obj.kind = s.heap.map Obj.kind := by
      rw [relLoop_map static_kind e5, writeLoc_kind e4]
      show h3.map Obj.kind = _
      rw [relLoop_map static_kind e3, inc_map static_kind e2, inc_map static_kind e1]
    show h5.map Obj.kind = _
    rw [h6]
    simp [kindsOf]
  | drop i =>
    rw [step] at e
    split at e
    · obtain ⟨h1, e1, e⟩ := Res.bind_eq_ok.1 e
      injection e with e
      subst e
      show h1.map Obj.kind = _
      rw [relLoop_map static_kind e1]
      simp [kindsOf]
    · cases e

theorem run_kind {s s' : State} {ops : List Op} (e : run s ops = .ok s') :
    s'.heap.map Obj.kind = s.heap.map Obj.kind ++ kindsOf ops := by
  induction ops generalizing s with
  | nil => rw [run] at e; injection e with e; rw [← e]; simp [kindsOf]
  | cons op ops ih =>
    rw [run] at e
    obtain ⟨s1, e1, e2⟩ := Res.bind_eq_ok.1 e
    rw [ih e2, step_kind e1, List.append_assoc, kindsOf, kindsOf, kindsOf, ← List.filterMap_append]
    rfl

theorem mem_kindsOf {ops : List Op} {k : Kind} : k ∈ kindsOf ops ↔ ∃ fields, Op.new fields k ∈ ops := by
  unfold kindsOf
  rw [List.mem_filterMap]
  constructor
  · rintro ⟨op, hop, h⟩
    cases op with
    | new f k' => injection h with h; subst h; exact ⟨f, hop⟩
    | _ => simp at h
  · rintro ⟨f, h⟩
    exact ⟨_, h, rfl⟩

theorem run_keeps {s : State} {ops : List Op} (e : run ⟨[], []⟩ ops = .ok s) (hp : NoGeneric ops) :
    ∀ x ∈ s.heap, keeps x = false := by
  intro x hx
  have h1 : x.kind ∈ kindsOf ops := by
    have := run_kind e
    simp only [List.map_nil, List.nil_append] at this
    rw [← this]
    exact List.mem_map.2 ⟨x, hx, rfl⟩
  obtain ⟨f, h2⟩ := mem_kindsOf.1 h1
  unfold keeps
  split
  · rfl
  · next op hk => rw [hk] at h2; simpa using hp f op h2

theorem handles_eq (s : State) (hs : ∀ x ∈ s.heap, keeps x = false) (o : Nat) : handles s o = H s.vars s.heap [] o := by
  unfold handles H inHeap
  rw [List.count_nil, Nat.add_zero]
  congr 1
  revert hs
  induction s.heap with
  | nil => intro _; rfl
  | cons x h ih =>
    intro hs
    have hx0 := hs x List.mem_cons_self
    rw [List.filter_cons, List.map_cons, List.sum_cons, ← ih fun y hy => hs y (List.mem_cons_of_mem _ hy)]
    by_cases hx : x.life = .alive
    · simp [hx, inObj]
    · simp [hx, inObj, hx0]

theorem reach_of_reachable {s : State} {o : Nat} (ho : Reachable s o) : Reach s.vars s.heap o := by
  induction ho with
  | var hv => exact .var hv
  | field _ hx hp ih => exact .field ih hx hp

theorem keeps_iff {x : Obj} : keeps x = true ↔ ∃ op : Int, x.kind = .tree op ∧ op < 0 := by
  unfold keeps
  split
  · next h => simp [h]
  · next op h => simp [h]

/-- What is kept is alive. -/
theorem kept_alive {s : State} (hj : J s.vars s.heap []) {o : Nat} (h : Kept s o) : ∃ x, Live s o x := by
  have key : 0 < inHeap s.heap o := by
    induction h with
    | lost hx _ hk hop hp => exact le_inHeap hx (.inr (keeps_iff.2 ⟨_, hk, hop⟩)) hp
    | @field q _ _ _ hx hp ih =>
      obtain ⟨y, hy, hl⟩ := hj.alive_of (o := q) (by unfold H; omega)
      rw [hx] at hy
      injection hy with hy
      subst hy
      exact le_inHeap hx (.inl hl) hp
  exact hj.alive_of (by unfold H; omega)

/-- The objects in use, if there is no cycle. -/
theorem alive_iff {s : State} (hj : J s.vars s.heap []) (ha : Acyclic s) (o : Nat) :
    (∃ x, Live s o x) ↔ Reachable s o ∨ Kept s o := by
  constructor
  · obtain ⟨rank, hrank⟩ := ha
    have hbound : ∀ (h : Heap), ∃ M, ∀ (o : Nat), o < h.length → rank o ≤ M := by
      intro h
      induction h.length with
      | zero => exact ⟨0, fun o ho => by omega⟩
      | succ n ih =>
        obtain ⟨M, hM⟩ := ih
        refine ⟨max M (rank n), fun o ho => ?_⟩
        rcases Nat.lt_or_ge o n with h1 | h1
        · have := hM o h1; omega
        · have : o = n := by omega
          subst this; omega
    obtain ⟨M, hM⟩ := hbound s.heap
    suffices ∀ n o, M - rank o = n → (∃ x, Live s o x) → Reachable s o ∨ Kept s o from fun hx => this _ o rfl hx
    intro n
    induction n using Nat.strongRecOn with
    | ind n ih =>
      intro o hn ⟨x, hx, hl⟩
      have hp := (hj.alive_at hx hl).2.1
      by_cases hv : some o ∈ s.vars
      · exact .inl (.var hv)
      · have hh : 0 < inHeap s.heap o := by
          have := List.count_eq_zero.2 hv
          simp only [H, List.count_nil] at hp
          omega
        obtain ⟨p, y, hy, hyl, hmem⟩ := inHeap_pos hh
        by_cases hya : y.life = .alive
        · have h1 := hrank p o y ⟨hy, hya⟩ hmem
          have h2 := hM p (List.getElem?_eq_some_iff.1 hy).1
          rcases ih (M - rank p) (by omega) p rfl ⟨y, hy, hya⟩ with h | h
          · exact .inl (.field h hy hmem)
          · exact .inr (.field h hy hmem)
        · obtain ⟨op, hk, hop⟩ := keeps_iff.1 (hyl.resolve_left hya)
          refine .inr (.lost hy ?_ hk hop hmem)
          cases hc : y.life with
          | alive => exact absurd hc hya
          | dying => have := (hj.dying_at hy hc).2; simp at this
          | dead => rfl
  · rintro (h | h)
    · exact ((reach_of_reachable h).anchored hj).2
    · exact kept_alive hj h

end Lolly.Refcount
