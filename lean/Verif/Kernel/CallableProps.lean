import Verif.Kernel.Callable

set_option autoImplicit false

/-!
# C161: objects that are called through handles

The specification has no counts and no destruction. Handles are numbers of objects; an object is in use as long as a
variable or an argument of an unfinished function call refers to it, and a method may work on its object while that is
in use.
-/

namespace Lolly.CallableProps

open Lolly.Callable

/-- The variables, the classes of the objects made so far, and what was written. -/
structure View where
  vars : List (Option Nat)
  kinds : List Nat
  out : List (Option Nat × Nat)
  deriving DecidableEq

/-- An object is in use: a variable or an argument refers to it. -/
def InUse (s : View) (args : List Nat) (o : Nat) : Prop := some o ∈ s.vars ∨ o ∈ args

instance (s : View) (args : List Nat) (o : Nat) : Decidable (InUse s args o) := by unfold InUse; infer_instance

/-- What a list of instructions means; with `strict` a method must not work on an object which is not in use any more,
otherwise objects live for ever. -/
def means (strict : Bool) (eval : Nat → List Instr) : Nat → List Nat → Option Nat → List Instr → View → Res View
  | _, _, _, [], s => .ok s
  | 0, _, _, _ :: _, _ => .hang
  | fuel + 1, args, this, i :: is, s => do
    let s ← (match i with
      | .wrap x (some k) => if x < s.vars.length then .ok ⟨s.vars.set x (some s.kinds.length), s.kinds ++ [k], s.out⟩ else .ub
      | .wrap x none => if x < s.vars.length then .ok ⟨s.vars.set x none, s.kinds, s.out⟩ else .ub
      | .plant x k => if x < s.vars.length then .ok ⟨s.vars.set x (some s.kinds.length), s.kinds ++ [k], s.out⟩ else .ub
      | .copy x y => do
        let r ← rd s.vars y
        if x < s.vars.length then .ok ⟨s.vars.set x r, s.kinds, s.out⟩ else .ub
      | .clear x => if x < s.vars.length then .ok ⟨s.vars.set x none, s.kinds, s.out⟩ else .ub
      | .call x => do
        let r ← rd s.vars x
        let o ← Res.ofOption r
        let k ← rd s.kinds o
        means strict eval fuel args (some o) (eval k) s
      | .hold x => do
        let r ← rd s.vars x
        let o ← Res.ofOption r
        let k ← rd s.kinds o
        means strict eval fuel (o :: args) (some o) (eval k) s
      | .emit n =>
        match this with
        | none => .ok { s with out := s.out ++ [(none, n)] }
        | some o =>
          if strict = true ∧ ¬ InUse s args o then .ub else .ok { s with out := s.out ++ [(some o, n)] } : Res View)
    means strict eval fuel args this is s

/-- What can be seen of a state. -/
def view (st : State) : View := ⟨st.vars, st.heap.map (·.kind), st.out⟩

/-- Handles are made from objects, not from NULL, and by the constructor. -/
def Proper : Instr → Prop
  | .wrap _ none => False
  | .plant _ _ => False
  | _ => True

/-- Objects are called through arguments. -/
def Held : Instr → Prop
  | .call _ => False
  | _ => True

/-! ## Proofs -/

/-- The number of references. -/
def refs (vars : List (Option Nat)) (args : List Nat) (o : Nat) : Nat := vars.count (some o) + args.count o

/-- Every object has its count, and is alive exactly if it is positive. -/
structure J (c : Nat → Nat) (st : State) : Prop where
  obj : ∀ o b, st.heap[o]? = some b → b.count = (c o : Int) ∧ (b.life = .alive ↔ 0 < c o) ∧ b.life ≠ .dying
  bound : ∀ o, 0 < c o → o < st.heap.length

theorem J.alive {c : Nat → Nat} {st : State} (h : J c st) {o : Nat} (ho : 0 < c o) :
    ∃ b, st.heap[o]? = some b ∧ b.count = (c o : Int) ∧ b.life = .alive := by
  have hb := h.bound o ho
  refine ⟨st.heap[o], by simp [hb], ?_, ?_⟩
  · exact (h.obj o _ (by simp [hb])).1
  · exact (h.obj o _ (by simp [hb])).2.1.mpr ho

theorem map_kind {l : List Obj} {o : Nat} {b b' : Obj} (h : l[o]? = some b) (hk : b'.kind = b.kind) :
    (l.set o b').map (·.kind) = l.map (·.kind) := by
  apply List.ext_getElem?
  intro i
  rw [List.getElem?_map, List.getElem?_map, List.getElem?_set]
  split
  · rename_i e
    subst e
    rw [h]
    split
    · simp [hk]
    · rename_i hl
      have := List.getElem?_eq_some_iff.mp h
      exact absurd this.1 hl
  · rfl

theorem J.set {c : Nat → Nat} {st : State} (h : J c st) {o : Nat} {b : Obj} (n : Nat)
    (h1 : b.count = n) (h2 : b.life = .alive ↔ 0 < n) (h3 : b.life ≠ .dying) (ho : o < st.heap.length) :
    J (fun p => if p = o then n else c p) { st with heap := st.heap.set o b } := by
  constructor
  · intro p b' hp
    dsimp only at hp ⊢
    rw [List.getElem?_set] at hp
    split at hp
    · rename_i e
      subst e
      cases hp
      rw [if_pos rfl]
      exact ⟨h1, h2, h3⟩
    · rename_i e
      rw [if_neg (fun e' => e e'.symm)]
      exact h.obj p b' hp
  · intro p hp
    dsimp only at hp ⊢
    rw [List.length_set]
    split at hp
    · rename_i e
      rw [e]; exact ho
    · exact h.bound p hp

theorem inc_ok {c : Nat → Nat} {st : State} (h : J c st) {o : Nat} (ho : 0 < c o) :
    ∃ st', inc st (some o) = .ok st' ∧ J (fun p => if p = o then c o + 1 else c p) st' ∧ view st' = view st ∧
      st'.vars = st.vars := by
  obtain ⟨b, hb, hc, hl⟩ := h.alive ho
  refine ⟨{ st with heap := st.heap.set o { b with count := b.count + 1 } }, ?_, ?_, ?_, rfl⟩
  · unfold inc
    dsimp only
    rw [rd_eq_ok.mpr hb, Res.ok_bind, if_neg (by rw [hl]; decide)]
  · apply h.set (c o + 1)
    · dsimp only; rw [hc]; omega
    · dsimp only; rw [hl]; simp
    · dsimp only; rw [hl]; decide
    · exact h.bound o ho
  · unfold view
    dsimp only
    refine congrArg (fun k => View.mk st.vars k st.out) (map_kind hb ?_)
    rfl

theorem dec_ok {cl : Classes} (hd : ∀ k, cl.dtor k = []) {ex : Exec} (hex : ∀ t st, ex t [] st = .ok st)
    {c : Nat → Nat} {st : State} (h : J c st) {o : Nat} (ho : 0 < c o) :
    ∃ st', dec cl ex st (some o) = .ok st' ∧ J (fun p => if p = o then c o - 1 else c p) st' ∧ view st' = view st ∧
      st'.vars = st.vars := by
  obtain ⟨b, hb, hc, hl⟩ := h.alive ho
  have hlen := h.bound o ho
  unfold dec
  dsimp only
  rw [rd_eq_ok.mpr hb, Res.ok_bind, if_neg (by rw [hl]; decide)]
  by_cases h1 : b.count - 1 = 0
  · rw [if_pos h1, if_neg (by rw [hl]; decide), hd, hex, Res.ok_bind]
    dsimp only
    rw [rd_ok (by rw [List.length_set]; exact hlen), Res.ok_bind]
    refine ⟨_, rfl, ?_, ?_, rfl⟩
    · rw [List.getElem_set_self, List.set_set]
      have : c o - 1 = 0 := by omega
      apply h.set (c o - 1)
      · dsimp only; omega
      · dsimp only
        rw [this]
        decide
      · dsimp only; decide
      · exact hlen
    · unfold view
      dsimp only
      rw [List.getElem_set_self, List.set_set]
      refine congrArg (fun k => View.mk st.vars k st.out) (map_kind hb ?_)
      rfl
  · rw [if_neg h1]
    refine ⟨_, rfl, ?_, ?_, rfl⟩
    · apply h.set (c o - 1)
      · dsimp only; omega
      · dsimp only; rw [hl]; simp; omega
      · dsimp only; rw [hl]; decide
      · exact hlen
    · unfold view
      dsimp only
      refine congrArg (fun k => View.mk st.vars k st.out) (map_kind hb ?_)
      rfl

theorem J.congr {c c' : Nat → Nat} {st st' : State} (h : J c st) (e : ∀ o, c o = c' o) (hh : st'.heap = st.heap) :
    J c' st' := by
  have : c = c' := funext e
  subst this
  exact ⟨fun o b hb => h.obj o b (by rw [← hh]; exact hb), fun o ho => by rw [hh]; exact h.bound o ho⟩

theorem refs_set {vars : List (Option Nat)} {args : List Nat} {x : Nat} {old r : Option Nat} (hx : vars[x]? = some old)
    (o : Nat) : refs (vars.set x r) args o + (if old = some o then 1 else 0) =
      refs vars args o + if r = some o then 1 else 0 := by
  obtain ⟨hlt, he⟩ := List.getElem?_eq_some_iff.mp hx
  unfold refs
  rw [List.count_set hlt, he]
  have : old = some o → 0 < vars.count (some o) := by
    intro e
    subst e
    exact List.count_pos_iff.mpr (List.mem_of_getElem? hx)
  by_cases h1 : old = some o <;> by_cases h2 : r = some o <;> simp [h1, h2] <;> (try have := this h1) <;> omega

/-- The state and the meaning agree. -/
def R (args : List Nat) (st : State) (s : View) : Prop := view st = s ∧ J (refs st.vars args) st

theorem assign_ok {cl : Classes} (hd : ∀ k, cl.dtor k = []) {ex : Exec} (hex : ∀ t st, ex t [] st = .ok st)
    {args : List Nat} {st : State} (x : Nat) (r : Option Nat)
    (h : J (fun o => refs st.vars args o + if r = some o then 1 else 0) st) :
    (x < st.vars.length → ∃ st', assign cl ex st x r = .ok st' ∧
      R args st' ⟨st.vars.set x r, st.heap.map (·.kind), st.out⟩) ∧
    (¬ x < st.vars.length → assign cl ex st x r = .ub) := by
  constructor
  · intro hx
    unfold assign
    rw [rd_ok hx, Res.ok_bind]
    have hg : st.vars[x]? = some st.vars[x] := by simp [hx]
    cases hold : st.vars[x] with
    | none =>
      rw [hold] at hg
      unfold dec
      dsimp only
      rw [Res.ok_bind, wr_ok hx, Res.ok_bind]
      refine ⟨_, rfl, rfl, h.congr (fun o => ?_) rfl⟩
      have := refs_set (args := args) (r := r) hg o
      dsimp only
      simp at this
      simp [this]
    | some p =>
      rw [hold] at hg
      have hp : 0 < refs st.vars args p := by
        have : 0 < st.vars.count (some p) := List.count_pos_iff.mpr (List.mem_of_getElem? hg)
        unfold refs; omega
      obtain ⟨st', e, hj, hv, hvars⟩ := dec_ok hd hex h (o := p) (by omega)
      rw [e, Res.ok_bind, hvars, wr_ok hx, Res.ok_bind]
      refine ⟨_, rfl, ?_, hj.congr (fun o => ?_) rfl⟩
      · unfold view at hv ⊢
        injection hv with h1 h2 h3
        dsimp only
        rw [h2, h3]
      · have := refs_set (args := args) (r := r) hg o
        dsimp only
        by_cases ho : o = p
        · subst ho
          rw [if_pos rfl]
          rw [if_pos rfl] at this
          omega
        · rw [if_neg ho]
          rw [if_neg (by intro e; injection e with e; exact ho e.symm)] at this
          omega
  · intro hx
    unfold assign
    rw [rd_ub (by omega)]
    rfl

theorem exec_nil (cl : Classes) (f : Nat) (t : Option Nat) (st : State) : exec cl f t [] st = .ok st := by
  cases f <;> rfl

/-- Outcomes agree. -/
def Agree (args : List Nat) : Res State → Res View → Prop
  | .ok st, .ok s => R args st s
  | .ub, .ub => True
  | .hang, .hang => True
  | .thrown, .thrown => True
  | _, _ => False

theorem Agree.bind {args args' : List Nat} {a : Res State} {b : Res View} {f : State → Res State} {g : View → Res View}
    (h : Agree args a b) (hf : ∀ st s, R args st s → Agree args' (f st) (g s)) : Agree args' (a >>= f) (b >>= g) := by
  cases a <;> cases b <;> first | exact h.elim | trivial | exact hf _ _ h

theorem exec_agree {cl : Classes} (hd : ∀ k, cl.dtor k = []) (he : ∀ k, ∀ i ∈ cl.eval k, Proper i) (f : Nat) :
    ∀ (args : List Nat) (this : Option Nat) (is : List Instr) (st : State) (s : View), (∀ i ∈ is, Proper i) →
      R args st s → Agree args (exec cl f this is st) (means true cl.eval f args this is s) := by
  induction f with
  | zero =>
    intro args this is st s hp h
    cases is with
    | nil => exact h
    | cons i is => trivial
  | succ f ih =>
    intro args this is st s hp h
    cases is with
    | nil => exact h
    | cons i is =>
      have hpi := hp i List.mem_cons_self
      have hps : ∀ i ∈ is, Proper i := fun i hi => hp i (List.mem_cons_of_mem _ hi)
      have hex := exec_nil cl f
      obtain ⟨hv, hj⟩ := h
      have hv : s = ⟨st.vars, st.heap.map (·.kind), st.out⟩ := hv.symm
      subst hv
      unfold exec means
      apply Agree.bind (args := args) _ (fun st s h => ih args this is st s hps h)
      cases i with
      | wrap x p =>
        cases p with
        | none => exact hpi.elim
        | some k =>
          unfold step
          dsimp only
          have hj' : J (fun o => refs st.vars args o + if some st.heap.length = some o then 1 else 0)
              { st with heap := st.heap ++ [⟨k, 1, .alive⟩] } := by
            have hz : refs st.vars args st.heap.length = 0 := by
              have := hj.bound st.heap.length
              omega
            constructor
            · intro o b hb
              dsimp only at hb ⊢
              rw [List.getElem?_append] at hb
              split at hb
              · rename_i hlt
                rw [if_neg (by intro e; injection e with e; omega)]
                exact hj.obj o b hb
              · rename_i hlt
                have hol : o = st.heap.length := by
                  have := (List.getElem?_eq_some_iff.mp hb).1
                  simp at this
                  omega
                subst hol
                rw [Nat.sub_self] at hb
                cases hb
                rw [hz, if_pos rfl]
                exact ⟨rfl, ⟨fun _ => by decide, fun _ => rfl⟩, by simp⟩
            · intro o ho
              dsimp only at ho ⊢
              rw [List.length_append]
              by_cases e : st.heap.length = o
              · subst e; simp
              · rw [if_neg (by intro e'; injection e' with e'; exact e e')] at ho
                have := hj.bound o ho
                omega
          have hlm : (st.heap.map (·.kind)).length = st.heap.length := List.length_map _
          obtain ⟨h1, h2⟩ := assign_ok (cl := cl) (args := args) (st := { st with heap := st.heap ++ [⟨k, 1, .alive⟩] }) hd hex x
            (some st.heap.length) hj'
          by_cases hx : x < st.vars.length
          · obtain ⟨st', e, hr⟩ := h1 hx
            rw [e, if_pos hx, hlm]
            dsimp only at hr
            rw [List.map_append] at hr
            exact hr
          · rw [h2 hx, if_neg hx]
            trivial
      | plant x k => exact hpi.elim
      | copy x y =>
        unfold step
        dsimp only
        cases hy : st.vars[y]? with
        | none =>
          have : rd st.vars y = .ub := by unfold rd; rw [hy]; rfl
          rw [this]
          trivial
        | some r =>
          rw [rd_eq_ok.mpr hy, Res.ok_bind, Res.ok_bind]
          have key : ∃ st', inc st r = .ok st' ∧ J (fun o => refs st.vars args o + if r = some o then 1 else 0) st' ∧
              view st' = view st ∧ st'.vars = st.vars := by
            cases r with
            | none => exact ⟨st, rfl, hj.congr (fun o => by simp) rfl, rfl, rfl⟩
            | some o =>
              have ho : 0 < refs st.vars args o := by
                have : 0 < st.vars.count (some o) := List.count_pos_iff.mpr (List.mem_of_getElem? hy)
                unfold refs; omega
              obtain ⟨st', e, hj', hv', hva⟩ := inc_ok hj ho
              refine ⟨st', e, hj'.congr (fun p => ?_) rfl, hv', hva⟩
              by_cases hpo : p = o
              · subst hpo; simp
              · rw [if_neg hpo, if_neg (by intro e; injection e with e; exact hpo e.symm)]
                rfl
          obtain ⟨st', e, hj', hv', hva⟩ := key
          rw [e, Res.ok_bind]
          rw [← hva] at hj'
          obtain ⟨h1, h2⟩ := assign_ok (cl := cl) hd hex x r hj'
          rw [hva] at h1 h2
          unfold view at hv'
          injection hv' with _ hk ho
          by_cases hx : x < st.vars.length
          · obtain ⟨st'', e, hr⟩ := h1 hx
            rw [e, if_pos hx]
            rw [hk, ho] at hr
            exact hr
          · rw [h2 hx, if_neg hx]
            trivial
      | clear x =>
        unfold step
        dsimp only
        obtain ⟨h1, h2⟩ := assign_ok (cl := cl) (args := args) hd hex (st := st) x none (hj.congr (fun o => by simp) rfl)
        by_cases hx : x < st.vars.length
        · obtain ⟨st'', e, hr⟩ := h1 hx
          rw [e, if_pos hx]
          exact hr
        · rw [h2 hx, if_neg hx]
          trivial
      | call x =>
        unfold step
        dsimp only
        cases hy : st.vars[x]? with
        | none =>
          have : rd st.vars x = .ub := by unfold rd; rw [hy]; rfl
          rw [this]
          trivial
        | some r =>
          rw [rd_eq_ok.mpr hy, Res.ok_bind, Res.ok_bind]
          cases r with
          | none => trivial
          | some o =>
            have ho : 0 < refs st.vars args o := by
              have : 0 < st.vars.count (some o) := List.count_pos_iff.mpr (List.mem_of_getElem? hy)
              unfold refs; omega
            obtain ⟨b, hb, hc, hl⟩ := hj.alive ho
            unfold enter
            dsimp only
            have hk : rd (st.heap.map (·.kind)) o = .ok b.kind := rd_eq_ok.mpr (by rw [List.getElem?_map, hb]; rfl)
            rw [rd_eq_ok.mpr hb, Res.ok_bind, if_pos hl, Res.ofOption_some, Res.ok_bind, hk, Res.ok_bind]
            exact ih args (some o) _ st _ (he b.kind) ⟨rfl, hj⟩
      | hold x =>
        unfold step
        dsimp only
        cases hy : st.vars[x]? with
        | none =>
          have : rd st.vars x = .ub := by unfold rd; rw [hy]; rfl
          rw [this]
          trivial
        | some r =>
          rw [rd_eq_ok.mpr hy, Res.ok_bind, Res.ok_bind]
          cases r with
          | none => trivial
          | some o =>
            have ho : 0 < refs st.vars args o := by
              have : 0 < st.vars.count (some o) := List.count_pos_iff.mpr (List.mem_of_getElem? hy)
              unfold refs; omega
            obtain ⟨st', e, hj', hv', hva⟩ := inc_ok hj ho
            have hj2 : J (refs st'.vars (o :: args)) st' := by
              refine hj'.congr (fun p => ?_) rfl
              rw [hva]
              unfold refs
              rw [List.count_cons]
              by_cases hpo : p = o
              · subst hpo; simp; omega
              · rw [if_neg hpo]
                simp [Ne.symm hpo]
            rw [e, Res.ok_bind]
            have ho2 : 0 < refs st'.vars (o :: args) o := by
              unfold refs
              rw [List.count_cons_self]
              omega
            obtain ⟨b, hb, hc, hl⟩ := hj2.alive ho2
            have hv2 : st'.heap.map (·.kind) = st.heap.map (·.kind) := by
              unfold view at hv'; injection hv'
            have hk : rd (st.heap.map (·.kind)) o = .ok b.kind := by
              rw [← hv2]
              exact rd_eq_ok.mpr (by rw [List.getElem?_map, hb]; rfl)
            unfold enter
            dsimp only
            rw [rd_eq_ok.mpr hb, Res.ok_bind, if_pos hl, Res.ofOption_some, Res.ok_bind, hk, Res.ok_bind]
            have := ih (o :: args) (some o) _ st' (view st') (he b.kind) ⟨rfl, hj2⟩
            rw [hv'] at this
            have hfin := Agree.bind (args' := args) (f := fun st => dec cl (exec cl f) st (some o)) (g := fun s => .ok s)
              this (by
                intro st2 s2 hr
                obtain ⟨hv3, hj3⟩ := hr
                have ho3 : 0 < refs st2.vars (o :: args) o := by
                  unfold refs
                  rw [List.count_cons_self]
                  omega
                obtain ⟨st3, e3, hj4, hv4, hva4⟩ := dec_ok (cl := cl) hd hex hj3 ho3
                rw [e3]
                refine ⟨hv4.trans hv3, hj4.congr (fun p => ?_) rfl⟩
                rw [hva4]
                unfold refs
                by_cases hpo : p = o
                · subst hpo
                  rw [if_pos rfl, List.count_cons_self]
                  omega
                · rw [if_neg hpo, List.count_cons]
                  simp [Ne.symm hpo])
            have hid : ∀ r : Res View, (r >>= fun s => Res.ok s) = r := by intro r; cases r <;> rfl
            rw [hid] at hfin
            exact hfin
      | emit n =>
        unfold step
        dsimp only
        cases this with
        | none => exact ⟨rfl, hj.congr (fun _ => rfl) rfl⟩
        | some o =>
          dsimp only
          have hu : InUse ⟨st.vars, st.heap.map (·.kind), st.out⟩ args o ↔ 0 < refs st.vars args o := by
            unfold InUse refs
            rw [← List.count_pos_iff, ← List.count_pos_iff]
            dsimp only
            omega
          by_cases ho : 0 < refs st.vars args o
          · obtain ⟨b, hb, hc, hl⟩ := hj.alive ho
            rw [rd_eq_ok.mpr hb, Res.ok_bind, if_neg (by rw [hl]; decide), if_neg (fun h => h.2 (hu.mpr ho))]
            exact ⟨rfl, hj.congr (fun _ => rfl) rfl⟩
          · rw [if_pos ⟨rfl, fun h => ho (hu.mp h)⟩]
            cases hb : st.heap[o]? with
            | none =>
              have : rd st.heap o = .ub := by unfold rd; rw [hb]; rfl
              rw [this]
              trivial
            | some b =>
              rw [rd_eq_ok.mpr hb, Res.ok_bind]
              obtain ⟨-, h2, h3⟩ := hj.obj o b hb
              have hdead : b.life = .dead := by
                cases hl : b.life with
                | alive => exact absurd (h2.mp hl) ho
                | dying => exact absurd hl h3
                | dead => rfl
              rw [if_pos hdead]
              trivial

theorem start_R (n : Nat) : R [] (start n) ⟨List.replicate n none, [], []⟩ := by
  refine ⟨rfl, ?_, ?_⟩
  · intro o b hb
    simp [start] at hb
  · intro o ho
    unfold refs start at ho
    rw [List.count_replicate] at ho
    simp at ho

/-- C161: if the destructors do nothing of their own, programs do exactly what they mean: a method works on its object as
long as a variable or an argument refers to it, and not longer. Afterwards exactly the objects to which no variable refers
are destroyed. -/
theorem C161_exact {cl : Classes} (hd : ∀ k, cl.dtor k = []) (he : ∀ k, ∀ i ∈ cl.eval k, Proper i) (fuel n : Nat)
    {is : List Instr} (hp : ∀ i ∈ is, Proper i) :
    (run cl fuel n is >>= fun st => .ok (view st)) =
      means true cl.eval fuel [] none is ⟨List.replicate n none, [], []⟩ ∧
    ∀ st, run cl fuel n is = .ok st → ∀ o b, st.heap[o]? = some b →
      (b.life = .alive ↔ some o ∈ st.vars) ∧ (b.life = .dead ↔ some o ∉ st.vars) := by
  have h := exec_agree hd he fuel [] none is (start n) _ hp (start_R n)
  unfold run
  generalize hm : means true cl.eval fuel [] none is ⟨List.replicate n none, [], []⟩ = m at h ⊢
  cases hr : exec cl fuel none is (start n) with
  | ok st =>
    rw [hr] at h
    cases m with
    | ok s =>
      obtain ⟨hv, hj⟩ := h
      refine ⟨by rw [Res.ok_bind, hv], ?_⟩
      intro st' e o b hb
      cases e
      obtain ⟨-, h2, h3⟩ := hj.obj o b hb
      have hu : 0 < refs st.vars [] o ↔ some o ∈ st.vars := by
        unfold refs
        rw [← List.count_pos_iff]
        simp
      rw [hu] at h2
      refine ⟨h2, ?_⟩
      rw [← h2]
      cases hl : b.life with
      | alive => simp
      | dying => exact absurd hl h3
      | dead => simp
    | ub => exact h.elim
    | thrown => exact h.elim
    | hang => exact h.elim
  | ub => rw [hr] at h; cases m <;> first | exact h.elim | exact ⟨rfl, fun _ e => by cases e⟩
  | thrown => rw [hr] at h; cases m <;> first | exact h.elim | exact ⟨rfl, fun _ e => by cases e⟩
  | hang => rw [hr] at h; cases m <;> first | exact h.elim | exact ⟨rfl, fun _ e => by cases e⟩

theorem means_held {eval : Nat → List Instr} (he : ∀ k, ∀ i ∈ eval k, Held i) (f : Nat) :
    ∀ (args : List Nat) (this : Option Nat) (is : List Instr) (s : View), (∀ i ∈ is, Held i) →
      (∀ o, this = some o → o ∈ args) → means true eval f args this is s = means false eval f args this is s := by
  induction f with
  | zero => intro args this is s _ _; cases is <;> rfl
  | succ f ih =>
    intro args this is s hh ht
    cases is with
    | nil => rfl
    | cons i is =>
      have hhi := hh i List.mem_cons_self
      have hr := fun s => ih args this is s (fun i hi => hh i (List.mem_cons_of_mem _ hi)) ht
      unfold means
      rw [show means true eval f args this is = means false eval f args this is from funext hr]
      congr 1
      cases i with
      | wrap x p => cases p <;> rfl
      | plant x k => rfl
      | copy x y => rfl
      | clear x => rfl
      | call x => exact hhi.elim
      | hold x =>
        dsimp only
        congr 1
        funext r
        congr 1
        funext o
        congr 1
        funext k
        exact ih (o :: args) (some o) _ s (he k) (fun p e => by injection e with e; rw [← e]; exact List.mem_cons_self)
      | emit n =>
        cases this with
        | none => rfl
        | some o =>
          dsimp only
          rw [if_neg (fun h => h.2 (.inr (ht o rfl))), if_neg (fun h => by cases h.1)]

/-- C161 for destructors that do nothing of their own, and for objects that are called through handles which nobody else
can change, such as arguments passed by value: the called object lives until its method returns, whatever the methods do
with the variables, so that nothing can be seen of the destruction of objects. -/
theorem C161_held_partial {cl : Classes} (hd : ∀ k, cl.dtor k = []) (he : ∀ k, ∀ i ∈ cl.eval k, Proper i ∧ Held i)
    (fuel n : Nat) {is : List Instr} (hp : ∀ i ∈ is, Proper i ∧ Held i) :
    (run cl fuel n is >>= fun st => .ok (view st)) =
      means false cl.eval fuel [] none is ⟨List.replicate n none, [], []⟩ := by
  rw [(C161_exact hd (fun k i hi => (he k i hi).1) fuel n (fun i hi => (hp i hi).1)).1]
  exact means_held (fun k i hi => (he k i hi).2) fuel [] none is _ (fun i hi => (hp i hi).2) (fun o e => by cases e)

/-- A class whose method clears the variable 0 and then works on its object. -/
def clearing : Classes := ⟨fun _ => [.clear 0, .emit 7], fun _ => []⟩

example : (∀ k, clearing.dtor k = []) ∧ (∀ k, ∀ i ∈ clearing.eval k, Proper i ∧ Held i) ∧
    (run clearing 9 1 [.wrap 0 (some 0), .hold 0, .emit 1] >>= fun st => .ok (view st)) =
      .ok ⟨[none], [0], [(some 0, 7), (none, 1)]⟩ := by
  refine ⟨fun _ => rfl, ?_, by decide +kernel⟩
  intro k i hi
  simp [clearing] at hi
  rcases hi with rfl | rfl <;> exact ⟨trivial, trivial⟩

/-- A second variable keeps the object. -/
example : (run clearing 9 2 [.wrap 0 (some 0), .copy 1 0, .call 0, .emit 1] >>= fun st => .ok (view st)) =
    .ok ⟨[none, some 0], [0], [(some 0, 7), (none, 1)]⟩ := by
  decide +kernel

/-- C161 fails for objects that are called through a variable: `x ()` whose method does `x= promise<T> ()` destroys the
object during its own method, although every handle was made and used properly. -/
theorem C161_call_violated : run clearing 9 1 [.wrap 0 (some 0), .call 0] = .ub ∧
    means false clearing.eval 9 [] none [.wrap 0 (some 0), .call 0] ⟨[none], [], []⟩ =
      .ok ⟨[none], [0], [(some 0, 7)]⟩ := by
  decide +kernel

/-- A class whose destructor makes a copy of the variable 0 in the variable 1. -/
def copying : Classes := ⟨fun _ => [], fun _ => [.copy 1 0, .clear 1]⟩

/-- C161 fails for destructors that look at the variables: while `x= promise<T> ()` destroys the object of `x`, the
variable still refers to it; a copy is made and disappears, and the object is destroyed a second time. -/
theorem C161_destructor_violated : run copying 9 2 [.wrap 0 (some 0), .clear 0] = .ub ∧
    means true copying.eval 9 [] none [.wrap 0 (some 0), .clear 0] ⟨[none, none], [], []⟩ =
      .ok ⟨[none, none], [0], []⟩ := by
  decide +kernel

/-- C161 fails for NULL: the handle made from a null pointer is not the null handle. -/
theorem C161_null_violated (cl : Classes) (fuel n : Nat) : run cl (fuel + 1) (n + 1) [.wrap 0 none] = .ub ∧
    (∃ st, run cl (fuel + 1) (n + 1) [.clear 0] = .ok st ∧ st.vars[0]? = some none) := by
  refine ⟨rfl, ⟨start (n + 1), ?_, rfl⟩⟩
  show (assign cl (exec cl fuel) (start (n + 1)) 0 none >>= fun st => exec cl fuel none [] st) = _
  rw [show assign cl (exec cl fuel) (start (n + 1)) 0 none = .ok (start (n + 1)) from rfl, Res.ok_bind, exec_nil]

/-- C161 fails for handles whose pointer is set directly, as the tests of the library do: the first function to which
such a handle is passed by value destroys the object; without one it is never destroyed. -/
theorem C161_rep_violated :
    run ⟨fun _ => [.emit 7], fun _ => []⟩ 9 1 [.plant 0 0, .hold 0, .hold 0] = .ub ∧
    (run ⟨fun _ => [.emit 7], fun _ => []⟩ 9 1 [.plant 0 0, .call 0, .clear 0] >>= fun st =>
      .ok (st.vars, st.heap)) = .ok ([none], [⟨0, -1, .alive⟩]) := by
  decide +kernel

end Lolly.CallableProps
