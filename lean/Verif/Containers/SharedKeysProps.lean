import Verif.Containers.SharedKeys
import Verif.Containers.HashMapLemmas
import Verif.ListUtil

set_option autoImplicit false

/-!
# C153: keys that are changed

The specification is a map from strings (or arrays) to values, and variables with values. `C153_map_partial`: the code does this
for programs that do not append to a variable that was used as key or assigned to or from another one, until it gets a new value.
`C153_violated`: if a key is changed the entry is lost for every lookup, but it stays in the map and is counted.
-/

namespace Lolly.SharedKeysProps

open SharedKeys

variable {α V : Type} [DecidableEq α] {hash : List α → BitVec 32}

/-! ## Specification -/

structure Values (α V : Type) where
  vars : Nat → Option (List α)
  map : List α → Option V

/-- The meaning of a statement, `none` if a variable was not declared. -/
def Values.step (vs : Values α V) : Stmt α V → Option (Values α V)
  | .fresh v s => some { vs with vars := fun w => if w = v then some s else vs.vars w }
  | .share v w => (vs.vars w).map fun s => { vs with vars := fun w => if w = v then some s else vs.vars w }
  | .copy v w => (vs.vars w).map fun s => { vs with vars := fun w => if w = v then some s else vs.vars w }
  | .append v x => (vs.vars v).map fun s => { vs with vars := fun w => if w = v then some (s ++ [x]) else vs.vars w }
  | .put k x => (vs.vars k).map fun s => { vs with map := fun t => if t = s then some x else vs.map t }
  | .reset k => (vs.vars k).map fun s => { vs with map := fun t => if t = s then none else vs.map t }

def Values.run : Values α V → List (Stmt α V) → Option (Values α V)
  | vs, [] => some vs
  | vs, s :: l => (vs.step s).bind fun vs => Values.run vs l

/-- Variables that were used as keys, or that have their value in common with others, are not appended to until they get a
new value. -/
def Tidy : List Nat → List (Stmt α V) → Prop
  | _, [] => True
  | used, .fresh v _ :: l => Tidy (used.filter (· ≠ v)) l
  | used, .copy v _ :: l => Tidy (used.filter (· ≠ v)) l
  | used, .share v w :: l => Tidy (v :: w :: used) l
  | used, .append v _ :: l => v ∉ used ∧ Tidy used l
  | used, .put k _ :: l => Tidy (k :: used) l
  | used, .reset _ :: l => Tidy used l

/-! ## The map with the contents of its keys -/

/-- An entry with what its key shows. -/
def vE (m : List (List α)) (e : Entry Nat V) : Entry (List α) V := ⟨e.code, (m[e.key]?).getD [], e.im⟩

def view (m : List (List α)) (h : HashMap Nat V) : HashMap (List α) V :=
  ⟨h.size, h.n, h.max, h.init, h.a.map (·.map (vE m))⟩

/-- All keys are such handles. -/
def All (P : Nat → Prop) (h : HashMap Nat V) : Prop := ∀ l ∈ h.a, ∀ e ∈ l, P e.key

theorem hit_ok {m : List (List α)} {e : Entry Nat V} (he : e.key < m.length) (hv : BitVec 32) (x : List α) :
    hit m hv x e = .ok (decide ((vE m e).code = hv ∧ (vE m e).key = x)) := by
  unfold hit vE
  by_cases hc : e.code = hv
  · simp [hc, rd_ok he, he]
  · simp [hc]

theorem find_view {m : List (List α)} (hv : BitVec 32) (x : List α) : ∀ (l : List (Entry Nat V)), (∀ e ∈ l, e.key < m.length) →
    find m hv x l = .ok (HashMap.findB hv x (l.map (vE m)))
  | [], _ => rfl
  | e :: l, h => by
    rw [find, hit_ok (h e List.mem_cons_self), Res.ok_bind, find_view hv x l (fun e he => h e (List.mem_cons_of_mem _ he)),
      List.map_cons, HashMap.findB]
    by_cases hc : (vE m e).code = hv ∧ (vE m e).key = x
    · rw [if_pos hc, if_pos (decide_eq_true hc)]
      rfl
    · rw [if_neg hc, if_neg (by simp [hc])]

theorem assign_view {m : List (List α)} (hv : BitVec 32) (x : List α) (v : V) : ∀ (l : List (Entry Nat V)),
    (∀ e ∈ l, e.key < m.length) → ∃ l', assignL m hv x v l = .ok l' ∧ l'.map (vE m) = HashMap.assignB hv x v (l.map (vE m)) ∧
      l'.map (·.key) = l.map (·.key)
  | [], _ => ⟨[], rfl, rfl, rfl⟩
  | e :: l, h => by
    obtain ⟨l', h1, h2, h3⟩ := assign_view hv x v l (fun e he => h e (List.mem_cons_of_mem _ he))
    rw [assignL, hit_ok (h e List.mem_cons_self), Res.ok_bind, h1, List.map_cons, HashMap.assignB]
    by_cases hc : (vE m e).code = hv ∧ (vE m e).key = x
    · refine ⟨{ e with im := v } :: l, by simp [hc], ?_, rfl⟩
      rw [if_pos hc]
      simp [vE]
    · refine ⟨e :: l', by simp [hc], ?_, by simp [h3]⟩
      rw [if_neg hc, List.map_cons, h2]

theorem remove_view {m : List (List α)} (hv : BitVec 32) (x : List α) : ∀ (l : List (Entry Nat V)),
    (∀ e ∈ l, e.key < m.length) → ∃ r, removeL m hv x l = .ok r ∧ r.map (·.map (vE m)) = HashMap.removeB hv x (l.map (vE m)) ∧
      ∀ l', r = some l' → ∀ e ∈ l', e ∈ l
  | [], _ => ⟨none, rfl, rfl, fun l' h => by cases h⟩
  | e :: l, h => by
    obtain ⟨r, h1, h2, h3⟩ := remove_view hv x l (fun e he => h e (List.mem_cons_of_mem _ he))
    rw [removeL, hit_ok (h e List.mem_cons_self), Res.ok_bind, h1, List.map_cons, HashMap.removeB]
    by_cases hc : (vE m e).code = hv ∧ (vE m e).key = x
    · refine ⟨some l, by simp [hc], ?_, fun l' hl e he => ?_⟩
      · rw [if_pos hc]; rfl
      · cases hl; exact List.mem_cons_of_mem _ he
    · refine ⟨r.map (e :: ·), by simp [hc], ?_, fun l' hl e' he' => ?_⟩
      · rw [if_neg hc, ← h2]
        cases r <;> rfl
      · obtain ⟨l'', h4, rfl⟩ := Option.map_eq_some_iff.1 hl
        rcases List.mem_cons.1 he' with rfl | he'
        · exact List.mem_cons_self
        · exact List.mem_cons_of_mem _ (h3 l'' h4 e' he')

theorem rd_map {β γ : Type} (f : β → γ) (l : List β) (i : Nat) {y : γ} (h : rd (l.map f) i = .ok y) :
    ∃ x, rd l i = .ok x ∧ f x = y := by
  have := rd_eq_ok.1 h
  rw [List.getElem?_map] at this
  obtain ⟨x, h1, h2⟩ := Option.map_eq_some_iff.1 this
  exact ⟨x, rd_eq_ok.2 h1, h2⟩

theorem wr_map {β γ : Type} (f : β → γ) {l : List β} {i : Nat} {x : β} {b : List γ} (h : wr (l.map f) i (f x) = .ok b) :
    wr l i x = .ok (l.set i x) ∧ b = (l.set i x).map f := by
  have hi : i < l.length := by
    by_cases hi : i < (l.map f).length
    · simpa using hi
    · unfold wr at h; rw [if_neg hi] at h; cases h
  rw [wr_ok (by simpa using hi)] at h
  cases h
  exact ⟨wr_ok hi, by rw [List.map_set]⟩

omit [DecidableEq α] in
theorem rehash_view {m : List (List α)} {P : Nat → Prop} (n2 : Nat) : ∀ (es : List (Entry Nat V)) (a : List (List (Entry Nat V)))
    {b : List (List (Entry (List α) V))}, (∀ e ∈ es, e.key < m.length ∧ P e.key) → (∀ l ∈ a, ∀ e ∈ l, P e.key) →
    HashMap.rehash hash n2 (es.map (vE m)) (a.map (·.map (vE m))) = .ok b →
    ∃ a', rehash hash m n2 es a = .ok a' ∧ a'.map (·.map (vE m)) = b ∧ ∀ l ∈ a', ∀ e ∈ l, P e.key
  | [], a, b, _, hp, h => by cases h; exact ⟨a, rfl, rfl, hp⟩
  | e :: es, a, b, he, hp, h => by
    rw [List.map_cons, HashMap.rehash] at h
    obtain ⟨b1, h1, h2⟩ := Res.bind_eq_ok.1 h
    unfold HashMap.rehash1 at h1
    obtain ⟨l', h3, h4⟩ := Res.bind_eq_ok.1 h1
    have hlt := (he e List.mem_cons_self).1
    have hk : (vE m e).key = m[e.key] := by simp [vE, hlt]
    rw [hk] at h3 h4
    obtain ⟨l, h5, rfl⟩ := rd_map _ _ _ h3
    obtain ⟨h6, rfl⟩ := wr_map (fun l : List (Entry Nat V) => l.map (vE m)) (x := e :: l) h4
    have hl : ∀ e' ∈ l, P e'.key := hp l (List.mem_of_getElem? (rd_eq_ok.1 h5))
    obtain ⟨a', h7, h8, h9⟩ := rehash_view n2 es _ (fun e he' => he e (List.mem_cons_of_mem _ he')) (fun l1 h10 e1 he1 => by
      rcases List.mem_or_eq_of_mem_set h10 with h11 | rfl
      · exact hp l1 h11 e1 he1
      · rcases List.mem_cons.1 he1 with rfl | he1
        · exact (he e1 List.mem_cons_self).2
        · exact hl e1 he1) h2
    exact ⟨a', by rw [rehash, rd_ok hlt, Res.ok_bind, h5, Res.ok_bind, h6, Res.ok_bind, h7], h8, h9⟩

omit [DecidableEq α] in
theorem resize_view {m : List (List α)} {P : Nat → Prop} {h : HashMap Nat V} (hm : All (fun a => a < m.length ∧ P a) h) (n2 : Nat)
    {g : HashMap (List α) V} (e : (view m h).resize hash n2 = .ok g) :
    ∃ h', resize hash m h n2 = .ok h' ∧ view m h' = g ∧ All P h' := by
  unfold HashMap.resize at e
  obtain ⟨b, h1, h2⟩ := Res.bind_eq_ok.1 e
  cases h2
  have : (view m h).a.flatten = h.a.flatten.map (vE m) := by simp [view, List.map_flatten]
  rw [this, show (List.replicate n2 [] : List (List (Entry (List α) V))) = (List.replicate n2 []).map (·.map (vE m)) by simp] at h1
  obtain ⟨a', h3, h4, h5⟩ := rehash_view (P := P) n2 h.a.flatten (List.replicate n2 []) (fun e he => by
    obtain ⟨l, hl, hel⟩ := List.mem_flatten.1 he
    exact hm l hl e hel) (fun l hl e he => by
    rw [(List.mem_replicate.1 hl).2] at he; cases he) h1
  refine ⟨{ h with n := n2, a := a' }, by unfold resize; rw [h3, Res.ok_bind], ?_, h5⟩
  unfold view
  rw [h4]

omit [DecidableEq α] in
/-- A bucket of the map and of its view. -/
theorem bucket {m : List (List α)} {h : HashMap Nat V} (w : (view m h).WF hash) (x : List α) :
    ∃ l, rd h.a (bidx (hash x) h.n) = .ok l ∧ l ∈ h.a ∧ rd (view m h).a (bidx (hash x) h.n) = .ok (l.map (vE m)) := by
  have hi := w.idx x
  obtain ⟨l, h1, h2⟩ := rd_map (fun l : List (Entry Nat V) => l.map (vE m)) h.a _ (rd_ok hi)
  exact ⟨l, h1, List.mem_of_getElem? (rd_eq_ok.1 h1), by rw [h2]; exact rd_ok hi⟩

theorem contains_view {m : List (List α)} {h : HashMap Nat V} (w : (view m h).WF hash) (hm : All (· < m.length) h) (x : List α) :
    contains hash m h x = (view m h).contains hash x := by
  obtain ⟨l, h1, h2, h3⟩ := bucket w x
  unfold contains HashMap.contains
  rw [h1, Res.ok_bind, find_view _ _ l (hm l h2), Res.ok_bind]
  have h3 : rd (view m h).a (bidx (hash x) (view m h).n) = .ok (l.map (vE m)) := h3
  rw [h3, Res.ok_bind]

theorem get_view {m : List (List α)} {h : HashMap Nat V} (w : (view m h).WF hash) (hm : All (· < m.length) h) (x : List α) :
    SharedKeys.get hash m h x = (view m h).get hash x := by
  obtain ⟨l, h1, h2, h3⟩ := bucket w x
  unfold SharedKeys.get HashMap.get
  rw [h1, Res.ok_bind, find_view _ _ l (hm l h2), Res.ok_bind]
  have h3 : rd (view m h).a (bidx (hash x) (view m h).n) = .ok (l.map (vE m)) := h3
  rw [h3, Res.ok_bind]
  rfl

theorem touch_view {m : List (List α)} {P : Nat → Prop} {h : HashMap Nat V} (w : (view m h).WF hash)
    (hm : All (fun a => a < m.length ∧ P a) h) {a : Nat} {x : List α} (ha : m[a]? = some x) (hP : P a) {g : HashMap (List α) V}
    (e : (view m h).touch hash x = .ok g) : ∃ h', touch hash m h a = .ok h' ∧ view m h' = g ∧ All P h' := by
  obtain ⟨l, h1, h2, h3⟩ := bucket w x
  unfold HashMap.touch at e
  unfold touch
  have h3' : rd (view m h).a (bidx (hash x) (view m h).n) = .ok (l.map (vE m)) := h3
  rw [h3', Res.ok_bind] at e
  rw [rd_eq_ok.2 ha, Res.ok_bind, h1, Res.ok_bind, find_view _ _ l (fun e he => (hm l h2 e he).1), Res.ok_bind]
  cases hf : HashMap.findB (hash x) x (l.map (vE m)) with
  | some v =>
    rw [hf] at e
    cases e
    exact ⟨h, rfl, rfl, fun l hl e he => (hm l hl e he).2⟩
  | none =>
    rw [hf] at e
    dsimp only at e ⊢
    unfold HashMap.insertNew at e
    have key : ∀ (h1 : HashMap Nat V), All P h1 → (do
          let i := bidx (hash x) (view m h1).n
          let rl ← rd (view m h1).a i
          let a ← wr (view m h1).a i ({ code := hash x, key := x, im := (view m h1).init } :: rl)
          Res.ok { (view m h1) with a := a, size := (view m h1).size + 1 }) = .ok g →
        ∃ h', (do
          let rl ← rd h1.a (bidx (hash x) h1.n)
          let b ← wr h1.a (bidx (hash x) h1.n) ({ code := hash x, key := a, im := h1.init } :: rl)
          Res.ok { h1 with a := b, size := h1.size + 1 }) = .ok h' ∧ view m h' = g ∧ All P h' := by
      intro h1 hp e
      dsimp only at e
      obtain ⟨rl', e1, e2⟩ := Res.bind_eq_ok.1 e
      obtain ⟨b', e3, e4⟩ := Res.bind_eq_ok.1 e2
      obtain ⟨rl, e5, rfl⟩ := rd_map (fun l : List (Entry Nat V) => l.map (vE m)) _ _ e1
      have hv : (⟨hash x, x, h1.init⟩ : Entry (List α) V) = vE m ⟨hash x, a, h1.init⟩ := by simp [vE, ha]
      have e3 : wr (h1.a.map (·.map (vE m))) (bidx (hash x) h1.n) (⟨hash x, x, h1.init⟩ :: rl.map (vE m)) = .ok b' := e3
      rw [hv] at e3
      obtain ⟨e6, rfl⟩ := wr_map (fun l : List (Entry Nat V) => l.map (vE m)) (x := ⟨hash x, a, h1.init⟩ :: rl) e3
      cases e4
      have e5 : rd h1.a (bidx (hash x) h1.n) = .ok rl := e5
      refine ⟨_, by rw [e5, Res.ok_bind, e6, Res.ok_bind], rfl, fun l hl e he => ?_⟩
      rcases List.mem_or_eq_of_mem_set hl with hl | rfl
      · exact hp l hl e he
      · rcases List.mem_cons.1 he with rfl | he
        · exact hP
        · exact hp rl (List.mem_of_getElem? (rd_eq_ok.1 e5)) e he
    by_cases hs : h.size ≥ h.n * h.max
    · have hs' : (view m h).size ≥ (view m h).n * (view m h).max := hs
      rw [if_pos hs'] at e
      rw [if_pos hs]
      obtain ⟨g1, e1, e2⟩ := Res.bind_eq_ok.1 e
      obtain ⟨h', e3, rfl, hp⟩ := resize_view hm _ e1
      have e3 : resize hash m h (h.n <<< 1) = .ok h' := e3
      rw [e3, Res.ok_bind]
      exact key h' hp e2
    · have hs' : ¬(view m h).size ≥ (view m h).n * (view m h).max := hs
      rw [if_neg hs', Res.ok_bind] at e
      rw [if_neg hs, Res.ok_bind]
      exact key h (fun l hl e he => (hm l hl e he).2) e

theorem set_view {m : List (List α)} {P : Nat → Prop} {h : HashMap Nat V} (w : (view m h).WF hash)
    (hm : All (fun a => a < m.length ∧ P a) h) {a : Nat} {x : List α} (ha : m[a]? = some x) (hP : P a) (v : V)
    {g : HashMap (List α) V} (e : (view m h).set hash x v = .ok g) :
    ∃ h', SharedKeys.set hash m h a v = .ok h' ∧ view m h' = g ∧ All P h' := by
  have hlt := (List.getElem?_eq_some_iff.1 ha).1
  unfold HashMap.set at e
  obtain ⟨g1, e1, e2⟩ := Res.bind_eq_ok.1 e
  obtain ⟨g1', e1', w1, _⟩ := HashMap.touch_spec w x
  rw [e1] at e1'
  cases e1'
  obtain ⟨h1, e3, rfl, hp⟩ := touch_view (P := fun a => a < m.length ∧ P a) w (fun l hl e he => ⟨(hm l hl e he).1, hm l hl e he⟩) ha ⟨hlt, hP⟩ e1
  unfold SharedKeys.set
  rw [e3, Res.ok_bind, rd_eq_ok.2 ha, Res.ok_bind]
  obtain ⟨l, h1', h2, h3⟩ := bucket w1 x
  unfold HashMap.assign at e2
  dsimp only at e2
  have h3 : rd (view m h1).a (bidx (hash x) (view m h1).n) = .ok (l.map (vE m)) := h3
  rw [h3, Res.ok_bind] at e2
  obtain ⟨b, e4, e5⟩ := Res.bind_eq_ok.1 e2
  cases e5
  obtain ⟨l', h4, h5, h6⟩ := assign_view (hash x) x v l (fun e he => (hp l h2 e he).1)
  rw [← h5] at e4
  obtain ⟨e6, rfl⟩ := wr_map (fun l : List (Entry Nat V) => l.map (vE m)) (x := l') e4
  have e6 : wr h1.a (bidx (hash x) h1.n) l' = .ok _ := e6
  refine ⟨_, by rw [h1', Res.ok_bind, h4, Res.ok_bind, e6, Res.ok_bind], rfl, fun k hk e0 he => ?_⟩
  rcases List.mem_or_eq_of_mem_set hk with hk | rfl
  · exact (hp k hk e0 he).2
  · have : e0.key ∈ k.map (·.key) := List.mem_map.2 ⟨e0, he, rfl⟩
    rw [h6] at this
    obtain ⟨e', he', hk'⟩ := List.mem_map.1 this
    rw [← hk']
    exact (hp l h2 e' he').2

theorem reset_view {m : List (List α)} {P : Nat → Prop} {h : HashMap Nat V} (w : (view m h).WF hash)
    (hm : All (fun a => a < m.length ∧ P a) h) (x : List α) {g : HashMap (List α) V} (e : (view m h).reset hash x = .ok g) :
    ∃ h', reset hash m h x = .ok h' ∧ view m h' = g ∧ All P h' := by
  obtain ⟨l, h1, h2, h3⟩ := bucket w x
  unfold HashMap.reset at e
  unfold reset
  dsimp only at e
  have h3 : rd (view m h).a (bidx (hash x) (view m h).n) = .ok (l.map (vE m)) := h3
  rw [h3, Res.ok_bind] at e
  obtain ⟨r, h4, h5, h6⟩ := remove_view (hash x) x l (fun e he => (hm l h2 e he).1)
  rw [← h5] at e
  rw [h1, Res.ok_bind, h4, Res.ok_bind]
  cases r with
  | none =>
    cases e
    exact ⟨h, rfl, rfl, fun l hl e he => (hm l hl e he).2⟩
  | some l' =>
    simp only [Option.map_some] at e
    dsimp only
    obtain ⟨b, e1, e2⟩ := Res.bind_eq_ok.1 e
    obtain ⟨e3, rfl⟩ := wr_map (fun l : List (Entry Nat V) => l.map (vE m)) (x := l') e1
    have e3 : wr h.a (bidx (hash x) h.n) l' = .ok _ := e3
    rw [e3, Res.ok_bind]
    have hp : All (fun a => a < m.length ∧ P a) { h with a := h.a.set (bidx (hash x) h.n) l', size := h.size - 1 } := by
      intro k hk e' he
      rcases List.mem_or_eq_of_mem_set hk with hk | rfl
      · exact hm k hk e' he
      · exact hm l h2 e' (h6 k rfl e' he)
    split at e2
    · rename_i hs
      have hs : h.size - (1 : Int) < ((h.n >>> 1 : Nat) : Int) * h.max := hs
      rw [if_pos hs]
      exact resize_view hp _ e2
    · rename_i hs
      have hs : ¬h.size - (1 : Int) < ((h.n >>> 1 : Nat) : Int) * h.max := hs
      rw [if_neg hs]
      cases e2
      exact ⟨_, rfl, rfl, fun l hl e he => (hp l hl e he).2⟩

omit [DecidableEq α] in
/-- Strings that are no keys do not matter. -/
theorem view_congr {m m' : List (List α)} {h : HashMap Nat V} (e : All (fun a => m'[a]? = m[a]?) h) : view m' h = view m h := by
  unfold view
  congr 1
  refine List.map_congr_left fun l hl => List.map_congr_left fun x hx => ?_
  unfold vE
  rw [e l hl x hx]

/-! ## Programs -/

/-- The state of the program and the values; `used` are the variables that must not be appended to. -/
structure Rel (hash : List α → BitVec 32) (d : V) (used : List Nat) (st : State α V) (vs : Values α V) : Prop where
  wf : (view st.store st.map).WF hash
  key : All (· < st.store.length) st.map
  abs : (view st.store st.map).abs = vs.map
  init : st.map.init = d
  var : ∀ v a, st.vars v = some a → ∃ s, st.store[a]? = some s ∧ vs.vars v = some s
  non : ∀ v, st.vars v = none → vs.vars v = none
  own : ∀ v a, v ∉ used → st.vars v = some a → (∀ w, st.vars w = some a → w = v) ∧ All (· ≠ a) st.map

variable {d : V}

theorem Rel.handle {used : List Nat} {st : State α V} {vs : Values α V} (r : Rel hash d used st vs) {v : Nat} {s : List α}
    (h : vs.vars v = some s) : ∃ a, st.vars v = some a ∧ st.handle v = .ok a ∧ st.store[a]? = some s := by
  cases e : st.vars v with
  | none => rw [r.non v e] at h; cases h
  | some a =>
    obtain ⟨t, h1, h2⟩ := r.var v a e
    rw [h] at h2
    cases h2
    exact ⟨a, rfl, by unfold State.handle; rw [e]; rfl, h1⟩

/-- A variable gets a new representation. -/
theorem Rel.make {used : List Nat} {st : State α V} {vs : Values α V} (r : Rel hash d used st vs) (v : Nat) (s : List α) :
    Rel hash d (used.filter (· ≠ v)) (st.make v s) { vs with vars := fun w => if w = v then some s else vs.vars w } := by
  have old : All (fun a => (st.store ++ [s])[a]? = st.store[a]?) st.map := fun l hl e he =>
    List.getElem?_append_left (r.key l hl e he)
  have hv : view (st.make v s).store (st.make v s).map = view st.store st.map := view_congr old
  have lt : ∀ {w a}, st.vars w = some a → a < st.store.length := fun {w a} h => by
    obtain ⟨t, h1, _⟩ := r.var w a h
    exact (List.getElem?_eq_some_iff.1 h1).1
  exact {
    wf := by rw [hv]; exact r.wf
    key := fun l hl e he => by
      have := r.key l hl e he
      show e.key < (st.store ++ [s]).length
      rw [List.length_append]; omega
    abs := by rw [hv]; exact r.abs
    init := r.init
    var := fun w a h => by
      simp only [State.make, State.setVar] at h ⊢
      by_cases hw : w = v
      · rw [if_pos hw] at h ⊢
        cases h
        exact ⟨s, by simp, rfl⟩
      · rw [if_neg hw] at h ⊢
        obtain ⟨t, h1, h2⟩ := r.var w a h
        exact ⟨t, by rw [List.getElem?_append_left (lt h)]; exact h1, h2⟩
    non := fun w h => by
      simp only [State.make, State.setVar] at h ⊢
      by_cases hw : w = v
      · rw [if_pos hw] at h; cases h
      · rw [if_neg hw] at h ⊢
        exact r.non w h
    own := fun w a hu h => by
      simp only [State.make, State.setVar] at h ⊢
      by_cases hw : w = v
      · rw [if_pos hw] at h
        cases h
        refine ⟨fun u hu => ?_, fun l hl e he => by have := r.key l hl e he; omega⟩
        by_cases huv : u = v
        · rw [huv, hw]
        · rw [if_neg huv] at hu
          have := lt hu
          omega
      · rw [if_neg hw] at h
        have hu : w ∉ used := fun h' => hu (by simp [List.mem_filter, h', hw])
        obtain ⟨h1, h2⟩ := r.own w a hu h
        refine ⟨fun u hu => ?_, h2⟩
        by_cases huv : u = v
        · rw [if_pos huv] at hu
          cases hu
          have := lt h
          omega
        · rw [if_neg huv] at hu
          exact h1 u hu }

/-- Handles that are keys. -/
def IsKey (h : HashMap Nat V) (a : Nat) : Prop := ∃ l ∈ h.a, ∃ e ∈ l, e.key = a

theorem Rel.put {used : List Nat} {st : State α V} {vs : Values α V} (r : Rel hash d used st vs) {k a : Nat} {s : List α}
    (ha : st.vars k = some a) (hs : st.store[a]? = some s) (x : V) :
    ∃ h', SharedKeys.set hash st.store st.map a x = .ok h' ∧ (∀ b, IsKey h' b → b = a ∨ IsKey st.map b) ∧
      h'.size = st.map.size + (if vs.map s = none then 1 else 0) ∧ h'.init = st.map.init ∧
      Rel hash d (k :: used) { st with map := h' } { vs with map := fun t => if t = s then some x else vs.map t } := by
  obtain ⟨g, e, w, ab, i, _⟩ := HashMap.set_spec r.wf s x
  obtain ⟨h', e1, rfl, hp⟩ := set_view (P := fun b => b < st.store.length ∧ (b = a ∨ IsKey st.map b)) r.wf
    (fun l hl e he => ⟨r.key l hl e he, r.key l hl e he, .inr ⟨l, hl, e, he, rfl⟩⟩) hs
    ⟨(List.getElem?_eq_some_iff.1 hs).1, .inl rfl⟩ x e
  refine ⟨h', e1, ?_, ?_, i, ?_⟩
  · rintro b ⟨l, hl, e, he, rfl⟩
    exact (hp l hl e he).2
  · have h1 : h'.size = ((view st.store h').a.flatten.map (·.key)).length := by
      rw [List.length_map]; exact w.size
    have h2 : st.map.size = ((view st.store st.map).a.flatten.map (·.key)).length := by
      rw [List.length_map]; exact r.wf.size
    have hm : ∀ t, t ∈ (view st.store h').a.flatten.map (·.key) ↔ t = s ∨ t ∈ (view st.store st.map).a.flatten.map (·.key) := by
      intro t
      have c1 := look_eq_none (l := (view st.store h').a.flatten) (x := t)
      have c2 := look_eq_none (l := (view st.store st.map).a.flatten) (x := t)
      have c3 : look (view st.store h').a.flatten t = if t = s then some x else look (view st.store st.map).a.flatten t :=
        congrFun ab t
      by_cases ht : t = s
      · rw [if_pos ht] at c3
        rw [c3] at c1
        simp only [ht, true_or, iff_true]
        rw [← ht]
        exact Classical.byContradiction fun h => by have := c1.2 h; cases this
      · rw [if_neg ht] at c3
        rw [c3] at c1
        simp only [ht, false_or]
        exact Decidable.not_iff_not.1 (c1.symm.trans c2)
    have n1 := w.nodup
    have n2 := r.wf.nodup
    rw [h1, h2]
    generalize (view st.store h').a.flatten.map (·.key) = L at *
    generalize hL2 : (view st.store st.map).a.flatten.map (·.key) = L2 at *
    have hab : vs.map s = none ↔ s ∉ L2 := by
      rw [← r.abs, ← hL2]
      exact look_eq_none
    by_cases hin : vs.map s = none
    · rw [if_pos hin]
      have n3 : (s :: L2).Nodup := List.nodup_cons.2 ⟨hab.1 hin, n2⟩
      have l1 := nodup_subset_length n1 (l' := s :: L2) (fun t ht => by rcases (hm t).1 ht with rfl | h <;> simp [*])
      have l2 := nodup_subset_length n3 (l' := L) (fun t ht => (hm t).2 (List.mem_cons.1 ht))
      simp only [List.length_cons] at l1 l2
      omega
    · rw [if_neg hin]
      have hsL : s ∈ L2 := Classical.byContradiction fun h => hin (hab.2 h)
      have l1 := nodup_subset_length n1 (l' := L2) (fun t ht => by rcases (hm t).1 ht with rfl | h <;> assumption)
      have l2 := nodup_subset_length n2 (l' := L) (fun t ht => (hm t).2 (.inr ht))
      omega
  · exact {
      wf := w
      key := fun l hl e he => (hp l hl e he).1
      abs := by rw [ab, r.abs]
      init := i.trans r.init
      var := r.var
      non := r.non
      own := fun v b hv hb => by
        obtain ⟨h1, h2⟩ := r.own v b (fun h => hv (List.mem_cons_of_mem _ h)) hb
        refine ⟨h1, fun l hl e he => ?_⟩
        rcases (hp l hl e he).2 with h3 | ⟨l', hl', e', he', h3⟩
        · rintro rfl
          rw [h3] at h1
          exact hv (by rw [h1 k ha]; exact List.mem_cons_self)
        · rw [← h3]
          exact h2 l' hl' e' he' }

theorem Rel.remove {used : List Nat} {st : State α V} {vs : Values α V} (r : Rel hash d used st vs) (s : List α) :
    ∃ h', SharedKeys.reset hash st.store st.map s = .ok h' ∧
      Rel hash d used { st with map := h' } { vs with map := fun t => if t = s then none else vs.map t } := by
  obtain ⟨g, e, w, ab, i, _⟩ := HashMap.reset_spec r.wf s
  obtain ⟨h', e1, rfl, hp⟩ := reset_view (P := fun b => b < st.store.length ∧ IsKey st.map b) r.wf
    (fun l hl e he => ⟨r.key l hl e he, r.key l hl e he, ⟨l, hl, e, he, rfl⟩⟩) s e
  refine ⟨h', e1, ?_⟩
  exact {
    wf := w
    key := fun l hl e he => (hp l hl e he).1
    abs := by rw [ab, r.abs]
    init := i.trans r.init
    var := r.var
    non := r.non
    own := fun v b hv hb => by
      obtain ⟨h1, h2⟩ := r.own v b hv hb
      refine ⟨h1, fun l hl e he => ?_⟩
      obtain ⟨l', hl', e', he', h3⟩ := (hp l hl e he).2
      rw [← h3]
      exact h2 l' hl' e' he' }

theorem Rel.next {used : List Nat} {st : State α V} {vs vs' : Values α V} (r : Rel hash d used st vs) (s : Stmt α V)
    (l : List (Stmt α V)) (t : Tidy used (s :: l)) (h : vs.step s = some vs') :
    ∃ used' st', step hash st s = .ok st' ∧ Rel hash d used' st' vs' ∧ Tidy used' l := by
  cases s with
  | fresh v x => cases h; exact ⟨_, _, rfl, r.make v x, t⟩
  | share v w =>
    obtain ⟨x, hx, rfl⟩ := Option.map_eq_some_iff.1 h
    obtain ⟨a, h1, h2, h3⟩ := r.handle hx
    refine ⟨_, st.setVar v a, by simp only [step, h2, Res.ok_bind], ?_, t⟩
    exact {
      wf := r.wf
      key := r.key
      abs := r.abs
      init := r.init
      var := fun u b hb => by
        simp only [State.setVar] at hb ⊢
        by_cases hu : u = v
        · rw [if_pos hu] at hb ⊢; cases hb; exact ⟨x, h3, rfl⟩
        · rw [if_neg hu] at hb ⊢; exact r.var u b hb
      non := fun u hb => by
        simp only [State.setVar] at hb ⊢
        by_cases hu : u = v
        · rw [if_pos hu] at hb; cases hb
        · rw [if_neg hu] at hb ⊢; exact r.non u hb
      own := fun u b hm hb => by
        simp only [List.mem_cons, not_or] at hm
        simp only [State.setVar, if_neg hm.1] at hb ⊢
        obtain ⟨k1, k2⟩ := r.own u b hm.2.2 hb
        refine ⟨fun y hy => ?_, k2⟩
        by_cases hyv : y = v
        · rw [if_pos hyv] at hy
          cases hy
          exact (hm.2.1 (k1 w h1).symm).elim
        · rw [if_neg hyv] at hy
          exact k1 y hy }
  | copy v w =>
    obtain ⟨x, hx, rfl⟩ := Option.map_eq_some_iff.1 h
    obtain ⟨a, h1, h2, h3⟩ := r.handle hx
    exact ⟨_, _, by simp only [step, h2, Res.ok_bind, rd_eq_ok.2 h3], r.make v x, t⟩
  | append v y =>
    obtain ⟨x, hx, rfl⟩ := Option.map_eq_some_iff.1 h
    obtain ⟨a, h1, h2, h3⟩ := r.handle hx
    have lt := (List.getElem?_eq_some_iff.1 h3).1
    obtain ⟨k1, k2⟩ := r.own v a t.1 h1
    have hv : view (st.store.set a (x ++ [y])) st.map = view st.store st.map := view_congr fun l hl e he => by
      exact List.getElem?_set_ne (Ne.symm (k2 l hl e he))
    refine ⟨used, { st with store := st.store.set a (x ++ [y]) }, by simp only [step, h2, Res.ok_bind, rd_eq_ok.2 h3, wr_ok lt], ?_, t.2⟩
    exact {
      wf := by rw [hv]; exact r.wf
      key := fun l hl e he => by
        have := r.key l hl e he
        simpa using this
      abs := by rw [hv]; exact r.abs
      init := r.init
      var := fun u b hb => by
        have hb : st.vars u = some b := hb
        by_cases hu : u = v
        · subst hu
          rw [h1] at hb
          cases hb
          exact ⟨x ++ [y], List.getElem?_set_self lt, by simp⟩
        · obtain ⟨s', e1, e2⟩ := r.var u b hb
          refine ⟨s', ?_, by simp [hu, e2]⟩
          show (st.store.set a (x ++ [y]))[b]? = _
          rw [List.getElem?_set_ne (by rintro rfl; exact hu (k1 u hb))]
          exact e1
      non := fun u hb => by
        have hb : st.vars u = none := hb
        have hu : u ≠ v := by rintro rfl; rw [h1] at hb; cases hb
        simp [hu, r.non u hb]
      own := r.own }
  | put k y =>
    obtain ⟨x, hx, rfl⟩ := Option.map_eq_some_iff.1 h
    obtain ⟨a, h1, h2, h3⟩ := r.handle hx
    obtain ⟨h', e, _, _, _, r'⟩ := r.put h1 h3 y
    exact ⟨_, _, by simp only [step, h2, Res.ok_bind, e], r', t⟩
  | reset k =>
    obtain ⟨x, hx, rfl⟩ := Option.map_eq_some_iff.1 h
    obtain ⟨a, h1, h2, h3⟩ := r.handle hx
    obtain ⟨h', e, r'⟩ := r.remove x
    exact ⟨_, _, by simp only [step, h2, Res.ok_bind, rd_eq_ok.2 h3, e], r', t⟩

theorem Rel.all : ∀ (l : List (Stmt α V)) {used : List Nat} {st : State α V} {vs vs' : Values α V}, Rel hash d used st vs → Tidy used l →
    Values.run vs l = some vs' → ∃ used' st', run hash st l = .ok st' ∧ Rel hash d used' st' vs'
  | [], used, st, vs, vs', r, _, h => by cases h; exact ⟨used, st, rfl, r⟩
  | s :: l, used, st, vs, vs', r, t, h => by
    obtain ⟨vs1, h1, h2⟩ := Option.bind_eq_some_iff.1 h
    obtain ⟨u1, st1, e1, r1, t1⟩ := r.next s l t h1
    obtain ⟨u2, st2, e2, r2⟩ := Rel.all l r1 t1 h2
    exact ⟨u2, st2, by rw [run, e1, Res.ok_bind, e2], r2⟩

theorem rel_start (d : V) : Rel hash d [] (start d : State α V) ⟨fun _ => none, fun _ => none⟩ := by
  have hv : view ([] : List (List α)) (HashMap.new d : HashMap Nat V) = HashMap.new d := by simp [view, HashMap.new]
  exact {
    wf := by show (view [] (HashMap.new d)).WF hash; rw [hv]; exact HashMap.new_wf _ _ _ (Nat.le_refl _)
    key := fun l hl e he => by
      have : l = [] := (List.mem_replicate.1 hl).2
      rw [this] at he; cases he
    abs := by show (view [] (HashMap.new d)).abs = _; rw [hv]; exact HashMap.new_abs _ _ _
    init := rfl
    var := fun v a h => by cases h
    non := fun v h => rfl
    own := fun v a _ h => by cases h }

/-- C153 for programs that do not append to a variable whose string is a key, or is in another variable: each string has the
value that it got last, is in the map if it got one, and the map enumerates these strings, each once. -/
theorem C153_map_partial (d : V) (l : List (Stmt α V)) (t : Tidy [] l) {vs : Values α V}
    (h : Values.run ⟨fun _ => none, fun _ => none⟩ l = some vs) : ∃ st, run hash (start d) l = .ok st ∧
      (∀ y, contains hash st.store st.map y = .ok (vs.map y).isSome ∧
        SharedKeys.get hash st.store st.map y = .ok ((vs.map y).getD d)) ∧
      (keys st.store st.map).Nodup ∧ (∀ y, some y ∈ keys st.store st.map ↔ (vs.map y).isSome) ∧
      st.map.size = (keys st.store st.map).length := by
  obtain ⟨used, st, e, r⟩ := Rel.all (hash := hash) l (rel_start d) t h
  have hk : keys st.store st.map = ((view st.store st.map).a.flatten.map (·.key)).map some := by
    unfold keys view
    simp only
    rw [← List.map_flatten, List.map_map, List.map_map]
    refine List.map_congr_left fun e he => ?_
    obtain ⟨l, hl, hel⟩ := List.mem_flatten.1 he
    have := r.key l hl e hel
    simp [vE, this]
  refine ⟨st, e, fun y => ⟨?_, ?_⟩, ?_, fun y => ?_, ?_⟩
  · rw [contains_view r.wf r.key, HashMap.contains_spec r.wf, r.abs]
  · rw [get_view r.wf r.key, HashMap.get_spec r.wf, r.abs, ← r.init]
    rfl
  · rw [hk]
    exact List.Pairwise.map some (fun a b hab h => hab (Option.some.inj h)) r.wf.nodup
  · rw [hk, ← r.abs]
    have := look_eq_none (l := (view st.store st.map).a.flatten) (x := y)
    have e : (view st.store st.map).abs y = look (view st.store st.map).a.flatten y := rfl
    rw [e]
    constructor
    · intro hm
      obtain ⟨z, hz, e2⟩ := List.mem_map.1 hm
      cases e2
      cases hl : look (view st.store st.map).a.flatten y with
      | none => exact (this.1 hl hz).elim
      | some v => rfl
    · intro hs
      refine List.mem_map.2 ⟨y, Classical.byContradiction fun hn => ?_, rfl⟩
      rw [this.2 hn] at hs
      cases hs
  · rw [hk, List.length_map, List.length_map]
    exact r.wf.size

/-! ## A key that is changed -/

/-- Searching after the string of the handle `a` was changed from `s` to `s'`. -/
theorem find_changed {m : List (List α)} {a : Nat} {s s' : List α} (hs : m[a]? = some s) (hd : hash s' ≠ hash s) (y : List α) :
    ∀ l : List (Entry Nat V), (∀ e ∈ l, e.key < m.length) → (∀ e ∈ l, (vE m e).code = hash (vE m e).key) →
      (∀ e ∈ l, (vE m e).key = s → e.key = a) → ∀ r, find m (hash y) y l = .ok r →
      find (m.set a s') (hash y) y l = .ok (if y = s then none else r)
  | [], _, _, _, r, h => by cases h; rw [ite_self]; rfl
  | e :: l, hl, hc, ha, r, h => by
    have lt := hl e List.mem_cons_self
    have c := hc e List.mem_cons_self
    have lta := (List.getElem?_eq_some_iff.1 hs).1
    have ih := find_changed hs hd y l (fun e he => hl e (List.mem_cons_of_mem _ he)) (fun e he => hc e (List.mem_cons_of_mem _ he))
      (fun e he => ha e (List.mem_cons_of_mem _ he))
    have hk : (vE m e).key = m[e.key] := by simp [vE, lt]
    have h0 : hit m (hash y) y e = .ok (decide (m[e.key] = y)) := by
      unfold hit
      rw [rd_ok lt, Res.ok_bind]
      by_cases hcode : e.code = hash y
      · rw [if_pos hcode]
      · rw [if_neg hcode]
        have : m[e.key] ≠ y := fun h => hcode (by rw [show e.code = (vE m e).code from rfl, c, hk, h])
        rw [decide_eq_false this]
    rw [find, h0, Res.ok_bind] at h
    by_cases hea : e.key = a
    · have hms : m[e.key] = s := by
        have h5 : m[e.key]? = some s := by rw [hea, hs]
        exact (List.getElem?_eq_some_iff.1 h5).2
      have h1 : hit (m.set a s') (hash y) y e = .ok false := by
        have lt' : e.key < (m.set a s').length := by rw [List.length_set]; exact lt
        unfold hit
        rw [rd_ok lt', Res.ok_bind]
        by_cases hcode : e.code = hash y
        · rw [if_pos hcode]
          have : (m.set a s')[e.key] = s' := by simp [hea]
          rw [this, decide_eq_false]
          rintro rfl
          rw [show e.code = (vE m e).code from rfl, c, hk, hms] at hcode
          exact hd hcode.symm
        · rw [if_neg hcode]
      rw [find, h1, Res.ok_bind, if_neg (by decide)]
      by_cases hy : y = s
      · rw [if_pos hy]
        have : ∀ l : List (Entry Nat V), (∀ e ∈ l, e.key < m.length) → ∃ r, find m (hash y) y l = .ok r := fun l hl => by
          rw [find_view _ _ _ hl]; exact ⟨_, rfl⟩
        obtain ⟨r', h2⟩ := this l (fun e he => hl e (List.mem_cons_of_mem _ he))
        rw [ih r' h2, if_pos hy]
      · rw [hms, if_neg (by simp [Ne.symm hy])] at h
        exact ih r h
    · have hms : m[e.key] ≠ s := fun h => hea (ha e List.mem_cons_self (by rw [hk, h]))
      have h1 : hit (m.set a s') (hash y) y e = hit m (hash y) y e := by
        unfold hit rd
        rw [List.getElem?_set_ne (Ne.symm hea)]
      rw [find, h1, h0, Res.ok_bind]
      by_cases hy : m[e.key] = y
      · rw [if_pos (decide_eq_true hy)] at h ⊢
        cases h
        rw [if_neg (fun h => hms (hy.trans h))]
      · rw [if_neg (by simp [hy])] at h ⊢
        exact ih r h

theorem remove_none {m : List (List α)} {hv : BitVec 32} {y : List α} :
    ∀ l : List (Entry Nat V), find m hv y l = .ok none → removeL m hv y l = .ok none
  | [], _ => rfl
  | e :: l, h => by
    obtain ⟨b, h1, h2⟩ := Res.bind_eq_ok.1 h
    cases b with
    | true => cases h2
    | false =>
      rw [if_neg (by decide)] at h2
      rw [removeL, h1, Res.ok_bind, if_neg (by decide), remove_none l h2, Res.ok_bind]
      rfl

/-- C153 fails: after `h (k)= v` for a string that is not in the map, `k << x` takes the entry away from every lookup: the
old string and the new one are not found (the new one gives what it gave before), but the map has
one more entry, and enumerates the new string as key. `h->reset (k)` cannot remove this entry. -/
theorem C153_violated (d : V) (l : List (Stmt α V)) (t : Tidy [] l) {vs : Values α V}
    (h : Values.run ⟨fun _ => none, fun _ => none⟩ l = some vs) {k : Nat} {s : List α} (hk : vs.vars k = some s)
    (hn : vs.map s = none) (v : V) (x : α) (hd : hash (s ++ [x]) ≠ hash s) :
    ∃ st st', run hash (start d) l = .ok st ∧ run hash st [.put k v, .append k x] = .ok st' ∧
      (∀ y, contains hash st'.store st'.map y = contains hash st.store st.map y ∧
        SharedKeys.get hash st'.store st'.map y = SharedKeys.get hash st.store st.map y) ∧
      st'.map.size = st.map.size + 1 ∧ some (s ++ [x]) ∈ keys st'.store st'.map ∧
      (vs.map (s ++ [x]) = none → run hash st' [.reset k] = .ok st') := by
  obtain ⟨used, st, e, r⟩ := Rel.all (hash := hash) l (rel_start d) t h
  obtain ⟨a, h1, h2, h3⟩ := r.handle hk
  obtain ⟨h', e', kk, sz, hi, r'⟩ := r.put h1 h3 v
  have lt := (List.getElem?_eq_some_iff.1 h3).1
  have hb : ∀ y, ∃ b ∈ h'.a, rd h'.a (bidx (hash y) h'.n) = .ok b ∧
      find (st.store.set a (s ++ [x])) (hash y) y b = .ok (vs.map y) := by
    intro y
    obtain ⟨b, b1, b2, b3⟩ := bucket r'.wf y
    have b4 := find_view (m := st.store) (hash y) y b (fun e he => r'.key b b2 e he)
    obtain ⟨b', w1, w2⟩ := r'.wf.findB y
    have b3 : rd (view st.store h').a (bidx (hash y) (view st.store h').n) = .ok (b.map (vE st.store)) := b3
    rw [b3] at w1
    cases w1
    rw [w2, r'.abs] at b4
    refine ⟨b, b2, b1, ?_⟩
    rw [find_changed h3 hd y b (fun e he => r'.key b b2 e he) ?_ ?_ _ b4]
    · by_cases hy : y = s
      · rw [if_pos hy, hy, hn]
      · rw [if_neg hy]
        simp only [if_neg hy]
    · intro e he
      have b5 := rd_eq_ok.1 b3
      obtain ⟨hlt, b6⟩ := List.getElem?_eq_some_iff.1 b5
      exact (r'.wf.loc _ hlt (vE st.store e) (by rw [b6]; exact List.mem_map.2 ⟨e, he, rfl⟩)).1
    · intro e he hes
      rcases kk e.key ⟨b, b2, e, he, rfl⟩ with h5 | ⟨l', hl', e2, he2, h5⟩
      · exact h5
      · have h6 : s ∈ (view st.store st.map).a.flatten.map (·.key) := by
          refine List.mem_map.2 ⟨vE st.store e2, List.mem_flatten.2 ⟨l'.map (vE st.store), List.mem_map.2 ⟨l', hl', rfl⟩,
            List.mem_map.2 ⟨e2, he2, rfl⟩⟩, ?_⟩
          rw [← hes]
          simp only [vE, h5]
        have h7 : look (view st.store st.map).a.flatten s = none := by rw [← hn, ← r.abs]; rfl
        exact (look_eq_none.1 h7 h6).elim
  refine ⟨st, { st with map := h', store := st.store.set a (s ++ [x]) }, e, ?_, ?_, ?_, ?_, ?_⟩
  · simp only [run, step, h2, Res.ok_bind, e']
    have : State.handle { st with map := h' } k = .ok a := h2
    simp only [this, Res.ok_bind, rd_eq_ok.2 h3, wr_ok lt]
  · intro y
    obtain ⟨b, _, b1, b2⟩ := hb y
    rw [contains_view r.wf r.key, HashMap.contains_spec r.wf, r.abs, get_view r.wf r.key, HashMap.get_spec r.wf, r.abs]
    constructor
    · unfold contains
      simp only [b1, b2, Res.ok_bind]
    · unfold SharedKeys.get
      simp only [b1, b2, Res.ok_bind]
      rw [hi]
      rfl
  · show h'.size = _
    rw [sz, if_pos hn]
  · have h6 : s ∈ (view st.store h').a.flatten.map (·.key) := Classical.byContradiction fun hc => by
      have h7 := look_eq_none.2 hc
      have h8 : look (view st.store h').a.flatten s = _ := congrFun r'.abs s
      rw [h7] at h8
      simp at h8
    obtain ⟨e1, m1, m2⟩ := List.mem_map.1 h6
    obtain ⟨b, m3, m4⟩ := List.mem_flatten.1 m1
    obtain ⟨b', m5, rfl⟩ := List.mem_map.1 m3
    obtain ⟨e2, m6, rfl⟩ := List.mem_map.1 m4
    have hea : e2.key = a := by
      rcases kk e2.key ⟨b', m5, e2, m6, rfl⟩ with h5 | ⟨l', hl', e3, he3, h5⟩
      · exact h5
      · have h9 : s ∈ (view st.store st.map).a.flatten.map (·.key) := by
          refine List.mem_map.2 ⟨vE st.store e3, List.mem_flatten.2 ⟨l'.map (vE st.store), List.mem_map.2 ⟨l', hl', rfl⟩,
            List.mem_map.2 ⟨e3, he3, rfl⟩⟩, ?_⟩
          rw [← m2]
          simp only [vE, h5]
        have h7 : look (view st.store st.map).a.flatten s = none := by rw [← hn, ← r.abs]; rfl
        exact (look_eq_none.1 h7 h9).elim
    refine List.mem_map.2 ⟨e2, List.mem_flatten.2 ⟨b', m5, m6⟩, ?_⟩
    rw [hea]
    exact List.getElem?_set_self lt
  · intro hx
    obtain ⟨b, _, b1, b2⟩ := hb (s ++ [x])
    rw [hx] at b2
    have h10 : State.handle { st with map := h', store := st.store.set a (s ++ [x]) } k = .ok a := h2
    have h11 : rd (st.store.set a (s ++ [x])) a = .ok (s ++ [x]) := rd_eq_ok.2 (List.getElem?_set_self lt)
    simp only [run, step, h10, h11, Res.ok_bind, SharedKeys.reset, b1, remove_none b b2]

/-! ## Examples -/

/-- A hash of strings for the examples. -/
def sum (s : List Nat) : BitVec 32 := BitVec.ofNat 32 s.sum

/-- `k= "\1"; h (k)= 5; w= copy (k); w << '\2'; h (w)= 6; k= "\3"; h (k)= 7; h->reset (w);`. -/
def prog : List (Stmt Nat Nat) :=
  [.fresh 0 [1], .put 0 5, .copy 1 0, .append 1 2, .put 1 6, .fresh 0 [3], .put 0 7, .reset 1]

example : Tidy [] prog := by simp [Tidy, prog]

example : (run sum (start 0) prog).bind (fun st => do
    let x ← SharedKeys.get sum st.store st.map [1]
    let y ← SharedKeys.get sum st.store st.map [3]
    let z ← SharedKeys.get sum st.store st.map [1, 2]
    .ok (x, y, z, st.map.size)) = .ok (5, 7, 0, 2) := by decide +kernel

/-- `k= "\1"; h (k)= 5; k << '\2';`: neither is found, `h->reset (k)` does nothing, and `h (k)= 6` adds the same key again. -/
def change : List (Stmt Nat Nat) := [.fresh 0 [1], .put 0 5, .append 0 2]

example : (run sum (start 0) change).bind (fun st => do
    let x ← SharedKeys.get sum st.store st.map [1]
    let y ← SharedKeys.get sum st.store st.map [1, 2]
    .ok (x, y, st.map.size, keys st.store st.map)) = .ok (0, 0, 1, [some [1, 2]]) := by decide +kernel

example : (run sum (start 0) (change ++ [.reset 0])).bind (fun st => .ok (st.map.size, keys st.store st.map)) =
    .ok (1, [some [1, 2]]) := by decide +kernel

example : (run sum (start 0) (change ++ [.put 0 6])).bind (fun st => .ok (st.map.size, keys st.store st.map)) =
    .ok (2, [some [1, 2], some [1, 2]]) := by decide +kernel

/-- The hypotheses of `C153_violated`. -/
example : Values.run ⟨fun _ => none, fun _ => none⟩ ([.fresh 0 [1]] : List (Stmt Nat Nat)) ≠ none ∧ sum ([1] ++ [2]) ≠ sum [1] := by
  refine ⟨by simp [Values.run, Values.step], by decide⟩

end Lolly.SharedKeysProps
