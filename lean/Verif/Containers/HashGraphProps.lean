import Verif.Containers.HashTree
import Verif.Containers.HashMapProps

set_option autoImplicit false

/-!
# C136: handles to the nodes of hashtrees are shared
-/

namespace Lolly.HashGraphProps
open HashMap HashTree

variable {K V : Type} [DecidableEq K]

/-! ## Specification: a graph of nodes with labels and named edges -/

/-- A node: its label and where the edges lead. -/
structure Node (K V : Type) where
  label : V
  edge : K → Option Nat

/-- A graph and the nodes that the variables of the program stand for. -/
structure Graph (K V : Type) where
  vars : List Nat
  size : Nat
  node : Nat → Node K V

/-- Change one node. -/
def Graph.put (g : Graph K V) (n : Nat) (x : Node K V) : Graph K V :=
  { g with node := fun m => if m = n then x else g.node m }

/-- A further node, without edges. -/
def Graph.add (g : Graph K V) (v : V) : Graph K V :=
  { g.put g.size ⟨v, fun _ => none⟩ with size := g.size + 1 }

/-- Let an edge lead somewhere. -/
def Graph.connect (g : Graph K V) (n : Nat) (k : K) (m : Nat) : Graph K V :=
  g.put n { g.node n with edge := fun j => if j = k then some m else (g.node n).edge j }

/-- What an operation means; nothing if it uses a variable that does not exist. -/
def meaning (dv : V) (g : Graph K V) : Op K V → Option (Graph K V)
  | .fresh v => some { g.add v with vars := g.vars ++ [g.size] }
  | .visit x k =>
    (g.vars[x]?).map fun n =>
      match (g.node n).edge k with
      | some m => { g with vars := g.vars ++ [m] }
      | none => { (g.add dv).connect n k g.size with vars := g.vars ++ [g.size] }
  | .link x k y => (g.vars[x]?).bind fun n => (g.vars[y]?).map fun m => g.connect n k m
  | .label x v => (g.vars[x]?).map fun n => g.put n { g.node n with label := v }

/-- What a program means. -/
def meanings (dv : V) (g : Graph K V) : List (Op K V) → Option (Graph K V)
  | [] => some g
  | o :: os => (meaning dv g o).bind fun g => meanings dv g os

/-- Nothing yet. -/
def start (dv : V) : Graph K V := ⟨[], 0, fun _ => ⟨dv, fun _ => none⟩⟩

/-! ## Proofs -/

variable {hash : K → BitVec 32}

/-- The heap holds the graph. -/
structure Holds (hash : K → BitVec 32) (st : Prog K V) (g : Graph K V) : Prop where
  vars : st.vars = g.vars
  size : st.heap.length = g.size
  live : ∀ (x n : Nat), g.vars[x]? = some n → n < g.size
  ends : ∀ n k m, n < g.size → (g.node n).edge k = some m → m < g.size
  wf : ∀ (n : Nat) (nd : HTNode K V), st.heap[n]? = some nd → nd.children.WF hash
  edge : ∀ (n : Nat) (nd : HTNode K V), st.heap[n]? = some nd → nd.children.abs = (g.node n).edge
  label : ∀ (n : Nat) (nd : HTNode K V), st.heap[n]? = some nd → nd.label = (g.node n).label

theorem Holds.put {st : Prog K V} {g : Graph K V} (h : Holds hash st g) {n : Nat} (hn : n < g.size) {nd : HTNode K V}
    {x : Node K V} (w : nd.children.WF hash) (e : nd.children.abs = x.edge) (l : nd.label = x.label)
    (k : ∀ k m, x.edge k = some m → m < g.size) : Holds hash ⟨st.vars, st.heap.set n nd⟩ (g.put n x) := by
  have hc : ∀ (j : Nat) nd', (st.heap.set n nd)[j]? = some nd' →
      (j = n ∧ nd' = nd) ∨ (j ≠ n ∧ st.heap[j]? = some nd') := by
    intro j nd' hj
    by_cases q : n = j
    · subst q
      rw [List.getElem?_set_self (by rw [h.size]; exact hn)] at hj
      exact .inl ⟨rfl, (Option.some.inj hj).symm⟩
    · rw [List.getElem?_set_ne q] at hj
      exact .inr ⟨fun e => q e.symm, hj⟩
  refine ⟨h.vars, by simpa [Graph.put] using h.size, h.live, ?_, ?_, ?_, ?_⟩
  · intro j k' m hj hm
    by_cases q : j = n
    · exact k k' m (by simpa [Graph.put, q] using hm)
    · exact h.ends j k' m hj (by simpa [Graph.put, q] using hm)
  · intro j nd' hj
    rcases hc j nd' hj with ⟨_, rfl⟩ | ⟨_, hj⟩
    · exact w
    · exact h.wf j nd' hj
  · intro j nd' hj
    rcases hc j nd' hj with ⟨rfl, rfl⟩ | ⟨q, hj⟩
    · simp [Graph.put, e]
    · simp [Graph.put, q, h.edge j nd' hj]
  · intro j nd' hj
    rcases hc j nd' hj with ⟨rfl, rfl⟩ | ⟨q, hj⟩
    · simp [Graph.put, l]
    · simp [Graph.put, q, h.label j nd' hj]

theorem Holds.add {st : Prog K V} {g : Graph K V} (h : Holds hash st g) (v : V) :
    Holds hash ⟨st.vars, st.heap ++ [newNode v]⟩ (g.add v) := by
  have hc : ∀ (j : Nat) nd', (st.heap ++ [newNode v])[j]? = some nd' →
      (j = g.size ∧ nd' = newNode v) ∨ (j ≠ g.size ∧ st.heap[j]? = some nd') := by
    intro j nd' hj
    by_cases q : j = g.size
    · subst q
      rw [← h.size] at hj
      simp at hj
      exact .inl ⟨rfl, hj.symm⟩
    · refine .inr ⟨q, ?_⟩
      rw [List.getElem?_append] at hj
      have := h.size
      split at hj
      · exact hj
      · have : j - st.heap.length ≠ 0 := by omega
        obtain ⟨d, hd⟩ := Nat.exists_eq_succ_of_ne_zero this
        rw [hd] at hj
        simp at hj
  refine ⟨h.vars, by simp [Graph.add, h.size], ?_, ?_, ?_, ?_, ?_⟩
  · intro x n hx
    have := h.live x n hx
    simp only [Graph.add]; omega
  · intro j k m hj hm
    simp only [Graph.add] at hj ⊢
    by_cases q : j = g.size
    · simp [Graph.add, Graph.put, q] at hm
    · have := h.ends j k m (by omega) (by simpa [Graph.add, Graph.put, q] using hm)
      omega
  · intro j nd' hj
    rcases hc j nd' hj with ⟨_, rfl⟩ | ⟨_, hj⟩
    · exact new_wf _ _ _ (Nat.le_refl 1)
    · exact h.wf j nd' hj
  · intro j nd' hj
    rcases hc j nd' hj with ⟨rfl, rfl⟩ | ⟨q, hj⟩
    · simp [Graph.add, Graph.put, newNode, new_abs]
    · simp [Graph.add, Graph.put, q, h.edge j nd' hj]
  · intro j nd' hj
    rcases hc j nd' hj with ⟨rfl, rfl⟩ | ⟨q, hj⟩
    · simp [Graph.add, Graph.put, newNode]
    · simp [Graph.add, Graph.put, q, h.label j nd' hj]

/-- The node of a variable. -/
theorem Holds.node {st : Prog K V} {g : Graph K V} (h : Holds hash st g) {n : Nat} (hn : n < g.size) :
    ∃ nd, st.heap[n]? = some nd ∧ rd st.heap n = .ok nd ∧ nd.children.WF hash ∧
      nd.children.abs = (g.node n).edge ∧ nd.label = (g.node n).label := by
  have hl : n < st.heap.length := by rw [h.size]; exact hn
  have e : st.heap[n]? = some st.heap[n] := List.getElem?_eq_getElem hl
  exact ⟨_, e, rd_ok hl, h.wf n _ e, h.edge n _ e, h.label n _ e⟩

theorem Holds.bindVar {st : Prog K V} {g : Graph K V} (h : Holds hash st g) {m : Nat} (hm : m < g.size) :
    Holds hash ⟨st.vars ++ [m], st.heap⟩ { g with vars := g.vars ++ [m] } := by
  refine ⟨by simp [h.vars], h.size, ?_, h.ends, h.wf, h.edge, h.label⟩
  intro x n hx
  rcases List.mem_append.1 (List.mem_of_getElem? hx) with q | q
  · obtain ⟨i, hi⟩ := List.mem_iff_getElem?.1 q
    exact h.live i n hi
  · simp at q; subst q; exact hm

theorem Holds.rd {st : Prog K V} {g : Graph K V} (h : Holds hash st g) {x n : Nat} (e : g.vars[x]? = some n) :
    Lolly.rd st.vars x = .ok n := rd_eq_ok.2 (by rw [h.vars]; exact e)

theorem step_holds (dv : V) {st : Prog K V} {g g' : Graph K V} (h : Holds hash st g) (o : Op K V)
    (e : meaning dv g o = some g') : ∃ st', st.step hash dv o = .ok st' ∧ Holds hash st' g' := by
  cases o with
  | fresh v =>
    cases e
    refine ⟨_, rfl, ?_⟩
    have := (h.add v).bindVar (m := g.size) (by simp [Graph.add])
    rw [h.size]
    exact this
  | visit x k =>
    obtain ⟨n, hx, rfl⟩ := Option.map_eq_some_iff.1 e
    have hn := h.live x n hx
    obtain ⟨nd, q1, q2, q3, q4, q5⟩ := h.node hn
    have hc : nd.children.contains hash k = .ok ((g.node n).edge k).isSome := by rw [contains_spec q3, q4]
    simp only [Prog.step, h.rd hx, Res.ok_bind, child, q2, hc]
    cases hk : (g.node n).edge k with
    | some m =>
      refine ⟨⟨st.vars ++ [m], st.heap⟩, ?_, h.bindVar (h.ends n k m hn hk)⟩
      simp [get_spec q3, q4, hk]
    | none =>
      obtain ⟨ch, e1, w1, a1, _, _⟩ := set_spec q3 k st.heap.length
      have hlen : n < (st.heap ++ [newNode (K := K) dv]).length := by simp [h.size]; omega
      refine ⟨⟨st.vars ++ [g.size], (st.heap ++ [newNode dv]).set n { nd with children := ch }⟩, ?_, ?_⟩
      · have hr : Lolly.rd ((st.heap ++ [newNode dv]).set n { nd with children := ch }) n
            = .ok { nd with children := ch } := rd_eq_ok.2 (List.getElem?_set_self hlen)
        simp only [Option.isSome_none, Bool.false_eq_true, if_false, e1, Res.ok_bind, wr_ok hlen, hr,
          get_spec w1, a1, if_true, Option.getD_some]
        rw [h.size]
      · have hg := h.add dv
        have hn' : n ≠ g.size := by omega
        have hs : (g.add dv).size = g.size + 1 := rfl
        have hp := hg.put (n := n) (nd := { nd with children := ch })
          (x := { (g.add dv).node n with
            edge := fun j => if j = k then some g.size else ((g.add dv).node n).edge j })
          (by omega) w1
          (by
            funext j
            show ch.abs j = _
            rw [a1, q4, h.size]
            simp [Graph.add, Graph.put, hn'])
          (by simp [Graph.add, Graph.put, hn', q5])
          (by
            intro j m hj
            rw [hs]
            simp only at hj
            split at hj
            · cases hj; omega
            · simp only [Graph.add, Graph.put, hn', if_false] at hj
              have := h.ends n j m hn hj
              omega)
        exact hp.bindVar (m := g.size) (by show g.size < g.size + 1; omega)
  | link x k y =>
    obtain ⟨n, hx, e⟩ := Option.bind_eq_some_iff.1 e
    obtain ⟨m, hy, rfl⟩ := Option.map_eq_some_iff.1 e
    have hn := h.live x n hx
    obtain ⟨nd, q1, q2, q3, q4, q5⟩ := h.node hn
    obtain ⟨ch, e1, w1, a1, _, _⟩ := set_spec q3 k m
    refine ⟨⟨st.vars, st.heap.set n { nd with children := ch }⟩, ?_, h.put hn w1 ?_ q5 ?_⟩
    · have hl : n < st.heap.length := by rw [h.size]; exact hn
      simp [Prog.step, h.rd hx, h.rd hy, addChild, q2, e1, wr_ok hl]
    · funext j
      show ch.abs j = _
      rw [a1, q4]
    · intro j i hj
      simp only at hj
      split at hj
      · cases hj; exact h.live y m hy
      · exact h.ends n j i hn hj
  | label x v =>
    obtain ⟨n, hx, rfl⟩ := Option.map_eq_some_iff.1 e
    have hn := h.live x n hx
    obtain ⟨nd, q1, q2, q3, q4, q5⟩ := h.node hn
    refine ⟨⟨st.vars, st.heap.set n { nd with label := v }⟩, ?_, h.put hn q3 q4 rfl (h.ends n · · hn)⟩
    have hl : n < st.heap.length := by rw [h.size]; exact hn
    simp [Prog.step, h.rd hx, q2, wr_ok hl]

theorem run_holds (dv : V) (os : List (Op K V)) : ∀ {st : Prog K V} {g g' : Graph K V}, Holds hash st g →
    meanings dv g os = some g' → ∃ st', st.run hash dv os = .ok st' ∧ Holds hash st' g' := by
  induction os with
  | nil => intro st g g' h e; cases e; exact ⟨st, rfl, h⟩
  | cons o os ih =>
    intro st g g' h e
    obtain ⟨g1, e1, e2⟩ := Option.bind_eq_some_iff.1 e
    obtain ⟨st1, q1, h1⟩ := step_holds dv h o e1
    obtain ⟨st2, q2, h2⟩ := ih h1 e2
    exact ⟨st2, by simp [Prog.run, q1, q2], h2⟩

theorem start_holds (dv : V) : Holds hash (⟨[], []⟩ : Prog K V) (start dv) := by
  refine ⟨rfl, rfl, ?_, ?_, ?_, ?_, ?_⟩ <;> intros <;> simp_all [start]

/-! ## The property -/

/-- C136: a program that makes nodes, visits children, links nodes below one another in any way (sharing and cycles
included) and sets labels runs without failure, and afterwards every variable shows the label and the edges of the node
it stands for in the graph that the program describes. -/
theorem C136_graph (dv : V) (os : List (Op K V)) (g : Graph K V) (e : meanings dv (start dv) os = some g) :
    ∃ st, Prog.run hash dv ⟨[], []⟩ os = .ok st ∧ st.vars = g.vars ∧
      ∀ (x n : Nat), g.vars[x]? = some n →
        (∃ nd, st.heap[n]? = some nd ∧ nd.label = (g.node n).label) ∧
        (∀ k, hasChild hash st.heap n k = .ok ((g.node n).edge k).isSome) ∧
        (∀ l : List K, l.Nodup → (∀ k, k ∈ l ↔ ((g.node n).edge k).isSome = true) →
          count st.heap n = .ok l.length) ∧
        (∀ k m, (g.node n).edge k = some m → child hash dv st.heap n k = .ok (m, st.heap)) := by
  obtain ⟨st, q, h⟩ := run_holds dv os (start_holds (hash := hash) dv) e
  refine ⟨st, q, h.vars, ?_⟩
  intro x n hx
  obtain ⟨nd, q1, q2, q3, q4, q5⟩ := h.node (h.live x n hx)
  refine ⟨⟨nd, q1, q5⟩, ?_, ?_, ?_⟩
  · intro k
    simp [hasChild, q2, contains_spec q3, q4]
  · intro l hl hm
    simp only [count, q2, Res.ok_bind, HashMap.N, q3.size]
    have hperm : l.Perm (nd.children.a.flatten.map (·.key)) := by
      rw [List.perm_ext_iff_of_nodup hl q3.nodup]
      intro k
      rw [hm, ← q4, HashMap.abs]
      constructor
      · intro hk
        apply Classical.byContradiction
        intro hn
        rw [look_eq_none.2 hn] at hk; simp at hk
      · intro hk
        cases hl : look nd.children.a.flatten k with
        | none => exact absurd hk (look_eq_none.1 hl)
        | some v => rfl
    rw [hperm.length_eq, List.length_map]
  · intro k m hk
    simp [child, q2, contains_spec q3, get_spec q3, q4, hk]

/-- The variables an operation uses. -/
def uses : Op K V → List Nat
  | .fresh _ => []
  | .visit x _ => [x]
  | .link x _ y => [x, y]
  | .label x _ => [x]

/-- C136, which programs are meant: every operation on variables that exist has a meaning. -/
theorem C136_meaning (dv : V) (g : Graph K V) (o : Op K V) (h : ∀ x ∈ uses o, x < g.vars.length) :
    ∃ g', meaning dv g o = some g' := by
  cases o with
  | fresh v => exact ⟨_, rfl⟩
  | visit x k => simp [meaning, List.getElem?_eq_getElem (h x (by simp [uses]))]
  | link x k y =>
    simp [meaning, List.getElem?_eq_getElem (h x (by simp [uses])), List.getElem?_eq_getElem (h y (by simp [uses]))]
  | label x v => simp [meaning, List.getElem?_eq_getElem (h x (by simp [uses]))]

/-- A node that is shared by two others, and a cycle. -/
example : ∃ g : Graph Nat Nat, meanings 0 (start 0)
      [.fresh 1, .fresh 2, .visit 0 5, .link 1 6 2, .label 2 7, .link 2 8 0] = some g ∧
    g.vars = [0, 1, 2] ∧ (g.node 2).label = 7 ∧ (g.node 0).edge 5 = some 2 ∧ (g.node 1).edge 6 = some 2 ∧
    (g.node 2).edge 8 = some 0 :=
  ⟨_, rfl, rfl, rfl, rfl, rfl, rfl⟩

end Lolly.HashGraphProps
