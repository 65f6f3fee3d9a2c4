import Verif.Containers.HashTree
import Verif.Containers.HashMapProps

/-!
# Properties C67 (hashtree) and C69 (named resources)
-/

set_option linter.unusedSectionVars false

namespace Lolly.HashTreeProps

open HashMap HashTree

variable {K V : Type} [DecidableEq K] {hash : K → BitVec 32}

/-- `P` names each node by its path; the tree structure, the labels and the hashmaps agree. -/
structure Good (hash : K → BitVec 32) (dv : V) (hp : HTHeap K V) (lab : List K → V)
    (P : Nat → List K) : Prop where
  root : 0 < hp.length ∧ P 0 = []
  wf : ∀ (n : Nat) (nd : HTNode K V), hp[n]? = some nd → nd.children.WF hash
  kids : ∀ (n : Nat) (nd : HTNode K V) k m, hp[n]? = some nd → nd.children.abs k = some m →
    m < hp.length ∧ P m = P n ++ [k]
  inj : ∀ n m, n < hp.length → m < hp.length → P n = P m → n = m
  parent : ∀ m, m < hp.length → m = 0 ∨ ∃ n : Nat, ∃ nd : HTNode K V, ∃ k, hp[n]? = some nd ∧ nd.children.abs k = some m
  labels : ∀ (n : Nat) (nd : HTNode K V), hp[n]? = some nd → nd.label = lab (P n)
  rest : ∀ p, (∀ n, n < hp.length → P n ≠ p) → lab p = dv

theorem child_good {dv : V} {hp : HTHeap K V} {lab : List K → V} {P : Nat → List K}
    (g : Good hash dv hp lab P) (n : Nat) (hn : n < hp.length) (k : K) :
    ∃ m hp' P', child hash dv hp n k = .ok (m, hp') ∧ Good hash dv hp' lab P' ∧
      m < hp'.length ∧ P' m = P n ++ [k] := by
  have hnd : hp[n]? = some hp[n] := List.getElem?_eq_getElem hn
  have w := g.wf n _ hnd
  have hrd : rd hp n = .ok hp[n] := rd_ok hn
  cases hc : hp[n].children.abs k with
  | some m =>
    have hk := g.kids n _ k m hnd hc
    refine ⟨m, hp, P, ?_, g, hk.1, hk.2⟩
    simp [child, hrd, contains_spec w, get_spec w, hc]
  | none =>
    obtain ⟨ch, e1, w1, a1, i1, _⟩ := set_spec w k hp.length
    have hlen : n < (hp ++ [newNode (K := K) dv]).length := by simp; omega
    let hp' : HTHeap K V := (hp ++ [newNode dv]).set n { hp[n] with children := ch }
    have hp'len : hp'.length = hp.length + 1 := by simp [hp']
    have hgetn : hp'[n]? = some { hp[n] with children := ch } := by
      simp [hp', List.getElem?_set]; omega
    have hgetl : hp'[hp.length]? = some (newNode dv) := by
      have : n ≠ hp.length := by omega
      simp [hp', this]
    have hgeto : ∀ j : Nat, j ≠ n → j < hp.length → hp'[j]? = hp[j]? := by
      intro j h1 h2
      have h1 : n ≠ j := fun e => h1 e.symm
      simp [hp', h1, List.getElem?_append, h2]
    have hnew : ∀ nd, hp'[hp.length]? = some nd → nd = newNode dv := by
      intro nd h; rw [hgetl] at h; exact (Option.some.inj h).symm
    have nokid : ∀ k' m, (newNode dv : HTNode K V).children.abs k' ≠ some m := by
      intro k' m; simp [newNode, new_abs]
    -- a characterisation of the nodes of the new heap
    have hcases : ∀ (j : Nat) nd, hp'[j]? = some nd →
        (j = hp.length ∧ nd = newNode dv) ∨ (j = n ∧ nd = { hp[n] with children := ch }) ∨
        (j ≠ n ∧ j < hp.length ∧ hp[j]? = some nd) := by
      intro j nd hj
      have hjl : j < hp'.length := (List.getElem?_eq_some_iff.1 hj).1
      by_cases h1 : j = hp.length
      · subst h1; exact .inl ⟨rfl, hnew _ hj⟩
      · by_cases h2 : j = n
        · subst h2; rw [hgetn] at hj; exact .inr (.inl ⟨rfl, (Option.some.inj hj).symm⟩)
        · refine .inr (.inr ⟨h2, by omega, ?_⟩)
          rw [← hgeto j h2 (by omega)]; exact hj
    have hfresh : ∀ j, j < hp.length → P j ≠ P n ++ [k] := by
      intro j hj he
      rcases g.parent j hj with rfl | ⟨n', nd', k', h1, h2⟩
      · rw [g.root.2] at he; simp at he
      · have h3 := (g.kids n' nd' k' j h1 h2).2
        rw [he] at h3
        have h4 := List.append_inj' h3 rfl
        have hn' : n' < hp.length := (List.getElem?_eq_some_iff.1 h1).1
        have h5 := g.inj n n' hn hn' h4.1
        subst h5
        rw [hnd] at h1; obtain rfl := Option.some.inj h1
        have h6 : k = k' := by simpa using h4.2
        subst h6; rw [hc] at h2; exact absurd h2 (by simp)
    let P' : Nat → List K := fun j => if j = hp.length then P n ++ [k] else P j
    have hPl : P' hp.length = P n ++ [k] := by simp [P']
    have hPo : ∀ j, j < hp.length → P' j = P j := by
      intro j hj; have : j ≠ hp.length := by omega
      simp [P', this]
    refine ⟨hp.length, hp', P', ?_, ?_, by omega, hPl⟩
    · have hw : wr (hp ++ [newNode dv]) n { hp[n] with children := ch } = .ok hp' := wr_ok hlen
      have hr : rd hp' n = .ok { hp[n] with children := ch } := rd_eq_ok.2 hgetn
      simp only [child, hrd, Res.ok_bind, contains_spec w, hc, Option.isSome_none,
        Bool.false_eq_true, if_false, e1, hw, hr, get_spec w1, a1, if_true, Option.getD_some]
    · constructor
      · exact ⟨by omega, by rw [hPo 0 g.root.1]; exact g.root.2⟩
      · intro j nd hj
        rcases hcases j nd hj with ⟨_, rfl⟩ | ⟨_, rfl⟩ | ⟨_, _, h⟩
        · exact new_wf _ _ _ (Nat.le_refl 1)
        · exact w1
        · exact g.wf j nd h
      · intro j nd k' m hj hm
        rcases hcases j nd hj with ⟨_, rfl⟩ | ⟨rfl, rfl⟩ | ⟨_, hjl, h⟩
        · exact absurd hm (nokid k' m)
        · simp only [a1] at hm
          by_cases hk : k' = k
          · subst hk
            simp only [if_true, Option.some.injEq] at hm
            subst hm
            exact ⟨by omega, by rw [hPl, hPo _ hn]⟩
          · simp only [hk, if_false] at hm
            have := g.kids j _ k' m hnd hm
            exact ⟨by omega, by rw [hPo _ this.1, hPo _ hn]; exact this.2⟩
        · have := g.kids j nd k' m h hm
          exact ⟨by omega, by rw [hPo _ this.1, hPo _ hjl]; exact this.2⟩
      · intro i j hi hj he
        by_cases h1 : i = hp.length
        · by_cases h2 : j = hp.length
          · rw [h1, h2]
          · rw [h1, hPl, hPo j (by omega)] at he
            exact absurd he.symm (hfresh j (by omega))
        · by_cases h2 : j = hp.length
          · rw [h2, hPl, hPo i (by omega)] at he
            exact absurd he (hfresh i (by omega))
          · rw [hPo i (by omega), hPo j (by omega)] at he
            exact g.inj i j (by omega) (by omega) he
      · intro m hm
        by_cases h1 : m = hp.length
        · refine .inr ⟨n, _, k, hgetn, ?_⟩
          simp [a1, h1]
        · rcases g.parent m (by omega) with h | ⟨n', nd', k', h2, h3⟩
          · exact .inl h
          · by_cases hn' : n' = n
            · subst hn'
              rw [hnd] at h2; obtain rfl := Option.some.inj h2
              refine .inr ⟨n', _, k', hgetn, ?_⟩
              have hk : k' ≠ k := by rintro rfl; rw [hc] at h3; exact absurd h3 (by simp)
              simp only [a1, hk, if_false]; exact h3
            · have : n' < hp.length := (List.getElem?_eq_some_iff.1 h2).1
              exact .inr ⟨n', nd', k', by rw [hgeto n' hn' this]; exact h2, h3⟩
      · intro j nd hj
        rcases hcases j nd hj with ⟨rfl, rfl⟩ | ⟨rfl, rfl⟩ | ⟨_, hjl, h⟩
        · rw [hPl, g.rest _ hfresh]; rfl
        · rw [hPo _ hn]; exact g.labels j hp[j] hnd
        · rw [hPo _ hjl]; exact g.labels j nd h
      · intro p hp0
        apply g.rest p
        intro j hj
        rw [← hPo j hj]; exact hp0 j (by omega)

theorem walk_good {dv : V} {hp : HTHeap K V} {lab : List K → V} {P : Nat → List K}
    (g : Good hash dv hp lab P) (n : Nat) (hn : n < hp.length) (ks : List K) :
    ∃ m hp' P', walk hash dv hp n ks = .ok (m, hp') ∧ Good hash dv hp' lab P' ∧
      m < hp'.length ∧ P' m = P n ++ ks := by
  induction ks generalizing hp P n with
  | nil => exact ⟨n, hp, P, rfl, g, hn, by simp⟩
  | cons k ks ih =>
    obtain ⟨m, hp1, P1, e1, g1, hm, h1⟩ := child_good g n hn k
    obtain ⟨m2, hp2, P2, e2, g2, hm2, h2⟩ := ih g1 m hm
    exact ⟨m2, hp2, P2, by simp [walk, e1, e2], g2, hm2, by rw [h2, h1]; simp⟩

theorem setLabel_good {dv : V} {hp : HTHeap K V} {lab : List K → V} {P : Nat → List K}
    [DecidableEq (List K)] (g : Good hash dv hp lab P) (p : List K) (v : V) :
    ∃ hp' P', setLabel hash dv hp p v = .ok hp' ∧
      Good hash dv hp' (fun q => if q = p then v else lab q) P' := by
  obtain ⟨m, hp1, P1, e1, g1, hm, h1⟩ := walk_good g 0 g.root.1 p
  have h1 : P1 m = p := by rw [h1, g.root.2]; rfl
  have hr : rd hp1 m = .ok hp1[m] := rd_ok hm
  have hgm : hp1[m]? = some hp1[m] := List.getElem?_eq_getElem hm
  have hcases : ∀ (j : Nat) nd, (hp1.set m { hp1[m] with label := v })[j]? = some nd →
      (j = m ∧ nd = { hp1[m] with label := v }) ∨ (j ≠ m ∧ hp1[j]? = some nd) := by
    intro j nd hj
    by_cases h : m = j
    · subst h
      rw [List.getElem?_set_self hm] at hj
      exact .inl ⟨rfl, (Option.some.inj hj).symm⟩
    · rw [List.getElem?_set_ne h] at hj
      exact .inr ⟨fun e => h e.symm, hj⟩
  refine ⟨hp1.set m { hp1[m] with label := v }, P1, by simp [setLabel, e1, hr, wr_ok hm], ?_⟩
  constructor
  · simpa using g1.root
  · intro j nd hj
    rcases hcases j nd hj with ⟨rfl, rfl⟩ | ⟨_, h⟩
    · exact g1.wf j hp1[j] hgm
    · exact g1.wf j nd h
  · intro j nd k m' hj hm'
    simp only [List.length_set]
    rcases hcases j nd hj with ⟨rfl, rfl⟩ | ⟨_, h⟩
    · exact g1.kids j hp1[j] k m' hgm hm'
    · exact g1.kids j nd k m' h hm'
  · intro i j hi hj; simp only [List.length_set] at hi hj; exact g1.inj i j hi hj
  · intro j hj
    simp only [List.length_set] at hj
    rcases g1.parent j hj with h | ⟨n, nd, k, h2, h3⟩
    · exact .inl h
    · by_cases hn : m = n
      · subst hn; rw [hgm] at h2; obtain rfl := Option.some.inj h2
        exact .inr ⟨m, { hp1[m] with label := v }, k, by rw [List.getElem?_set_self hm], h3⟩
      · exact .inr ⟨n, nd, k, by rw [List.getElem?_set_ne hn]; exact h2, h3⟩
  · intro j nd hj
    rcases hcases j nd hj with ⟨rfl, rfl⟩ | ⟨hne, h⟩
    · simp [h1]
    · have hj' : j < hp1.length := (List.getElem?_eq_some_iff.1 h).1
      have : P1 j ≠ p := by
        rw [← h1]; intro e; exact hne (g1.inj j m hj' hm e)
      simp only [this, if_false]; exact g1.labels j nd h
  · intro q hq
    simp only [List.length_set] at hq
    have : q ≠ p := by rintro rfl; exact hq m hm h1
    simp only [this, if_false]; exact g1.rest q hq

/-- Client commands on a hashtree. -/
inductive Cmd (K V : Type)
  | visit (p : List K)
  | set (p : List K) (v : V)

def run (hash : K → BitVec 32) (dv : V) : HTHeap K V → List (Cmd K V) → Res (HTHeap K V)
  | hp, [] => .ok hp
  | hp, .visit p :: cs => do
    let (_, hp) ← walk hash dv hp 0 p
    run hash dv hp cs
  | hp, .set p v :: cs => do run hash dv (← setLabel hash dv hp p v) cs

/-- The dictionary that a list of commands stands for, from an initial dictionary. -/
def dict [DecidableEq (List K)] : (List K → V) → List (Cmd K V) → List K → V
  | f, [] => f
  | f, .visit _ :: cs => dict f cs
  | f, .set p v :: cs => dict (fun q => if q = p then v else f q) cs

/-- C67: from a fresh tree with root label `v0`, after any history of visits and label updates, the
label read at any path is the one last set at that path; it is the initial one (that of the
root, the default elsewhere) if none was set. No step is undefined or throws. -/
theorem C67_dictionary [DecidableEq (List K)] (dv v0 : V) (cs : List (Cmd K V)) (p : List K) :
    ∃ hp hp', run hash dv [newNode v0] cs = .ok hp ∧
      getLabel hash dv hp p = .ok (dict (fun q => if q = [] then v0 else dv) cs p, hp') := by
  suffices H : ∀ (cs : List (Cmd K V)) hp lab P, Good hash dv hp lab P →
      ∃ hp' P', run hash dv hp cs = .ok hp' ∧ Good hash dv hp' (dict lab cs) P' by
    have g0 : Good hash dv ([newNode v0] : HTHeap K V) (fun q => if q = [] then v0 else dv)
        (fun _ => []) := by
      have h1 : ∀ (n : Nat) nd, ([newNode v0] : HTHeap K V)[n]? = some nd → n = 0 ∧ nd = newNode v0 := by
        intro n nd h
        cases n with
        | zero => simp at h; exact ⟨rfl, h.symm⟩
        | succ n => simp at h
      constructor
      · simp
      · intro n nd h; obtain ⟨rfl, rfl⟩ := h1 n nd h
        exact new_wf _ _ _ (Nat.le_refl 1)
      · intro n nd k m h hk; obtain ⟨rfl, rfl⟩ := h1 n nd h
        simp [newNode, new_abs] at hk
      · intro n m hn hm _; simp at hn hm; omega
      · intro m hm; simp at hm; exact .inl hm
      · intro n nd h; obtain ⟨rfl, rfl⟩ := h1 n nd h; simp [newNode]
      · intro p hp; have := hp 0 (by simp)
        have : p ≠ [] := fun e => this e.symm
        simp [this]
    obtain ⟨hp, P, e, g⟩ := H cs _ _ _ g0
    obtain ⟨m, hp', P', e', g', hm, h⟩ := walk_good g 0 g.root.1 p
    refine ⟨hp, hp', e, ?_⟩
    have := g'.labels m _ (List.getElem?_eq_getElem hm)
    rw [h, g.root.2, List.nil_append] at this
    simp [getLabel, e', rd_ok hm, this]
  intro cs
  induction cs with
  | nil => intro hp lab P g; exact ⟨hp, P, rfl, g⟩
  | cons c cs ih =>
    intro hp lab P g
    cases c with
    | visit p =>
      obtain ⟨m, hp1, P1, e1, g1, _⟩ := walk_good g 0 g.root.1 p
      obtain ⟨hp2, P2, e2, g2⟩ := ih hp1 lab P1 g1
      exact ⟨hp2, P2, by simp [run, e1, e2], g2⟩
    | set p v =>
      obtain ⟨hp1, P1, e1, g1⟩ := setLabel_good g p v
      obtain ⟨hp2, P2, e2, g2⟩ := ih hp1 _ P1 g1
      exact ⟨hp2, P2, by simp [run, e1, e2], g2⟩

/-- Non-vacuity: setting labels at a path, a prefix of it and a sibling. -/
example : ∃ hp hp', run (fun x => BitVec.ofNat 32 x) 0 [newNode 9]
      [.set [1, 2] 12, .set [1] 1, .visit [1, 2, 3], .set [1, 3] 13, .set [1, 2] 22] = .ok hp ∧
    getLabel (fun x => BitVec.ofNat 32 x) 0 hp [1, 2] = .ok (22, hp') ∧
    (getLabel (fun x => BitVec.ofNat 32 x) 0 hp [1]) >>= (fun r => .ok r.1) = .ok 1 :=
  ⟨_, _, rfl, rfl, rfl⟩

/-! ## C69 -/

section resources
open HashMapProps

/-- Creations and destructions. -/
inductive Ev (K : Type)
  | create (s : K) (p : Nat)
  | destroy (p : Nat)

def runR (hash : K → BitVec 32) : Resources K → List (Ev K) → Res (Resources K)
  | r, [] => .ok r
  | r, .create s p :: es => do runR hash (← r.create hash s p) es
  | r, .destroy p :: es => do runR hash (← r.destroy hash p) es

/-- The name under which the live object at `p` was created, for a history given most recent
event first. -/
def nameOf (p : Nat) : List (Ev K) → Option K
  | [] => none
  | .create s q :: es => if q = p then some s else nameOf p es
  | .destroy q :: es => if q = p then none else nameOf p es

/-- Well-formed histories (most recent first): fresh objects are not NULL, and only live objects
are destroyed. -/
def WellFormed : List (Ev K) → Prop
  | [] => True
  | .create _ p :: es => p ≠ 0 ∧ WellFormed es
  | .destroy p :: es => nameOf p es ≠ none ∧ WellFormed es

/-- What a name should give (history most recent first): the object last created under the name,
unless an object of that name was destroyed since. -/
def expected (s : K) : List (Ev K) → Option Nat
  | [] => none
  | .create t p :: es => if t = s then some p else expected s es
  | .destroy p :: es => if nameOf p es = some s then none else expected s es

theorem runR_append (r : Resources K) (es fs : List (Ev K)) :
    runR hash r (es ++ fs) = (runR hash r es >>= fun r' => runR hash r' fs) := by
  induction es generalizing r with
  | nil => rfl
  | cons e es ih =>
    cases e with
    | create s p => simp only [List.cons_append, runR]; cases r.create hash s p <;> simp [ih]
    | destroy p => simp only [List.cons_append, runR]; cases r.destroy hash p <;> simp [ih]

theorem runR_inv (rs : List (Ev K)) (hw : WellFormed rs) :
    ∃ r, runR hash Resources.empty rs.reverse = .ok r ∧ r.instances.WF hash ∧
      r.instances.init = 0 ∧ (∀ s, r.instances.abs s = expected s rs) ∧
      (∀ p, r.names p = nameOf p rs) := by
  induction rs with
  | nil =>
    exact ⟨Resources.empty, rfl, new_wf _ _ _ (Nat.le_refl 1), rfl,
      fun s => by simp [Resources.empty, new_abs, expected], fun p => rfl⟩
  | cons e rs ih =>
    cases e with
    | create s p =>
      obtain ⟨r, e1, w, hi, ha, hn⟩ := ih hw.2
      obtain ⟨i', e2, w2, a2, i2, _⟩ := set_spec w s p
      refine ⟨{ instances := i', names := fun q => if q = p then some s else r.names q },
        ?_, w2, i2.trans hi, ?_, ?_⟩
      · rw [List.reverse_cons, runR_append, e1]; simp [runR, Resources.create, e2]
      · intro t; simp only [a2, expected, ha]
        by_cases h : t = s
        · simp [h]
        · have : s ≠ t := fun e => h e.symm
          simp [h, this]
      · intro q; simp only [nameOf, hn]
        by_cases h : q = p
        · simp [h]
        · have : p ≠ q := fun e => h e.symm
          simp [h, this]
    | destroy p =>
      obtain ⟨r, e1, w, hi, ha, hn⟩ := ih hw.2
      obtain ⟨s, hs⟩ : ∃ s, nameOf p rs = some s := by
        cases h : nameOf p rs with
        | none => exact absurd h hw.1
        | some s => exact ⟨s, rfl⟩
      obtain ⟨i', e2, w2, a2, i2, _⟩ := reset_spec w s
      refine ⟨{ instances := i', names := fun q => if q = p then none else r.names q },
        ?_, w2, i2.trans hi, ?_, ?_⟩
      · rw [List.reverse_cons, runR_append, e1]; simp [runR, Resources.destroy, hn, hs, e2]
      · intro t; simp only [a2, expected, ha, hs]
        by_cases h : t = s
        · simp [h]
        · have : s ≠ t := fun e => h e.symm
          simp [h, this]
      · intro q; simp only [nameOf, hn]
        by_cases h : q = p
        · simp [h]
        · have : p ≠ q := fun e => h e.symm
          simp [h, this]

/-- C69: after any well-formed history, looking a name up gives the object last created under it
unless an object of that name was destroyed since, and nil (0) otherwise. -/
theorem C69_lookup (es : List (Ev K)) (hw : WellFormed es.reverse) (s : K) :
    ∃ r, runR hash Resources.empty es = .ok r ∧
      r.lookup hash s = .ok ((expected s es.reverse).getD 0) := by
  obtain ⟨r, e, w, hi, ha, _⟩ := runR_inv (hash := hash) es.reverse hw
  rw [List.reverse_reverse] at e
  exact ⟨r, e, by rw [Resources.lookup, get_spec w, ha, hi]⟩

/-- C69, `make`: an existing resource is returned as it is, otherwise the new one is made and can
be looked up. -/
theorem C69_make (es : List (Ev K)) (hw : WellFormed es.reverse) (s : K) (p : Nat) :
    ∃ r q r', runR hash Resources.empty es = .ok r ∧ r.make hash s p = .ok (q, r') ∧
      r'.lookup hash s = .ok q ∧
      q = (expected s es.reverse).getD p ∧ (expected s es.reverse ≠ none → r' = r) := by
  obtain ⟨r, e, w, hi, ha, _⟩ := runR_inv (hash := hash) es.reverse hw
  rw [List.reverse_reverse] at e
  cases hx : expected s es.reverse with
  | some q =>
    refine ⟨r, q, r, e, ?_, ?_, rfl, fun _ => rfl⟩
    · simp [Resources.make, contains_spec w, Resources.lookup, get_spec w, ha, hx]
    · simp [Resources.lookup, get_spec w, ha, hx]
  | none =>
    obtain ⟨i', e2, w2, a2, i2, _⟩ := set_spec w s p
    refine ⟨r, p, { instances := i', names := fun q => if q = p then some s else r.names q }, e,
      ?_, ?_, rfl, fun h => absurd rfl h⟩
    · simp only [Resources.make, contains_spec w, ha, hx, Option.isSome_none, Res.ok_bind,
        Bool.false_eq_true, if_false, Resources.create, e2]
    · simp [Resources.lookup, get_spec w2, a2]

/-- Non-vacuity: two resources of the same name, one of them destroyed. -/
example : WellFormed ([.create 1 10, .create 1 11, .create 2 20, .destroy 10] : List (Ev Nat)).reverse ∧
    expected 1 ([.create 1 10, .create 1 11, .create 2 20, .destroy 10] : List (Ev Nat)).reverse = none ∧
    expected 2 ([.create 1 10, .create 1 11, .create 2 20, .destroy 10] : List (Ev Nat)).reverse
      = some 20 := by
  refine ⟨?_, rfl, rfl⟩
  simp [WellFormed, nameOf]

end resources
end Lolly.HashTreeProps
