import Verif.Data.TreeCost
import Verif.Data.LollyTreeProps
import Verif.ListUtil

set_option autoImplicit false

/-!
# C151: deep trees and trees that share parts
-/

namespace Lolly.TreeCostProps

open LTree LTreeProps TreeCost

mutual
/-- The number of nodes, where a node that occurs several times is counted each time. -/
def size : Tree → Nat
  | .atom _ => 1
  | .node _ ts => sizes ts + 1
def sizes : List Tree → Nat
  | [] => 0
  | t :: ts => size t + sizes ts
end

mutual
/-- `l` lists the nodes of the tree, each as often as it occurs. -/
def Nodes (h : Heap) : Tree → Nat → List Nat → Prop
  | .atom _, t, l => l = [t]
  | .node _ ts, t, l => ∃ o a ks l', h.trees[t]? = some ⟨o, .arr a⟩ ∧ h.arrs[a]? = some ks ∧ NodesL h ts ks l' ∧ l = t :: l'
def NodesL (h : Heap) : List Tree → List Nat → List Nat → Prop
  | [], _, l => l = []
  | t :: ts, ks, l => ∃ k ks' l1 l2, ks = k :: ks' ∧ Nodes h t k l1 ∧ NodesL h ts ks' l2 ∧ l = l1 ++ l2
end

mutual
theorem nodes_length {h : Heap} : ∀ (T : Tree) {t : Nat} {l : List Nat}, Nodes h T t l → l.length = size T
  | .atom _, t, l => by rw [Nodes]; rintro rfl; rfl
  | .node _ ts, t, l => by
    rw [Nodes]
    rintro ⟨o, a, ks, l', _, _, n, rfl⟩
    simp only [List.length_cons, nodesL_length ts n, size]
theorem nodesL_length {h : Heap} : ∀ (Ts : List Tree) {ks l : List Nat}, NodesL h Ts ks l → l.length = sizes Ts
  | [], ks, l => by rw [NodesL]; rintro rfl; rfl
  | T :: Ts, ks, l => by
    rw [NodesL]
    rintro ⟨k, ks', l1, l2, _, n1, n2, rfl⟩
    simp only [List.length_append, nodes_length T n1, nodesL_length Ts n2, sizes]
end

/-! ## Copying -/

mutual
/-- The nodes that `copy` makes: it fills the places of the children with empty strings first. -/
def made : Tree → Nat
  | .atom _ => 1
  | .node _ ts => mades ts + ts.length + 1
def mades : List Tree → Nat
  | [] => 0
  | t :: ts => made t + mades ts
end

mutual
theorem made_eq : ∀ T : Tree, made T + 1 = 2 * size T
  | .atom _ => rfl
  | .node _ ts => by have := mades_eq ts; rw [made, size]; omega
theorem mades_eq : ∀ ts : List Tree, mades ts + ts.length = 2 * sizes ts
  | [] => rfl
  | t :: ts => by have := mades_eq ts; have := made_eq t; rw [mades, sizes, List.length_cons]; omega
end

theorem mades_take {ts : List Tree} {i : Nat} (hi : i < ts.length) :
    mades (ts.take (i + 1)) = mades (ts.take i) + made ts[i] := by
  induction ts generalizing i with
  | nil => simp at hi
  | cons t ts ih =>
    cases i with
    | zero => simp [mades]
    | succ i =>
      have := ih (i := i) (by simpa using hi)
      simp only [List.take_succ_cons, mades, List.getElem_cons_succ, this]
      omega

theorem dflts_trees : ∀ (n : Nat) (h : Heap), (dflts n h).1.trees.length = h.trees.length + n
  | 0, h => rfl
  | n + 1, h => by
    simp only [dflts]
    rw [dflts_trees n]
    simp [dflt, ofStr, newNode, newStr]
    omega

theorem ofN_trees (h : Heap) (o : Int) (n : Nat) : (ofN h o n).1.trees.length = h.trees.length + n + 1 := by
  simp [ofN, ofArr, newNode, arrayN, newArr, dflts_trees]

theorem copy_made : ∀ (f : Nat) (h : Heap) {T : Tree} {t : Nat}, T.depth ≤ f → Den h T t →
    ∃ h' t', copy f h t = .ok (h', t') ∧ Ext h h' ∧ h'.trees.length = h.trees.length + made T
  | 0, h, T, t => by
    intro hd
    cases T <;> rw [Tree.depth] at hd <;> omega
  | f + 1, h, T, t => by
    intro hd dT
    rw [copy]
    cases T with
    | atom l =>
      rw [Den, DenP] at dT
      obtain ⟨_, s, h1, _, h2⟩ := dT
      rw [op_ok h1, Res.ok_bind, if_pos rfl, label_ok h1 h2, Res.ok_bind]
      exact ⟨_, _, rfl, (newStr_ext h l).trans (newNode_ext _ _), by simp [newStr, made]⟩
    | node o Ts =>
      rw [Den, DenP] at dT
      obtain ⟨_, ho, a, ks, h1, _, h2, h3⟩ := dT
      obtain ⟨lk, gk⟩ := (densP_iff _ _ _ _).1 h3
      rw [Tree.depth] at hd
      rw [op_ok h1, Res.ok_bind, if_neg ho, N_ok h1 h2, Res.ok_bind]
      obtain ⟨a2, ks2, x1, x2, x3, x4, x5, x6, x7, x8⟩ := ofN_spec h o ks.length
      have x9 := ofN_trees h o ks.length
      dsimp only
      generalize (ofN h o ks.length).1 = h1' at *
      generalize (ofN h o ks.length).2 = r at *
      obtain ⟨g, e, i1, i2, _⟩ := forUp_spec (lo := 0) (hi := ks.length) (s := h1')
        (body := fun i h => do
          let c ← child h t i
          let q ← copy f h c
          setChild q.1 r i q.2)
        (fun i g => Ext h g ∧ g.trees.length = h1'.trees.length + mades (Ts.take i) ∧ g.trees[r]? = some ⟨o, .arr a2⟩ ∧
          ∃ kk, g.arrs[a2]? = some kk ∧ kk.length = ks.length)
        (by omega) ⟨x1, rfl, x2, ks2, x3, x4⟩
        (fun i g _ hi ⟨i1, i2, i3, kk, i4, i5⟩ => by
          have e1 := i1.1.1 _ _ trivial h1
          have e2 := i1.1.2.1 _ _ trivial h2
          obtain ⟨g', c', ec, j1, j2⟩ := copy_made f g (T := Ts[i]) (t := ks[i])
            (by have := depth_le (ts := Ts) (i := i) (by omega); omega) (den_ext i1 (gk i (by omega) hi))
          have k1 := j1.1.1 _ _ trivial i3
          have k2 := j1.1.2.1 _ _ trivial i4
          have k3 := (List.getElem?_eq_some_iff.1 k2).1
          refine ⟨_, by rw [child_ok e1 e2 hi, Res.ok_bind, ec, Res.ok_bind]; exact setChild_ok k1 k2 (by omega) _,
            ext_set (i1.trans j1) (by omega) _, ?_, k1, kk.set i c', ?_, by simpa using i5⟩
          · show g'.trees.length = _
            rw [mades_take (by omega), j2, i2]
            omega
          · show (g'.arrs.set a2 (kk.set i c'))[a2]? = _
            rw [List.getElem?_set_self (by omega)])
      refine ⟨g, r, by rw [e]; rfl, i1, ?_⟩
      rw [List.take_of_length_le (by omega)] at i2
      rw [made]
      omega

theorem forN_hang {S : Type} {body : Nat → S → Res S} (I : Nat → S → Prop) {n i : Nat} {s : S} (h0 : I i s)
    (step : ∀ j s, i ≤ j → j < i + n → I j s → body j s = .hang ∨ ∃ s', body j s = .ok s' ∧ I (j + 1) s')
    (stop : ∃ j, i ≤ j ∧ j < i + n ∧ ∀ s, I j s → body j s = .hang) : forN body n i s = .hang := by
  induction n generalizing i s with
  | zero => obtain ⟨j, h1, h2, _⟩ := stop; omega
  | succ n ih =>
    rw [forN]
    rcases step i s (Nat.le_refl _) (by omega) h0 with e | ⟨s', e, h⟩
    · rw [e]; rfl
    · rw [e, Res.ok_bind]
      refine ih h (fun j s a b => step j s (by omega) (by omega)) ?_
      obtain ⟨j, h1, h2, h3⟩ := stop
      by_cases hj : j = i
      · subst hj
        rw [h3 s h0] at e
        cases e
      · exact ⟨j, by omega, by omega, h3⟩

theorem depths_get {ts : List Tree} {f : Nat} (h : f < depths ts) : ∃ i, ∃ hi : i < ts.length, f < ts[i].depth := by
  induction ts with
  | nil => simp [depths] at h
  | cons t ts ih =>
    rw [depths] at h
    by_cases ht : f < t.depth
    · exact ⟨0, by simp, ht⟩
    · obtain ⟨i, hi, h'⟩ := ih (by omega)
      exact ⟨i + 1, by simpa using hi, h'⟩

theorem copy_hang : ∀ (f : Nat) (h : Heap) {T : Tree} {t : Nat}, f < T.depth → Den h T t → copy f h t = .hang
  | 0, h, T, t => fun _ _ => rfl
  | f + 1, h, T, t => by
    intro hd dT
    rw [copy]
    cases T with
    | atom l => rw [Tree.depth] at hd; omega
    | node o Ts =>
      rw [Den, DenP] at dT
      obtain ⟨_, ho, a, ks, h1, _, h2, h3⟩ := dT
      obtain ⟨lk, gk⟩ := (densP_iff _ _ _ _).1 h3
      rw [Tree.depth] at hd
      rw [op_ok h1, Res.ok_bind, if_neg ho, N_ok h1 h2, Res.ok_bind]
      obtain ⟨a2, ks2, x1, x2, x3, x4, x5, x6, x7, x8⟩ := ofN_spec h o ks.length
      dsimp only
      generalize (ofN h o ks.length).1 = h1' at *
      generalize (ofN h o ks.length).2 = r at *
      unfold forUp
      rw [forN_hang (fun _ g => Ext h g ∧ g.trees[r]? = some ⟨o, .arr a2⟩ ∧ ∃ kk, g.arrs[a2]? = some kk ∧ kk.length = ks.length)
        ⟨x1, x2, ks2, x3, x4⟩]
      · rfl
      · rintro i g - hi ⟨i1, i3, kk, i4, i5⟩
        have hi : i < ks.length := by omega
        have e1 := i1.1.1 _ _ trivial h1
        have e2 := i1.1.2.1 _ _ trivial h2
        by_cases hT : f < Ts[i].depth
        · left
          rw [child_ok e1 e2 hi, Res.ok_bind, copy_hang f g hT (den_ext i1 (gk i (by omega) hi))]
          rfl
        · right
          obtain ⟨g', c', ec, j1, j2⟩ := copy_made f g (T := Ts[i]) (t := ks[i]) (by omega) (den_ext i1 (gk i (by omega) hi))
          have k1 := j1.1.1 _ _ trivial i3
          have k2 := j1.1.2.1 _ _ trivial i4
          have k3 := (List.getElem?_eq_some_iff.1 k2).1
          refine ⟨_, by rw [child_ok e1 e2 hi, Res.ok_bind, ec, Res.ok_bind]; exact setChild_ok k1 k2 (by omega) _,
            ext_set (i1.trans j1) (by omega) _, k1, kk.set i c', ?_, by simpa using i5⟩
          show (g'.arrs.set a2 (kk.set i c'))[a2]? = _
          rw [List.getElem?_set_self (by omega)]
      · obtain ⟨i, hi, hT⟩ := depths_get (ts := Ts) (f := f) (by omega)
        refine ⟨i, by omega, by omega, ?_⟩
        rintro g ⟨i1, -⟩
        have e1 := i1.1.1 _ _ trivial h1
        have e2 := i1.1.2.1 _ _ trivial h2
        rw [child_ok e1 e2 (by omega), Res.ok_bind, copy_hang f g hT (den_ext i1 (gk i (by omega) (by omega)))]
        rfl

/-- Copying needs the stack for as many levels as the tree has: if there are fewer it overflows, and otherwise the copy is
made. -/
theorem C151_copy_stack {h : Heap} {T : Tree} {t : Nat} (d : Den h T t) (f : Nat) :
    (copy f h t = .hang ↔ f < T.depth) ∧ (T.depth ≤ f → ∃ h' t', copy f h t = .ok (h', t') ∧ Den h' T t') := by
  refine ⟨⟨fun e => ?_, fun hf => copy_hang f h hf d⟩, fun hf => ?_⟩
  · apply Classical.byContradiction
    intro hf
    obtain ⟨h', t', e', _⟩ := copy_made f h (T := T) (by omega) d
    rw [e'] at e
    cases e
  · obtain ⟨h', t', e, d', _⟩ := C45_copy d hf
    exact ⟨h', t', e, d'⟩

mutual
theorem nodes_sub {h : Heap} : ∀ (T : Tree) {t : Nat} {l : List Nat}, Nodes h T t l → ∀ x ∈ l, Sub h t x
  | .atom _, t, l => by
    rw [Nodes]; rintro rfl x hx
    rw [List.mem_singleton.1 hx]
    exact .refl t
  | .node _ ts, t, l => by
    rw [Nodes]
    rintro ⟨o, a, ks, l', h1, h2, n, rfl⟩ x hx
    rcases List.mem_cons.1 hx with rfl | hx
    · exact .refl _
    · obtain ⟨k, hk, hs⟩ := nodesL_sub ts n x hx
      exact .step t a o ks k x h1 h2 hk hs
theorem nodesL_sub {h : Heap} : ∀ (Ts : List Tree) {ks l : List Nat}, NodesL h Ts ks l → ∀ x ∈ l, ∃ k ∈ ks, Sub h k x
  | [], ks, l => by rw [NodesL]; rintro rfl x hx; cases hx
  | T :: Ts, ks, l => by
    rw [NodesL]
    rintro ⟨k, ks', l1, l2, rfl, n1, n2, rfl⟩ x hx
    rcases List.mem_append.1 hx with hx | hx
    · exact ⟨k, List.mem_cons_self, nodes_sub T n1 x hx⟩
    · obtain ⟨k', hk, hs⟩ := nodesL_sub Ts n2 x hx
      exact ⟨k', List.mem_cons_of_mem _ hk, hs⟩
end

/-- A tree without common parts is not larger than the set `m` of its nodes. -/
theorem size_le {h : Heap} {T : Tree} {t : Nat} {l m : List Nat} (hl : Nodes h T t l) (nd : l.Nodup)
    (hm : ∀ x, Sub h t x → x ∈ m) : size T ≤ m.length := by
  rw [← nodes_length T hl]
  exact nodup_subset_length nd fun x hx => hm x (nodes_sub T hl x hx)

/-- C151 for copying trees in which no node occurs twice: there are fewer than twice as many new nodes as the tree has. -/
theorem C151_copy_partial {h : Heap} {T : Tree} {t : Nat} (d : Den h T t) {l m : List Nat} (hl : Nodes h T t l) (nd : l.Nodup)
    (hm : ∀ x, Sub h t x → x ∈ m) {f : Nat} (hf : T.depth ≤ f) :
    ∃ h' t', copy f h t = .ok (h', t') ∧ Den h' T t' ∧ h'.trees.length < h.trees.length + 2 * m.length := by
  obtain ⟨h', t', e, d', _⟩ := C45_copy d hf
  obtain ⟨h'', t'', e', _, n⟩ := copy_made f h hf d
  rw [e] at e'
  cases e'
  refine ⟨h', t', e, d', ?_⟩
  have := made_eq T
  have := size_le hl nd hm
  omega

/-! ## Comparing -/

theorem neAll_arrNe (ne' : Nat → Nat → Res (Bool × Nat)) (a b : List Nat) (hl : a.length = b.length) :
    arrNe (fun x y => ne' x y >>= fun p => .ok p.1) a b = (neAll ne' a b >>= fun p => .ok p.1) := by
  unfold arrNe forRet
  rw [if_neg (by simpa using hl), Nat.sub_zero]
  have key : ∀ (n i : Nat), i + n = a.length →
      (retN (fun i => do
        let x ← rd a i
        let y ← rd b i
        let d ← (ne' x y >>= fun p => .ok p.1)
        Res.ok (if d = true then some true else none)) n i >>= fun r => .ok (r.getD false)) =
      (neAll ne' (a.drop i) (b.drop i) >>= fun p => .ok p.1) := by
    intro n
    induction n with
    | zero =>
      intro i hi
      rw [List.drop_of_length_le (by omega), List.drop_of_length_le (by omega)]
      rfl
    | succ n ih =>
      intro i hi
      have h1 : i < a.length := by omega
      have h2 : i < b.length := by omega
      rw [List.drop_eq_getElem_cons h1, List.drop_eq_getElem_cons h2, retN, neAll, rd_ok h1, Res.ok_bind, rd_ok h2,
        Res.ok_bind]
      cases ne' a[i] b[i] with
      | ok p =>
        obtain ⟨d, c⟩ := p
        simp only [Res.ok_bind]
        cases d with
        | true => rfl
        | false =>
          have := ih (i + 1) (by omega)
          simp only [Bool.false_eq_true, if_false]
          refine Eq.trans this ?_
          cases neAll ne' (a.drop (i + 1)) (b.drop (i + 1)) <;> rfl
      | thrown => rfl
      | ub => rfl
      | hang => rfl
  exact key a.length 0 (by omega)

/-- The counted comparison gives the answers of `!=`. -/
theorem neC_fst (h : Heap) : ∀ (f t u : Nat), (neC h f t u >>= fun p => .ok p.1) = ne h f t u
  | 0, _, _ => rfl
  | f + 1, t, u => by
    rw [neC, ne]
    by_cases htu : t = u
    · rw [if_pos htu, if_pos htu]; rfl
    · rw [if_neg htu, if_neg htu]
      cases op h t with
      | ok o =>
        cases op h u with
        | ok o' =>
          simp only [Res.ok_bind]
          by_cases ho : o = o'
          · have ho' : ¬(o ≠ o') := fun g => g ho
            rw [if_neg ho', if_neg ho']
            by_cases h0 : o = 0
            · rw [if_pos h0, if_pos h0]
              cases label h t with
              | ok l => cases label h u <;> rfl
              | thrown => rfl
              | ub => rfl
              | hang => rfl
            · rw [if_neg h0, if_neg h0]
              cases kids h t with
              | ok k =>
                cases kids h u with
                | ok k' =>
                  simp only [Res.ok_bind]
                  by_cases hl : k.length = k'.length
                  · rw [if_neg (fun g => g hl)]
                    have e : (fun x y => ne h f x y) = fun x y => neC h f x y >>= fun p => .ok p.1 := by
                      funext x y; exact (neC_fst h f x y).symm
                    rw [e, neAll_arrNe _ _ _ hl]
                    cases neAll (neC h f) k k' <;> rfl
                  · rw [if_pos (by simpa using hl)]
                    unfold arrNe
                    rw [if_pos (by simpa using hl)]
                    rfl
                | thrown => rfl
                | ub => rfl
                | hang => rfl
              | thrown => rfl
              | ub => rfl
              | hang => rfl
          · have ho' : o ≠ o' := ho
            rw [if_pos ho', if_pos ho']; rfl
        | thrown => rfl
        | ub => rfl
        | hang => rfl
      | thrown => rfl
      | ub => rfl
      | hang => rfl

theorem neAll_cost {P Q : Region} {h : Heap} {ne' : Nat → Nat → Res (Bool × Nat)} : ∀ (Ts Us : List Tree) {ks ls : List Nat},
    DensP P h Ts ks → DensP Q h Us ls → (∀ T ∈ Ts, ∀ U ∈ Us, ∀ k l, DenP P h T k → DenP Q h U l →
      ∃ b c, ne' k l = .ok (b, c) ∧ c ≤ size T ∧ c ≤ size U) →
    ∃ b c, neAll ne' ks ls = .ok (b, c) ∧ c ≤ sizes Ts ∧ c ≤ sizes Us
  | [], [], ks, ls => by
    rw [DensP, DensP]; rintro rfl rfl _
    exact ⟨false, 0, rfl, Nat.le_refl _, Nat.le_refl _⟩
  | [], U :: Us, ks, ls => by
    rw [DensP, DensP]; rintro rfl ⟨l, ls', rfl, _⟩ _
    exact ⟨true, 0, rfl, Nat.zero_le _, Nat.zero_le _⟩
  | T :: Ts, [], ks, ls => by
    rw [DensP, DensP]; rintro ⟨l, ls', rfl, _⟩ rfl _
    exact ⟨true, 0, rfl, Nat.zero_le _, Nat.zero_le _⟩
  | T :: Ts, U :: Us, ks, ls => by
    rw [DensP, DensP]
    rintro ⟨k, ks', rfl, d1, d2⟩ ⟨l, ls', rfl, d3, d4⟩ hf
    obtain ⟨b, c, e, c1, c2⟩ := hf T (by simp) U (by simp) k l d1 d3
    rw [neAll, e, Res.ok_bind]
    dsimp only
    cases b with
    | true => exact ⟨true, c, rfl, by rw [sizes]; omega, by rw [sizes]; omega⟩
    | false =>
      obtain ⟨b', c', e', c3, c4⟩ := neAll_cost Ts Us d2 d4 (fun T hT U hU => hf T (List.mem_cons_of_mem _ hT) U (List.mem_cons_of_mem _ hU))
      simp only [Bool.false_eq_true, if_false]
      rw [e']
      exact ⟨b', c + c', rfl, by rw [sizes]; omega, by rw [sizes]; omega⟩

theorem depth_mem {ts : List Tree} {T : Tree} (hT : T ∈ ts) : T.depth ≤ depths ts := by
  obtain ⟨i, hi, rfl⟩ := List.getElem_of_mem hT
  exact depth_le hi

theorem neC_cost {h : Heap} : ∀ (f : Nat) {T U : Tree} {t u : Nat}, T.depth ≤ f → Den h T t → Den h U u →
    ∃ b c, neC h f t u = .ok (b, c) ∧ c ≤ size T ∧ c ≤ size U
  | 0, T, U, t, u => by
    intro hd
    cases T <;> rw [Tree.depth] at hd <;> omega
  | f + 1, T, U, t, u => by
    intro hd dT dU
    have pos : ∀ T : Tree, 1 ≤ size T := fun T => by cases T <;> rw [size] <;> omega
    rw [neC]
    by_cases htu : t = u
    · rw [if_pos htu]; exact ⟨_, _, rfl, pos _, pos _⟩
    · rw [if_neg htu]
      cases T with
      | atom l =>
        rw [Den, DenP] at dT
        obtain ⟨_, s, h1, _, h2⟩ := dT
        cases U with
        | atom l' =>
          rw [Den, DenP] at dU
          obtain ⟨_, s', h1', _, h2'⟩ := dU
          rw [op_ok h1, Res.ok_bind, op_ok h1', Res.ok_bind]
          rw [if_neg (by simp), if_pos rfl, label_ok h1 h2, Res.ok_bind, label_ok h1' h2', Res.ok_bind]
          exact ⟨_, _, rfl, pos _, pos _⟩
        | node o' Us =>
          rw [Den, DenP] at dU
          obtain ⟨_, ho, a', ks', h1', _⟩ := dU
          rw [op_ok h1, Res.ok_bind, op_ok h1', Res.ok_bind, if_pos (Ne.symm ho)]
          exact ⟨_, _, rfl, pos _, pos _⟩
      | node o Ts =>
        rw [Den, DenP] at dT
        obtain ⟨_, ho, a, ks, h1, _, h2, h3⟩ := dT
        cases U with
        | atom l' =>
          rw [Den, DenP] at dU
          obtain ⟨_, s', h1', _, h2'⟩ := dU
          rw [op_ok h1, Res.ok_bind, op_ok h1', Res.ok_bind, if_pos ho]
          exact ⟨_, _, rfl, pos _, pos _⟩
        | node o' Us =>
          rw [Den, DenP] at dU
          obtain ⟨_, ho', a', ks', h1', _, h2', h3'⟩ := dU
          rw [op_ok h1, Res.ok_bind, op_ok h1', Res.ok_bind]
          by_cases hoo : o = o'
          · subst hoo
            rw [if_neg (by simp), if_neg ho, kids_ok h1 h2, Res.ok_bind, kids_ok h1' h2', Res.ok_bind]
            by_cases hl : ks.length = ks'.length
            · rw [if_neg (by simpa using hl)]
              rw [Tree.depth] at hd
              obtain ⟨b, c, e, c1, c2⟩ := neAll_cost (ne' := neC h f) Ts Us h3 h3' (fun T hT U _ k l d d' =>
                neC_cost f (by have := depth_mem hT; omega) d d')
              rw [e]
              exact ⟨b, c + 1, rfl, by rw [size]; omega, by rw [size]; omega⟩
            · rw [if_pos (by simpa using hl)]
              exact ⟨_, _, rfl, pos _, pos _⟩
          · rw [if_pos hoo]
            exact ⟨_, _, rfl, pos _, pos _⟩

/-- C151 for comparing trees in one of which no node occurs twice: there are at most as many calls as it has nodes. -/
theorem C151_compare_partial {h : Heap} {T U : Tree} {t u : Nat} (d : Den h T t) (d' : Den h U u) {l m : List Nat}
    (hl : (Nodes h T t l ∧ ∀ x, Sub h t x → x ∈ m) ∨ (Nodes h U u l ∧ ∀ x, Sub h u x → x ∈ m)) (nd : l.Nodup) {f : Nat}
    (hf : T.depth ≤ f) : ∃ b c, neC h f t u = .ok (b, c) ∧ (b = true ↔ T ≠ U) ∧ c ≤ m.length := by
  obtain ⟨b, c, e, c1, c2⟩ := neC_cost f hf d d'
  obtain ⟨_, b', e', hb⟩ := C45_equality d d' hf
  have := neC_fst h f t u
  rw [e, e'] at this
  cases this
  refine ⟨_, c, e, hb, ?_⟩
  rcases hl with ⟨hl, hm⟩ | ⟨hl, hm⟩
  · exact Nat.le_trans c1 (size_le hl nd hm)
  · exact Nat.le_trans c2 (size_le hl nd hm)

theorem neAll_same {P Q : Region} {h : Heap} {ne' : Nat → Nat → Res (Bool × Nat)} : ∀ (Ts : List Tree) {ks ls : List Nat},
    DensP P h Ts ks → DensP Q h Ts ls → (∀ T ∈ Ts, ∀ k l, DenP P h T k → DenP Q h T l → ne' k l = .ok (false, size T)) →
    neAll ne' ks ls = .ok (false, sizes Ts)
  | [], ks, ls => by
    rw [DensP, DensP]; rintro rfl rfl _; rfl
  | T :: Ts, ks, ls => by
    rw [DensP, DensP]
    rintro ⟨k, ks', rfl, d1, d2⟩ ⟨l, ls', rfl, d3, d4⟩ hf
    rw [neAll, hf T (by simp) k l d1 d3, Res.ok_bind]
    dsimp only
    rw [neAll_same Ts d2 d4 (fun T hT => hf T (List.mem_cons_of_mem _ hT))]
    rfl

theorem neAll_stop {P Q : Region} {h : Heap} {ne' : Nat → Nat → Res (Bool × Nat)} : ∀ (Ts : List Tree) {ks ls : List Nat},
    DensP P h Ts ks → DensP Q h Ts ls → (∀ T ∈ Ts, ∀ k l, DenP P h T k → DenP Q h T l →
      ne' k l = .hang ∨ ne' k l = .ok (false, size T)) →
    (∃ T ∈ Ts, ∀ k l, DenP P h T k → DenP Q h T l → ne' k l = .hang) → neAll ne' ks ls = .hang
  | [], ks, ls => by
    rintro _ _ _ ⟨T, hT, _⟩; cases hT
  | T :: Ts, ks, ls => by
    rw [DensP, DensP]
    rintro ⟨k, ks', rfl, d1, d2⟩ ⟨l, ls', rfl, d3, d4⟩ hf ⟨U, hU, hs⟩
    rcases hf T (by simp) k l d1 d3 with e | e
    · rw [neAll, e]; rfl
    · rw [neAll, e, Res.ok_bind]
      dsimp only
      rcases List.mem_cons.1 hU with rfl | hU
      · rw [hs k l d1 d3] at e; cases e
      · rw [neAll_stop Ts d2 d4 (fun T hT => hf T (List.mem_cons_of_mem _ hT)) ⟨U, hU, hs⟩]
        rfl

/-- Equal trees that have no node in common are compared completely, if the stack suffices. -/
theorem neC_same {P Q : Region} {h : Heap} (dis : ∀ x, P.tree x → ¬Q.tree x) : ∀ (f : Nat) {T : Tree} {t u : Nat},
    DenP P h T t → DenP Q h T u → neC h f t u = if f < T.depth then .hang else .ok (false, size T)
  | 0, T, t, u => by
    intro _ _
    rw [if_pos (by cases T <;> rw [Tree.depth] <;> omega)]
    rfl
  | f + 1, T, t, u => by
    intro dT dU
    have htu : t ≠ u := by
      cases T with
      | atom l => rw [DenP] at dT dU; rintro rfl; exact dis _ dT.1 dU.1
      | node o Ts => rw [DenP] at dT dU; rintro rfl; exact dis _ dT.1 dU.1
    rw [neC, if_neg htu]
    cases T with
    | atom l =>
      rw [DenP] at dT dU
      obtain ⟨_, s, h1, _, h2⟩ := dT
      obtain ⟨_, s', h1', _, h2'⟩ := dU
      rw [op_ok h1, Res.ok_bind, op_ok h1', Res.ok_bind]
      rw [if_neg (by simp), if_pos rfl, label_ok h1 h2, Res.ok_bind, label_ok h1' h2', Res.ok_bind]
      rw [if_neg (by rw [Tree.depth]; omega)]
      simp [size]
    | node o Ts =>
      rw [DenP] at dT dU
      obtain ⟨_, ho, a, ks, h1, _, h2, h3⟩ := dT
      obtain ⟨_, _, a', ks', h1', _, h2', h3'⟩ := dU
      rw [op_ok h1, Res.ok_bind, op_ok h1', Res.ok_bind]
      rw [if_neg (by simp), if_neg ho, kids_ok h1 h2, Res.ok_bind, kids_ok h1' h2', Res.ok_bind]
      have l1 := ((densP_iff _ _ _ _).1 h3).1
      have l2 := ((densP_iff _ _ _ _).1 h3').1
      rw [if_neg (by simp; omega), Tree.depth, size]
      by_cases hd : f < depths Ts
      · rw [if_pos (by omega)]
        obtain ⟨i, hi, hT⟩ := depths_get hd
        rw [neAll_stop Ts h3 h3' (fun T _ k l d d' => ?_) ⟨Ts[i], List.getElem_mem hi, fun k l d d' => ?_⟩]
        · rfl
        · rw [neC_same dis f d d']
          split
          · exact .inl rfl
          · exact .inr rfl
        · rw [neC_same dis f d d', if_pos hT]
      · rw [if_neg (by omega), neAll_same Ts h3 h3' (fun T hT k l d d' => by
          rw [neC_same dis f d d', if_neg (by have := depth_mem hT; omega)])]
        rfl

/-! ## Trees that are made by few calls -/

theorem ofTrees_made {P : Region} {h : Heap} {o : Int} (ho : o ≠ 0) {Ts : List Tree} {ts : List Nat} (d : DensP P h Ts ts)
    (p : ∀ x, h.trees.length ≤ x → P.tree x) (q : P.arr h.arrs.length) :
    ∃ h' r, ofTrees h o ts = .ok (h', r) ∧ Ext h h' ∧ DenP P h' (.node o Ts) r ∧
      h'.trees.length = h.trees.length + ts.length + 1 := by
  obtain ⟨a2, ks2, x1, x2, x3, x4, x5, x6, x7, x8⟩ := ofN_spec h o ts.length
  have x9 := ofN_trees h o ts.length
  unfold ofTrees
  dsimp only
  generalize (ofN h o ts.length).1 = g at *
  generalize (ofN h o ts.length).2 = r at *
  have E : Ext h { g with arrs := g.arrs.set a2 ts } := ext_set x1 (by omega) _
  have y : ({ g with arrs := g.arrs.set a2 ts } : Heap).arrs[a2]? = some ts := by
    show (g.arrs.set a2 ts)[a2]? = _
    rw [List.getElem?_set_self (List.getElem?_eq_some_iff.1 x3).1]
  rw [setFrom_spec ts 0 g ks2 x2 x3 (by omega), Res.ok_bind, List.take_zero, List.nil_append]
  refine ⟨_, r, rfl, E, ?_, x9⟩
  rw [DenP]
  refine ⟨p _ x7, ho, a2, ts, x2, ?_, y, DensP.keep (ext_keeps E) ⟨fun _ => id, fun _ => id, fun _ => id⟩ _ d⟩
  rw [x5]
  exact q

theorem dflt_den (h : Heap) : DenP (above h) (dflt h).1 (.atom []) (dflt h).2 := by
  rw [DenP]
  exact ⟨by simp [above, dflt, ofStr, newNode, newStr], h.strs.length, by simp [dflt, ofStr, newNode, newStr],
    by simp [above], by simp [dflt, ofStr, newNode, newStr]⟩

/-- The tree of `double`. -/
def full : Nat → Tree
  | 0 => .atom []
  | n + 1 => .node 1 [full n, full n]

/-- The tree of `deepen`. -/
def line : Nat → Tree
  | 0 => .atom []
  | n + 1 => .node 1 [line n]

theorem full_size : ∀ n, size (full n) + 1 = 2 ^ (n + 1) ∧ (full n).depth = n + 1
  | 0 => ⟨rfl, rfl⟩
  | n + 1 => by
    obtain ⟨h1, h2⟩ := full_size n
    refine ⟨?_, ?_⟩
    · simp only [full, size, sizes]
      rw [Nat.pow_succ]
      omega
    · simp [full, Tree.depth, depths, h2]

theorem line_depth : ∀ n, size (line n) = n + 1 ∧ (line n).depth = n + 1
  | 0 => ⟨rfl, rfl⟩
  | n + 1 => by
    obtain ⟨h1, h2⟩ := line_depth n
    refine ⟨?_, ?_⟩
    · simp only [line, size, sizes]
      omega
    · simp [line, Tree.depth, depths, h2]

theorem double_spec (h : Heap) : ∀ n, ∃ h' t, double n h = .ok (h', t) ∧ Ext h h' ∧ DenP (above h) h' (full n) t ∧
    h'.trees.length = h.trees.length + 3 * n + 1
  | 0 => ⟨_, _, rfl, dflt_ext h, dflt_den h, by simp [newStr]⟩
  | n + 1 => by
    obtain ⟨h1, t, e, E, d, l⟩ := double_spec h n
    have dd : DensP (above h) h1 [full n, full n] [t, t] := by
      rw [DensP]
      refine ⟨t, [t], rfl, d, ?_⟩
      rw [DensP]
      exact ⟨t, [], rfl, d, rfl⟩
    obtain ⟨h2, r, e2, E2, d2, l2⟩ := ofTrees_made (o := 1) (by decide) dd (fun x hx => Nat.le_trans E.2.1 hx) E.2.2.1
    refine ⟨h2, r, by rw [double, e, Res.ok_bind]; exact e2, E.trans E2, d2, ?_⟩
    simp at l2
    omega

theorem deepen_spec (h : Heap) : ∀ n, ∃ h' t, deepen n h = .ok (h', t) ∧ Ext h h' ∧ DenP (above h) h' (line n) t ∧
    h'.trees.length = h.trees.length + 2 * n + 1
  | 0 => ⟨_, _, rfl, dflt_ext h, dflt_den h, by simp [newStr]⟩
  | n + 1 => by
    obtain ⟨h1, t, e, E, d, l⟩ := deepen_spec h n
    have dd : DensP (above h) h1 [line n] [t] := by
      rw [DensP]
      exact ⟨t, [], rfl, d, rfl⟩
    obtain ⟨h2, r, e2, E2, d2, l2⟩ := ofTrees_made (o := 1) (by decide) dd (fun x hx => Nat.le_trans E.2.1 hx) E.2.2.1
    refine ⟨h2, r, by rw [deepen, e, Res.ok_bind]; exact e2, E.trans E2, d2, ?_⟩
    simp at l2
    omega

theorem den_all {P : Region} {h : Heap} {T : Tree} {t : Nat} (d : DenP P h T t) : Den h T t :=
  DenP.keep (keeps_refl _ h) ⟨fun _ _ => trivial, fun _ _ => trivial, fun _ _ => trivial⟩ _ d

/-- The nodes of the heap. -/
def below (h : Heap) : Region := ⟨(· < h.trees.length), fun _ => True, fun _ => True⟩

mutual
theorem den_below {h : Heap} : ∀ (T : Tree) {t : Nat}, Den h T t → DenP (below h) h T t
  | .atom l, t => by
    rw [Den, DenP, DenP]
    rintro ⟨_, s, h1, _, h2⟩
    exact ⟨(List.getElem?_eq_some_iff.1 h1).1, s, h1, trivial, h2⟩
  | .node o ts, t => by
    rw [Den, DenP, DenP]
    rintro ⟨_, ho, a, ks, h1, _, h2, h3⟩
    exact ⟨(List.getElem?_eq_some_iff.1 h1).1, ho, a, ks, h1, trivial, h2, dens_below ts h3⟩
theorem dens_below {h : Heap} : ∀ (Ts : List Tree) {ts : List Nat}, DensP .all h Ts ts → DensP (below h) h Ts ts
  | [], ts => by rw [DensP, DensP]; exact id
  | T :: Ts, ts => by
    rw [DensP, DensP]
    rintro ⟨x, xs, e, h1, h2⟩
    exact ⟨x, xs, e, den_below T h1, dens_below Ts h2⟩
end

/-- C151 is violated for copying: after `n` calls of a constructor there are `3 n + 1` nodes, and copying makes
`2^(n+2) - 3` further ones. -/
theorem C151_copy_violated (h : Heap) (n : Nat) : ∃ h1 t, double n h = .ok (h1, t) ∧ h1.trees.length = h.trees.length + 3 * n + 1 ∧
    ∀ f, n < f → ∃ h2 t', copy f h1 t = .ok (h2, t') ∧ h2.trees.length + 3 = h1.trees.length + 2 ^ (n + 2) := by
  obtain ⟨h1, t, e, E, d, l⟩ := double_spec h n
  refine ⟨h1, t, e, l, fun f hf => ?_⟩
  obtain ⟨s1, s2⟩ := full_size n
  obtain ⟨h2, t', e2, _, l2⟩ := copy_made f h1 (T := full n) (by omega) (den_all d)
  refine ⟨h2, t', e2, ?_⟩
  have := made_eq (full n)
  rw [Nat.pow_succ]
  omega

/-- C151 is violated for comparing: two trees of `3 n + 1` nodes each take `2^(n+1) - 1` calls. -/
theorem C151_compare_violated (h : Heap) (n : Nat) : ∃ h1 t h2 u, double n h = .ok (h1, t) ∧ double n h1 = .ok (h2, u) ∧
    h2.trees.length = h.trees.length + 2 * (3 * n + 1) ∧
    ∀ f, n < f → ∃ c, neC h2 f t u = .ok (false, c) ∧ c + 1 = 2 ^ (n + 1) := by
  obtain ⟨h1, t, e, E, d, l⟩ := double_spec h n
  obtain ⟨h2, u, e2, E2, d2, l2⟩ := double_spec h1 n
  refine ⟨h1, t, h2, u, e, e2, by omega, fun f hf => ?_⟩
  obtain ⟨s1, s2⟩ := full_size n
  have dt := DenP.keep (ext_keeps (P := below h1) E2) ⟨fun _ => id, fun _ => id, fun _ => id⟩ _ (den_below _ (den_all d))
  have := neC_same (P := below h1) (Q := above h1) (fun x hx (hy : h1.trees.length ≤ x) => absurd hx (by simp [below]; omega)) f dt d2
  rw [if_neg (by omega)] at this
  exact ⟨_, this, s1⟩

/-- C151 is violated for deep trees: for every size of the stack there are trees, made by so many calls of a constructor, that
can neither be copied nor compared with another such tree. -/
theorem C151_depth_violated (h : Heap) (n : Nat) : ∃ h1 t h2 u, deepen n h = .ok (h1, t) ∧ deepen n h1 = .ok (h2, u) ∧
    h2.trees.length = h.trees.length + 2 * (2 * n + 1) ∧
    ∀ f, f ≤ n → copy f h2 t = .hang ∧ ne h2 f t u = .hang := by
  obtain ⟨h1, t, e, E, d, l⟩ := deepen_spec h n
  obtain ⟨h2, u, e2, E2, d2, l2⟩ := deepen_spec h1 n
  refine ⟨h1, t, h2, u, e, e2, by omega, fun f hf => ?_⟩
  obtain ⟨s1, s2⟩ := line_depth n
  have dt := DenP.keep (ext_keeps (P := below h1) E2) ⟨fun _ => id, fun _ => id, fun _ => id⟩ _ (den_below _ (den_all d))
  have := neC_same (P := below h1) (Q := above h1) (fun x hx (hy : h1.trees.length ≤ x) => absurd hx (by simp [below]; omega)) f dt d2
  rw [if_pos (by omega)] at this
  refine ⟨copy_hang f h2 (by omega) (den_all dt), ?_⟩
  rw [← neC_fst, this]
  rfl

/-! ## Destroying -/

mutual
/-- The cell `a` is the root of a tree of this shape whose nodes `as` have one handle each. -/
def Own (h : Cells) : Tree → Nat → List Nat → Prop
  | .atom _, a, as => h[a]? = some (some ⟨[], 1⟩) ∧ as = [a]
  | .node _ ts, a, as => ∃ ks l, h[a]? = some (some ⟨ks, 1⟩) ∧ Owns h ts ks l ∧ as = a :: l
def Owns (h : Cells) : List Tree → List Nat → List Nat → Prop
  | [], ks, as => ks = [] ∧ as = []
  | t :: ts, ks, as => ∃ k ks' l l', ks = k :: ks' ∧ Own h t k l ∧ Owns h ts ks' l' ∧ as = l ++ l'
end

mutual
theorem Own.frame {h h' : Cells} : ∀ (T : Tree) {a : Nat} {as : List Nat}, (∀ b ∈ as, h'[b]? = h[b]?) → Own h T a as → Own h' T a as
  | .atom _, a, as => by
    rw [Own, Own]
    rintro hf ⟨h1, rfl⟩
    exact ⟨by rw [hf a (by simp)]; exact h1, rfl⟩
  | .node _ ts, a, as => by
    rw [Own, Own]
    rintro hf ⟨ks, l, h1, h2, rfl⟩
    exact ⟨ks, l, by rw [hf a (by simp)]; exact h1, Owns.frame ts (fun b hb => hf b (List.mem_cons_of_mem _ hb)) h2, rfl⟩
theorem Owns.frame {h h' : Cells} : ∀ (Ts : List Tree) {ks as : List Nat}, (∀ b ∈ as, h'[b]? = h[b]?) → Owns h Ts ks as → Owns h' Ts ks as
  | [], ks, as => by rw [Owns, Owns]; exact fun _ h => h
  | T :: Ts, ks, as => by
    rw [Owns, Owns]
    rintro hf ⟨k, ks', l, l', rfl, h1, h2, rfl⟩
    exact ⟨k, ks', l, l', rfl, Own.frame T (fun b hb => hf b (List.mem_append_left _ hb)) h1,
      Owns.frame Ts (fun b hb => hf b (List.mem_append_right _ hb)) h2, rfl⟩
end

/-- The cells `as` were deleted, the others are as before. -/
def Gone (as : List Nat) (h h' : Cells) : Prop := ∀ b, h'[b]? = if b ∈ as then some none else h[b]?

theorem fromLast_spec {d : Nat} (ih : ∀ (h : Cells) (T : Tree) (a : Nat) (as : List Nat), Own h T a as → as.Nodup →
      (T.depth ≤ d → ∃ h', release d h a = .ok h' ∧ Gone as h h') ∧ (d < T.depth → release d h a = .hang)) :
    ∀ (Ts : List Tree) (h : Cells) (ks as : List Nat), Owns h Ts ks as → as.Nodup →
      (depths Ts ≤ d → ∃ h', fromLast (release d) h ks = .ok h' ∧ Gone as h h') ∧
      (d < depths Ts → fromLast (release d) h ks = .hang)
  | [], h, ks, as => by
    rw [Owns]
    rintro ⟨rfl, rfl⟩ _
    exact ⟨fun _ => ⟨h, rfl, fun b => by simp⟩, fun hd => by rw [depths] at hd; omega⟩
  | T :: Ts, h, ks, as => by
    rw [Owns]
    rintro ⟨k, ks', l, l', rfl, h1, h2, rfl⟩ nd
    obtain ⟨n1, n2, n3⟩ := List.nodup_append.1 nd
    obtain ⟨a1, a2⟩ := fromLast_spec ih Ts h ks' l' h2 n2
    rw [depths, fromLast]
    by_cases hd : depths Ts ≤ d
    · obtain ⟨g, e, hg⟩ := a1 hd
      rw [e, Res.ok_bind]
      have o : Own g T k l := Own.frame T (fun b hb => by
        rw [hg b, if_neg (fun hb' => n3 b hb b hb' rfl)]) h1
      obtain ⟨b1, b2⟩ := ih g T k l o n1
      refine ⟨fun hd => ?_, fun hd' => b2 (by omega)⟩
      obtain ⟨g', e', hg'⟩ := b1 (by omega)
      refine ⟨g', e', fun b => ?_⟩
      rw [hg' b, hg b]
      by_cases hb : b ∈ l
      · simp [hb]
      · simp [hb]
    · rw [a2 (by omega)]
      exact ⟨fun h => by omega, fun _ => rfl⟩

/-- Destroying the last handle of a tree whose nodes are used nowhere else deletes exactly its nodes, if the stack suffices
for as many levels as the tree has; otherwise it overflows. -/
theorem C151_destroy_partial (d : Nat) : ∀ (h : Cells) (T : Tree) (a : Nat) (as : List Nat), Own h T a as → as.Nodup →
      (T.depth ≤ d → ∃ h', release d h a = .ok h' ∧ Gone as h h') ∧ (d < T.depth → release d h a = .hang) := by
  induction d with
  | zero =>
    intro h T a as _ _
    exact ⟨fun hd => by cases T <;> rw [Tree.depth] at hd <;> omega, fun _ => rfl⟩
  | succ d ih =>
    have run : ∀ (h : Cells) (Ts : List Tree) (ks l : List Nat) (a : Nat), h[a]? = some (some ⟨ks, 1⟩) → Owns h Ts ks l →
        (a :: l).Nodup → (depths Ts ≤ d → ∃ h', release (d + 1) h a = .ok h' ∧ Gone (a :: l) h h') ∧
        (d < depths Ts → release (d + 1) h a = .hang) := by
      intro h Ts ks l a e o nd
      obtain ⟨n1, n2⟩ := List.nodup_cons.1 nd
      have hl := (List.getElem?_eq_some_iff.1 e).1
      have o' : Owns (h.set a (some ⟨ks, 0⟩)) Ts ks l := Owns.frame Ts (fun b hb => by
        rw [List.getElem?_set_ne (by rintro rfl; exact n1 hb)]) o
      obtain ⟨a1, a2⟩ := fromLast_spec ih Ts _ ks l o' n2
      have ea : at? h a = .ok ⟨ks, 1⟩ := by unfold at?; rw [rd_eq_ok.2 e]; rfl
      rw [release, ea, Res.ok_bind]
      dsimp only
      rw [if_pos (by decide)]
      refine ⟨fun hd => ?_, fun hd => ?_⟩
      · obtain ⟨g, e', hg⟩ := a1 hd
        refine ⟨g.set a none, by rw [e', Res.ok_bind], fun b => ?_⟩
        have hga : a < g.length := by
          have := hg a
          rw [if_neg n1, List.getElem?_set_self hl] at this
          exact (List.getElem?_eq_some_iff.1 this).1
        by_cases hb : b = a
        · subst hb
          rw [List.getElem?_set_self hga, if_pos (by simp)]
        · rw [List.getElem?_set_ne (Ne.symm hb), hg b, List.getElem?_set_ne (Ne.symm hb)]
          simp [hb]
      · rw [a2 hd]
        rfl
    intro h T a as o nd
    cases T with
    | atom s =>
      rw [Own] at o
      obtain ⟨e, rfl⟩ := o
      have := run h [] [] [] a e (by rw [Owns]; exact ⟨rfl, rfl⟩) nd
      rw [Tree.depth]
      rw [depths] at this
      exact ⟨fun _ => this.1 (by omega), fun h => by omega⟩
    | node op Ts =>
      rw [Own] at o
      obtain ⟨ks, l, e, o, rfl⟩ := o
      have := run h Ts ks l a e o nd
      rw [Tree.depth]
      exact ⟨fun h => this.1 (by omega), fun h => this.2 (by omega)⟩

theorem chain_length : ∀ n, (chain n).length = n + 1
  | 0 => rfl
  | n + 1 => by simp [chain, chain_length n]

theorem chain_own : ∀ n, ∃ as, Own (chain n) (line n) n as ∧ as.Nodup ∧ ∀ b, b ∈ as ↔ b ≤ n
  | 0 => ⟨[0], by rw [line, Own]; exact ⟨rfl, rfl⟩, by simp, fun b => by simp⟩
  | n + 1 => by
    obtain ⟨as, o, nd, m⟩ := chain_own n
    have hl := chain_length n
    refine ⟨(n + 1) :: as, ?_, List.nodup_cons.2 ⟨by rw [m]; omega, nd⟩, fun b => ?_⟩
    · rw [line, Own]
      refine ⟨[n], as, ?_, ?_, rfl⟩
      · rw [chain, List.getElem?_append_right (by omega), hl, Nat.sub_self]; rfl
      · rw [Owns]
        refine ⟨n, [], as, [], rfl, Own.frame (line n) (fun b hb => ?_) o, by rw [Owns]; exact ⟨rfl, rfl⟩, by simp⟩
        rw [chain, List.getElem?_append_left (by have := (m b).1 hb; omega)]
    · rw [List.mem_cons, m]; omega

/-- C151 is violated for destroying: whatever the size of the stack is, there are trees that are made but cannot be destroyed.
Trees that fit are destroyed completely. -/
theorem C151_destroy_violated (d n : Nat) :
    (d ≤ n → release d (chain n) n = .hang) ∧
    (n < d → ∃ h', release d (chain n) n = .ok h' ∧ ∀ b, b ≤ n → h'[b]? = some none) := by
  obtain ⟨as, o, nd, m⟩ := chain_own n
  obtain ⟨h1, h2⟩ := C151_destroy_partial d _ _ _ _ o nd
  rw [(line_depth n).2] at h1 h2
  refine ⟨fun h => h2 (by omega), fun h => ?_⟩
  obtain ⟨h', e, g⟩ := h1 (by omega)
  exact ⟨h', e, fun b hb => by rw [g b, if_pos ((m b).2 hb)]⟩

theorem twins_length : ∀ n c, (twins n c).length = n + 1
  | 0, _ => rfl
  | n + 1, _ => by simp [twins, twins_length n]

theorem twins_init : ∀ n, ∃ l ks, l.length = n ∧ ∀ c, twins n c = l ++ [some ⟨ks, c⟩]
  | 0 => ⟨[], [], rfl, fun _ => rfl⟩
  | n + 1 => ⟨twins n 2, [n, n], twins_length n 2, fun _ => rfl⟩

theorem at_last {l r : Cells} {n : Nat} (hl : l.length = n) (x : Cell) : at? (l ++ some x :: r) n = .ok x ∧
    ∀ y, (l ++ some x :: r).set n y = l ++ y :: r := by
  subst hl
  refine ⟨?_, fun y => by simp⟩
  unfold at?
  have e : rd (l ++ some x :: r) l.length = .ok (some x) := rd_eq_ok.2 (by simp)
  rw [e]
  rfl

/-- Trees with common parts are destroyed completely, without visiting the parts more often than there are handles: the
nodes of `double`, made by `n` calls, are gone after their last handle, and the other cells `r` are as before. -/
theorem C151_destroy_shared : ∀ (n d : Nat) (r : Cells), n < d →
    release d (twins n 1 ++ r) n = .ok (List.replicate (n + 1) none ++ r)
  | _, 0, _ => by intro h; omega
  | 0, d + 1, r => by intro _; rfl
  | n + 1, d + 1, r => by
    intro hd
    have e1 := (at_last (r := r) (twins_length n 2) ⟨[n, n], 1⟩)
    obtain ⟨l, ks, hl, ht⟩ := twins_init n
    rw [show twins (n + 1) 1 ++ r = twins n 2 ++ some ⟨[n, n], 1⟩ :: r by simp [twins]]
    rw [release, e1.1, Res.ok_bind]
    dsimp only
    rw [if_pos (by decide), e1.2, fromLast, fromLast, fromLast, Res.ok_bind]
    have s2 : release d (twins n 2 ++ some ⟨[n, n], 0⟩ :: r) n = .ok (twins n 1 ++ some ⟨[n, n], 0⟩ :: r) := by
      obtain ⟨d, rfl⟩ : ∃ e, d = e + 1 := ⟨d - 1, by omega⟩
      rw [ht, ht, List.append_assoc, List.append_assoc, List.singleton_append, List.singleton_append]
      obtain ⟨a1, a2⟩ := at_last (r := some ⟨[n, n], 0⟩ :: r) hl ⟨ks, 2⟩
      rw [release, a1, Res.ok_bind]
      dsimp only
      rw [if_neg (by decide), a2]
    rw [s2, Res.ok_bind, C151_destroy_shared n d _ (by omega), Res.ok_bind]
    rw [(at_last (l := List.replicate (n + 1) none) (List.length_replicate ..) _).2]
    rw [List.replicate_succ' (n := n + 1)]
    simp

/-- The hypotheses of the partial theorems are met by the tree of C45's examples: a node with two different leaves. -/
example : Den LTreeProps.h0 (.node 1 [.atom (b!"a"), .atom (b!"b")]) 2 ∧
    Nodes LTreeProps.h0 (.node 1 [.atom (b!"a"), .atom (b!"b")]) 2 [2, 0, 1] ∧ [2, 0, 1].Nodup := by
  refine ⟨h0_den, ?_, by decide⟩
  rw [Nodes]
  refine ⟨1, 0, [0, 1], [0, 1], rfl, rfl, ?_, rfl⟩
  rw [NodesL]
  refine ⟨0, [1], [0], [1], rfl, by rw [Nodes], ?_, rfl⟩
  rw [NodesL]
  exact ⟨1, [], [1], [], rfl, by rw [Nodes], by rw [NodesL], rfl⟩

/-- A node with two leaves, and a leaf of another tree: the leaf stays. -/
example : Own [some ⟨[], 1⟩, some ⟨[], 1⟩, some ⟨[], 1⟩, some ⟨[0, 2], 1⟩] (.node 1 [.atom (b!"a"), .atom (b!"b")]) 3 [3, 0, 2] ∧
    [3, 0, 2].Nodup ∧
    release 2 [some ⟨[], 1⟩, some ⟨[], 1⟩, some ⟨[], 1⟩, some ⟨[0, 2], 1⟩] 3 = .ok [none, some ⟨[], 1⟩, none, none] := by
  refine ⟨?_, by decide, rfl⟩
  rw [Own]
  refine ⟨[0, 2], [0, 2], rfl, ?_, rfl⟩
  rw [Owns]
  refine ⟨0, [2], [0], [2], rfl, by rw [Own]; exact ⟨rfl, rfl⟩, ?_, rfl⟩
  rw [Owns]
  exact ⟨2, [], [2], [], rfl, by rw [Own]; exact ⟨rfl, rfl⟩, by rw [Owns]; exact ⟨rfl, rfl⟩, rfl⟩

end Lolly.TreeCostProps
