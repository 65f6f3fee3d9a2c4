import Verif.Data.LollyTreeLemmas

set_option autoImplicit false

/-!
# C45: lolly_tree values

`Den h T t` says that node `t` of the heap is the root of the (finite) tree `T`.
-/

namespace Lolly.LTreeProps

open LTree

/-- Node `t` is the root of the tree `T`. -/
abbrev Den (h : Heap) (T : Tree) (t : Nat) : Prop := DenP .all h T t

/-- `x` is `t` or below it. -/
inductive Sub (h : Heap) : Nat → Nat → Prop
  | refl (t : Nat) : Sub h t t
  | step (t a : Nat) (o : Int) (ks : List Nat) (k x : Nat) : h.trees[t]? = some ⟨o, .arr a⟩ → h.arrs[a]? = some ks →
      k ∈ ks → Sub h k x → Sub h t x

/-- Node `x` refers to no tree, array or string of `h`. -/
def New (h h' : Heap) (x : Nat) : Prop :=
  h.trees.length ≤ x ∧ (∀ o a, h'.trees[x]? = some ⟨o, .arr a⟩ → h.arrs.length ≤ a) ∧
  ∀ o s, h'.trees[x]? = some ⟨o, .str s⟩ → h.strs.length ≤ s

/-! ## Proofs -/

theorem Keeps.sub {P Q : Region} {h h' : Heap} (k : Keeps Q h h') (p : (∀ i, P.tree i → Q.tree i) ∧
    (∀ i, P.arr i → Q.arr i) ∧ ∀ i, P.str i → Q.str i) : Keeps P h h' :=
  ⟨fun i x q => k.1 i x (p.1 i q), fun i x q => k.2.1 i x (p.2.1 i q), fun i x q => k.2.2 i x (p.2.2 i q)⟩

theorem keeps_refl (P : Region) (h : Heap) : Keeps P h h := ⟨fun _ _ _ e => e, fun _ _ _ e => e, fun _ _ _ e => e⟩

theorem keeps_trans {P : Region} {a b c : Heap} (h1 : Keeps P a b) (h2 : Keeps P b c) : Keeps P a c :=
  ⟨fun i x p e => h2.1 i x p (h1.1 i x p e), fun i x p e => h2.2.1 i x p (h1.2.1 i x p e),
    fun i x p e => h2.2.2 i x p (h1.2.2 i x p e)⟩

theorem ext_keeps {P : Region} {h h' : Heap} (e : Ext h h') : Keeps P h h' :=
  Keeps.sub e.1 ⟨fun _ _ => trivial, fun _ _ => trivial, fun _ _ => trivial⟩

theorem den_ext {h h' : Heap} (e : Ext h h') {T : Tree} {t : Nat} (d : Den h T t) : Den h' T t :=
  DenP.keep e.1 ⟨fun _ => id, fun _ => id, fun _ => id⟩ T d

theorem keeps_set {P : Region} (h : Heap) (a : Nat) (x : List Nat) (hp : ∀ i, P.arr i → i ≠ a) :
    Keeps P h { h with arrs := h.arrs.set a x } :=
  ⟨fun _ _ _ e => e, fun i y p e => by
    show (h.arrs.set a x)[i]? = some y
    rw [List.getElem?_set_ne (Ne.symm (hp i p))]; exact e, fun _ _ _ e => e⟩

theorem ext_set {h g : Heap} (e : Ext h g) {a : Nat} (ha : h.arrs.length ≤ a) (x : List Nat) :
    Ext h { g with arrs := g.arrs.set a x } := by
  refine ⟨⟨e.1.1, fun i y p q => ?_, e.1.2.2⟩, e.2.1, by simpa using e.2.2.1, e.2.2.2⟩
  have hi := (List.getElem?_eq_some_iff.1 q).1
  show (g.arrs.set a x)[i]? = some y
  rw [List.getElem?_set_ne (by omega)]
  exact e.1.2.1 i y p q

/-- Objects that are not in `h`. -/
def above (h : Heap) : Region := ⟨(h.trees.length ≤ ·), (h.arrs.length ≤ ·), (h.strs.length ≤ ·)⟩

theorem sub_trans {h : Heap} {a b c : Nat} (h1 : Sub h a b) (h2 : Sub h b c) : Sub h a c := by
  induction h1 with
  | refl t => exact h2
  | step t a o ks k x e1 e2 hk _ ih => exact .step t a o ks k c e1 e2 hk (ih h2)

theorem densP_mem {P : Region} {h : Heap} : ∀ {Ts : List Tree} {ks : List Nat}, DensP P h Ts ks → ∀ k ∈ ks,
    ∃ T, T.depth ≤ depths Ts ∧ DenP P h T k
  | [], ks, d, k, hk => by
    rw [DensP] at d; subst d; cases hk
  | T :: Ts, ks, d, k, hk => by
    rw [DensP] at d
    obtain ⟨x, xs, rfl, d1, d2⟩ := d
    rcases List.mem_cons.1 hk with rfl | hk
    · exact ⟨T, by rw [depths]; omega, d1⟩
    · obtain ⟨U, hU, dU⟩ := densP_mem d2 k hk
      exact ⟨U, by rw [depths]; omega, dU⟩

theorem den_sub {P : Region} {h : Heap} {t x : Nat} (s : Sub h t x) : ∀ {T : Tree}, DenP P h T t →
    ∃ U, U.depth ≤ T.depth ∧ DenP P h U x := by
  induction s with
  | refl t => exact fun {T} d => ⟨T, Nat.le_refl _, d⟩
  | step t a o ks k x e1 e2 hk _ ih =>
    intro T d
    cases T with
    | atom l =>
      rw [DenP] at d
      obtain ⟨_, s, h1, _⟩ := d
      rw [e1] at h1; cases h1
    | node o' Ts =>
      rw [DenP] at d
      obtain ⟨_, _, a', ks', h1, _, h2, h3⟩ := d
      rw [e1] at h1; cases h1
      rw [e2] at h2; cases h2
      obtain ⟨V, hV, dV⟩ := densP_mem h3 k hk
      obtain ⟨U, hU, dU⟩ := ih dV
      exact ⟨U, by rw [Tree.depth]; omega, dU⟩

theorem den_new {h h' : Heap} {t x : Nat} {T : Tree} (s : Sub h' t x) (d : DenP (above h) h' T t) : New h h' x := by
  obtain ⟨U, _, dU⟩ := den_sub s d
  cases U with
  | atom l =>
    rw [DenP] at dU
    obtain ⟨p, s, h1, p2, _⟩ := dU
    refine ⟨p, fun o a e => ?_, fun o s' e => ?_⟩
    · rw [e] at h1; cases h1
    · rw [e] at h1; cases h1; exact p2
  | node o Ts =>
    rw [DenP] at dU
    obtain ⟨p, _, a, ks, h1, p2, _⟩ := dU
    refine ⟨p, fun o a e => ?_, fun o s' e => ?_⟩
    · rw [e] at h1; cases h1; exact p2
    · rw [e] at h1; cases h1

mutual
theorem den_restrict {h : Heap} {P : Region} : ∀ (T : Tree) {t : Nat}, Den h T t →
    (∀ x, Sub h t x → P.tree x ∧ (∀ o a, h.trees[x]? = some ⟨o, .arr a⟩ → P.arr a) ∧
      ∀ o s, h.trees[x]? = some ⟨o, .str s⟩ → P.str s) → DenP P h T t
  | .atom l, t => by
    intro d hs
    rw [Den, DenP] at d; rw [DenP]
    obtain ⟨_, s, h1, _, h2⟩ := d
    exact ⟨(hs t (.refl t)).1, s, h1, (hs t (.refl t)).2.2 _ _ h1, h2⟩
  | .node o Ts, t => by
    intro d hs
    rw [Den, DenP] at d; rw [DenP]
    obtain ⟨_, ho, a, ks, h1, _, h2, h3⟩ := d
    exact ⟨(hs t (.refl t)).1, ho, a, ks, h1, (hs t (.refl t)).2.1 _ _ h1, h2,
      dens_restrict Ts h3 (fun k hk x hx => hs x (.step t a o ks k x h1 h2 hk hx))⟩
theorem dens_restrict {h : Heap} {P : Region} : ∀ (Ts : List Tree) {ks : List Nat}, DensP .all h Ts ks →
    (∀ k ∈ ks, ∀ x, Sub h k x → P.tree x ∧ (∀ o a, h.trees[x]? = some ⟨o, .arr a⟩ → P.arr a) ∧
      ∀ o s, h.trees[x]? = some ⟨o, .str s⟩ → P.str s) → DensP P h Ts ks
  | [], ks => by
    intro d _
    rw [DensP] at d ⊢; exact d
  | T :: Ts, ks => by
    intro d hs
    rw [DensP] at d ⊢
    obtain ⟨x, xs, rfl, d1, d2⟩ := d
    exact ⟨x, xs, rfl, den_restrict T d1 (hs x (by simp)),
      dens_restrict Ts d2 (fun k hk => hs k (by simp [hk]))⟩
end

/-- The inequality of lists is found at the first difference. -/
theorem arrNe_spec {h : Heap} {f : Nat → Nat → Res Bool} {Ts Us : List Tree} {ks ls : List Nat}
    (d1 : DensP .all h Ts ks) (d2 : DensP .all h Us ls)
    (hf : ∀ i (h1 : i < Ts.length) (h2 : i < Us.length) (h3 : i < ks.length) (h4 : i < ls.length),
      ∃ r, f ks[i] ls[i] = .ok r ∧ (r = true ↔ Ts[i] ≠ Us[i])) :
    (∃ r, arrNe f ks ls = .ok r ∧ (r = true ↔ Ts ≠ Us)) ∧ ∃ r, arrEq f ks ls = .ok r ∧ (r = true ↔ Ts = Us) := by
  obtain ⟨l1, _⟩ := (densP_iff _ _ _ _).1 d1
  obtain ⟨l2, _⟩ := (densP_iff _ _ _ _).1 d2
  unfold arrNe arrEq
  by_cases hl : ks.length = ls.length
  · rw [if_neg (by simpa using hl), if_neg (by simpa using hl)]
    have hb : ∀ b : Bool, ∀ i, 0 ≤ i → i < ks.length → (do
        let x ← rd ks i
        let y ← rd ls i
        let d ← f x y
        Res.ok (if d = true then some b else none)) =
        .ok (haveI := Classical.propDecidable (Ts[i]? ≠ Us[i]?); if Ts[i]? ≠ Us[i]? then some b else none) := by
      intro b i _ hi
      obtain ⟨r, e, hr⟩ := hf i (by omega) (by omega) hi (by omega)
      rw [rd_ok hi, rd_ok (show i < ls.length by omega)]
      simp only [Res.ok_bind]
      rw [e, Res.ok_bind, List.getElem?_eq_getElem (show i < Ts.length by omega),
        List.getElem?_eq_getElem (show i < Us.length by omega)]
      by_cases hr' : r = true
      · rw [if_pos hr', if_pos (by simpa using hr.1 hr')]
      · rw [if_neg hr', if_neg (by
          intro hne; exact hr' (hr.2 (by simpa using hne)))]
    have ext : (∀ i, 0 ≤ i → i < ks.length → Ts[i]? = Us[i]?) → Ts = Us := fun h => List.ext_getElem? fun i => by
      by_cases hi : i < ks.length
      · exact h i (Nat.zero_le _) hi
      · rw [List.getElem?_eq_none (by omega), List.getElem?_eq_none (by omega)]
    constructor
    · rcases forRet_spec (hb true) with ⟨e, h⟩ | ⟨i, r, _, hi, h1, _, e⟩
      · rw [e]
        refine ⟨false, rfl, ?_⟩
        have := ext (fun i a b => by
          have := h i a b
          by_cases hh : Ts[i]? = Us[i]?
          · exact hh
          · rw [if_pos hh] at this; cases this)
        simp [this]
      · rw [e]
        have hne : Ts ≠ Us := by rintro rfl; simp at h1
        split at h1
        · cases h1; exact ⟨true, rfl, by simp [hne]⟩
        · cases h1
    · rcases forRet_spec (hb false) with ⟨e, h⟩ | ⟨i, r, _, hi, h1, _, e⟩
      · rw [e]
        refine ⟨true, rfl, ?_⟩
        have := ext (fun i a b => by
          have := h i a b
          by_cases hh : Ts[i]? = Us[i]?
          · exact hh
          · rw [if_pos hh] at this; cases this)
        simp [this]
      · rw [e]
        have hne : Ts ≠ Us := by rintro rfl; simp at h1
        split at h1
        · cases h1; exact ⟨false, rfl, by simp [hne]⟩
        · cases h1
  · have hne : Ts ≠ Us := by rintro rfl; exact hl (by omega)
    rw [if_pos (by simpa using hl), if_pos (by simpa using hl)]
    exact ⟨⟨true, rfl, by simp [hne]⟩, ⟨false, rfl, by simp [hne]⟩⟩

theorem ne_spec {h : Heap} : ∀ (f : Nat) {T U : Tree} {t u : Nat}, T.depth ≤ f → Den h T t → Den h U u →
    ∃ r, ne h f t u = .ok r ∧ (r = true ↔ T ≠ U)
  | 0, T, U, t, u => by
    intro hd
    cases T <;> rw [Tree.depth] at hd <;> omega
  | f + 1, T, U, t, u => by
    intro hd dT dU
    rw [ne]
    by_cases htu : t = u
    · subst htu
      rw [if_pos rfl]
      exact ⟨false, rfl, by simp [DenP.unique dT dU]⟩
    · rw [if_neg htu]
      cases T with
      | atom l =>
        rw [Den, DenP] at dT
        obtain ⟨_, s, h1, _, h2⟩ := dT
        cases U with
        | atom l' =>
          rw [Den, DenP] at dU
          obtain ⟨_, s', h1', _, h2'⟩ := dU
          rw [op_ok h1, Res.ok_bind, op_ok h1', Res.ok_bind]
          rw [if_neg (by simp), if_pos rfl, label_ok h1 h2, Res.ok_bind, label_ok h1' h2', Res.ok_bind]
          exact ⟨_, rfl, by simp⟩
        | node o' Us =>
          rw [Den, DenP] at dU
          obtain ⟨_, ho, a', ks', h1', _⟩ := dU
          rw [op_ok h1, Res.ok_bind, op_ok h1', Res.ok_bind, if_pos (Ne.symm ho)]
          exact ⟨true, rfl, by simp⟩
      | node o Ts =>
        rw [Den, DenP] at dT
        obtain ⟨_, ho, a, ks, h1, _, h2, h3⟩ := dT
        cases U with
        | atom l' =>
          rw [Den, DenP] at dU
          obtain ⟨_, s', h1', _, h2'⟩ := dU
          rw [op_ok h1, Res.ok_bind, op_ok h1', Res.ok_bind, if_pos ho]
          exact ⟨true, rfl, by simp⟩
        | node o' Us =>
          rw [Den, DenP] at dU
          obtain ⟨_, ho', a', ks', h1', _, h2', h3'⟩ := dU
          rw [op_ok h1, Res.ok_bind, op_ok h1', Res.ok_bind]
          by_cases hoo : o = o'
          · subst hoo
            rw [if_neg (by simp), if_neg ho, kids_ok h1 h2, Res.ok_bind, kids_ok h1' h2', Res.ok_bind]
            rw [Tree.depth] at hd
            obtain ⟨l1, g1⟩ := (densP_iff _ _ _ _).1 h3
            obtain ⟨l2, g2⟩ := (densP_iff _ _ _ _).1 h3'
            obtain ⟨⟨r, e, hr⟩, _⟩ := arrNe_spec (f := fun x y => ne h f x y) h3 h3' (fun i i1 i2 i3 i4 =>
              ne_spec f (by have := depth_le i1; omega) (g1 i i1 i3) (g2 i i2 i4))
            exact ⟨r, e, by rw [hr]; simp⟩
          · rw [if_pos hoo]
            exact ⟨true, rfl, by simp [hoo]⟩

theorem eq_spec {h : Heap} (f : Nat) {T U : Tree} {t u : Nat} (hd : T.depth ≤ f) (dT : Den h T t) (dU : Den h U u) :
    ∃ r, LTree.eq h f t u = .ok r ∧ (r = true ↔ T = U) := by
  unfold LTree.eq
  by_cases htu : t = u
  · subst htu
    rw [if_pos rfl]
    exact ⟨true, rfl, by simp [DenP.unique dT dU]⟩
  · rw [if_neg htu]
    cases T with
    | atom l =>
      rw [Den, DenP] at dT
      obtain ⟨_, s, h1, _, h2⟩ := dT
      cases U with
      | atom l' =>
        rw [Den, DenP] at dU
        obtain ⟨_, s', h1', _, h2'⟩ := dU
        rw [op_ok h1, Res.ok_bind, op_ok h1', Res.ok_bind]
        rw [if_neg (by simp), if_pos rfl, label_ok h1 h2, Res.ok_bind, label_ok h1' h2', Res.ok_bind]
        exact ⟨_, rfl, by simp⟩
      | node o' Us =>
        rw [Den, DenP] at dU
        obtain ⟨_, ho, a', ks', h1', _⟩ := dU
        rw [op_ok h1, Res.ok_bind, op_ok h1', Res.ok_bind, if_pos (Ne.symm ho)]
        exact ⟨false, rfl, by simp⟩
    | node o Ts =>
      rw [Den, DenP] at dT
      obtain ⟨_, ho, a, ks, h1, _, h2, h3⟩ := dT
      cases U with
      | atom l' =>
        rw [Den, DenP] at dU
        obtain ⟨_, s', h1', _, h2'⟩ := dU
        rw [op_ok h1, Res.ok_bind, op_ok h1', Res.ok_bind, if_pos ho]
        exact ⟨false, rfl, by simp⟩
      | node o' Us =>
        rw [Den, DenP] at dU
        obtain ⟨_, ho', a', ks', h1', _, h2', h3'⟩ := dU
        rw [op_ok h1, Res.ok_bind, op_ok h1', Res.ok_bind]
        by_cases hoo : o = o'
        · subst hoo
          rw [if_neg (by simp), if_neg ho, kids_ok h1 h2, Res.ok_bind, kids_ok h1' h2', Res.ok_bind]
          rw [Tree.depth] at hd
          obtain ⟨l1, g1⟩ := (densP_iff _ _ _ _).1 h3
          obtain ⟨l2, g2⟩ := (densP_iff _ _ _ _).1 h3'
          obtain ⟨_, r, e, hr⟩ := arrNe_spec (f := fun x y => ne h f x y) h3 h3' (fun i i1 i2 i3 i4 =>
            ne_spec f (by have := depth_le i1; omega) (g1 i i1 i3) (g2 i i2 i4))
          exact ⟨r, e, by rw [hr]; simp⟩
        · rw [if_pos hoo]
          exact ⟨false, rfl, by simp [hoo]⟩

theorem copy_spec : ∀ (f : Nat) (h : Heap) {T : Tree} {t : Nat}, T.depth ≤ f → Den h T t →
    ∃ h' t', copy f h t = .ok (h', t') ∧ Ext h h' ∧ DenP (above h) h' T t'
  | 0, h, T, t => by
    intro hd
    cases T <;> rw [Tree.depth] at hd <;> omega
  | f + 1, h, T, t => by
    intro hd dT
    rw [copy]
    cases T with
    | atom l =>
      rw [Den, DenP] at dT
      obtain ⟨_, s, h1, _, h2⟩ := dT
      rw [op_ok h1, Res.ok_bind, if_pos rfl, label_ok h1 h2, Res.ok_bind]
      refine ⟨_, _, rfl, (newStr_ext h l).trans (newNode_ext _ _), ?_⟩
      rw [DenP]
      exact ⟨by simp [above, newStr], h.strs.length, by simp [newStr],
        by simp [above], by simp [newStr]⟩
    | node o Ts =>
      rw [Den, DenP] at dT
      obtain ⟨_, ho, a, ks, h1, _, h2, h3⟩ := dT
      obtain ⟨lk, gk⟩ := (densP_iff _ _ _ _).1 h3
      rw [Tree.depth] at hd
      rw [op_ok h1, Res.ok_bind, if_neg ho, N_ok h1 h2, Res.ok_bind]
      obtain ⟨a2, ks2, x1, x2, x3, x4, x5, x6, x7, x8⟩ := ofN_spec h o ks.length
      dsimp only
      generalize (ofN h o ks.length).1 = h1' at *
      generalize (ofN h o ks.length).2 = r at *
      obtain ⟨g, e, i1, i2, i3, kk, i4, i5, i6⟩ := forUp_spec (lo := 0) (hi := ks.length) (s := h1')
        (body := fun i h => do
          let c ← child h t i
          let q ← copy f h c
          setChild q.1 r i q.2)
        (fun i g => Ext h g ∧ (h1'.trees.length ≤ g.trees.length ∧ h1'.arrs.length ≤ g.arrs.length ∧
            h1'.strs.length ≤ g.strs.length) ∧ g.trees[r]? = some ⟨o, .arr a2⟩ ∧
          ∃ kk, g.arrs[a2]? = some kk ∧ kk.length = ks.length ∧
            ∀ j (hj : j < kk.length) (hj2 : j < Ts.length), j < i → DenP (above h1') g Ts[j] kk[j])
        (by omega) ⟨x1, ⟨by omega, by omega, by omega⟩, x2, ks2, x3, x4, fun j _ _ h => by omega⟩
        (fun i g _ hi ⟨i1, i2, i3, kk, i4, i5, i6⟩ => by
          have e1 := i1.1.1 _ _ trivial h1
          have e2 := i1.1.2.1 _ _ trivial h2
          obtain ⟨g', c', ec, j1, j2⟩ := copy_spec f g (T := Ts[i]) (t := ks[i])
            (by have := depth_le (ts := Ts) (i := i) (by omega); omega) (den_ext i1 (gk i (by omega) hi))
          have k1 := j1.1.1 _ _ trivial i3
          have k2 := j1.1.2.1 _ _ trivial i4
          have k3 := (List.getElem?_eq_some_iff.1 i4).1
          have k4 := j1.2
          refine ⟨_, by rw [child_ok e1 e2 hi, Res.ok_bind, ec, Res.ok_bind]; exact setChild_ok k1 k2 (by omega) _,
            ext_set (i1.trans j1) (by omega) _, ⟨by show _ ≤ g'.trees.length; omega, by simp; omega, by show _ ≤ g'.strs.length; omega⟩,
            k1, kk.set i c', ?_, by simpa using i5, ?_⟩
          · show (g'.arrs.set a2 (kk.set i c'))[a2]? = _
            rw [List.getElem?_set_self (by omega)]
          · intro j hj hj2 hji
            by_cases hjj : j = i
            · subst hjj
              rw [List.getElem_set_self]
              refine DenP.keep (keeps_set g' a2 _ (fun i (p : g.arrs.length ≤ i) => by omega)) ⟨?_, ?_, ?_⟩ _ j2
              · intro i (p : g.trees.length ≤ i); show h1'.trees.length ≤ i; omega
              · intro i (p : g.arrs.length ≤ i); show h1'.arrs.length ≤ i; omega
              · intro i (p : g.strs.length ≤ i); show h1'.strs.length ≤ i; omega
            · rw [List.getElem_set_ne (Ne.symm hjj)]
              exact DenP.keep (keeps_trans (ext_keeps j1) (keeps_set g' a2 _ (fun i (p : h1'.arrs.length ≤ i) => by omega)))
                ⟨fun _ => id, fun _ => id, fun _ => id⟩ _ (i6 j (by simpa using hj) hj2 (by omega)))
      refine ⟨g, r, by rw [e]; rfl, i1, ?_⟩
      rw [DenP]
      refine ⟨x7, ho, a2, kk, i3, by show h.arrs.length ≤ a2; omega, i4, (densP_iff _ _ _ _).2 ⟨by omega, fun j hj hk => ?_⟩⟩
      refine DenP.keep (keeps_refl _ g) ⟨?_, ?_, ?_⟩ _ (i6 j hk hj (by omega))
      · intro i (p : h1'.trees.length ≤ i); show h.trees.length ≤ i; have := x1.2; omega
      · intro i (p : h1'.arrs.length ≤ i); show h.arrs.length ≤ i; have := x1.2; omega
      · intro i (p : h1'.strs.length ≤ i); show h.strs.length ≤ i; have := x1.2; omega

/-- Copying consecutive children of `t` into node `r`. -/
theorem fill_spec {h : Heap} {t r a b : Nat} {o o' : Int} {l ks : List Nat} {lo hi off : Nat} {f : Nat → Nat}
    (hr : h.trees[r]? = some ⟨o, .arr a⟩) (ha : h.arrs[a]? = some ks)
    (ht : h.trees[t]? = some ⟨o', .arr b⟩) (hb : h.arrs[b]? = some l) (hab : b ≠ a)
    (hle : lo ≤ hi) (hl : hi ≤ l.length) (hk : off + (hi - lo) ≤ ks.length) (hf : ∀ i, lo ≤ i → f i = off + (i - lo)) :
    ∃ k, forUp lo hi h (fun i h => do
        let c ← child h t i
        setChild h r (f i) c) = .ok { h with arrs := h.arrs.set a k } ∧ k.length = ks.length ∧
      k.take (off + (hi - lo)) = ks.take off ++ (l.drop lo).take (hi - lo) := by
  have ha' := (List.getElem?_eq_some_iff.1 ha).1
  obtain ⟨g, e, k, rfl, h1, h2⟩ := forUp_spec (lo := lo) (hi := hi) (s := h)
    (body := fun i h => do
        let c ← child h t i
        setChild h r (f i) c)
    (fun i g => ∃ k, g = { h with arrs := h.arrs.set a k } ∧ k.length = ks.length ∧
      k.take (off + (i - lo)) = ks.take off ++ (l.drop lo).take (i - lo)) hle
    ⟨ks, by
      have : h.arrs.set a ks = h.arrs := by
        apply List.ext_getElem?; intro i
        by_cases hi : i = a
        · subst hi; rw [List.getElem?_set_self ha', ha]
        · rw [List.getElem?_set_ne (Ne.symm hi)]
      rw [this], rfl, by simp⟩
    (fun i g hlo hhi ⟨k, hg, h1, h2⟩ => by
      subst hg
      have ht' : ({ h with arrs := h.arrs.set a k } : Heap).trees[t]? = some ⟨o', .arr b⟩ := ht
      have hr' : ({ h with arrs := h.arrs.set a k } : Heap).trees[r]? = some ⟨o, .arr a⟩ := hr
      have hb' : ({ h with arrs := h.arrs.set a k } : Heap).arrs[b]? = some l := by
        show (h.arrs.set a k)[b]? = _
        rw [List.getElem?_set_ne (Ne.symm hab)]; exact hb
      have ha'' : ({ h with arrs := h.arrs.set a k } : Heap).arrs[a]? = some k := by
        show (h.arrs.set a k)[a]? = _
        rw [List.getElem?_set_self ha']
      have hil : i < l.length := by omega
      refine ⟨_, by rw [child_ok ht' hb' hil, Res.ok_bind]; exact setChild_ok hr' ha'' (by rw [hf i hlo]; omega) _,
        k.set (f i) l[i], by simp, by simpa using h1, ?_⟩
      rw [hf i hlo, show off + (i + 1 - lo) = off + (i - lo) + 1 by omega, List.take_add_one,
        List.getElem?_set_self (by omega), List.take_set, List.set_eq_of_length_le (by rw [List.length_take]; omega), h2,
        show i + 1 - lo = i - lo + 1 by omega, List.take_add_one, List.append_assoc]
      congr 2
      rw [List.getElem?_drop, show lo + (i - lo) = i by omega, List.getElem?_eq_getElem hil])
  exact ⟨k, e, h1, h2⟩

theorem dens_append {P : Region} {h : Heap} : ∀ {Ts Us : List Tree} {ks ls : List Nat}, DensP P h Ts ks →
    DensP P h Us ls → DensP P h (Ts ++ Us) (ks ++ ls)
  | [], Us, ks, ls, d, d' => by rw [DensP] at d; subst d; exact d'
  | T :: Ts, Us, ks, ls, d, d' => by
    rw [DensP] at d
    obtain ⟨x, xs, rfl, d1, d2⟩ := d
    show DensP P h (T :: (Ts ++ Us)) (x :: (xs ++ ls))
    rw [DensP]
    exact ⟨x, xs ++ ls, rfl, d1, dens_append d2 d'⟩

theorem dens_slice {P : Region} {h : Heap} {Ts : List Tree} {ks : List Nat} (d : DensP P h Ts ks) (i n : Nat) :
    DensP P h ((Ts.drop i).take n) ((ks.drop i).take n) := by
  obtain ⟨l, g⟩ := (densP_iff _ _ _ _).1 d
  refine (densP_iff _ _ _ _).2 ⟨by simp [l], fun j h1 h2 => ?_⟩
  rw [List.getElem_take, List.getElem_drop, List.getElem_take, List.getElem_drop]
  exact g _ _ _

theorem den_op {h : Heap} {T : Tree} {t : Nat} (d : Den h T t) :
    op h t = .ok (match T with | .atom _ => 0 | .node o _ => o) := by
  cases T with
  | atom l => rw [Den, DenP] at d; obtain ⟨_, s, h1, _⟩ := d; rw [op_ok h1]
  | node o Ts => rw [Den, DenP] at d; obtain ⟨_, _, a, ks, h1, _⟩ := d; rw [op_ok h1]

theorem den_node {h : Heap} {t a : Nat} {o : Int} {ks : List Nat} {Ts : List Tree} (ho : o ≠ 0)
    (h1 : h.trees[t]? = some ⟨o, .arr a⟩) (h2 : h.arrs[a]? = some ks) (d : DensP .all h Ts ks) : Den h (.node o Ts) t := by
  rw [Den, DenP]; exact ⟨trivial, ho, a, ks, h1, trivial, h2, d⟩

theorem dens_ext {h h' : Heap} (e : Ext h h') {T : List Tree} {t : List Nat} (d : DensP .all h T t) : DensP .all h' T t :=
  DensP.keep e.1 ⟨fun _ => id, fun _ => id, fun _ => id⟩ T d

theorem of1_spec {h : Heap} {T : Tree} {t : Nat} (d : Den h T t) {o : Int} (ho : o ≠ 0) :
    ∃ h' r, of1 h o t = .ok (h', r) ∧ Ext h h' ∧ Den h' (.node o [T]) r := by
  obtain ⟨a2, ks2, x1, x2, x3, x4, x5, x6, x7, x8⟩ := ofN_spec h o 1
  unfold of1
  dsimp only
  generalize (ofN h o 1).1 = h1 at *
  generalize (ofN h o 1).2 = r at *
  rw [setChild_ok x2 x3 (by omega), Res.ok_bind]
  have E : Ext h { h1 with arrs := h1.arrs.set a2 (ks2.set 0 t) } := ext_set x1 (by omega) _
  refine ⟨_, r, rfl, E, den_node ho x2 (ks := ks2.set 0 t) ?_ ?_⟩
  · show (h1.arrs.set a2 _)[a2]? = _
    rw [List.getElem?_set_self (by omega)]
  · match ks2, x4 with
    | [x], _ =>
      show DensP _ _ [T] [t]
      rw [DensP]
      exact ⟨t, [], rfl, den_ext E d, by rw [DensP]⟩

theorem setFrom_spec {r a : Nat} {o : Int} : ∀ (ts : List Nat) (i : Nat) (h : Heap) (ks : List Nat),
    h.trees[r]? = some ⟨o, .arr a⟩ → h.arrs[a]? = some ks → ks.length = i + ts.length →
    setFrom h r i ts = .ok { h with arrs := h.arrs.set a (ks.take i ++ ts) }
  | [], i, h, ks, h1, h2, hl => by
    rw [setFrom, List.append_nil, List.take_of_length_le (by simp at hl; omega)]
    have : h.arrs.set a ks = h.arrs := by
      apply List.ext_getElem? ; intro j
      rw [List.getElem?_set]
      split
      · next e => subst e; rw [h2]; have := (List.getElem?_eq_some_iff.1 h2).1; simp [this]
      · rfl
    rw [this]
  | t :: ts, i, h, ks, h1, h2, hl => by
    rw [List.length_cons] at hl
    have al := (List.getElem?_eq_some_iff.1 h2).1
    rw [setFrom, setChild_ok h1 h2 (by omega), Res.ok_bind]
    rw [setFrom_spec ts (i + 1) { h with arrs := h.arrs.set a (ks.set i t) } (ks.set i t) h1
      (by show (h.arrs.set a _)[a]? = _; rw [List.getElem?_set_self al]) (by rw [List.length_set]; omega)]
    have : (ks.set i t).take (i + 1) ++ ts = ks.take i ++ t :: ts := by
      rw [List.take_add_one, List.take_set_of_le (Nat.le_refl i), List.getElem?_set_self (by omega)]
      simp
    rw [this]
    simp

/-- What `t1 * t2` wraps around an atom. -/
theorem wrap_spec {h : Heap} {T U : Tree} {t u : Nat} (d : Den h T t) (d' : Den h U u)
    (hn : (∃ o Ts, T = .node o Ts) ∨ ∃ o Ts, U = .node o Ts) :
    ∃ h' r, wrap h t u = .ok (h', r) ∧ Ext h h' ∧ Den h' (match T, U with
      | .node o Ts, _ => .node o Ts
      | .atom s, .node o _ => .node o [.atom s]
      | .atom s, .atom _ => .atom s) r := by
  unfold wrap isAtomic
  rw [den_op d, Res.ok_bind, Res.ok_bind]
  cases T with
  | node o Ts =>
    have ho : o ≠ 0 := by rw [Den, DenP] at d; exact d.2.1
    simp only [decide_eq_true_eq]
    rw [if_neg ho]
    exact ⟨h, t, rfl, Ext.refl h, d⟩
  | atom s =>
    simp only [decide_true, if_true]
    cases U with
    | atom s' => rcases hn with ⟨_, _, e⟩ | ⟨_, _, e⟩ <;> cases e
    | node o Us =>
      have ho : o ≠ 0 := by rw [Den, DenP] at d'; exact d'.2.1
      rw [den_op d', Res.ok_bind]
      exact of1_spec d ho

theorem mul_nodes {h : Heap} {o o' : Int} {Ts Us : List Tree} {t u : Nat} (d : Den h (.node o Ts) t)
    (d' : Den h (.node o' Us) u) : ∃ h' r, (do
      let n1 ← N h t
      let n2 ← N h u
      let o ← op h t
      let r := ofN h o (n1 + n2)
      let h ← forUp 0 n1 r.1 fun i h => do
        let c ← child h t i
        setChild h r.2 i c
      let h ← forUp 0 n2 h fun i h => do
        let c ← child h u i
        setChild h r.2 (i + n1) c
      Res.ok (h, r.2)) = .ok (h', r) ∧ Ext h h' ∧ Den h' (.node o (Ts ++ Us)) r := by
  rw [Den, DenP] at d d'
  obtain ⟨_, ho, a, ks, h1, _, h2, h3⟩ := d
  obtain ⟨_, ho', a', ks', h1', _, h2', h3'⟩ := d'
  rw [N_ok h1 h2, Res.ok_bind, N_ok h1' h2', Res.ok_bind, op_ok h1, Res.ok_bind]
  obtain ⟨a2, ks2, x1, x2, x3, x4, x5, x6, x7, x8⟩ := ofN_spec h o (ks.length + ks'.length)
  dsimp only
  generalize (ofN h o (ks.length + ks'.length)).1 = g at *
  generalize (ofN h o (ks.length + ks'.length)).2 = r at *
  have l1 := (List.getElem?_eq_some_iff.1 h2).1
  have l2 := (List.getElem?_eq_some_iff.1 h2').1
  obtain ⟨k, e1, k1, k2⟩ := fill_spec (lo := 0) (hi := ks.length) (off := 0) (f := fun i => i) x2 x3
    (x1.1.1 _ _ trivial h1) (x1.1.2.1 _ _ trivial h2) (by omega) (by omega) (by omega) (by omega) (by intros; omega)
  rw [e1, Res.ok_bind]
  have E1 : Ext h { g with arrs := g.arrs.set a2 k } := ext_set x1 (by omega) _
  obtain ⟨k', e2, k1', k2'⟩ := fill_spec (h := { g with arrs := g.arrs.set a2 k }) (lo := 0) (hi := ks'.length)
    (off := ks.length) (f := fun i => i + ks.length) (ks := k) x2
    (by show (g.arrs.set a2 k)[a2]? = _; rw [List.getElem?_set_self (by omega)])
    (E1.1.1 _ _ trivial h1') (E1.1.2.1 _ _ trivial h2') (by omega) (by omega) (by omega) (by omega) (by intros; omega)
  rw [e2, Res.ok_bind]
  have E2 : Ext h { g with arrs := (g.arrs.set a2 k).set a2 k' } := ext_set E1 (by omega) _
  refine ⟨_, r, rfl, E2, den_node ho (ks := ks ++ ks') x2 ?_ (dens_append (dens_ext E2 h3) (dens_ext E2 h3'))⟩
  show ((g.arrs.set a2 k).set a2 k')[a2]? = _
  rw [List.getElem?_set_self (by simp; omega)]
  have : k' = k'.take (ks.length + (ks'.length - 0)) := by rw [List.take_of_length_le (by omega)]
  rw [this, k2']
  simp at k2 ⊢
  rw [k2]

theorem forN_split {S : Type} (body : Nat → S → Res S) : ∀ (m n i : Nat) (s : S),
    forN body (m + n) i s = (forN body m i s >>= forN body n (i + m))
  | 0, n, i, s => by simp [forN]
  | m + 1, n, i, s => by
    rw [show m + 1 + n = m + n + 1 by omega, forN, forN]
    cases body i s with
    | ok s' =>
      rw [Res.ok_bind, Res.ok_bind, forN_split body m n (i + 1) s', show i + 1 + m = i + (m + 1) by omega]
    | ub => rfl
    | thrown => rfl
    | hang => rfl

/-! ## C45 -/

/-- `==` and `!=` decide whether the trees are the same: same shape, operators and labels. `f` bounds the
recursion depth. -/
theorem C45_equality {h : Heap} {T U : Tree} {t u : Nat} (dT : Den h T t) (dU : Den h U u) {f : Nat}
    (hf : T.depth ≤ f) :
    (∃ r, LTree.eq h f t u = .ok r ∧ (r = true ↔ T = U)) ∧ ∃ r, ne h f t u = .ok r ∧ (r = true ↔ T ≠ U) :=
  ⟨eq_spec f hf dT dU, ne_spec f hf dT dU⟩

/-- `copy` gives the same tree built from new nodes, arrays and strings only, and changes no existing
object. -/
theorem C45_copy {h : Heap} {T : Tree} {t : Nat} (d : Den h T t) {f : Nat} (hf : T.depth ≤ f) :
    ∃ h' t', copy f h t = .ok (h', t') ∧ Den h' T t' ∧ (∀ x, Sub h' t' x → New h h' x) ∧
      ∀ U u, Den h U u → Den h' U u := by
  obtain ⟨h', t', e, E, d'⟩ := copy_spec f h hf d
  exact ⟨h', t', e, DenP.keep (keeps_refl _ _) ⟨fun _ _ => trivial, fun _ _ => trivial, fun _ _ => trivial⟩ _ d',
    fun x s => den_new s d', fun U u dU => den_ext E dU⟩

/-- `t << x` adds `x` as the last child, unless the array of `t` occurs in `x` (which would make the tree
cyclic); trees that do not contain the array of `t` stay the same.
Missing: appending a tree that contains the array of `t`, see `C45_cycle_violated`, and appending to an atom. -/
theorem C45_push_partial {h : Heap} {o : Int} {Ts : List Tree} {X : Tree} {t x a : Nat} (d : Den h (.node o Ts) t)
    (dx : Den h X x) (ha : A h t = .ok a) (hx : ∀ y, Sub h x y → A h y ≠ .ok a) :
    ∃ h', push h t x = .ok h' ∧ Den h' (.node o (Ts ++ [X])) t ∧
      ∀ U u, Den h U u → (∀ y, Sub h u y → A h y ≠ .ok a) → Den h' U u := by
  have dd := d
  rw [Den, DenP] at d
  obtain ⟨_, ho, a', ks, h1, _, h2, h3⟩ := d
  obtain rfl : a' = a := by rw [A_ok h1] at ha; cases ha; rfl
  have hal := (List.getElem?_eq_some_iff.1 h2).1
  have keep : ∀ U u, Den h U u → (∀ y, Sub h u y → A h y ≠ .ok a') →
      Den { h with arrs := h.arrs.set a' (ks ++ [x]) } U u := by
    intro U u dU hu
    have := den_restrict (P := ⟨fun _ => True, (· ≠ a'), fun _ => True⟩) U dU (fun y hy =>
      ⟨trivial, fun o b e hb => hu y hy (by rw [A_ok e]; simp [hb]), fun _ _ _ => trivial⟩)
    exact DenP.keep (keeps_set h a' _ (fun i p => p)) ⟨fun _ _ => trivial, fun _ _ => trivial, fun _ _ => trivial⟩ _ this
  refine ⟨{ h with arrs := h.arrs.set a' (ks ++ [x]) }, ?_, ?_, keep⟩
  · unfold push; rw [ha, Res.ok_bind, rd_eq_ok.2 h2]; rfl
  · refine den_node ho h1 (ks := ks ++ [x]) ?_ ?_
    · show (h.arrs.set a' _)[a']? = _
      rw [List.getElem?_set_self hal]
    · refine dens_append ?_ ?_
      · refine DensP.keep (keeps_set h a' _ (P := ⟨fun _ => True, (· ≠ a'), fun _ => True⟩) (fun i p => p))
          ⟨fun _ _ => trivial, fun _ _ => trivial, fun _ _ => trivial⟩ _ (dens_restrict Ts h3 ?_)
        intro k hk y hy
        refine ⟨trivial, fun o' b e hb => ?_, fun _ _ _ => trivial⟩
        subst hb
        obtain ⟨V, hV, dV⟩ := densP_mem h3 k hk
        obtain ⟨W, hW, dW⟩ := den_sub hy dV
        cases W with
        | atom l => rw [DenP] at dW; obtain ⟨_, s, q, _⟩ := dW; rw [e] at q; cases q
        | node o'' Ws =>
          rw [DenP] at dW
          obtain ⟨_, _, b', ks', q1, _, q2, q3⟩ := dW
          rw [e] at q1; cases q1
          rw [h2] at q2; cases q2
          have := DensP.unique h3 q3
          subst this
          rw [Tree.depth] at hW
          omega
      · rw [DensP]
        exact ⟨x, [], rfl, keep X x dx hx, by rw [DensP]⟩

/-- `t (i, j)` has the children of index `i` to `j`; outside of the bounds the call is undefined (except for an
empty range). -/
theorem C45_slice {h : Heap} {o : Int} {Ts : List Tree} {t : Nat} (d : Den h (.node o Ts) t) (i j : Nat) :
    if i ≤ j ∧ (j ≤ Ts.length ∨ i = j) then
      ∃ h' r, slice h t i j = .ok (h', r) ∧ Den h' (.node o ((Ts.drop i).take (j - i))) r ∧
        ∀ U u, Den h U u → Den h' U u
    else slice h t i j = .ub := by
  rw [Den, DenP] at d
  obtain ⟨_, ho, a, ks, h1, _, h2, h3⟩ := d
  obtain ⟨lk, _⟩ := (densP_iff _ _ _ _).1 h3
  split
  · rename_i hij
    unfold slice
    rw [if_neg (by omega), op_ok h1, Res.ok_bind]
    obtain ⟨a2, ks2, x1, x2, x3, x4, x5, x6, x7, x8⟩ := ofN_spec h o (j - i)
    dsimp only
    generalize (ofN h o (j - i)).1 = g at *
    generalize (ofN h o (j - i)).2 = r at *
    have l1 := (List.getElem?_eq_some_iff.1 h2).1
    by_cases hej : i = j
    · subst hej
      unfold forUp
      rw [Nat.sub_self, forN, Res.ok_bind]
      rw [Nat.sub_self] at x4
      refine ⟨_, r, rfl, den_node ho x2 x3 ?_, fun U u => den_ext x1⟩
      rw [List.length_eq_zero_iff.1 x4, List.take_zero, DensP]
    obtain ⟨k, e1, k1, k2⟩ := fill_spec (lo := i) (hi := j) (off := 0) (f := fun m => m - i) x2 x3
      (x1.1.1 _ _ trivial h1) (x1.1.2.1 _ _ trivial h2) (by omega) (by omega) (by omega) (by omega) (by intros; omega)
    rw [e1, Res.ok_bind]
    have E : Ext h { g with arrs := g.arrs.set a2 k } := ext_set x1 (by omega) _
    refine ⟨_, r, rfl, den_node ho (ks := (ks.drop i).take (j - i)) x2 ?_ (dens_slice (dens_ext E h3) _ _),
      fun U u => den_ext E⟩
    show (g.arrs.set a2 k)[a2]? = _
    rw [List.getElem?_set_self (by omega)]
    have : k = k.take (0 + (j - i)) := by rw [List.take_of_length_le (by omega)]
    rw [this, k2]
    simp
  · rename_i hij
    unfold slice
    by_cases hji : j < i
    · rw [if_pos hji]
    · rw [if_neg hji, op_ok h1, Res.ok_bind]
      obtain ⟨a2, ks2, x1, x2, x3, x4, x5, x6, x7, x8⟩ := ofN_spec h o (j - i)
      dsimp only
      generalize (ofN h o (j - i)).1 = g at *
      generalize (ofN h o (j - i)).2 = r at *
      have l1 := (List.getElem?_eq_some_iff.1 h2).1
      have y1 := x1.1.1 _ _ trivial h1
      have y2 := x1.1.2.1 _ _ trivial h2
      by_cases hi : i ≤ Ts.length
      · obtain ⟨k, e1, k1, k2⟩ := fill_spec (lo := i) (hi := Ts.length) (off := 0) (f := fun m => m - i) x2 x3
          y1 y2 (by omega) (by omega) (by omega) (by omega) (by intros; omega)
        unfold forUp at e1 ⊢
        rw [show j - i = (Ts.length - i) + (j - Ts.length - 1 + 1) by omega, forN_split, e1, Res.ok_bind, forN]
        have y3 : ({ g with arrs := g.arrs.set a2 k } : Heap).arrs[a]? = some ks := by
          show (g.arrs.set a2 k)[a]? = _
          rw [List.getElem?_set_ne (by omega)]; exact y2
        rw [show i + (Ts.length - i) = Ts.length by omega]
        unfold child kids
        rw [A_ok (h := { g with arrs := g.arrs.set a2 k }) y1, Res.ok_bind, rd_eq_ok.2 y3, Res.ok_bind, rd_ub (by omega)]
        rfl
      · unfold forUp
        rw [show j - i = (j - i - 1) + 1 by omega, forN]
        unfold child
        rw [kids_ok y1 y2, Res.ok_bind, rd_ub (by omega)]
        rfl

/-- A tree made from a label and trees has these trees as its children, the same objects in this order; no other tree
changes. -/
theorem C45_construct {h : Heap} {o : Int} (ho : o ≠ 0) {Ts : List Tree} {ts : List Nat} (hl : ts.length = Ts.length)
    (hd : ∀ i (h1 : i < Ts.length) (h2 : i < ts.length), Den h Ts[i] ts[i]) :
    ∃ h' r, ofTrees h o ts = .ok (h', r) ∧ Den h' (.node o Ts) r ∧ (∀ i, child h' r i = rd ts i) ∧
      (∀ x, h.trees[x]? ≠ none → x ≠ r) ∧ ∀ U u, Den h U u → Den h' U u := by
  have d : DensP .all h Ts ts := (densP_iff _ _ _ _).2 ⟨hl, hd⟩
  obtain ⟨a2, ks2, x1, x2, x3, x4, x5, x6, x7, x8⟩ := ofN_spec h o ts.length
  unfold ofTrees
  dsimp only
  generalize (ofN h o ts.length).1 = g at *
  generalize (ofN h o ts.length).2 = r at *
  have E : Ext h { g with arrs := g.arrs.set a2 ts } := ext_set x1 (by omega) _
  have y : ({ g with arrs := g.arrs.set a2 ts } : Heap).arrs[a2]? = some ts := by
    show (g.arrs.set a2 ts)[a2]? = _
    rw [List.getElem?_set_self (List.getElem?_eq_some_iff.1 x3).1]
  rw [setFrom_spec ts 0 g ks2 x2 x3 (by omega), Res.ok_bind, List.take_zero, List.nil_append]
  refine ⟨_, r, rfl, den_node ho x2 y (dens_ext E d), fun i => ?_, fun x hx e => ?_, fun U u => den_ext E⟩
  · unfold child
    rw [kids_ok (h := { g with arrs := g.arrs.set a2 ts }) x2 y]
    rfl
  · apply hx
    rw [List.getElem?_eq_none_iff]
    omega

/-- `t1 * t2` joins the children; an atom counts as a single child. Both trees may not be atoms.
Missing: the product of two atoms, see `C45_mul_violated`. -/
theorem C45_mul_partial {h : Heap} {T U : Tree} {t u : Nat} (d : Den h T t) (d' : Den h U u)
    (hn : (∃ o Ts, T = .node o Ts) ∨ ∃ o Ts, U = .node o Ts) :
    ∃ h' r, mul h t u = .ok (h', r) ∧ Den h' (match T, U with
      | .node o Ts, .node _ Us => .node o (Ts ++ Us)
      | .node o Ts, .atom s => .node o (Ts ++ [.atom s])
      | .atom s, .node o Us => .node o (.atom s :: Us)
      | .atom s, .atom _ => .atom s) r ∧ ∀ V v, Den h V v → Den h' V v := by
  obtain ⟨g, r, e, E, dr⟩ := wrap_spec d d' hn
  obtain ⟨g', r', e', E', dr'⟩ := wrap_spec (den_ext E d') dr (.inr (by
    cases T with
    | node o Ts => exact ⟨o, Ts, rfl⟩
    | atom s => cases U with
      | node o Us => exact ⟨o, [.atom s], rfl⟩
      | atom s' => rcases hn with ⟨_, _, e⟩ | ⟨_, _, e⟩ <;> cases e))
  unfold mul
  rw [e, Res.ok_bind, e', Res.ok_bind]
  dsimp only
  have dr2 := den_ext E' dr
  cases T with
  | node o Ts =>
    cases U with
    | node o' Us =>
      obtain ⟨h', q, e2, E2, dq⟩ := mul_nodes dr2 dr'
      exact ⟨h', q, e2, dq, fun V v dv => den_ext ((E.trans E').trans E2) dv⟩
    | atom s =>
      obtain ⟨h', q, e2, E2, dq⟩ := mul_nodes dr2 dr'
      exact ⟨h', q, e2, dq, fun V v dv => den_ext ((E.trans E').trans E2) dv⟩
  | atom s =>
    cases U with
    | node o' Us =>
      obtain ⟨h', q, e2, E2, dq⟩ := mul_nodes dr2 dr'
      exact ⟨h', q, e2, dq, fun V v dv => den_ext ((E.trans E').trans E2) dv⟩
    | atom s' => rcases hn with ⟨_, _, e⟩ | ⟨_, _, e⟩ <;> cases e

/-- The accessors on a compound tree, and those that may be used on atoms. -/
theorem C45_access {h : Heap} {o : Int} {Ts : List Tree} {t : Nat} (d : Den h (.node o Ts) t) :
    N h t = .ok Ts.length ∧ arity h t = .ok Ts.length ∧ isAtomic h t = .ok false ∧
    (∀ i, if hi : i < Ts.length then ∃ k, child h t i = .ok k ∧ Den h Ts[i] k else child h t i = .ub) ∧
    (∀ l, eqLab h t l = .ok (decide (o = l ∧ Ts = []))) ∧
    (∀ l i, isFunc h t l i = .ok (decide (o = l ∧ Ts.length = i))) ∧ toString h t = .ok [] ∧
    ∀ s, eqStr h t s = .ok false := by
  rw [Den, DenP] at d
  obtain ⟨_, ho, a, ks, h1, _, h2, h3⟩ := d
  obtain ⟨lk, gk⟩ := (densP_iff _ _ _ _).1 h3
  refine ⟨by rw [N_ok h1 h2, lk], ?_, ?_, fun i => ?_, fun l => ?_, fun l i => ?_, ?_, fun s => ?_⟩
  · unfold arity; rw [op_ok h1, Res.ok_bind, if_neg ho, N_ok h1 h2, lk]
  · unfold isAtomic; rw [op_ok h1, Res.ok_bind]; simp [ho]
  · split
    · rename_i hi
      exact ⟨ks[i], child_ok h1 h2 (by omega), gk i hi (by omega)⟩
    · unfold child; rw [kids_ok h1 h2, Res.ok_bind]; exact rd_ub (by omega)
  · unfold eqLab; rw [op_ok h1, Res.ok_bind]
    dsimp only
    split
    · rename_i e
      rw [N_ok h1 h2, Res.ok_bind, lk]; simp [e]
    · rename_i e; simp [e]
  · unfold isFunc; rw [op_ok h1, Res.ok_bind]
    dsimp only
    split
    · rename_i e
      rw [N_ok h1 h2, Res.ok_bind, lk]; simp [e]
    · rename_i e; simp [e]
  · unfold LTree.toString; rw [op_ok h1, Res.ok_bind, if_neg ho]
  · unfold eqStr; rw [op_ok h1, Res.ok_bind, if_neg ho]

/-- On atoms `arity`, the labels and the comparisons with strings work.
Missing: `N`, `[]`, `A`, `<<` and the operator 0, see `C45_atom_violated`. -/
theorem C45_atom_partial {h : Heap} {s : Bytes} {t : Nat} (d : Den h (.atom s) t) :
    arity h t = .ok 0 ∧ isAtomic h t = .ok true ∧ toString h t = .ok s ∧ (∀ s', eqStr h t s' = .ok (decide (s = s'))) ∧
    ∀ l, l ≠ 0 → eqLab h t l = .ok false := by
  rw [Den, DenP] at d
  obtain ⟨_, i, h1, _, h2⟩ := d
  refine ⟨?_, ?_, ?_, fun s' => ?_, fun l hl => ?_⟩
  · unfold arity; rw [op_ok h1, Res.ok_bind, if_pos rfl]
  · unfold isAtomic; rw [op_ok h1, Res.ok_bind]; rfl
  · unfold LTree.toString; rw [op_ok h1, Res.ok_bind, if_pos rfl]; exact label_ok h1 h2
  · unfold eqStr; rw [op_ok h1, Res.ok_bind, if_pos rfl, label_ok h1 h2]; rfl
  · unfold eqLab; rw [op_ok h1, Res.ok_bind, if_neg (Ne.symm hl)]

/-- The string of an atom is taken for an array by `N`, `[]`, `A`, `<<`, the comparison with label 0 and
`is_func` with operator 0. -/
theorem C45_atom_violated {h : Heap} {s : Bytes} {t : Nat} (d : Den h (.atom s) t) :
    N h t = .ub ∧ A h t = .ub ∧ (∀ i, child h t i = .ub) ∧ (∀ x, push h t x = .ub) ∧ eqLab h t 0 = .ub ∧
    ∀ i, isFunc h t 0 i = .ub := by
  rw [Den, DenP] at d
  obtain ⟨_, i, h1, _, h2⟩ := d
  have hA : A h t = .ub := by unfold A; rw [rd_eq_ok.2 h1]; rfl
  have hk : kids h t = .ub := by unfold kids; rw [hA]; rfl
  have hN : N h t = .ub := by unfold N; rw [hk]; rfl
  refine ⟨hN, hA, fun i => ?_, fun x => ?_, ?_, fun i => ?_⟩
  · unfold child; rw [hk]; rfl
  · unfold push; rw [hA]; rfl
  · unfold eqLab; rw [op_ok h1, Res.ok_bind, if_pos rfl, hN]; rfl
  · unfold isFunc; rw [op_ok h1, Res.ok_bind, if_pos rfl, hN]; rfl

/-- A heap with the atoms `a` (node 0) and `b` (node 1), the node 1(a, b) (node 2), and a node 1() (node 3). -/
def h0 : Heap := ⟨[⟨0, .str 0⟩, ⟨0, .str 1⟩, ⟨1, .arr 0⟩, ⟨1, .arr 1⟩], [[0, 1], []], [b!"a", b!"b"]⟩

theorem h0_den : Den h0 (.node 1 [.atom (b!"a"), .atom (b!"b")]) 2 := by
  refine den_node (by decide) (a := 0) (ks := [0, 1]) rfl rfl ?_
  rw [densP_iff]
  refine ⟨rfl, fun i hi hk => ?_⟩
  match i, hi with
  | 0, _ => simp [DenP, h0, Region.all]
  | 1, _ => simp [DenP, h0, Region.all]

/-- A node with one child, whatever its operator. -/
theorem of1_raw (h : Heap) (o : Int) (t : Nat) : ∃ h' r a, of1 h o t = .ok (h', r) ∧ Ext h h' ∧
    h'.trees[r]? = some ⟨o, .arr a⟩ ∧ h'.arrs[a]? = some [t] := by
  obtain ⟨a2, ks2, x1, x2, x3, x4, x5, x6, x7, x8⟩ := ofN_spec h o 1
  unfold of1
  dsimp only
  generalize (ofN h o 1).1 = h1 at *
  generalize (ofN h o 1).2 = r at *
  rw [setChild_ok x2 x3 (by omega), Res.ok_bind]
  refine ⟨_, r, a2, rfl, ext_set x1 (by omega) _, x2, ?_⟩
  show (h1.arrs.set a2 _)[a2]? = _
  rw [List.getElem?_set_self (by omega)]
  match ks2, x4 with
  | [x], _ => rfl

/-- The product of any two atoms is a node that claims to be an atom but has no label: printing, copying or comparing it with
another atom is undefined. -/
theorem C45_mul_violated {h : Heap} {s s' : Bytes} {t u : Nat} (d : Den h (.atom s) t) (d' : Den h (.atom s') u) :
    ∃ h' r, mul h t u = .ok (h', r) ∧ isAtomic h' r = .ok true ∧ toString h' r = .ub ∧
      (∀ f, print h' (f + 1) r = .ub) ∧ (∀ f, copy (f + 1) h' r = .ub) ∧
      ∀ f v l, Den h (.atom l) v → LTree.eq h' f r v = .ub := by
  rw [Den, DenP] at d d'
  obtain ⟨_, i, h1, _, h2⟩ := d
  obtain ⟨_, i', h1', _, h2'⟩ := d'
  obtain ⟨g, r1, a1, e1, E1, n1, k1⟩ := of1_raw h 0 t
  obtain ⟨g', r2, a2, e2, E2, n2, k2⟩ := of1_raw g 0 u
  have n1' := E2.1.1 _ _ trivial n1
  have k1' := E2.1.2.1 _ _ trivial k1
  obtain ⟨a, ks, x1, x2, x3, x4, x5, x6, x7, x8⟩ := ofN_spec g' 0 2
  have w1 : wrap h t u = .ok (g, r1) := by
    unfold wrap isAtomic
    rw [op_ok h1, Res.ok_bind, Res.ok_bind, if_pos (by simp), op_ok h1', Res.ok_bind]
    exact e1
  have w2 : wrap g u r1 = .ok (g', r2) := by
    unfold wrap isAtomic
    rw [op_ok (E1.1.1 _ _ trivial h1'), Res.ok_bind, Res.ok_bind, if_pos (by simp), op_ok n1, Res.ok_bind]
    exact e2
  unfold mul
  rw [w1, Res.ok_bind, w2, Res.ok_bind]
  dsimp only
  rw [N_ok n1' k1', Res.ok_bind, N_ok n2 k2, Res.ok_bind, op_ok n1', Res.ok_bind]
  dsimp only [List.length_cons, List.length_nil]
  generalize (ofN g' 0 2).1 = q at *
  generalize (ofN g' 0 2).2 = r at *
  have l1 := (List.getElem?_eq_some_iff.1 k1').1
  have l2 := (List.getElem?_eq_some_iff.1 k2).1
  obtain ⟨k, f1, q1, q2⟩ := fill_spec (lo := 0) (hi := 1) (off := 0) (f := fun i => i) x2 x3
    (x1.1.1 _ _ trivial n1') (x1.1.2.1 _ _ trivial k1') (by omega) (by omega) (by simp) (by omega) (by intros; omega)
  rw [f1, Res.ok_bind]
  have F1 : Ext g' { q with arrs := q.arrs.set a k } := ext_set x1 (by omega) _
  obtain ⟨k', f2, q1', q2'⟩ := fill_spec (h := { q with arrs := q.arrs.set a k }) (lo := 0) (hi := 1)
    (off := 1) (f := fun i => i + (0 + 1)) (ks := k) x2
    (by show (q.arrs.set a k)[a]? = _; rw [List.getElem?_set_self (by omega)])
    (F1.1.1 _ _ trivial n2) (F1.1.2.1 _ _ trivial k2) (by omega) (by omega) (by simp) (by omega) (by intros; omega)
  rw [f2, Res.ok_bind]
  have F2 : Ext g' { q with arrs := (q.arrs.set a k).set a k' } := ext_set F1 (by omega) _
  have hl : label { q with arrs := (q.arrs.set a k).set a k' } r = .ub := by
    unfold label
    rw [rd_eq_ok.2 (by exact x2)]
    rfl
  have ho : op { q with arrs := (q.arrs.set a k).set a k' } r = .ok 0 := op_ok (by exact x2)
  refine ⟨_, r, rfl, ?_, ?_, fun f => ?_, fun f => ?_, fun f v l dv => ?_⟩
  · unfold isAtomic; rw [ho]; rfl
  · unfold LTree.toString; rw [ho, Res.ok_bind, if_pos rfl, hl]
  · rw [print, ho, Res.ok_bind, if_pos rfl, hl]
  · rw [copy, ho, Res.ok_bind, if_pos rfl, hl]; rfl
  · rw [Den, DenP] at dv
    obtain ⟨_, j, v1, _, v2⟩ := dv
    have hv := ((E1.trans E2).trans F2).1.1 _ _ trivial v1
    have hlt := (List.getElem?_eq_some_iff.1 v1).1
    have := (E1.trans E2).2.1
    unfold LTree.eq
    rw [if_neg (by omega), ho, Res.ok_bind, op_ok hv, Res.ok_bind, if_neg (by simp), if_pos rfl, hl]
    rfl

/-- Nodes that are well-formed, with children that are such nodes, perhaps in a cycle. -/
def Valid (h : Heap) (S : Nat → Prop) : Prop := ∀ u, S u →
  (∃ s l, h.trees[u]? = some ⟨0, .str s⟩ ∧ h.strs[s]? = some l) ∨
  ∃ o a ks, o ≠ 0 ∧ h.trees[u]? = some ⟨o, .arr a⟩ ∧ h.arrs[a]? = some ks ∧ ∀ k ∈ ks, S k

/-- A loop whose steps succeed or never end, and one of them never ends if `bad` says so. -/
theorem forN_safe {A : Type} {body : Nat → A → Res A} (I : A → Prop) (n i : Nat) (s : A) (hI : I s)
    (step : ∀ j s, i ≤ j → j < i + n → I s → body j s = .hang ∨ ∃ s', body j s = .ok s' ∧ I s') :
    (forN body n i s = .hang ∨ ∃ s', forN body n i s = .ok s' ∧ I s') ∧
    ((∃ k, i ≤ k ∧ k < i + n ∧ ∀ s, I s → body k s = .hang) → forN body n i s = .hang) := by
  induction n generalizing i s with
  | zero => exact ⟨.inr ⟨s, rfl, hI⟩, fun ⟨k, h1, h2, _⟩ => by omega⟩
  | succ n ih =>
    rw [forN]
    rcases step i s (by omega) (by omega) hI with e | ⟨s', e, hI'⟩
    · rw [e]; exact ⟨.inl rfl, fun _ => rfl⟩
    · rw [e, Res.ok_bind]
      have := ih (i + 1) s' hI' fun j s h1 h2 => step j s (by omega) (by omega)
      refine ⟨this.1, fun ⟨k, h1, h2, h3⟩ => this.2 ⟨k, ?_, by omega, h3⟩⟩
      by_cases hk : k = i
      · subst hk; rw [h3 s hI] at e; cases e
      · omega

/-- Copying such nodes succeeds or never ends; the latter for a node that is its own child. -/
theorem copy_safe {h : Heap} {S : Nat → Prop} (hv : Valid h S) (f : Nat) : ∀ (g : Heap) (t : Nat), Ext h g → S t →
    (copy f g t = .hang ∨ ∃ g' r, copy f g t = .ok (g', r) ∧ Ext g g') ∧
    ((∃ o a ks, o ≠ 0 ∧ h.trees[t]? = some ⟨o, .arr a⟩ ∧ h.arrs[a]? = some ks ∧ t ∈ ks) → copy f g t = .hang) := by
  induction f with
  | zero => intro g t _ _; exact ⟨.inl rfl, fun _ => rfl⟩
  | succ f ih =>
    intro g t E hS
    rcases hv t hS with ⟨s, l, h1, h2⟩ | ⟨o, a, ks, ho, h1, h2, h3⟩
    · refine ⟨.inr ?_, fun ⟨o, a, ks, ho, h1', _⟩ => by rw [h1] at h1'; cases h1'⟩
      have e1 := E.1.1 _ _ trivial h1
      have e2 := E.1.2.2 _ _ trivial h2
      rw [copy, op_ok e1, Res.ok_bind, if_pos rfl, label_ok e1 e2, Res.ok_bind]
      exact ⟨_, _, rfl, (newStr_ext g l).trans (newNode_ext _ _)⟩
    · have e1 := E.1.1 _ _ trivial h1
      have e2 := E.1.2.1 _ _ trivial h2
      rw [copy, op_ok e1, Res.ok_bind, if_neg ho, N_ok e1 e2, Res.ok_bind]
      obtain ⟨a2, ks2, x1, x2, x3, x4, x5, x6, x7, x8⟩ := ofN_spec g o ks.length
      dsimp only
      generalize (ofN g o ks.length).1 = g1 at *
      generalize (ofN g o ks.length).2 = r at *
      have key := forN_safe (body := fun i h => do
          let c ← child h t i
          let q ← copy f h c
          setChild q.1 r i q.2)
        (fun g2 => Ext g g2 ∧ g2.trees[r]? = some ⟨o, .arr a2⟩ ∧ ∃ kk, g2.arrs[a2]? = some kk ∧ kk.length = ks.length)
        ks.length 0 g1 ⟨x1, x2, ks2, x3, x4⟩ (fun i g2 _ hi ⟨i1, i2, kk, i3, i4⟩ => by
          have hi : i < ks.length := by omega
          have c1 := i1.1.1 _ _ trivial e1
          have c2 := i1.1.2.1 _ _ trivial e2
          rw [child_ok c1 c2 hi, Res.ok_bind]
          rcases (ih g2 ks[i] (E.trans i1) (h3 _ (List.getElem_mem hi))).1 with e | ⟨g3, c', e, j1⟩
          · left; rw [e]; rfl
          · right
            have k1 := j1.1.1 _ _ trivial i2
            have k2 := j1.1.2.1 _ _ trivial i3
            have k3 := (List.getElem?_eq_some_iff.1 k2).1
            refine ⟨_, by rw [e, Res.ok_bind]; exact setChild_ok k1 k2 (by omega) _, ext_set (i1.trans j1) (by omega) _, k1,
              kk.set i c', ?_, by simpa using i4⟩
            show (g3.arrs.set a2 (kk.set i c'))[a2]? = _
            rw [List.getElem?_set_self (by omega)])
      unfold forUp
      rw [Nat.sub_zero]
      constructor
      · rcases key.1 with e | ⟨g2, e, i1, _⟩
        · left; rw [e]; rfl
        · right; rw [e]; exact ⟨g2, r, rfl, i1⟩
      · rintro ⟨o', a', ks', _, h1', h2', ht⟩
        rw [h1] at h1'
        cases h1'
        rw [h2] at h2'
        cases h2'
        obtain ⟨k, hk, hk'⟩ := List.getElem_of_mem ht
        rw [key.2 ⟨k, by omega, by omega, fun g2 ⟨i1, _⟩ => ?_⟩]
        · rfl
        · rw [child_ok (i1.1.1 _ _ trivial e1) (i1.1.2.1 _ _ trivial e2) hk, Res.ok_bind, hk',
            (ih g2 t (E.trans i1) hS).2 ⟨o, a, ks, ho, h1, h2, ht⟩]
          rfl

/-- Printing a list of trees each of which is printed or never ends. -/
theorem printList_safe {pr : Nat → Res Bytes} (l : List Nat) (hl : l ≠ [])
    (h : ∀ x ∈ l, pr x = .hang ∨ ∃ b, pr x = .ok b) :
    (printList pr l = .hang ∨ ∃ b, printList pr l = .ok b) ∧ ((∃ x ∈ l, pr x = .hang) → printList pr l = .hang) := by
  induction l with
  | nil => exact absurd rfl hl
  | cons x l ih =>
    cases l with
    | nil =>
      rw [printList]
      exact ⟨h x (by simp), fun ⟨y, hy, e⟩ => by rw [List.mem_singleton.1 hy] at e; exact e⟩
    | cons y l =>
      have ih := ih (by simp) fun z hz => h z (List.mem_cons_of_mem _ hz)
      rw [printList]
      rcases h x (by simp) with e | ⟨b, e⟩
      · rw [e]; exact ⟨.inl rfl, fun _ => rfl⟩
      · rw [e, Res.ok_bind]
        constructor
        · rcases ih.1 with e' | ⟨b', e'⟩
          · left; rw [e']; rfl
          · right; rw [e']; exact ⟨_, rfl⟩
        · rintro ⟨z, hz, ez⟩
          rcases List.mem_cons.1 hz with rfl | hz
          · rw [e] at ez; cases ez
          · rw [ih.2 ⟨z, hz, ez⟩]; rfl

theorem print_safe {h : Heap} {S : Nat → Prop} (hv : Valid h S) (f : Nat) : ∀ t, S t →
    (print h f t = .hang ∨ ∃ b, print h f t = .ok b) ∧
    ((∃ o a ks, 0 < o ∧ h.trees[t]? = some ⟨o, .arr a⟩ ∧ h.arrs[a]? = some ks ∧ t ∈ ks) → print h f t = .hang) := by
  induction f with
  | zero => intro t _; exact ⟨.inl rfl, fun _ => rfl⟩
  | succ f ih =>
    intro t hS
    rcases hv t hS with ⟨s, l, h1, h2⟩ | ⟨o, a, ks, ho, h1, h2, h3⟩
    · refine ⟨.inr ⟨l, ?_⟩, fun ⟨o, a, ks, ho, h1', _⟩ => by rw [h1] at h1'; cases h1'⟩
      rw [print, op_ok h1, Res.ok_bind, if_pos rfl, label_ok h1 h2]
    · rw [print, op_ok h1, Res.ok_bind, if_neg ho]
      by_cases hp : 0 < o
      · rw [if_pos hp, kids_ok h1 h2, Res.ok_bind]
        by_cases hz : ks.length = 0
        · rw [if_pos hz]
          refine ⟨.inr ⟨_, rfl⟩, fun ⟨o', a', ks', _, h1', h2', ht⟩ => ?_⟩
          rw [h1] at h1'
          cases h1'
          rw [h2] at h2'
          cases h2'
          rw [List.length_eq_zero_iff.1 hz] at ht
          simp at ht
        · rw [if_neg hz]
          have key := printList_safe (pr := fun x => print h f x) ks (by rintro rfl; exact hz rfl) fun x hx => (ih x (h3 x hx)).1
          constructor
          · rcases key.1 with e | ⟨b, e⟩
            · left; rw [e]; rfl
            · right; rw [e]; exact ⟨_, rfl⟩
          · rintro ⟨o', a', ks', _, h1', h2', ht⟩
            rw [h1] at h1'
            cases h1'
            rw [h2] at h2'
            cases h2'
            rw [key.2 ⟨t, ht, (ih t hS).2 ⟨o, a, ks, hp, h1, h2, ht⟩⟩]
            rfl
      · rw [if_neg hp]
        refine ⟨.inr ⟨[], rfl⟩, fun ⟨o', a', ks', hp', h1', _⟩ => ?_⟩
        rw [h1] at h1'
        cases h1'
        exact absurd hp' hp

/-- `t << t` makes of every compound tree one whose copy never ends, nor does printing it (only trees with a positive operator
are printed with their children). -/
theorem C45_cycle_violated {h : Heap} {o : Int} {Ts : List Tree} {t : Nat} (d : Den h (.node o Ts) t) :
    ∃ h', push h t t = .ok h' ∧ (∀ f, copy f h' t = .hang) ∧ (0 < o → ∀ f, print h' f t = .hang) := by
  have dt := d
  rw [Den, DenP] at d
  obtain ⟨_, ho, a, ks, h1, _, h2, h3⟩ := d
  have ha := (List.getElem?_eq_some_iff.1 h2).1
  have hv : Valid { h with arrs := h.arrs.set a (ks ++ [t]) } (fun u => ∃ U, Den h U u) := by
    rintro u ⟨U, dU⟩
    cases U with
    | atom s =>
      rw [Den, DenP] at dU
      obtain ⟨_, i, g1, _, g2⟩ := dU
      exact .inl ⟨i, s, g1, g2⟩
    | node o' Us =>
      rw [Den, DenP] at dU
      obtain ⟨_, ho', a', ks', g1, _, g2, g3⟩ := dU
      have hk : ∀ k ∈ ks', ∃ U, Den h U k := fun k hk => by
        obtain ⟨lk, gk⟩ := (densP_iff _ _ _ _).1 g3
        obtain ⟨j, hj, rfl⟩ := List.getElem_of_mem hk
        exact ⟨_, gk j (by omega) hj⟩
      by_cases haa : a' = a
      · subst haa
        rw [h2] at g2
        cases g2
        refine .inr ⟨o', a', ks ++ [t], ho', g1, List.getElem?_set_self ha, fun k hk' => ?_⟩
        rcases List.mem_append.1 hk' with hk' | hk'
        · exact hk k hk'
        · rw [List.mem_singleton.1 hk']; exact ⟨_, dt⟩
      · refine .inr ⟨o', a', ks', ho', g1, ?_, hk⟩
        show (h.arrs.set a _)[a']? = _
        rw [List.getElem?_set_ne (Ne.symm haa), g2]
  refine ⟨_, by unfold push; rw [A_ok h1, Res.ok_bind, rd_eq_ok.2 h2, Res.ok_bind], fun f => ?_, fun hp f => ?_⟩
  · exact (copy_safe hv f _ t (Ext.refl _) ⟨_, dt⟩).2 ⟨o, a, ks ++ [t], ho, h1, List.getElem?_set_self ha, by simp⟩
  · exact (print_safe hv f t ⟨_, dt⟩).2 ⟨o, a, ks ++ [t], hp, h1, List.getElem?_set_self ha, by simp⟩

/-- The trees of `h0` meet the hypotheses. -/
example : Den h0 (.atom (b!"a")) 0 ∧ Den h0 (.atom (b!"b")) 1 ∧ Den h0 (.node 1 []) 3 := by
  refine ⟨by simp [Den, DenP, h0, Region.all], by simp [Den, DenP, h0, Region.all], ?_⟩
  exact den_node (by decide) (a := 1) (ks := []) rfl rfl (by rw [DensP])

theorem lt_of_some {α : Type} {l : List α} {i : Nat} {x : α} (e : l[i]? = some x) : i < l.length :=
  (List.getElem?_eq_some_iff.1 e).1

/-- `t << b` for an array other than that of `t` appends its elements to the children of `t`; all other
objects stay the same. Missing: the array of `t` itself, see `C45_pushSelf_violated`. -/
theorem C45_pushAll_partial {h : Heap} {t a b : Nat} {l m : List Nat} (ha : A h t = .ok a) (hl : h.arrs[a]? = some l)
    (hm : h.arrs[b]? = some m) (hab : b ≠ a) :
    ∃ h', pushAll h t b = .ok h' ∧ kids h' t = .ok (l ++ m) ∧ Keeps ⟨fun _ => True, (· ≠ a), fun _ => True⟩ h h' := by
  have hal := lt_of_some hl
  have E := dflts_ext m.length h
  have Ea := dflts_arrs m.length h
  have El := dflts_length m.length h
  obtain ⟨x, hx, ex⟩ := Res.bind_eq_ok.1 ha
  obtain ⟨o, rfl⟩ : ∃ o, x = ⟨o, .arr a⟩ := by
    obtain ⟨o, mm⟩ := x
    cases mm with
    | arr c => cases ex; exact ⟨o, rfl⟩
    | str c => cases ex
  have ht := rd_eq_ok.1 hx
  unfold pushAll
  rw [ha, Res.ok_bind, rd_eq_ok.2 hl, Res.ok_bind, rd_eq_ok.2 hm, Res.ok_bind]
  dsimp only
  generalize (dflts m.length h).1 = g at *
  generalize (dflts m.length h).2 = d at *
  have hb' : ∀ k : List Nat, (g.arrs.set a k)[b]? = some m := fun k => by
    rw [List.getElem?_set_ne (Ne.symm hab), Ea]; exact hm
  rw [rd_eq_ok.2 (hb' _), Res.ok_bind]
  obtain ⟨g', e, k, rfl, k1, k2⟩ := forUp_spec (lo := 0) (hi := m.length)
    (s := ({ g with arrs := g.arrs.set a (l ++ d) } : Heap))
    (body := fun i h => do
      let m ← rd h.arrs b
      let c ← rd m i
      let k ← rd h.arrs a
      let k ← wr k (i + l.length) c
      .ok { h with arrs := h.arrs.set a k })
    (fun i g' => ∃ k, g' = { g with arrs := g.arrs.set a k } ∧ k.length = l.length + m.length ∧
      k.take (l.length + i) = l ++ m.take i) (by omega)
    ⟨l ++ d, rfl, by simp [El], by simp⟩
    (fun i g' _ hi ⟨k, hg, k1, k2⟩ => by
      subst hg
      have hak : (g.arrs.set a k)[a]? = some k := List.getElem?_set_self (by rw [Ea]; exact hal)
      refine ⟨_, by
        rw [rd_eq_ok.2 (hb' k), Res.ok_bind, rd_ok hi, Res.ok_bind, rd_eq_ok.2 hak, Res.ok_bind, wr_ok (by omega),
          Res.ok_bind], k.set (i + l.length) m[i], by simp, by simpa using k1, ?_⟩
      rw [← Nat.add_assoc, List.take_add_one, show l.length + i = i + l.length by omega,
        List.getElem?_set_self (by omega), List.take_set, List.set_eq_of_length_le (by rw [List.length_take]; omega),
        show i + l.length = l.length + i by omega, k2, List.take_add_one, List.getElem?_eq_getElem hi, List.append_assoc])
  refine ⟨_, e, ?_, ?_⟩
  · have : k = l ++ m := by
      rw [List.take_of_length_le (by omega), List.take_length] at k2; exact k2
    rw [← this]
    exact kids_ok (E.1.1 _ _ trivial ht) (List.getElem?_set_self (by rw [Ea]; exact hal))
  · exact keeps_trans (ext_keeps E) (keeps_set g a k (fun i p => p))

/-- Appending the own array of a compound tree with children is undefined. -/
theorem C45_pushSelf_violated {h : Heap} {t a : Nat} {l : List Nat} (ha : A h t = .ok a) (hl : h.arrs[a]? = some l)
    (hn : l ≠ []) : pushAll h t a = .ub := by
  have hal := lt_of_some hl
  have Ea := dflts_arrs l.length h
  have El := dflts_length l.length h
  have hn' : 0 < l.length := List.length_pos_iff.2 hn
  unfold pushAll
  rw [ha, Res.ok_bind, rd_eq_ok.2 hl, Res.ok_bind, Res.ok_bind]
  dsimp only
  generalize (dflts l.length h).1 = g at *
  generalize (dflts l.length h).2 = d at *
  have hak : ∀ k : List Nat, (g.arrs.set a k)[a]? = some k := fun k => List.getElem?_set_self (by rw [Ea]; exact hal)
  rw [rd_eq_ok.2 (hak _), Res.ok_bind]
  obtain ⟨g', e, k, rfl, k1⟩ := forUp_spec (lo := 0) (hi := l.length)
    (s := ({ g with arrs := g.arrs.set a (l ++ d) } : Heap))
    (body := fun i h => do
      let m ← rd h.arrs a
      let c ← rd m i
      let k ← rd h.arrs a
      let k ← wr k (i + l.length) c
      .ok { h with arrs := h.arrs.set a k })
    (fun i g' => ∃ k, g' = { g with arrs := g.arrs.set a k } ∧ k.length = l.length + l.length) (by omega)
    ⟨l ++ d, rfl, by simp [El]⟩
    (fun i g' _ hi ⟨k, hg, k1⟩ => by
      subst hg
      refine ⟨_, by
        rw [rd_eq_ok.2 (hak k), Res.ok_bind, rd_ok (show i < k.length by omega), Res.ok_bind, Res.ok_bind, wr_ok (by omega),
          Res.ok_bind], k.set (i + l.length) k[i], by simp, by simpa using k1⟩)
  unfold forUp at e ⊢
  rw [show (l ++ d).length - 0 = (l.length - 0) + (l.length - 1 + 1) by simp [El]; omega, forN_split, e, Res.ok_bind, forN]
  rw [rd_eq_ok.2 (hak k), Res.ok_bind, rd_ok (show 0 + (l.length - 0) < k.length by omega), Res.ok_bind, Res.ok_bind]
  have : wr k (0 + (l.length - 0) + l.length) k[0 + (l.length - 0)] = .ub := by
    unfold wr; rw [if_neg (by omega)]
  rw [this]; rfl

example : A h0 2 = .ok 0 ∧ h0.arrs[0]? = some [0, 1] ∧ h0.arrs[1]? = some [] := ⟨rfl, rfl, rfl⟩

mutual
/-- The text of a tree; generic nodes print nothing. -/
def text : Tree → Bytes
  | .atom s => s
  | .node o ts => if 0 < o then Conv.asString o ++ (if ts.length = 0 then b!"()" else b!" (" ++ texts ts ++ b!")") else []
/-- Separated by commas. -/
def texts : List Tree → Bytes
  | [] => []
  | t :: ts => text t ++ (if ts.length = 0 then [] else b!", " ++ texts ts)
end

theorem printList_spec {h : Heap} {pr : Nat → Res Bytes} : ∀ {Ts : List Tree} {ks : List Nat}, DensP .all h Ts ks →
    Ts.length ≠ 0 → (∀ i (h1 : i < Ts.length) (h2 : i < ks.length), pr ks[i] = .ok (text Ts[i])) →
    printList pr ks = .ok (texts Ts)
  | [], _, _, h, _ => absurd rfl h
  | [T], ks, d, _, hp => by
    rw [DensP] at d
    obtain ⟨x, xs, rfl, _, d⟩ := d
    rw [DensP] at d; subst d
    have := hp 0 (by simp) (by simp)
    simp only [List.getElem_cons_zero] at this
    rw [printList, this, texts]; simp
  | T :: U :: Ts, ks, d, _, hp => by
    rw [DensP] at d
    obtain ⟨x, xs, rfl, d1, d2⟩ := d
    have ih := printList_spec (pr := pr) d2 (by simp) (fun i h1 h2 => by
      have := hp (i + 1) (by simpa using h1) (by simpa using h2)
      simpa only [List.getElem_cons_succ] using this)
    rw [DensP] at d2
    obtain ⟨y, ys, rfl, d3, d4⟩ := d2
    have h0 := hp 0 (by simp) (by simp)
    simp only [List.getElem_cons_zero] at h0
    have e : texts (T :: U :: Ts) = text T ++ (if (U :: Ts).length = 0 then [] else b!", " ++ texts (U :: Ts)) := by
      rw [texts]
    rw [printList, h0, Res.ok_bind, ih, Res.ok_bind, e, if_neg (by simp), List.append_assoc]

/-- Printing writes the text of the tree. -/
theorem C45_print {h : Heap} : ∀ (f : Nat) {T : Tree} {t : Nat}, T.depth ≤ f → Den h T t → print h f t = .ok (text T)
  | 0, T, t => by
    intro hd
    cases T <;> rw [Tree.depth] at hd <;> omega
  | f + 1, T, t => by
    intro hd d
    rw [print, den_op d, Res.ok_bind]
    cases T with
    | atom s =>
      rw [Den, DenP] at d
      obtain ⟨_, i, h1, _, h2⟩ := d
      rw [if_pos rfl, label_ok h1 h2, text]
    | node o Ts =>
      rw [Den, DenP] at d
      obtain ⟨_, ho, a, ks, h1, _, h2, h3⟩ := d
      obtain ⟨lk, gk⟩ := (densP_iff _ _ _ _).1 h3
      rw [Tree.depth] at hd
      dsimp only
      rw [if_neg ho, text]
      split
      · rw [kids_ok h1 h2, Res.ok_bind, lk]
        split
        · rfl
        · rename_i hn
          rw [printList_spec h3 hn (fun i i1 i2 => C45_print f (by have := depth_le i1; omega) (gk i i1 i2)), Res.ok_bind]
          simp
      · rfl

/-- A tree with a shared child. -/
example : Den ⟨[⟨0, .str 0⟩, ⟨5, .arr 0⟩, ⟨-2, .arr 1⟩], [[0, 0], [1, 1]], [b!"x"]⟩
    (.node (-2) [.node 5 [.atom (b!"x"), .atom (b!"x")], .node 5 [.atom (b!"x"), .atom (b!"x")]]) 2 := by
  refine den_node (by decide) (a := 1) (ks := [1, 1]) rfl rfl ?_
  have d : Den ⟨[⟨0, .str 0⟩, ⟨5, .arr 0⟩, ⟨-2, .arr 1⟩], [[0, 0], [1, 1]], [b!"x"]⟩
      (.node 5 [.atom (b!"x"), .atom (b!"x")]) 1 := by
    refine den_node (by decide) (a := 0) (ks := [0, 0]) rfl rfl ?_
    simp only [DensP, DenP]
    exact ⟨0, [0], rfl, ⟨trivial, 0, rfl, trivial, rfl⟩, 0, [], rfl, ⟨trivial, 0, rfl, trivial, rfl⟩, rfl⟩
  simp only [DensP]
  exact ⟨1, [1], rfl, d, 1, [], rfl, d, rfl⟩

/-- Trees that share a child can be put under one label. -/
example : ∃ h' r, ofTrees h0 7 [2, 3, 2] = .ok (h', r) ∧ child h' r 1 = .ok 3 := ⟨_, _, rfl, rfl⟩

/-- `2 << 3` in the heap above meets the hypotheses of `C45_push_partial`. -/
example : Den h0 (.node 1 []) 3 ∧ A h0 3 = .ok 1 ∧ ∀ y, Sub h0 2 y → A h0 y ≠ .ok 1 := by
  refine ⟨by simp [Den, DenP, DensP, h0, Region.all], rfl, ?_⟩
  intro y hy
  have leaf : ∀ k, k = 0 ∨ k = 1 → Sub h0 k y → A h0 y ≠ .ok 1 := by
    rintro k hk hs
    cases hs with
    | refl => rcases hk with rfl | rfl <;> decide
    | step _ a o ks k' _ e1 e2 _ _ => rcases hk with rfl | rfl <;> (simp [h0] at e1)
  cases hy with
  | refl => decide
  | step _ a o ks k _ e1 e2 hk hs =>
    simp [h0] at e1
    obtain ⟨_, rfl⟩ := e1
    simp [h0] at e2
    subst e2
    exact leaf k (by simpa using hk) hs

end Lolly.LTreeProps
