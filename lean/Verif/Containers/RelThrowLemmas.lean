import Verif.Containers.RelThrow
import Verif.Containers.HashThrowProps
import Verif.Containers.RelHashMapProps

/-!
# Lemmas on merging layers when functions of keys throw
-/

set_option autoImplicit false

namespace Lolly.RelThrowProps

open Lolly.HashThrow Lolly.HashThrowProps Lolly.RelThrow

variable {K V α β : Type} {fails : Nat → Bool} {hash : K → BitVec 32}

/-! ## What returns depends only on the calls that were made -/

def Local (t : Nat) (F : (Nat → Bool) → Out K V α) : Prop := ∀ f f2 h t' y, F f = .ret h t' y →
  t ≤ t' ∧ ((∀ k, t ≤ k → k < t' → f2 k = false) → F f2 = .ret h t' y)

theorem Local.bind {t : Nat} {F : (Nat → Bool) → Out K V α} {G : (Nat → Bool) → HashMap K V → Nat → α → Out K V β}
    (hF : Local t F) (hG : ∀ h t' y, Local t' (fun f => G f h t' y)) : Local t (fun f => (F f).bind (G f)) := by
  intro f f2 h t' y e
  obtain ⟨h1, t1, y1, e1, e2⟩ := bind_ret e
  obtain ⟨l1, k1⟩ := hF f f2 h1 t1 y1 e1
  obtain ⟨l2, k2⟩ := hG h1 t1 y1 f f2 h t' y e2
  refine ⟨by omega, fun hk => ?_⟩
  show (F f2).bind (G f2) = _
  rw [k1 (fun k a b => hk k a (by omega))]
  exact k2 (fun k a b => hk k (by omega) b)

theorem local_ret (h : HashMap K V) (t : Nat) (x : α) : Local t (fun _ => .ret h t x) := by
  intro f f2 h' t' y e
  cases e
  exact ⟨Nat.le_refl _, fun _ => rfl⟩

theorem local_lift (h : HashMap K V) (t : Nat) (r : Res α) : Local t (fun _ => lift h t r) := by
  intro f f2 h' t' y e
  obtain ⟨e1, e2⟩ := lift_ret e
  subst e2
  cases e
  exact ⟨Nat.le_refl _, fun _ => rfl⟩

theorem local_call (h : HashMap K V) (t : Nat) (x : α) : Local t (fun f => call f h t x) := by
  intro f f2 h' t' y e
  dsimp only at e ⊢
  unfold call at e ⊢
  split at e
  · cases e
  · cases e
    refine ⟨by omega, fun hk => ?_⟩
    rw [hk t (Nat.le_refl _) (by omega)]
    rfl

theorem local_rehash (n2 : Nat) (es : List (Entry K V)) : ∀ (h : HashMap K V) (t : Nat), Local t (fun f => rehash f hash n2 es h t) := by
  induction es with
  | nil => intro h t; exact local_ret h t ()
  | cons e es ih =>
    intro h t
    exact (local_call h t (hash e.key)).bind fun h t hv => (local_lift h t _).bind fun h t l =>
      (local_lift h t _).bind fun h t a => ih _ t

variable [DecidableEq K]

theorem local_find (hv : BitVec 32) (x : K) (l : List (Entry K V)) : ∀ (h : HashMap K V) (t : Nat),
    Local t (fun f => find f hv x h l t) := by
  induction l with
  | nil => intro h t; exact local_ret h t none
  | cons e l ih =>
    intro h t
    by_cases hc : e.code = hv
    · have := (local_call h t (decide (e.key = x))).bind
        (G := fun f h t b => if b then .ret h t (some e.im) else find f hv x h l t) (by
          intro h t b
          cases b with
          | true => exact local_ret h t (some e.im)
          | false => exact ih h t)
      intro f f2 h' t' y e'
      have := this f f2 h' t' y (by dsimp only at e'; rw [find, if_pos hc] at e'; exact e')
      refine ⟨this.1, fun hk => ?_⟩
      show find f2 hv x h (e :: l) t = _
      rw [find, if_pos hc]
      exact this.2 hk
    · intro f f2 h' t' y e'
      have := ih h t f f2 h' t' y (by dsimp only at e'; rw [find, if_neg hc] at e'; exact e')
      refine ⟨this.1, fun hk => ?_⟩
      show find f2 hv x h (e :: l) t = _
      rw [find, if_neg hc]
      exact this.2 hk

theorem local_look (h : HashMap K V) (x : K) (t : Nat) : Local t (fun f => HashThrow.look f hash h x t) :=
  (local_call h t (hash x)).bind fun h t hv => (local_lift h t _).bind fun h t l => local_find hv x l h t

omit [DecidableEq K] in
theorem local_insertNew (h : HashMap K V) (x : K) (t : Nat) : Local t (fun f => insertNew f hash h x t) := by
  have h1 : Local t (fun f => if h.size ≥ h.n * h.max then HashThrow.resize f hash h (h.n <<< 1) t else .ret h t ()) := by
    by_cases hc : h.size ≥ h.n * h.max
    · simp only [if_pos hc]
      exact local_rehash _ _ _ _
    · simp only [if_neg hc]
      exact local_ret h t ()
  exact h1.bind fun h t _ => (local_lift h t _).bind fun h t rl => (local_lift h t _).bind fun h t a => local_ret _ t ()

theorem local_touch (h : HashMap K V) (x : K) (t : Nat) : Local t (fun f => touch f hash h x t) := by
  refine (local_look h x t).bind (G := fun f h t o => match o with
    | some _ => .ret h t ()
    | none => insertNew f hash h x t) fun h t o => ?_
  cases o with
  | some v => exact local_ret h t ()
  | none => exact local_insertNew h x t

theorem local_set (h : HashMap K V) (x : K) (v : V) (t : Nat) : Local t (fun f => HashThrow.set f hash h x v t) :=
  (local_touch h x t).bind fun h t _ => (local_lift h t _).bind fun _ t h => local_ret h t ()

theorem local_changeE (es : List (Entry K V)) : ∀ (h : HashMap K V) (t : Nat), Local t (fun f => changeE f hash es h t) := by
  induction es with
  | nil => intro h t; exact local_ret h t ()
  | cons e es ih => intro h t; exact (local_set h e.key e.im t).bind fun h t _ => ih h t

theorem fair_set (h : HashMap K V) (x : K) (v : V) (t : Nat) : Fair fails t (HashThrow.set fails hash h x v t) :=
  (C174_throws h x v t).2.2.1

theorem fair_changeE (es : List (Entry K V)) : ∀ (h : HashMap K V) (t : Nat), Fair fails t (changeE fails hash es h t) := by
  induction es with
  | nil => intro h t; exact fair_ret h t ()
  | cons e es ih => intro h t; exact (fair_set h e.key e.im t).bind fun h t _ _ => ih h t

theorem changeE_append (a b : List (Entry K V)) (h : HashMap K V) (t : Nat) :
    changeE fails hash (a ++ b) h t = (changeE fails hash a h t).bind fun h t _ => changeE fails hash b h t := by
  induction a generalizing h t with
  | nil => rfl
  | cons e a ih =>
    rw [List.cons_append, changeE, changeE]
    cases HashThrow.set fails hash h e.key e.im t with
    | ret h' t' u => exact ih h' t'
    | thrown h' t' => rfl
    | ub => rfl

/-! ## The maps -/

/-- The entries of a list over those of a map. -/
def over (es : List (Entry K V)) (f : K → Option V) (x : K) : Option V :=
  match es with
  | [] => f x
  | e :: es => over es (fun y => if y = e.key then some e.im else f y) x

theorem over_eq (es : List (Entry K V)) (f : K → Option V) (x : K) (hx : ∀ e ∈ es, e.key ≠ x) : over es f x = f x := by
  induction es generalizing f with
  | nil => rfl
  | cons e es ih =>
    rw [over, ih _ (fun d hd => hx d (List.mem_cons_of_mem _ hd)), if_neg (Ne.symm (hx e List.mem_cons_self))]

theorem over_mem {es : List (Entry K V)} (hn : (es.map (·.key)).Nodup) (f : K → Option V) {e : Entry K V} (he : e ∈ es) :
    over es f e.key = some e.im := by
  induction es generalizing f with
  | nil => cases he
  | cons d es ih =>
    rw [List.map_cons, List.nodup_cons] at hn
    rw [over]
    rcases List.mem_cons.1 he with rfl | he
    · rw [over_eq es _ _ (fun d hd hk => hn.1 (by rw [← hk]; exact List.mem_map_of_mem hd)), if_pos rfl]
    · exact ih hn.2 _ he

theorem changeE_lax (es : List (Entry K V)) {g : HashMap K V} (w : Lax hash g) (t : Nat) :
    (∃ g' t', changeE fails hash es g t = .ret g' t' () ∧ Lax hash g' ∧ g'.abs = over es g.abs ∧ g'.init = g.init) ∨
    (∃ done e rest g1 g' t', es = done ++ e :: rest ∧ changeE fails hash es g t = .thrown g' t' ∧ Lax hash g1 ∧ Lax hash g' ∧
      g1.abs = over done g.abs ∧ (∀ x v, g'.abs x = some v → g1.abs x = some v) ∧ g'.init = g.init ∧
      (g' = g1 ∨ (g1.abs e.key = none ∧ g1.size ≥ g1.n * g1.max))) := by
  induction es generalizing g t with
  | nil => exact .inl ⟨g, t, rfl, w, rfl, rfl⟩
  | cons e es ih =>
    rw [changeE]
    rcases set_lax (fails := fails) w e.key e.im t with ⟨h, t1, e1, wh, ah, ih1, -⟩ | ⟨h, t1, e1, hh⟩
    · rw [e1]
      show (∃ g' t', changeE fails hash es h t1 = _ ∧ _) ∨ (∃ done e' rest g1 g' t', _ ∧ changeE fails hash es h t1 = _ ∧ _)
      rcases ih wh t1 with ⟨g', t', e2, w2, a2, i2⟩ | ⟨done, d, rest, g1, g', t', e3, e4, w1, w2, a1, a2, i2, hg⟩
      · refine .inl ⟨g', t', e2, w2, ?_, i2.trans ih1⟩
        rw [a2, ah]
        rfl
      · refine .inr ⟨e :: done, d, rest, g1, g', t', by rw [e3]; rfl, e4, w1, w2, ?_, a2, i2.trans ih1, hg⟩
        rw [a1, ah]
        rfl
    · rw [e1]
      refine .inr ⟨[], e, es, g, h, t1, rfl, rfl, w, ?_⟩
      rcases hh with rfl | ⟨hn, hs, wh, -, ah, ih1, -⟩
      · exact ⟨w, rfl, fun _ _ h => h, rfl, .inl rfl⟩
      · exact ⟨wh, rfl, ah, ih1, .inr ⟨hn, hs⟩⟩

/-! ## Room -/

/-- A call that returns does not change the table if there is room. -/
theorem set_table {h h' : HashMap K V} (w : Lax hash h) {x : K} {v : V} (e : h.set hash x v = .ok h')
    (hr : h.abs x ≠ none ∨ h.size < h.n * h.max) : h'.n = h.n ∧ h'.max = h.max := by
  have key : ∀ g g' : HashMap K V, g.assign hash x v = .ok g' → g'.n = g.n ∧ g'.max = g.max := by
    intro g g' e
    unfold HashMap.assign at e
    obtain ⟨l, e1, e⟩ := Res.bind_eq_ok.1 e
    obtain ⟨a, e2, e⟩ := Res.bind_eq_ok.1 e
    injection e with e
    subst e
    exact ⟨rfl, rfl⟩
  unfold HashMap.set at e
  obtain ⟨g, e1, e2⟩ := Res.bind_eq_ok.1 e
  obtain ⟨k1, k2⟩ := key g h' e2
  rw [k1, k2]
  unfold HashMap.touch at e1
  obtain ⟨l, r1, r2⟩ := w.findB x
  rw [r1, Res.ok_bind, r2] at e1
  cases hx : h.abs x with
  | some u =>
    rw [hx] at e1
    injection e1 with e1
    subst e1
    exact ⟨rfl, rfl⟩
  | none =>
    rw [hx] at e1
    dsimp only at e1
    rcases hr with hr | hr
    · exact absurd hx hr
    · unfold HashMap.insertNew at e1
      rw [if_neg (by omega), Res.ok_bind] at e1
      obtain ⟨l, e3, e1⟩ := Res.bind_eq_ok.1 e1
      obtain ⟨a, e4, e1⟩ := Res.bind_eq_ok.1 e1
      injection e1 with e1
      subst e1
      exact ⟨rfl, rfl⟩

/-- There is room for the entries of the list. -/
def Room (g : HashMap K V) (es : List (Entry K V)) : Prop :=
  g.size + ((es.filter fun e => (g.abs e.key).isNone).length : Int) ≤ g.n * g.max

omit [DecidableEq K] in
theorem filter_le {es : List (Entry K V)} {p q : Entry K V → Bool} (h : ∀ e, p e = true → q e = true) :
    (es.filter p).length ≤ (es.filter q).length := by
  induction es with
  | nil => exact Nat.le_refl _
  | cons e es ih =>
    rw [List.filter_cons, List.filter_cons]
    by_cases hp : p e = true
    · rw [if_pos hp, if_pos (h e hp)]
      simp only [List.length_cons]
      omega
    · rw [if_neg hp]
      split
      · simp only [List.length_cons]; omega
      · exact ih

theorem changeE_room (es : List (Entry K V)) {g : HashMap K V} (w : Lax hash g) (hr : Room g es) (t : Nat) {g' : HashMap K V}
    {t' : Nat} (e : changeE fails hash es g t = .thrown g' t') :
    ∃ done d rest, es = done ++ d :: rest ∧ Lax hash g' ∧ g'.abs = over done g.abs ∧ g'.init = g.init ∧ Room g' (d :: rest) := by
  induction es generalizing g t with
  | nil => cases e
  | cons d es ih =>
    rw [changeE] at e
    have hcount : g.abs d.key = none → ((d :: es).filter fun e => (g.abs e.key).isNone).length =
        (es.filter fun e => (g.abs e.key).isNone).length + 1 := by
      intro h
      rw [List.filter_cons, h]
      rfl
    rcases set_lax (fails := fails) w d.key d.im t with ⟨h, t1, e1, wh, ah, ih1, sh⟩ | ⟨h, t1, e1, hh⟩
    · rw [e1] at e
      have hret := ((C174_returns g h d.key d.im t t1).2.2.1 () e1)
      have hmono : ((es.filter fun e => (h.abs e.key).isNone).length) ≤ (es.filter fun e => (g.abs e.key).isNone).length := by
        apply filter_le
        intro e he
        rw [ah] at he
        dsimp only at he
        split at he
        · cases he
        · exact he
      have hr' : Room h es := by
        unfold Room at hr ⊢
        cases hx : g.abs d.key with
        | none =>
          rw [hcount hx] at hr
          obtain ⟨n1, n2⟩ := set_table w hret (.inr (by omega))
          rw [n1, n2, sh, hx]
          simp only [Option.isSome_none, Bool.false_eq_true, if_false]
          omega
        | some u =>
          obtain ⟨n1, n2⟩ := set_table w hret (.inl (by rw [hx]; simp))
          have : ((d :: es).filter fun e => (g.abs e.key).isNone).length = (es.filter fun e => (g.abs e.key).isNone).length := by
            rw [List.filter_cons, hx]
            rfl
          rw [this] at hr
          rw [n1, n2, sh, hx]
          simp only [Option.isSome_some, if_true]
          omega
      obtain ⟨done, d', rest, e2, w2, a2, i2, r2⟩ := ih wh hr' t1 e
      refine ⟨d :: done, d', rest, by rw [e2]; rfl, w2, ?_, i2.trans ih1, r2⟩
      rw [a2, ah]
      rfl
    · rw [e1] at e
      cases e
      refine ⟨[], d, es, rfl, ?_⟩
      rcases hh with rfl | ⟨hn, hs, -⟩
      · exact ⟨w, rfl, rfl, hr⟩
      · exfalso
        unfold Room at hr
        rw [hcount hn] at hr
        omega

end Lolly.RelThrowProps
