import Verif.Containers.HashThrow
import Verif.Containers.HashMapProps

/-!
# C174: hash maps with keys whose functions throw

`C174_throws`: an exception of a key's function is passed on at once, and only then a call throws. `C174_returns`: a call that
returns did what it does without exceptions. `C174_kept_partial`: reading never changes the map, and a change that throws
before the table is rebuilt leaves the map as it was. `C174_values`: whatever was thrown before, a key that is found has the
value that was given to it last. `C174_progress`: the map can still be used. `C174_lost`: what is left when rebuilding the table
is interrupted. `C174_lost_violated`: entries get lost that way, and `N` counts them still. `C174_generate`: a routine that
throws.
-/

set_option autoImplicit false

namespace Lolly.HashThrowProps

open Lolly.HashThrow

variable {K V α β : Type} {fails : Nat → Bool} {hash : K → BitVec 32}

/-! ## Lemmas: when a call throws -/

/-- What is said of the number `t` at the beginning and the outcome: the calls from `t` on went well, up to the last one if
the outcome is an exception. -/
def Fair (fails : Nat → Bool) (t : Nat) : Out K V α → Prop
  | .ret _ t' _ => t ≤ t' ∧ ∀ k, t ≤ k → k < t' → fails k = false
  | .thrown _ t' => t < t' ∧ fails (t' - 1) = true ∧ ∀ k, t ≤ k → k < t' - 1 → fails k = false
  | .ub => True

theorem Fair.bind {t : Nat} {o : Out K V α} {f : HashMap K V → Nat → α → Out K V β} (h : Fair fails t o)
    (hf : ∀ h' t' x, o = .ret h' t' x → Fair fails t' (f h' t' x)) : Fair fails t (o.bind f) := by
  cases o with
  | ub => trivial
  | thrown h' t' => exact h
  | ret h' t' x =>
    have h2 := hf h' t' x rfl
    show Fair fails t (f h' t' x)
    obtain ⟨h1, h3⟩ := h
    cases hr : f h' t' x with
    | ub => trivial
    | ret s u y =>
      rw [hr] at h2
      obtain ⟨h4, h5⟩ := h2
      exact ⟨by omega, fun k a b => if c : k < t' then h3 k a c else h5 k (by omega) b⟩
    | thrown s u =>
      rw [hr] at h2
      obtain ⟨h4, h5, h6⟩ := h2
      exact ⟨by omega, h5, fun k a b => if c : k < t' then h3 k a c else h6 k (by omega) b⟩

theorem fair_ret (h : HashMap K V) (t : Nat) (x : α) : Fair fails t (.ret h t x) := ⟨Nat.le_refl _, fun _ a b => by omega⟩

theorem fair_lift (h : HashMap K V) (t : Nat) (r : Res α) : Fair fails t (lift h t r) := by
  cases r with
  | ok x => exact fair_ret h t x
  | _ => trivial

theorem fair_call (h : HashMap K V) (t : Nat) (x : α) : Fair fails t (call fails h t x) := by
  unfold call
  cases hf : fails t with
  | true => exact ⟨by omega, hf, fun _ a b => by omega⟩
  | false => exact ⟨by omega, fun k a b => by rw [show k = t by omega]; exact hf⟩

theorem fair_rehash (n2 : Nat) (es : List (Entry K V)) : ∀ (h : HashMap K V) (t : Nat), Fair fails t (rehash fails hash n2 es h t) := by
  induction es with
  | nil => intro h t; exact fair_ret h t ()
  | cons e es ih =>
    intro h t
    exact (fair_call h t _).bind fun h t _ _ => (fair_lift h t _).bind fun h t _ _ => (fair_lift h t _).bind fun h t a _ => ih _ t

variable [DecidableEq K]

theorem fair_find (hv : BitVec 32) (x : K) (l : List (Entry K V)) : ∀ (h : HashMap K V) (t : Nat), Fair fails t (find fails hv x h l t) := by
  induction l with
  | nil => intro h t; exact fair_ret h t none
  | cons e l ih =>
    intro h t
    unfold find
    split
    · refine (fair_call h t _).bind fun h t b _ => ?_
      cases b with
      | true => exact fair_ret h t _
      | false => exact ih h t
    · exact ih h t

theorem fair_remove (hv : BitVec 32) (x : K) (l : List (Entry K V)) : ∀ (h : HashMap K V) (t : Nat), Fair fails t (remove fails hv x h l t) := by
  induction l with
  | nil => intro h t; exact fair_ret h t none
  | cons e l ih =>
    intro h t
    unfold remove
    split
    · refine (fair_call h t _).bind fun h t b _ => ?_
      cases b with
      | true => exact fair_ret h t _
      | false => exact (ih h t).bind fun h t o _ => fair_ret h t _
    · exact (ih h t).bind fun h t o _ => fair_ret h t _

theorem fair_look (h : HashMap K V) (x : K) (t : Nat) : Fair fails t (HashThrow.look fails hash h x t) :=
  (fair_call h t _).bind fun h t _ _ => (fair_lift h t _).bind fun h t l _ => fair_find _ x l h t

theorem fair_touch (h : HashMap K V) (x : K) (t : Nat) : Fair fails t (touch fails hash h x t) := by
  refine (fair_look h x t).bind fun h t o _ => ?_
  cases o with
  | some v => exact fair_ret h t ()
  | none =>
    refine Fair.bind ?_ fun h t _ _ => (fair_lift h t _).bind fun h t _ _ => (fair_lift h t _).bind fun h t a _ => fair_ret _ t ()
    split
    · exact fair_rehash _ _ _ t
    · exact fair_ret h t ()

/-! ## C174 -/

/-- C174: a function of the map throws exactly if one of the calls of functions of keys that it made threw, and then it makes no
further call. -/
theorem C174_throws (h : HashMap K V) (x : K) (v : V) (t : Nat) :
    Fair fails t (contains fails hash h x t) ∧ Fair fails t (get fails hash h x t) ∧ Fair fails t (set fails hash h x v t) ∧
    Fair fails t (reset fails hash h x t) := by
  refine ⟨(fair_look h x t).bind fun h t o _ => fair_ret h t _, (fair_look h x t).bind fun h t o _ => fair_ret h t _,
    (fair_touch h x t).bind fun h t _ _ => (fair_lift h t _).bind fun _ t h _ => fair_ret h t (),
    (fair_call h t _).bind fun h t hv _ => (fair_lift h t _).bind fun h t l _ => (fair_remove hv x l h t).bind fun h t o _ => ?_⟩
  cases o with
  | none => exact fair_ret h t ()
  | some l' =>
    refine (fair_lift h t _).bind fun h t a _ => ?_
    split
    · exact fair_rehash _ _ _ t
    · exact fair_ret _ t ()

/-! ## Lemmas: what the functions do -/

omit [DecidableEq K] in
theorem bind_ret {o : Out K V α} {f : HashMap K V → Nat → α → Out K V β} {h' : HashMap K V} {t' : Nat} {y : β}
    (e : o.bind f = .ret h' t' y) : ∃ h t x, o = .ret h t x ∧ f h t x = .ret h' t' y := by
  cases o with
  | ret h t x => exact ⟨h, t, x, rfl, e⟩
  | thrown h t => cases e
  | ub => cases e

omit [DecidableEq K] in
theorem bind_thrown {o : Out K V α} {f : HashMap K V → Nat → α → Out K V β} {h' : HashMap K V} {t' : Nat}
    (e : o.bind f = .thrown h' t') : o = .thrown h' t' ∨ ∃ h t x, o = .ret h t x ∧ f h t x = .thrown h' t' := by
  cases o with
  | ret h t x => exact .inr ⟨h, t, x, rfl, e⟩
  | thrown h t => cases e; exact .inl rfl
  | ub => cases e

omit [DecidableEq K] in
theorem call_ret {h h' : HashMap K V} {t t' : Nat} {x y : α} (e : call fails h t x = .ret h' t' y) : h' = h ∧ y = x := by
  unfold call at e
  split at e
  · cases e
  · cases e; exact ⟨rfl, rfl⟩

omit [DecidableEq K] in
theorem call_thrown {h h' : HashMap K V} {t t' : Nat} {x : α} (e : call fails h t x = .thrown h' t') : h' = h := by
  unfold call at e
  split at e
  · cases e; rfl
  · cases e

omit [DecidableEq K] in
theorem lift_ret {h h' : HashMap K V} {t t' : Nat} {r : Res α} {y : α} (e : lift h t r = .ret h' t' y) : h' = h ∧ r = .ok y := by
  cases r with
  | ok x => cases e; exact ⟨rfl, rfl⟩
  | _ => cases e

omit [DecidableEq K] in
theorem lift_thrown {h h' : HashMap K V} {t t' : Nat} {r : Res α} (e : lift h t r = .thrown h' t') : False := by
  cases r <;> cases e

theorem find_ret {hv : BitVec 32} {x : K} (l : List (Entry K V)) : ∀ {h h' : HashMap K V} {t t' : Nat} {o : Option V},
    find fails hv x h l t = .ret h' t' o → h' = h ∧ o = HashMap.findB hv x l := by
  induction l with
  | nil => intro h h' t t' o e; cases e; exact ⟨rfl, rfl⟩
  | cons e l ih =>
    intro h h' t t' o q
    unfold find at q
    unfold HashMap.findB
    by_cases hc : e.code = hv
    · rw [if_pos hc] at q
      obtain ⟨h1, t1, b, q1, q2⟩ := bind_ret q
      obtain ⟨rfl, rfl⟩ := call_ret q1
      by_cases hk : e.key = x
      · rw [if_pos (decide_eq_true hk)] at q2
        cases q2
        exact ⟨rfl, by rw [if_pos ⟨hc, hk⟩]⟩
      · rw [if_neg (by rw [decide_eq_false hk]; decide)] at q2
        rw [if_neg (fun c => hk c.2)]
        exact ih q2
    · rw [if_neg hc] at q
      rw [if_neg (fun c => hc c.1)]
      exact ih q

theorem find_thrown {hv : BitVec 32} {x : K} (l : List (Entry K V)) : ∀ {h h' : HashMap K V} {t t' : Nat},
    find fails hv x h l t = .thrown h' t' → h' = h := by
  induction l with
  | nil => intro h h' t t' e; cases e
  | cons e l ih =>
    intro h h' t t' q
    unfold find at q
    split at q
    · rcases bind_thrown q with q1 | ⟨h1, t1, b, q1, q2⟩
      · exact call_thrown q1
      · obtain ⟨rfl, -⟩ := call_ret q1
        split at q2
        · cases q2
        · exact ih q2
    · exact ih q

theorem remove_ret {hv : BitVec 32} {x : K} (l : List (Entry K V)) : ∀ {h h' : HashMap K V} {t t' : Nat} {o : Option (List (Entry K V))},
    remove fails hv x h l t = .ret h' t' o → h' = h ∧ o = HashMap.removeB hv x l := by
  induction l with
  | nil => intro h h' t t' o e; cases e; exact ⟨rfl, rfl⟩
  | cons e l ih =>
    intro h h' t t' o q
    unfold remove at q
    unfold HashMap.removeB
    by_cases hc : e.code = hv
    · rw [if_pos hc] at q
      obtain ⟨h1, t1, b, q1, q2⟩ := bind_ret q
      obtain ⟨rfl, rfl⟩ := call_ret q1
      by_cases hk : e.key = x
      · rw [if_pos (decide_eq_true hk)] at q2
        cases q2
        exact ⟨rfl, by rw [if_pos ⟨hc, hk⟩]⟩
      · rw [if_neg (by rw [decide_eq_false hk]; decide)] at q2
        rw [if_neg (fun c => hk c.2)]
        obtain ⟨h2, t2, o2, q3, q4⟩ := bind_ret q2
        obtain ⟨rfl, rfl⟩ := ih q3
        cases q4
        exact ⟨rfl, rfl⟩
    · rw [if_neg hc] at q
      rw [if_neg (fun c => hc c.1)]
      obtain ⟨h2, t2, o2, q3, q4⟩ := bind_ret q
      obtain ⟨rfl, rfl⟩ := ih q3
      cases q4
      exact ⟨rfl, rfl⟩

theorem remove_thrown {hv : BitVec 32} {x : K} (l : List (Entry K V)) : ∀ {h h' : HashMap K V} {t t' : Nat},
    remove fails hv x h l t = .thrown h' t' → h' = h := by
  induction l with
  | nil => intro h h' t t' e; cases e
  | cons e l ih =>
    intro h h' t t' q
    unfold remove at q
    split at q
    · rcases bind_thrown q with q1 | ⟨h1, t1, b, q1, q2⟩
      · exact call_thrown q1
      · obtain ⟨rfl, -⟩ := call_ret q1
        split at q2
        · cases q2
        · rcases bind_thrown q2 with q3 | ⟨_, _, _, _, q4⟩
          · exact ih q3
          · cases q4
    · rcases bind_thrown q with q3 | ⟨_, _, _, _, q4⟩
      · exact ih q3
      · cases q4

theorem look_ret {h h' : HashMap K V} {x : K} {t t' : Nat} {o : Option V} (e : HashThrow.look fails hash h x t = .ret h' t' o) :
    h' = h ∧ ∃ l, rd h.a (bidx (hash x) h.n) = .ok l ∧ o = HashMap.findB (hash x) x l := by
  obtain ⟨h1, t1, hv, q1, q2⟩ := bind_ret e
  obtain ⟨rfl, rfl⟩ := call_ret q1
  obtain ⟨h2, t2, l, q3, q4⟩ := bind_ret q2
  obtain ⟨rfl, hl⟩ := lift_ret q3
  obtain ⟨rfl, rfl⟩ := find_ret l q4
  exact ⟨rfl, l, hl, rfl⟩

theorem look_thrown {h h' : HashMap K V} {x : K} {t t' : Nat} (e : HashThrow.look fails hash h x t = .thrown h' t') : h' = h := by
  rcases bind_thrown e with q | ⟨h1, t1, hv, q1, q2⟩
  · exact call_thrown q
  · obtain ⟨rfl, rfl⟩ := call_ret q1
    rcases bind_thrown q2 with q | ⟨h2, t2, l, q3, q4⟩
    · exact (lift_thrown q).elim
    · obtain ⟨rfl, -⟩ := lift_ret q3
      exact find_thrown l q4

omit [DecidableEq K] in
theorem rehash_ret {n2 : Nat} (es : List (Entry K V)) : ∀ {h h' : HashMap K V} {t t' : Nat} {y : Unit},
    rehash fails hash n2 es h t = .ret h' t' y → HashMap.rehash hash n2 es h.a = .ok h'.a ∧ h' = { h with a := h'.a } := by
  induction es with
  | nil => intro h h' t t' y e; cases e; exact ⟨rfl, rfl⟩
  | cons e es ih =>
    intro h h' t t' y q
    obtain ⟨h1, t1, hv, q1, q2⟩ := bind_ret q
    obtain ⟨rfl, rfl⟩ := call_ret q1
    obtain ⟨h2, t2, l, q3, q4⟩ := bind_ret q2
    obtain ⟨rfl, hl⟩ := lift_ret q3
    obtain ⟨h3, t3, a, q5, q6⟩ := bind_ret q4
    obtain ⟨rfl, ha⟩ := lift_ret q5
    obtain ⟨q7, q8⟩ := ih q6
    refine ⟨?_, q8⟩
    rw [HashMap.rehash, HashMap.rehash1]
    rw [hl, Res.ok_bind, ha, Res.ok_bind]
    exact q7

omit [DecidableEq K] in
theorem rehash_thrown {n2 : Nat} (es : List (Entry K V)) : ∀ {h h' : HashMap K V} {t t' : Nat},
    rehash fails hash n2 es h t = .thrown h' t' →
      ∃ k < es.length, HashMap.rehash hash n2 (es.take k) h.a = .ok h'.a ∧ h' = { h with a := h'.a } := by
  induction es with
  | nil => intro h h' t t' e; cases e
  | cons e es ih =>
    intro h h' t t' q
    rcases bind_thrown q with q1 | ⟨h1, t1, hv, q1, q2⟩
    · obtain rfl := call_thrown q1
      exact ⟨0, Nat.succ_pos _, rfl, rfl⟩
    · obtain ⟨rfl, rfl⟩ := call_ret q1
      rcases bind_thrown q2 with q | ⟨h2, t2, l, q3, q4⟩
      · exact (lift_thrown q).elim
      · obtain ⟨rfl, hl⟩ := lift_ret q3
        rcases bind_thrown q4 with q | ⟨h3, t3, a, q5, q6⟩
        · exact (lift_thrown q).elim
        · obtain ⟨rfl, ha⟩ := lift_ret q5
          obtain ⟨k, hk, q7, q8⟩ := ih q6
          refine ⟨k + 1, Nat.succ_lt_succ hk, ?_, q8⟩
          rw [List.take_succ_cons, HashMap.rehash, HashMap.rehash1]
          rw [hl, Res.ok_bind, ha, Res.ok_bind]
          exact q7

omit [DecidableEq K] in
theorem resize_ret {n2 : Nat} {h h' : HashMap K V} {t t' : Nat} {y : Unit} (e : resize fails hash h n2 t = .ret h' t' y) :
    h.resize hash n2 = .ok h' := by
  obtain ⟨q1, q2⟩ := rehash_ret _ e
  unfold HashMap.resize
  rw [show HashMap.rehash hash n2 h.a.flatten (List.replicate n2 []) = .ok h'.a from q1, Res.ok_bind]
  exact congrArg Res.ok q2.symm

theorem touch_ret {h h' : HashMap K V} {x : K} {t t' : Nat} {y : Unit} (e : touch fails hash h x t = .ret h' t' y) :
    h.touch hash x = .ok h' := by
  obtain ⟨h1, t1, o, q1, q2⟩ := bind_ret e
  obtain ⟨rfl, l, hl, rfl⟩ := look_ret q1
  unfold HashMap.touch
  rw [hl, Res.ok_bind]
  cases hf : HashMap.findB (hash x) x l with
  | some v =>
    rw [hf] at q2
    cases q2
    rfl
  | none =>
    rw [hf] at q2
    obtain ⟨h2, t2, u, q3, q4⟩ := bind_ret q2
    obtain ⟨h3, t3, rl, q5, q6⟩ := bind_ret q4
    obtain ⟨rfl, hrl⟩ := lift_ret q5
    obtain ⟨h4, t4, a, q7, q8⟩ := bind_ret q6
    obtain ⟨rfl, ha⟩ := lift_ret q7
    cases q8
    show h1.insertNew hash x = _
    unfold HashMap.insertNew
    dsimp only
    split at q3
    · rename_i hc
      rw [if_pos hc, resize_ret q3, Res.ok_bind, hrl, Res.ok_bind, ha, Res.ok_bind]
    · rename_i hc
      cases q3
      rw [if_neg hc, Res.ok_bind, hrl, Res.ok_bind, ha, Res.ok_bind]

/-- C174: a call that returns gives the result, and leaves the map, that it does if no function of a key ever throws. -/
theorem C174_returns (h h' : HashMap K V) (x : K) (v : V) (t t' : Nat) :
    (∀ b, contains fails hash h x t = .ret h' t' b → h' = h ∧ h.contains hash x = .ok b) ∧
    (∀ w, get fails hash h x t = .ret h' t' w → h' = h ∧ h.get hash x = .ok w) ∧
    (∀ u, set fails hash h x v t = .ret h' t' u → h.set hash x v = .ok h') ∧
    (∀ u, reset fails hash h x t = .ret h' t' u → h.reset hash x = .ok h') := by
  refine ⟨?_, ?_, ?_, ?_⟩
  · intro b e
    obtain ⟨h1, t1, o, q1, q2⟩ := bind_ret e
    obtain ⟨rfl, l, hl, rfl⟩ := look_ret q1
    cases q2
    exact ⟨rfl, by rw [HashMap.contains, hl, Res.ok_bind]⟩
  · intro b e
    obtain ⟨h1, t1, o, q1, q2⟩ := bind_ret e
    obtain ⟨rfl, l, hl, rfl⟩ := look_ret q1
    cases q2
    exact ⟨rfl, by rw [HashMap.get, hl, Res.ok_bind]⟩
  · intro u e
    obtain ⟨h1, t1, _, q1, q2⟩ := bind_ret e
    obtain ⟨h2, t2, g, q3, q4⟩ := bind_ret q2
    obtain ⟨rfl, hg⟩ := lift_ret q3
    cases q4
    rw [HashMap.set, touch_ret q1, Res.ok_bind]
    exact hg
  · intro u e
    obtain ⟨h1, t1, hv, q1, q2⟩ := bind_ret e
    obtain ⟨rfl, rfl⟩ := call_ret q1
    obtain ⟨h2, t2, l, q3, q4⟩ := bind_ret q2
    obtain ⟨rfl, hl⟩ := lift_ret q3
    obtain ⟨h3, t3, o, q5, q6⟩ := bind_ret q4
    obtain ⟨rfl, rfl⟩ := remove_ret l q5
    unfold HashMap.reset
    dsimp only
    rw [hl, Res.ok_bind]
    cases hr : HashMap.removeB (hash x) x l with
    | none => rw [hr] at q6; cases q6; rfl
    | some l' =>
      rw [hr] at q6
      obtain ⟨h4, t4, a, q7, q8⟩ := bind_ret q6
      obtain ⟨rfl, ha⟩ := lift_ret q7
      dsimp only
      rw [ha, Res.ok_bind]
      split at q8
      · rename_i hc
        rw [if_pos hc]
        exact resize_ret q8
      · rename_i hc
        rw [if_neg hc]
        cases q8
        rfl

/-! ## Lemmas: maps that may have lost entries -/

/-- The map with the right number of entries. -/
def fit (h : HashMap K V) : HashMap K V := { h with size := h.a.flatten.length }

/-- What holds of a map after exceptions: `size` may be too large, all else is as it should be. -/
def Lax (hash : K → BitVec 32) (h : HashMap K V) : Prop := (fit h).WF hash ∧ (h.a.flatten.length : Int) ≤ h.size

omit [DecidableEq K] in
theorem lax_mk {h : HashMap K V} (hl : HashMap.Loc hash h.n h.a) (hp : 1 ≤ h.n) (hn : (h.a.flatten.map (·.key)).Nodup)
    (hs : (h.a.flatten.length : Int) ≤ h.size) : Lax hash h := ⟨⟨hl.1, hp, hl.2, hn, rfl⟩, hs⟩

omit [DecidableEq K] in
theorem Lax.idx {h : HashMap K V} (w : Lax hash h) (x : K) : bidx (hash x) h.n < h.a.length := w.1.idx x

theorem Lax.findB {h : HashMap K V} (w : Lax hash h) (x : K) :
    ∃ l, rd h.a (bidx (hash x) h.n) = .ok l ∧ HashMap.findB (hash x) x l = h.abs x := w.1.findB x

theorem Lax.contains {h : HashMap K V} (w : Lax hash h) (x : K) : h.contains hash x = .ok (h.abs x).isSome :=
  HashMap.contains_spec w.1 x

theorem Lax.get {h : HashMap K V} (w : Lax hash h) (x : K) : h.get hash x = .ok ((h.abs x).getD h.init) :=
  HashMap.get_spec w.1 x

omit [DecidableEq K] in
/-- Rebuilding the table with the first `k` entries. -/
theorem rehash_take {h : HashMap K V} (w : Lax hash h) {n2 : Nat} (hn : 1 ≤ n2) (k : Nat) :
    ∃ a, HashMap.rehash hash n2 (h.a.flatten.take k) (List.replicate n2 []) = .ok a ∧ HashMap.Loc hash n2 a ∧
      a.flatten.Perm (h.a.flatten.take k) := by
  obtain ⟨a, h1, h2, h3⟩ := HashMap.rehash_spec (hash := hash) n2 hn (h.a.flatten.take k)
    (fun e he => w.1.code (List.mem_of_mem_take he)) (List.replicate n2 []) ⟨by simp, by intro i hi e he; simp at he⟩
  exact ⟨a, h1, h2, by simpa using h3⟩

theorem look_take {l : List (Entry K V)} {k : Nat} {x : K} {v : V}
    (h : Lolly.look (l.take k) x = some v) : Lolly.look l x = some v := by
  have e : Lolly.look l x = (Lolly.look (l.take k) x).or (Lolly.look (l.drop k) x) := by
    rw [← look_append, List.take_append_drop]
  rw [e, h]
  rfl

/-- The map that is left when rebuilding was interrupted after `k` entries. -/
theorem lax_take {h h' : HashMap K V} (w : Lax hash h) {n2 : Nat} (hn : 1 ≤ n2) {k : Nat}
    (e : HashMap.rehash hash n2 (h.a.flatten.take k) (List.replicate n2 []) = .ok h'.a) (q : h' = { h with n := n2, a := h'.a }) :
    Lax hash h' ∧ h'.a.flatten.Perm (h.a.flatten.take k) ∧ ∀ x v, h'.abs x = some v → h.abs x = some v := by
  obtain ⟨a, h1, h2, h3⟩ := rehash_take w hn k
  rw [e] at h1
  cases h1
  have hN : h'.n = n2 := by rw [q]
  have hS : h'.size = h.size := by rw [q]
  have nd : ((h.a.flatten.take k).map (·.key)).Nodup := by
    rw [List.map_take]
    exact List.Sublist.nodup (List.take_sublist _ _) w.1.nodup
  have nd' : (h'.a.flatten.map (·.key)).Nodup := (h3.map _).nodup_iff.2 nd
  refine ⟨lax_mk (by rw [hN]; exact h2) (by rw [hN]; exact hn) nd' ?_, h3, ?_⟩
  · rw [hS, h3.length_eq, List.length_take]
    have := w.2
    omega
  · intro x v hx
    refine look_take (k := k) ?_
    rw [← look_perm h3 nd']
    exact hx

/-- Rebuilding the table, interrupted or not. -/
theorem resize_lax {h : HashMap K V} (w : Lax hash h) {n2 : Nat} (hn : 1 ≤ n2) (t : Nat) :
    (∃ h' t', resize fails hash h n2 t = .ret h' t' () ∧ Lax hash h' ∧ h'.a.flatten.Perm h.a.flatten ∧ h'.init = h.init ∧
      h'.size = h.size) ∨
    (∃ h' t', resize fails hash h n2 t = .thrown h' t' ∧ Lax hash h' ∧ (∃ k < h.a.flatten.length, h'.a.flatten.Perm (h.a.flatten.take k)) ∧
      (∀ x v, h'.abs x = some v → h.abs x = some v) ∧ h'.init = h.init ∧ h'.size = h.size) := by
  cases hr : resize fails hash h n2 t with
  | ret h' t' u =>
    left
    obtain ⟨q1, q2⟩ := rehash_ret _ hr
    have q1' : HashMap.rehash hash n2 (h.a.flatten.take h.a.flatten.length) (List.replicate n2 []) = .ok h'.a := by
      rw [List.take_length]; exact q1
    obtain ⟨w', p, -⟩ := lax_take w hn q1' q2
    rw [List.take_length] at p
    exact ⟨h', t', rfl, w', p, by rw [q2], by rw [q2]⟩
  | thrown h' t' =>
    right
    obtain ⟨k, hk, q1, q2⟩ := rehash_thrown _ hr
    obtain ⟨w', p, a⟩ := lax_take w hn q1 q2
    exact ⟨h', t', rfl, w', ⟨k, hk, p⟩, a, by rw [q2], by rw [q2]⟩
  | ub =>
    exfalso
    have key : ∀ (es : List (Entry K V)) (g : HashMap K V) (t : Nat), g.a.length = n2 → rehash fails hash n2 es g t ≠ .ub := by
      intro es
      induction es with
      | nil => intro g t _ e; cases e
      | cons e es ih =>
        intro g t hg
        have hi : bidx (hash e.key) n2 < g.a.length := by rw [hg]; exact bidx_lt hn
        unfold rehash call
        split
        · intro c; cases c
        · show (lift g (t + 1) (rd g.a (bidx (hash e.key) n2))).bind _ ≠ _
          rw [rd_ok hi]
          show (lift g (t + 1) (wr g.a (bidx (hash e.key) n2) _)).bind _ ≠ _
          rw [wr_ok hi]
          exact ih _ _ (by rw [List.length_set]; exact hg)
    exact key _ _ _ (by simp) hr

theorem find_not_ub {hv : BitVec 32} {x : K} (l : List (Entry K V)) : ∀ (h : HashMap K V) (t : Nat), find fails hv x h l t ≠ .ub := by
  induction l with
  | nil => intro h t e; cases e
  | cons e l ih =>
    intro h t
    unfold find call
    split
    · split
      · intro c; cases c
      · show (if decide (e.key = x) = true then _ else _) ≠ _
        split
        · intro c; cases c
        · exact ih _ _
    · exact ih _ _

theorem remove_not_ub {hv : BitVec 32} {x : K} (l : List (Entry K V)) : ∀ (h : HashMap K V) (t : Nat), remove fails hv x h l t ≠ .ub := by
  induction l with
  | nil => intro h t e; cases e
  | cons e l ih =>
    intro h t
    have key : ∀ (h : HashMap K V) (t : Nat), ((remove fails hv x h l t).bind fun h t o => .ret h t (o.map (e :: ·))) ≠ Out.ub := by
      intro h t
      have := ih h t
      cases hr : remove fails hv x h l t with
      | ub => exact (this hr).elim
      | _ => intro c; cases c
    unfold remove call
    split
    · split
      · intro c; cases c
      · show (if decide (e.key = x) = true then _ else _) ≠ _
        split
        · intro c; cases c
        · exact key _ _
    · exact key _ _

/-- Looking up. -/
theorem look_lax {h : HashMap K V} (w : Lax hash h) (x : K) (t : Nat) :
    (∃ t', HashThrow.look fails hash h x t = .ret h t' (h.abs x)) ∨ (∃ t', HashThrow.look fails hash h x t = .thrown h t') := by
  cases hr : HashThrow.look fails hash h x t with
  | ret h' t' o =>
    obtain ⟨rfl, l, hl, rfl⟩ := look_ret hr
    obtain ⟨l', hl', q⟩ := w.findB x
    rw [hl] at hl'
    cases hl'
    rw [q]
    exact .inl ⟨t', rfl⟩
  | thrown h' t' =>
    obtain rfl := look_thrown hr
    exact .inr ⟨t', rfl⟩
  | ub =>
    exfalso
    revert hr
    unfold HashThrow.look call
    split
    · intro c; cases c
    · show (lift h (t + 1) (rd h.a (bidx (hash x) h.n))).bind _ = _ → _
      rw [rd_ok (w.idx x)]
      exact find_not_ub _ _ _

/-- `h(x)`: the outcomes. -/
theorem touch_lax {h : HashMap K V} (w : Lax hash h) (x : K) (t : Nat) :
    (∃ h' t', touch fails hash h x t = .ret h' t' () ∧ Lax hash h' ∧
      h'.abs = (fun y => if y = x then some ((h.abs x).getD h.init) else h.abs y) ∧ h'.init = h.init ∧
      h'.size = h.size + if (h.abs x).isSome then 0 else 1) ∨
    (∃ h' t', touch fails hash h x t = .thrown h' t' ∧
      (h' = h ∨ (h.abs x = none ∧ h.size ≥ h.n * h.max ∧ Lax hash h' ∧ (∃ k < h.a.flatten.length, h'.a.flatten.Perm (h.a.flatten.take k)) ∧
        (∀ x v, h'.abs x = some v → h.abs x = some v) ∧ h'.init = h.init ∧ h'.size = h.size))) := by
  rcases (look_lax (fails := fails) (hash := hash) w x t).symm with ⟨t1, e1⟩ | ⟨t1, e1⟩
  · refine .inr ⟨h, t1, ?_, .inl rfl⟩
    unfold touch
    rw [e1]
    rfl
  cases hx : h.abs x with
  | some v =>
    refine .inl ⟨h, t1, ?_, w, ?_, rfl, by simp⟩
    · unfold touch
      rw [e1, hx]
      rfl
    · funext y
      by_cases hy : y = x
      · subst hy; simp [hx]
      · simp [hy]
  | none =>
    have et : touch fails hash h x t = insertNew fails hash h x t1 := by
      unfold touch
      rw [e1, hx]
      rfl
    rw [et]
    unfold insertNew
    -- inserting into a table with room
    have put : ∀ (g : HashMap K V) (t : Nat), Lax hash g → g.a.flatten.Perm h.a.flatten → g.init = h.init → g.size = h.size →
        ∃ h', ((lift g t (rd g.a (bidx (hash x) g.n))).bind fun h t rl =>
          (lift h t (wr h.a (bidx (hash x) h.n) ({ code := hash x, key := x, im := h.init } :: rl))).bind fun h t a =>
            Out.ret { h with a := a, size := h.size + 1 } t ()) = .ret h' t () ∧ Lax hash h' ∧
          h'.abs = (fun y => if y = x then some h.init else h.abs y) ∧ h'.init = h.init ∧ h'.size = h.size + 1 := by
      intro g t wg pg ig sg
      have hi := wg.idx x
      have hxg : (fit g).abs x = none := by
        show Lolly.look g.a.flatten x = none
        rw [look_perm pg wg.1.nodup]
        exact hx
      obtain ⟨g', e, w', p', -, -⟩ := HashMap.push_spec wg.1 x hxg g.init
      rw [rd_ok hi]
      show ∃ h', ((lift g t (wr g.a (bidx (hash x) g.n) _)).bind _) = _ ∧ _
      rw [wr_ok hi]
      have e' : g' = fit ({ g with a := g.a.set (bidx (hash x) g.n) ({ code := hash x, key := x, im := g.init } ::
          g.a[bidx (hash x) g.n]), size := g.size + 1 } : HashMap K V) := by
        have e2 : (do
            let rl ← rd g.a (bidx (hash x) g.n)
            let a ← wr g.a (bidx (hash x) g.n) ({ code := hash x, key := x, im := g.init } :: rl)
            .ok { fit g with a := a, size := (fit g).size + 1 }) = Res.ok g' := e
        rw [rd_ok hi, Res.ok_bind, wr_ok hi, Res.ok_bind] at e2
        cases e2
        have := w'.size
        unfold fit
        dsimp only
        rw [← show (g.a.flatten.length : Int) + 1 = _ from this]
      rw [e'] at w' p'
      refine ⟨_, rfl, ⟨w', ?_⟩, ?_, ig, by show g.size + 1 = _; rw [sg]⟩
      · have := p'.length_eq
        have h2 := wg.2
        show (((g.a.set (bidx (hash x) g.n) ({ code := hash x, key := x, im := g.init } :: g.a[bidx (hash x) g.n])).flatten.length : Nat) : Int) ≤ g.size + 1
        simp only [fit, List.length_cons] at this
        omega
      · funext y
        refine Eq.trans (HashMap.abs_of_perm_cons w' p' y) ?_
        show (if x = y then some g.init else Lolly.look g.a.flatten y) = _
        rw [look_perm pg wg.1.nodup, ig]
        by_cases hy : y = x
        · rw [if_pos hy.symm, if_pos hy]
        · rw [if_neg (fun c => hy c.symm), if_neg hy]
          rfl
    by_cases hs : h.size ≥ h.n * h.max
    · rw [if_pos hs]
      have hn : 1 ≤ h.n <<< 1 := by have := w.1.pos; rw [Nat.shiftLeft_eq]; simp only [fit] at this; omega
      rcases resize_lax (fails := fails) w hn t1 with ⟨g, t2, e2, wg, pg, ig, sg⟩ | ⟨g, t2, e2, wg, kg, ag, ig, sg⟩
      · rw [e2]
        obtain ⟨h', e3, w', a', i', s'⟩ := put g t2 wg pg ig sg
        exact .inl ⟨h', t2, e3, w', a', i', by simpa using s'⟩
      · rw [e2]
        exact .inr ⟨g, t2, rfl, .inr ⟨rfl, hs, wg, kg, ag, ig, sg⟩⟩
    · rw [if_neg hs]
      obtain ⟨h', e3, w', a', i', s'⟩ := put h t1 w (.refl _) rfl rfl
      exact .inl ⟨h', t1, e3, w', a', i', by simpa using s'⟩

theorem assign_lax {h : HashMap K V} (w : Lax hash h) (x : K) (v : V) :
    ∃ h', h.assign hash x v = .ok h' ∧ Lax hash h' ∧
      h'.abs = (fun y => if y = x then (h.abs x).map (fun _ => v) else h.abs y) ∧ h'.init = h.init ∧ h'.size = h.size := by
  obtain ⟨g, e, w', a, i, -⟩ := HashMap.assign_spec w.1 x v
  have hi := w.idx x
  have e2 : (do
      let l ← rd h.a (bidx (hash x) h.n)
      let a ← wr h.a (bidx (hash x) h.n) (HashMap.assignB (hash x) x v l)
      .ok { fit h with a := a }) = Res.ok g := e
  rw [rd_ok hi, Res.ok_bind, wr_ok hi, Res.ok_bind] at e2
  cases e2
  refine ⟨{ h with a := h.a.set (bidx (hash x) h.n) (HashMap.assignB (hash x) x v h.a[bidx (hash x) h.n]) }, ?_, ⟨?_, ?_⟩, a, rfl, rfl⟩
  · unfold HashMap.assign
    dsimp only
    rw [rd_ok hi, Res.ok_bind, wr_ok hi, Res.ok_bind]
  · have := w'.size
    refine ⟨w'.len, w'.pos, w'.loc, w'.nodup, rfl⟩
  · have := w'.size
    have h2 := w.2
    simp only [fit] at this
    show (((h.a.set (bidx (hash x) h.n) (HashMap.assignB (hash x) x v h.a[bidx (hash x) h.n])).flatten.length : Nat) : Int) ≤ h.size
    omega

/-- `reset`: the outcomes. -/
theorem reset_lax {h : HashMap K V} (w : Lax hash h) (x : K) (t : Nat) :
    (∃ h' t', reset fails hash h x t = .ret h' t' () ∧ Lax hash h' ∧
      h'.abs = (fun y => if y = x then none else h.abs y) ∧ h'.init = h.init ∧
      h'.size = h.size - if (h.abs x).isSome then 1 else 0) ∨
    (∃ h' t', reset fails hash h x t = .thrown h' t' ∧
      (h' = h ∨ ((h.abs x).isSome ∧ h.size - 1 < ((h.n >>> 1 : Nat) : Int) * h.max ∧ Lax hash h' ∧
        (∀ y v, h'.abs y = some v → y ≠ x ∧ h.abs y = some v) ∧ h'.init = h.init ∧ h'.size = h.size - 1 ∧
        (h'.a.flatten.length : Int) < h'.size))) := by
  have hi := w.idx x
  unfold reset call
  by_cases hf : fails t = true
  · rw [if_pos hf]
    exact .inr ⟨h, t + 1, rfl, .inl rfl⟩
  rw [if_neg hf]
  show (∃ h' t', ((lift h (t + 1) (rd h.a (bidx (hash x) h.n))).bind _ = _) ∧ _) ∨
    (∃ h' t', ((lift h (t + 1) (rd h.a (bidx (hash x) h.n))).bind _ = _) ∧ _)
  rw [rd_ok hi]
  show (∃ h' t', ((remove fails (hash x) x h h.a[bidx (hash x) h.n] (t + 1)).bind _ = _) ∧ _) ∨
    (∃ h' t', ((remove fails (hash x) x h h.a[bidx (hash x) h.n] (t + 1)).bind _ = _) ∧ _)
  cases hr : remove fails (hash x) x h h.a[bidx (hash x) h.n] (t + 1) with
  | ub => exact (remove_not_ub _ _ _ hr).elim
  | thrown g t1 =>
    obtain rfl := remove_thrown _ hr
    exact .inr ⟨g, t1, rfl, .inl rfl⟩
  | ret g t1 o =>
    obtain ⟨rfl, rfl⟩ := remove_ret _ hr
    have hc : ∀ e ∈ g.a[bidx (hash x) g.n], e.code = hash e.key := fun e he => (w.1.loc _ hi e he).1
    have hb : Lolly.look g.a[bidx (hash x) g.n] x = g.abs x := w.1.look_bucket x
    rcases HashMap.removeB_spec hc x with ⟨h1, h2⟩ | ⟨l', e, h1, h2, h3, h4⟩
    · rw [h1]
      rw [hb] at h2
      refine .inl ⟨g, t1, rfl, w, ?_, rfl, by simp [h2]⟩
      funext y
      by_cases hy : y = x
      · simp [hy, h2]
      · simp [hy]
    · rw [h1]
      show (∃ h' t', ((lift g t1 (wr g.a (bidx (hash x) g.n) l')).bind _ = _) ∧ _) ∨
        (∃ h' t', ((lift g t1 (wr g.a (bidx (hash x) g.n) l')).bind _ = _) ∧ _)
      rw [wr_ok hi]
      have hp := flatten_set_perm g.a _ hi l'
      have hq := flatten_perm g.a _ hi
      have hpe : g.a.flatten.Perm (e :: (g.a.set (bidx (hash x) g.n) l').flatten) :=
        hq.trans ((h2.append_right _).trans (hp.symm.cons e))
      have hnd : (e.key :: (g.a.set (bidx (hash x) g.n) l').flatten.map (·.key)).Nodup := by
        have := (hpe.map (·.key)).nodup_iff.1 w.1.nodup
        simpa only [List.map_cons] using this
      rw [List.nodup_cons] at hnd
      have hsome : (g.abs x).isSome = true := by
        have : Lolly.look g.a.flatten x = some e.im := by
          rw [look_perm hpe w.1.nodup, look_cons, if_pos h3]
        show (Lolly.look g.a.flatten x).isSome = true
        rw [this]
        rfl
      let h0 : HashMap K V := { g with a := g.a.set (bidx (hash x) g.n) l', size := g.size - 1 }
      have w0 : Lax hash h0 := by
        refine lax_mk ⟨?_, ?_⟩ w.1.pos hnd.2 ?_
        · show (g.a.set _ l').length = g.n
          rw [List.length_set]
          exact w.1.len
        · intro i hi' e' he'
          simp only [h0, List.getElem_set] at he'
          split at he'
          · rename_i hij
            have := w.1.loc _ hi e' (h4 _ he')
            exact ⟨this.1, this.2.trans hij⟩
          · exact w.1.loc _ (show i < g.a.length by simpa [h0] using hi') _ he'
        · have h5 := hpe.length_eq
          have h6 := w.2
          simp only [List.length_cons] at h5
          show (((g.a.set (bidx (hash x) g.n) l').flatten.length : Nat) : Int) ≤ g.size - 1
          omega
      have a0 : h0.abs = (fun y => if y = x then none else g.abs y) := by
        funext y
        have : g.abs y = if e.key = y then some e.im else h0.abs y := by
          unfold HashMap.abs; rw [look_perm hpe w.1.nodup, look_cons]
        by_cases hy : y = x
        · subst hy; simp only [if_true]
          unfold HashMap.abs; rw [look_eq_none]; rw [h3] at hnd; exact hnd.1
        · have hne : e.key ≠ y := fun e' => hy (e'.symm.trans h3)
          simp only [hy, if_false, this, hne]
      show (∃ h' t', ((if g.size - (1 : Int) < ((g.n >>> 1 : Nat) : Int) * g.max then resize fails hash h0 (g.n >>> 1) t1
        else Out.ret h0 t1 ()) = _) ∧ _) ∨ (∃ h' t', ((if g.size - (1 : Int) < ((g.n >>> 1 : Nat) : Int) * g.max then
          resize fails hash h0 (g.n >>> 1) t1 else Out.ret h0 t1 ()) = _) ∧ _)
      by_cases hs : g.size - (1 : Int) < ((g.n >>> 1 : Nat) : Int) * g.max
      · rw [if_pos hs]
        have hn : 1 ≤ g.n >>> 1 := by
          rcases Nat.eq_zero_or_pos (g.n >>> 1) with hz | hz
          · rw [hz] at hs
            have := w0.2
            have h0s : h0.size = g.size - 1 := rfl
            simp at hs; omega
          · exact hz
        rcases resize_lax (fails := fails) w0 hn t1 with ⟨g2, t2, e2, wg, pg, ig, sg⟩ | ⟨g2, t2, e2, wg, ⟨k, hk, pk⟩, ag, ig, sg⟩
        · rw [e2]
          refine .inl ⟨g2, t2, rfl, wg, ?_, ig, by rw [sg, if_pos hsome]⟩
          have : g2.abs = h0.abs := (look_perm pg.symm w0.1.nodup).symm
          rw [this, a0]
        · rw [e2]
          refine .inr ⟨g2, t2, rfl, .inr ⟨hsome, hs, wg, ?_, ig, sg, ?_⟩⟩
          rotate_left
          · have h7 := pk.length_eq
            have h8 := w0.2
            rw [List.length_take] at h7
            omega
          intro y v hy
          have := ag y v hy
          rw [a0] at this
          dsimp only at this
          split at this
          · cases this
          · rename_i hne
            exact ⟨hne, this⟩
      · rw [if_neg hs]
        exact .inl ⟨h0, t1, rfl, w0, a0, rfl, by rw [if_pos hsome]⟩

/-- `h(x) = v`: the outcomes. -/
theorem set_lax {h : HashMap K V} (w : Lax hash h) (x : K) (v : V) (t : Nat) :
    (∃ h' t', set fails hash h x v t = .ret h' t' () ∧ Lax hash h' ∧
      h'.abs = (fun y => if y = x then some v else h.abs y) ∧ h'.init = h.init ∧
      h'.size = h.size + if (h.abs x).isSome then 0 else 1) ∨
    (∃ h' t', set fails hash h x v t = .thrown h' t' ∧
      (h' = h ∨ (h.abs x = none ∧ h.size ≥ h.n * h.max ∧ Lax hash h' ∧ (∃ k < h.a.flatten.length, h'.a.flatten.Perm (h.a.flatten.take k)) ∧
        (∀ x v, h'.abs x = some v → h.abs x = some v) ∧ h'.init = h.init ∧ h'.size = h.size))) := by
  unfold HashThrow.set
  rcases touch_lax (fails := fails) w x t with ⟨g, t1, e1, wg, ag, ig, sg⟩ | ⟨g, t1, e1, hg⟩
  · obtain ⟨g2, e2, w2, a2, i2, s2⟩ := assign_lax wg x v
    rw [e1]
    show (∃ h' t', ((lift g t1 (g.assign hash x v)).bind _ = _) ∧ _) ∨ _
    rw [e2]
    refine .inl ⟨g2, t1, rfl, w2, ?_, i2.trans ig, s2.trans sg⟩
    rw [a2, ag]
    funext y
    by_cases hy : y = x <;> simp [hy]
  · rw [e1]
    exact .inr ⟨g, t1, rfl, hg⟩

/-! ## The specification: what a map should contain -/

/-- The histories of a map whose calls may throw: `Past fails hash d h t f` says that `h` was made with the default value `d`
and that `f` gives the value each key was given last by a call that returned, where `t` calls of functions of keys have been
made. A call that threw changes nothing of `f`. -/
inductive Past (fails : Nat → Bool) (hash : K → BitVec 32) (d : V) : HashMap K V → Nat → (K → Option V) → Prop
  | new (n : Nat) (max : Int) (t : Nat) : 1 ≤ n → Past fails hash d (HashMap.new d n max) t (fun _ => none)
  | set {h t f h' t' u} (x : K) (v : V) : Past fails hash d h t f → HashThrow.set fails hash h x v t = .ret h' t' u →
      Past fails hash d h' t' (fun y => if y = x then some v else f y)
  | reset {h t f h' t' u} (x : K) : Past fails hash d h t f → HashThrow.reset fails hash h x t = .ret h' t' u →
      Past fails hash d h' t' (fun y => if y = x then none else f y)
  | setThrown {h t f h' t'} (x : K) (v : V) : Past fails hash d h t f → HashThrow.set fails hash h x v t = .thrown h' t' →
      Past fails hash d h' t' f
  | resetThrown {h t f h' t'} (x : K) : Past fails hash d h t f → HashThrow.reset fails hash h x t = .thrown h' t' →
      Past fails hash d h' t' f

theorem past_inv {d : V} {h : HashMap K V} {t : Nat} {f : K → Option V} (p : Past fails hash d h t f) :
    Lax hash h ∧ h.init = d ∧ ∀ x v, h.abs x = some v → f x = some v := by
  induction p with
  | new n max t hn =>
    have w := HashMap.new_wf (K := K) (hash := hash) d n max hn
    refine ⟨lax_mk ⟨w.len, w.loc⟩ w.pos w.nodup (by rw [w.size]; exact Int.le_refl _), rfl, ?_⟩
    intro x v hx
    rw [HashMap.new_abs] at hx
    cases hx
  | @set h t f h' t' u x v _ e ih =>
    obtain ⟨w, i, a⟩ := ih
    rcases set_lax (fails := fails) w x v t with ⟨g, t1, e1, wg, ag, ig, -⟩ | ⟨g, t1, e1, -⟩
    · rw [e] at e1
      cases e1
      refine ⟨wg, ig.trans i, ?_⟩
      intro y z hy
      rw [ag] at hy
      dsimp only at hy ⊢
      split at hy
      · rename_i hc; rw [if_pos hc]; exact hy
      · rename_i hc; rw [if_neg hc]; exact a y z hy
    · rw [e] at e1
      cases e1
  | @reset h t f h' t' u x _ e ih =>
    obtain ⟨w, i, a⟩ := ih
    rcases reset_lax (fails := fails) w x t with ⟨g, t1, e1, wg, ag, ig, -⟩ | ⟨g, t1, e1, -⟩
    · rw [e] at e1
      cases e1
      refine ⟨wg, ig.trans i, ?_⟩
      intro y z hy
      rw [ag] at hy
      dsimp only at hy ⊢
      split at hy
      · cases hy
      · rename_i hc; rw [if_neg hc]; exact a y z hy
    · rw [e] at e1
      cases e1
  | @setThrown h t f h' t' x v _ e ih =>
    obtain ⟨w, i, a⟩ := ih
    rcases set_lax (fails := fails) w x v t with ⟨g, t1, e1, -⟩ | ⟨g, t1, e1, hg⟩
    · rw [e] at e1
      cases e1
    · rw [e] at e1
      cases e1
      rcases hg with rfl | ⟨-, -, wg, -, ag, ig, -⟩
      · exact ⟨w, i, a⟩
      · exact ⟨wg, ig.trans i, fun y z hy => a y z (ag y z hy)⟩
  | @resetThrown h t f h' t' x _ e ih =>
    obtain ⟨w, i, a⟩ := ih
    rcases reset_lax (fails := fails) w x t with ⟨g, t1, e1, -⟩ | ⟨g, t1, e1, hg⟩
    · rw [e] at e1
      cases e1
    · rw [e] at e1
      cases e1
      rcases hg with rfl | ⟨-, -, wg, ag, ig, -⟩
      · exact ⟨w, i, a⟩
      · exact ⟨wg, ig.trans i, fun y z hy => a y z (ag y z hy).2⟩

/-- **C174** (values): whatever was thrown before, a key that is found has the value it was given last, and a key that is not
found has the default value. -/
theorem C174_values {d : V} {h : HashMap K V} {t : Nat} {f : K → Option V} (p : Past fails hash d h t f) (x : K) :
    ∃ b, h.contains hash x = .ok b ∧ (b = true → ∃ v, f x = some v ∧ h.get hash x = .ok v) ∧
      (b = false → h.get hash x = .ok d) := by
  obtain ⟨w, i, a⟩ := past_inv p
  refine ⟨_, w.contains x, fun hb => ?_, fun hb => ?_⟩
  · obtain ⟨v, hv⟩ := Option.isSome_iff_exists.1 hb
    exact ⟨v, a x v hv, by rw [w.get, hv]; rfl⟩
  · have hn : h.abs x = none := by simpa using hb
    rw [w.get, hn, i]
    rfl

/-- **C174** (progress): whatever was thrown before, the map can be used: calls return or throw, and a change that returns
does what it should and nothing else. -/
theorem C174_progress {d : V} {h : HashMap K V} {t : Nat} {f : K → Option V} (p : Past fails hash d h t f) (x : K) (v : V) :
    contains fails hash h x t ≠ .ub ∧ get fails hash h x t ≠ .ub ∧
    ((∃ h' t', HashThrow.set fails hash h x v t = .ret h' t' () ∧ h'.contains hash x = .ok true ∧ h'.get hash x = .ok v ∧
        (∀ y, y ≠ x → h'.contains hash y = h.contains hash y ∧ h'.get hash y = h.get hash y) ∧
        h'.N = h.N + if h.contains hash x = .ok true then 0 else 1) ∨
      (∃ h' t', HashThrow.set fails hash h x v t = .thrown h' t')) ∧
    ((∃ h' t', HashThrow.reset fails hash h x t = .ret h' t' () ∧ h'.contains hash x = .ok false ∧
        (∀ y, y ≠ x → h'.contains hash y = h.contains hash y ∧ h'.get hash y = h.get hash y) ∧
        h'.N = h.N - if h.contains hash x = .ok true then 1 else 0) ∨
      (∃ h' t', HashThrow.reset fails hash h x t = .thrown h' t')) := by
  obtain ⟨w, i, a⟩ := past_inv p
  refine ⟨?_, ?_, ?_, ?_⟩
  · unfold HashThrow.contains
    rcases look_lax (fails := fails) w x t with ⟨t1, e1⟩ | ⟨t1, e1⟩ <;> rw [e1] <;> intro c <;> cases c
  · unfold HashThrow.get
    rcases look_lax (fails := fails) w x t with ⟨t1, e1⟩ | ⟨t1, e1⟩ <;> rw [e1] <;> intro c <;> cases c
  · rcases set_lax (fails := fails) w x v t with ⟨g, t1, e1, wg, ag, ig, sg⟩ | ⟨g, t1, e1, -⟩
    · refine .inl ⟨g, t1, e1, ?_, ?_, fun y hy => ⟨?_, ?_⟩, ?_⟩
      · rw [wg.contains, ag]; simp
      · rw [wg.get, ag]; simp
      · rw [wg.contains, w.contains, ag]; simp [hy]
      · rw [wg.get, w.get, ag, ig]; simp [hy]
      · show g.size = h.size + _
        rw [sg, w.contains]
        cases h.abs x <;> simp
    · exact .inr ⟨g, t1, e1⟩
  · rcases reset_lax (fails := fails) w x t with ⟨g, t1, e1, wg, ag, ig, sg⟩ | ⟨g, t1, e1, -⟩
    · refine .inl ⟨g, t1, e1, ?_, fun y hy => ⟨?_, ?_⟩, ?_⟩
      · rw [wg.contains, ag]; simp
      · rw [wg.contains, w.contains, ag]; simp [hy]
      · rw [wg.get, w.get, ag, ig]; simp [hy]
      · show g.size = h.size - _
        rw [sg, w.contains]
        cases h.abs x <;> simp
    · exact .inr ⟨g, t1, e1⟩

/-- **C174** (kept, partial): a call that throws leaves the map as it was if it only reads, or if the table need not be rebuilt:
the key is there already (or not there, when removing), or the table has room enough. Missing: calls that rebuild the table,
see `C174_lost` and `C174_lost_violated`. -/
theorem C174_kept_partial {d : V} {h h' : HashMap K V} {t t' : Nat} {f : K → Option V} (p : Past fails hash d h t f) (x : K)
    (v : V) :
    (contains fails hash h x t = .thrown h' t' → h' = h) ∧
    (get fails hash h x t = .thrown h' t' → h' = h) ∧
    (h.contains hash x = .ok true ∨ h.N < h.n * h.max → HashThrow.set fails hash h x v t = .thrown h' t' → h' = h) ∧
    (h.contains hash x = .ok false ∨ h.N > (h.n / 2 : Nat) * h.max → HashThrow.reset fails hash h x t = .thrown h' t' →
      h' = h) := by
  obtain ⟨w, i, a⟩ := past_inv p
  refine ⟨?_, ?_, ?_, ?_⟩
  · unfold HashThrow.contains
    rcases look_lax (fails := fails) w x t with ⟨t1, e1⟩ | ⟨t1, e1⟩ <;> rw [e1] <;> intro c <;> cases c
    rfl
  · unfold HashThrow.get
    rcases look_lax (fails := fails) w x t with ⟨t1, e1⟩ | ⟨t1, e1⟩ <;> rw [e1] <;> intro c <;> cases c
    rfl
  · intro hc e
    rcases set_lax (fails := fails) w x v t with ⟨g, t1, e1, -⟩ | ⟨g, t1, e1, hg⟩
    · rw [e] at e1; cases e1
    · rw [e] at e1
      cases e1
      rcases hg with hg | ⟨hg, hs, -⟩
      · exact hg
      · exfalso
        rcases hc with hc | hc
        · rw [w.contains, hg] at hc
          cases hc
        · unfold HashMap.N at hc
          omega
  · intro hc e
    rcases reset_lax (fails := fails) w x t with ⟨g, t1, e1, -⟩ | ⟨g, t1, e1, hg⟩
    · rw [e] at e1; cases e1
    · rw [e] at e1
      cases e1
      rcases hg with hg | ⟨hg, hs, -⟩
      · exact hg
      · exfalso
        rcases hc with hc | hc
        · rw [w.contains, hg] at hc
          cases hc
        · unfold HashMap.N at hc
          rw [Nat.shiftRight_eq_div_pow, Nat.pow_one] at hs
          omega

/-- **C174** (lost): when a change throws, the map is as it was, or rebuilding the table was interrupted. Then `N` is as
if nothing was lost and larger than the number of keys that `generate` goes through. The keys that are left have the values
they had; a key to be removed is not among them. When a key is added, the keys left are the first ones in the order in which
`generate` went through the map before. -/
theorem C174_lost {d : V} {h h' : HashMap K V} {t t' : Nat} {f : K → Option V} (p : Past fails hash d h t f) (x : K) (v : V) :
    (HashThrow.set fails hash h x v t = .thrown h' t' →
      h' = h ∨ (h.contains hash x = .ok false ∧ h'.N = h.N ∧ (h'.generate.length : Int) < h'.N ∧
        (∃ k < h.generate.length, h'.generate.Perm (h.generate.take k)) ∧
        ∀ y, h'.contains hash y = .ok true → h.contains hash y = .ok true ∧ h'.get hash y = h.get hash y)) ∧
    (HashThrow.reset fails hash h x t = .thrown h' t' →
      h' = h ∨ (h.contains hash x = .ok true ∧ h'.N = h.N - 1 ∧ (h'.generate.length : Int) < h'.N ∧
        h'.contains hash x = .ok false ∧
        ∀ y, h'.contains hash y = .ok true → h.contains hash y = .ok true ∧ h'.get hash y = h.get hash y)) := by
  obtain ⟨w, i, a⟩ := past_inv p
  refine ⟨fun e => ?_, fun e => ?_⟩
  · rcases set_lax (fails := fails) w x v t with ⟨g, t1, e1, -⟩ | ⟨g, t1, e1, hg⟩
    · rw [e] at e1; cases e1
    · rw [e] at e1
      cases e1
      rcases hg with hg | ⟨hg, -, wg, ⟨k, hk, pk⟩, ag, ig, sg⟩
      · exact .inl hg
      · refine .inr ⟨by rw [w.contains, hg]; rfl, sg, ?_, ⟨k, ?_, ?_⟩, ?_⟩
        · have h7 := pk.length_eq
          have h8 := w.2
          rw [List.length_take] at h7
          unfold HashMap.generate HashMap.N
          rw [List.length_map, sg]
          omega
        · unfold HashMap.generate
          rw [List.length_map]
          exact hk
        · unfold HashMap.generate
          rw [← List.map_take]
          exact pk.map _
        · intro y hy
          rw [wg.contains] at hy
          obtain ⟨z, hz⟩ := Option.isSome_iff_exists.1 (Res.ok.inj hy)
          rw [w.contains, wg.get, w.get, hz, ag y z hz]
          exact ⟨rfl, rfl⟩
  · rcases reset_lax (fails := fails) w x t with ⟨g, t1, e1, -⟩ | ⟨g, t1, e1, hg⟩
    · rw [e] at e1; cases e1
    · rw [e] at e1
      cases e1
      rcases hg with hg | ⟨hg, -, wg, ag, ig, sg, hl⟩
      · exact .inl hg
      · refine .inr ⟨by rw [w.contains, hg], sg, ?_, ?_, ?_⟩
        · unfold HashMap.generate HashMap.N
          rw [List.length_map]
          exact hl
        · rw [wg.contains]
          cases hx : h'.abs x with
          | none => rfl
          | some z => exact absurd rfl (ag x z hx).1
        · intro y hy
          rw [wg.contains] at hy
          obtain ⟨z, hz⟩ := Option.isSome_iff_exists.1 (Res.ok.inj hy)
          rw [w.contains, wg.get, w.get, hz, (ag y z hz).2]
          exact ⟨rfl, rfl⟩

/-- A search for a key that is not there. -/
theorem find_absent (hv : BitVec 32) (x : K) (h : HashMap K V) (l : List (Entry K V)) (hl : ∀ e ∈ l, e.key ≠ x) : ∀ t, ∃ c,
    ∀ fails : Nat → Bool, (∀ i, t ≤ i → i < t + c → fails i = false) → find fails hv x h l t = .ret h (t + c) none := by
  induction l with
  | nil => exact fun t => ⟨0, fun _ _ => rfl⟩
  | cons e l ih =>
    intro t
    have ih := ih (fun e he => hl e (List.mem_cons_of_mem _ he))
    by_cases he : e.code = hv
    · obtain ⟨c, hc⟩ := ih (t + 1)
      refine ⟨c + 1, fun fails hf => ?_⟩
      rw [find, if_pos he, call, if_neg (by rw [hf t (Nat.le_refl _) (by omega)]; simp)]
      show (if decide (e.key = x) = true then _ else _) = _
      rw [if_neg (by simpa using hl e (List.mem_cons_self ..)), hc fails (fun i a b => hf i (by omega) (by omega))]
      congr 1
      omega
    · obtain ⟨c, hc⟩ := ih t
      refine ⟨c, fun fails hf => ?_⟩
      rw [find, if_neg he]
      exact hc fails hf

/-- For every map that is about to grow: one call of `hash` that throws loses all entries. -/
theorem lost_lax {h : HashMap K V} {t : Nat} (w : Lax hash h) (x y : K) (v : V)
    (hx : h.contains hash x = .ok false) (hy : h.contains hash y = .ok true) (hg : h.N ≥ h.n * h.max) :
    ∃ j h' t', t ≤ j ∧ HashThrow.set (fun i => i == j) hash h x v t = .thrown h' t' ∧ h'.N = h.N ∧
      (∀ z, h'.contains hash z = .ok false) ∧ h'.generate = [] := by
  have hi := w.idx x
  rw [w.contains] at hx hy
  have hx' : h.abs x = none := by simpa using Res.ok.inj hx
  have hne : ∀ e ∈ h.a[bidx (hash x) h.n], e.key ≠ x := by
    intro e he hk
    have := look_eq_none.1 (show Lolly.look h.a.flatten x = none from hx')
    exact this (hk ▸ List.mem_map_of_mem (List.mem_flatten.2 ⟨_, List.getElem_mem hi, he⟩))
  obtain ⟨c, hc⟩ := find_absent (hash x) x h _ hne (t + 1)
  obtain ⟨e, es, hes⟩ : ∃ e es, h.a.flatten = e :: es := by
    cases hl : h.a.flatten with
    | cons e es => exact ⟨e, es, rfl⟩
    | nil =>
      have : h.abs y = none := by
        show Lolly.look h.a.flatten y = none
        rw [hl]
        rfl
      rw [this] at hy
      cases hy
  let g : HashMap K V := { h with n := h.n <<< 1, a := List.replicate (h.n <<< 1) [] }
  have hflat : g.a.flatten = [] := by simp [g]
  have wg : Lax hash g := by
    have hp := w.1.pos
    refine lax_mk ⟨by simp [g], ?_⟩ ?_ (by rw [hflat]; exact List.nodup_nil) ?_
    · intro i hi e he
      simp [g] at he
    · show 1 ≤ h.n <<< 1
      rw [Nat.shiftLeft_eq]
      have : 1 ≤ h.n := hp
      omega
    · rw [hflat]
      show (0 : Int) ≤ h.size
      have := w.2
      omega
  have hag : g.abs = fun _ => none := by
    funext z
    show Lolly.look g.a.flatten z = none
    rw [hflat]
    rfl
  refine ⟨t + 1 + c, g, t + 1 + c + 1, by omega, ?_, rfl, ?_, ?_⟩
  · have hlk : HashThrow.look (fun i => i == t + 1 + c) hash h x t = .ret h (t + 1 + c) none := by
      unfold HashThrow.look call
      rw [if_neg (by simp; omega)]
      show (lift h (t + 1) (rd h.a (bidx (hash x) h.n))).bind _ = _
      rw [rd_ok hi]
      exact hc _ (fun i a b => by simp; omega)
    unfold HashThrow.set touch
    rw [hlk]
    show Out.bind (insertNew (fun i => i == t + 1 + c) hash h x (t + 1 + c)) _ = _
    unfold insertNew
    rw [if_pos (show h.size ≥ h.n * h.max from hg)]
    unfold resize
    rw [hes, HashThrow.rehash, call, if_pos (by simp)]
    rfl
  · intro z
    rw [wg.contains, hag]
    rfl
  · unfold HashMap.generate
    rw [hflat]
    rfl

/-- **C174** (violated): for every map that is about to grow, there is one call of `hash` such that an exception from it alone
makes adding a key lose all entries, while `N` is as before. -/
theorem C174_lost_violated {d : V} {h : HashMap K V} {t : Nat} {f : K → Option V} (p : Past fails hash d h t f) (x y : K) (v : V)
    (hx : h.contains hash x = .ok false) (hy : h.contains hash y = .ok true) (hg : h.N ≥ h.n * h.max) :
    ∃ j h' t', t ≤ j ∧ HashThrow.set (fun i => i == j) hash h x v t = .thrown h' t' ∧ h'.N = h.N ∧
      (∀ z, h'.contains hash z = .ok false) ∧ h'.generate = [] :=
  lost_lax (past_inv p).1 x y v hx hy hg

omit [DecidableEq K] in
/-- **C174** (generate): a routine that throws was called for the keys of the map in their order, up to the one for which it
threw, and for all keys if it threw for none. -/
theorem C174_generate (xs : List K) (t : Nat) :
    (∀ l, generate fails xs t = (l, false) → l = xs ∧ ∀ i, i < xs.length → fails (t + i) = false) ∧
    (∀ l, generate fails xs t = (l, true) → ∃ k < xs.length, l = xs.take (k + 1) ∧ fails (t + k) = true ∧
      ∀ i < k, fails (t + i) = false) := by
  induction xs generalizing t with
  | nil => exact ⟨fun l e => (by cases e; exact ⟨rfl, fun i h => (by cases h)⟩), fun l e => (by cases e)⟩
  | cons x xs ih =>
    obtain ⟨h1, h2⟩ := ih (t + 1)
    by_cases hf : fails t = true
    · rw [generate, if_pos hf]
      refine ⟨fun l e => (by cases e), fun l e => ?_⟩
      cases e
      exact ⟨0, by simp, rfl, hf, fun i h => by omega⟩
    · rw [generate, if_neg hf]
      have hf' : fails t = false := by simpa using hf
      cases hr : generate fails xs (t + 1) with
      | mk m b =>
        refine ⟨fun l e => ?_, fun l e => ?_⟩
        · cases e
          obtain ⟨rfl, h3⟩ := h1 m hr
          refine ⟨rfl, fun i hi => ?_⟩
          cases i with
          | zero => exact hf'
          | succ i => rw [← h3 i (by simpa using hi)]; congr 1; omega
        · cases e
          obtain ⟨k, hk, rfl, h3, h4⟩ := h2 m hr
          refine ⟨k + 1, by simpa using hk, rfl, by rw [← h3]; congr 1; omega, fun i hi => ?_⟩
          cases i with
          | zero => exact hf'
          | succ i => rw [← h4 i (by omega)]; congr 1; omega

/-! ## Examples -/

/-- The number itself as hash code. -/
def code (x : Nat) : BitVec 32 := BitVec.ofNat 32 x

/-- A map of one bucket with room for one entry, after `h(5) = 50`. -/
def one : HashMap Nat Nat := { size := 1, n := 1, max := 1, init := 0, a := [[⟨code 5, 5, 50⟩]] }

example : Past (fun i => i == 2) code 0 one 1 (fun y => if y = 5 then some 50 else none) :=
  .set (u := ()) 5 50 (.new 1 1 0 (by decide)) rfl

example : HashThrow.set (fun i => i == 2) code one 7 70 1 = .thrown { one with n := 2, a := [[], []] } 3 := rfl
example : HashThrow.set (fun _ => false) code one 7 70 1 = .ret { one with n := 2, size := 2, a := [[], [⟨7, 7, 70⟩, ⟨5, 5, 50⟩]] } 3 () := rfl
example : contains (fun i => i == 2) code one 5 2 = .thrown one 3 := rfl
example : contains (fun i => i == 3) code one 5 2 = .thrown one 4 := rfl
example : one.N ≥ one.n * one.max ∧ one.contains code 7 = .ok false ∧ one.contains code 5 = .ok true := by decide
example : generate (fun i => i == 4) [10, 11, 12] 3 = ([10, 11], true) := rfl

end Lolly.HashThrowProps
