import Verif.Containers.HashFunc
import Verif.Containers.HashMapLemmas

/-!
# C180: functions that remember their values and use themselves

`C180_transparent`, `C180_sound`: a program that uses a hashfunc does what it does with the function itself, also if the function
uses the hashfunc or throws, and ends if and only if it does so without remembering; the function is called at most once for each argument for which it
returns. `C180_kept_partial`: an answer stays, whatever the function depends on. `C180_reentrant_violated`: a function with variables
that asks for the argument for which it is being called can be given one answer and give another one. `C180_again`: exceptions
are not remembered.
-/

set_option autoImplicit false

namespace Lolly.HashFuncProps

open Lolly.HashFunc

variable {K V σ R : Type}

/-! ## Specification -/

/-- What a program gives if every query calls the function: `none` is an exception. The program has no variables. -/
inductive Plain (body : K → Prog K V Unit V) : {R : Type} → Prog K V Unit R → Option R → Prop
  | ret {R : Type} (r : R) : Plain body (.ret r) (some r)
  | throw {R : Type} : Plain body (.throw : Prog K V Unit R) none
  | act {R : Type} (u : Unit → Unit) (k : Unit → Prog K V Unit R) (o : Option R) : Plain body (k ()) o → Plain body (.act u k) o
  | ask {R : Type} (x : K) (k : Option V → Prog K V Unit R) (v : Option V) (o : Option R) :
      Plain body (body x) v → Plain body (k v) o → Plain body (.ask x k) o

/-- The outcome that returns a value or throws. -/
def fin (st : St K V σ) : Option R → Out K V σ R
  | some r => .ret st r
  | none => .thrown st

/-- `F[x]` again and again, `n` times, catching exceptions. -/
def asks (x : K) : Nat → Prog K V σ Unit
  | 0 => .ret ()
  | n + 1 => .ask x fun _ => asks x n

/-- A state in which a program can leave a hashfunc. -/
def Reached [DecidableEq K] (hash : K → BitVec 32) (body : K → Prog K V σ V) (st : St K V σ) : Prop :=
  ∃ (R : Type) (f : Nat) (init : V) (env : σ) (p : Prog K V σ R) (o : Option R), run hash body f init env p = fin st o

/-! ## Lemmas -/

/-- `Plain` with the number of queries. -/
inductive PlainN (body : K → Prog K V Unit V) : {R : Type} → Nat → Prog K V Unit R → Option R → Prop
  | ret {R : Type} (r : R) : PlainN body 0 (.ret r) (some r)
  | throw {R : Type} : PlainN body 0 (.throw : Prog K V Unit R) none
  | act {R : Type} (u : Unit → Unit) (k : Unit → Prog K V Unit R) (n : Nat) (o : Option R) : PlainN body n (k ()) o →
      PlainN body n (.act u k) o
  | ask {R : Type} (x : K) (k : Option V → Prog K V Unit R) (n m : Nat) (v : Option V) (o : Option R) :
      PlainN body n (body x) v → PlainN body m (k v) o → PlainN body (n + m + 1) (.ask x k) o

theorem plain_iff {body : K → Prog K V Unit V} {p : Prog K V Unit R} {o : Option R} : Plain body p o ↔ ∃ n, PlainN body n p o := by
  constructor
  · intro h
    induction h with
    | ret r => exact ⟨0, .ret r⟩
    | throw => exact ⟨0, .throw⟩
    | act u k o _ ih => obtain ⟨n, ih⟩ := ih; exact ⟨n, .act u k n o ih⟩
    | ask x k v o _ _ ih1 ih2 =>
      obtain ⟨n, ih1⟩ := ih1
      obtain ⟨m, ih2⟩ := ih2
      exact ⟨_, .ask x k n m v o ih1 ih2⟩
  · rintro ⟨n, h⟩
    induction h with
    | ret r => exact .ret r
    | throw => exact .throw
    | act u k n o _ ih => exact .act u k o ih
    | ask x k n m v o _ _ ih1 ih2 => exact .ask x k v o ih1 ih2

theorem det {body : K → Prog K V Unit V} {p : Prog K V Unit R} {o o' : Option R} {n n' : Nat} (h : PlainN body n p o)
    (h' : PlainN body n' p o') : n = n' ∧ o = o' := by
  induction h generalizing n' with
  | ret r => cases h'; exact ⟨rfl, rfl⟩
  | throw => cases h'; exact ⟨rfl, rfl⟩
  | act u k n o _ ih => cases h' with | act _ _ _ _ h => exact ih h
  | ask x k n m v o _ _ ih1 ih2 =>
    cases h' with
    | ask _ _ n1 m1 v1 _ h1 h2 =>
      obtain ⟨rfl, rfl⟩ := ih1 h1
      obtain ⟨rfl, rfl⟩ := ih2 h2
      exact ⟨rfl, rfl⟩

variable [DecidableEq K] {hash : K → BitVec 32}

theorem apply_hit {body : K → Prog K V σ V} {st : St K V σ} (w : st.h.WF hash) {x : K} {v : V} (hx : st.h.abs x = some v) (f : Nat) :
    apply hash body (f + 1) x st = .ret st v := by
  rw [apply, HashMap.contains_spec w, hx]
  dsimp only [Option.isSome]
  rw [HashMap.get_spec w, hx]
  rfl

theorem apply_miss {body : K → Prog K V σ V} {st : St K V σ} (w : st.h.WF hash) {x : K} (hx : st.h.abs x = none) (f : Nat) :
    apply hash body (f + 1) x st = store hash x (exec (apply hash body f) (body x) { st with calls := st.calls ++ [x] }) := by
  rw [apply, HashMap.contains_spec w, hx]
  rfl

theorem store_fin {st : St K V σ} (w : st.h.WF hash) (x : K) (o : Option V) : ∃ h, h.WF hash ∧
    h.abs = (fun y => if y = x then o.or (st.h.abs x) else st.h.abs y) ∧ store hash x (fin st o) = fin { st with h := h } o := by
  cases o with
  | none => exact ⟨st.h, w, by funext y; by_cases h : y = x <;> simp [h], rfl⟩
  | some v =>
    obtain ⟨h, e, wh, ah, -⟩ := HashMap.set_spec w x v
    refine ⟨h, wh, ah, ?_⟩
    show (match st.h.set hash x v with | .ok h => Out.ret { st with h := h } v | _ => .ub) = _
    rw [e]
    rfl

/-- What is remembered is right. -/
def Good (hash : K → BitVec 32) (body : K → Prog K V Unit V) (st : St K V Unit) : Prop :=
  st.h.WF hash ∧ ∀ y v, st.h.abs y = some v → Plain body (body y) (some v)

theorem complete {body : K → Prog K V Unit V} {p : Prog K V Unit R} {o : Option R} {n : Nat} (hp : PlainN body n p o) :
    ∀ st, Good hash body st → ∃ N st' cs, (∀ f, N ≤ f → exec (apply hash body f) p st = fin st' o) ∧ Good hash body st' ∧
      st'.calls = st.calls ++ cs ∧ (∀ y ∈ cs, ∃ m v, m < n ∧ PlainN body m (body y) v) ∧
      (∀ y v, st.h.abs y = some v → st'.h.abs y = some v) ∧
      ∀ y v, Plain body (body y) (some v) → cs.count y ≤ 1 ∧ (y ∈ cs → st.h.abs y = none ∧ st'.h.abs y = some v) := by
  induction hp with
  | ret r =>
    intro st g
    exact ⟨0, st, [], fun _ _ => rfl, g, by simp, by simp, fun _ _ h => h, by simp⟩
  | throw =>
    intro st g
    exact ⟨0, st, [], fun _ _ => rfl, g, by simp, by simp, fun _ _ h => h, by simp⟩
  | act u k n o _ ih =>
    intro st g
    exact ih st g
  | ask x k n m v o hb hk ih1 ih2 =>
    intro st g
    cases hx : st.h.abs x with
    | some w =>
      obtain ⟨n', hw⟩ := plain_iff.1 (g.2 x w hx)
      obtain ⟨-, rfl⟩ := det hb hw
      obtain ⟨N, st', cs, e, g', c1, c2, c3, c4⟩ := ih2 st g
      refine ⟨N + 1, st', cs, fun f hf => ?_, g', c1, fun y hy => ?_, c3, c4⟩
      · obtain ⟨f, rfl⟩ : ∃ f', f = f' + 1 := ⟨f - 1, by omega⟩
        rw [exec, apply_hit g.1 hx]
        exact e _ (by omega)
      · obtain ⟨m', v, hm, h⟩ := c2 y hy
        exact ⟨m', v, by omega, h⟩
    | none =>
      obtain ⟨N1, st1, cs1, e1, g1, a1, a2, a3, a4⟩ := ih1 { st with calls := st.calls ++ [x] } g
      dsimp only at a1 a3 a4
      obtain ⟨h, wh, ah, es⟩ := store_fin g1.1 x v
      have hxc : x ∉ cs1 := by
        intro hx1
        obtain ⟨m', v', hm, h'⟩ := a2 x hx1
        have := (det hb h').1
        omega
      have g2 : Good hash body { st1 with h := h } := by
        refine ⟨wh, fun y w hy => ?_⟩
        dsimp only at hy
        rw [ah] at hy
        by_cases hyx : y = x
        · subst hyx
          dsimp only at hy
          rw [if_pos rfl] at hy
          cases v with
          | none => exact g1.2 y w (by simpa using hy)
          | some v' =>
            cases hy
            exact plain_iff.2 ⟨_, hb⟩
        · dsimp only at hy
          rw [if_neg hyx] at hy
          exact g1.2 y w hy
      obtain ⟨N2, st2, cs2, e2, g3, b1, b2, b3, b4⟩ := ih2 _ g2
      dsimp only at b1 b3 b4
      have keep : ∀ y w, st1.h.abs y = some w → y ≠ x → h.abs y = some w := by
        intro y w hy hyx
        rw [ah]
        dsimp only
        rw [if_neg hyx]
        exact hy
      refine ⟨max N1 N2 + 1, st2, x :: cs1 ++ cs2, fun f hf => ?_, g3, ?_, ?_, ?_, ?_⟩
      · obtain ⟨f, rfl⟩ : ∃ f', f = f' + 1 := ⟨f - 1, by omega⟩
        rw [exec, apply_miss g.1 hx, e1 f (by omega), es]
        have := e2 (f + 1) (by omega)
        cases v with
        | none => exact this
        | some v => exact this
      · rw [b1, a1]
        simp
      · intro y hy
        rcases List.mem_append.1 hy with hy | hy
        · rcases List.mem_cons.1 hy with rfl | hy
          · exact ⟨n, v, by omega, hb⟩
          · obtain ⟨m', v, hm, h⟩ := a2 y hy
            exact ⟨m', v, by omega, h⟩
        · obtain ⟨m', v, hm, h⟩ := b2 y hy
          exact ⟨m', v, by omega, h⟩
      · intro y w hy
        refine b3 y w (keep y w (a3 y w hy) ?_)
        rintro rfl
        rw [hx] at hy
        cases hy
      · intro y w hy
        obtain ⟨p1, p2⟩ := a4 y w hy
        obtain ⟨q1, q2⟩ := b4 y w hy
        by_cases hyx : y = x
        · subst hyx
          obtain ⟨n', hn⟩ := plain_iff.1 hy
          obtain ⟨-, rfl⟩ := det hb hn
          have hh : h.abs y = some w := by
            rw [ah]
            dsimp only
            rw [if_pos rfl]
            rfl
          have hc2 : y ∉ cs2 := by
            intro hc
            have := (q2 hc).1
            rw [hh] at this
            cases this
          refine ⟨?_, fun _ => ⟨hx, b3 y w hh⟩⟩
          rw [List.count_append, List.count_cons_self, List.count_eq_zero.2 hxc, List.count_eq_zero.2 hc2]
          omega
        · rw [List.count_append, List.count_cons_of_ne (Ne.symm hyx)]
          by_cases h1 : y ∈ cs1
          · have hh := keep y w (p2 h1).2 hyx
            have hc2 : y ∉ cs2 := by
              intro hc
              have := (q2 hc).1
              rw [hh] at this
              cases this
            refine ⟨by rw [List.count_eq_zero.2 hc2]; omega, fun _ => ⟨(p2 h1).1, b3 y w hh⟩⟩
          · refine ⟨by rw [List.count_eq_zero.2 h1]; omega, fun hm => ?_⟩
            have h2 : y ∈ cs2 := by
              rcases List.mem_append.1 hm with hm | hm
              · rcases List.mem_cons.1 hm with hm | hm
                · exact absurd hm hyx
                · exact absurd hm h1
              · exact hm
            refine ⟨?_, (q2 h2).2⟩
            cases hs : st.h.abs y with
            | none => rfl
            | some u =>
              have h3 := (q2 h2).1
              rw [keep y u (a3 y u hs) hyx] at h3
              cases h3

theorem exec_sound {body : K → Prog K V Unit V} {query : K → St K V Unit → Out K V Unit V}
    (hq : ∀ x st st' v, Good hash body st → query x st = fin st' v → Plain body (body x) v ∧ Good hash body st') :
    ∀ (p : Prog K V Unit R) (st st' : St K V Unit) (o : Option R), Good hash body st → exec query p st = fin st' o →
      Plain body p o ∧ Good hash body st' := by
  intro p
  induction p with
  | ret r =>
    intro st st' o g e
    cases o with
    | none => cases e
    | some r' => cases e; exact ⟨.ret r, g⟩
  | throw =>
    intro st st' o g e
    cases o with
    | none => cases e; exact ⟨.throw, g⟩
    | some r' => cases e
  | act u k ih =>
    intro st st' o g e
    obtain ⟨h1, h2⟩ := ih st.env { st with env := u st.env } st' o g e
    exact ⟨.act u k o h1, h2⟩
  | ask x k ih =>
    intro st st' o g e
    rw [exec] at e
    cases hx : query x st with
    | ret st1 v =>
      rw [hx] at e
      obtain ⟨h1, g1⟩ := hq x st st1 (some v) g hx
      obtain ⟨h2, g2⟩ := ih (some v) st1 st' o g1 e
      exact ⟨.ask x k (some v) o h1 h2, g2⟩
    | thrown st1 =>
      rw [hx] at e
      obtain ⟨h1, g1⟩ := hq x st st1 none g hx
      obtain ⟨h2, g2⟩ := ih none st1 st' o g1 e
      exact ⟨.ask x k none o h1 h2, g2⟩
    | ub => rw [hx] at e; cases o <;> cases e
    | hang => rw [hx] at e; cases o <;> cases e

theorem apply_sound {body : K → Prog K V Unit V} (f : Nat) : ∀ x st st' v, Good hash body st → apply hash body f x st = fin st' v →
    Plain body (body x) v ∧ Good hash body st' := by
  induction f with
  | zero => intro x st st' v g e; cases v <;> cases e
  | succ f ih =>
    intro x st st' v g e
    cases hx : st.h.abs x with
    | some w =>
      rw [apply_hit g.1 hx] at e
      cases v with
      | none => cases e
      | some v => cases e; exact ⟨g.2 x _ hx, g⟩
    | none =>
      rw [apply_miss g.1 hx] at e
      have key : ∀ st1 o, exec (apply hash body f) (body x) { st with calls := st.calls ++ [x] } = fin st1 o →
          Plain body (body x) v ∧ Good hash body st' := by
        intro st1 o eb
        obtain ⟨h1, g1⟩ := exec_sound ih (body x) { st with calls := st.calls ++ [x] } st1 o g eb
        obtain ⟨h, wh, ah, es⟩ := store_fin g1.1 x o
        rw [eb, es] at e
        have hov : v = o ∧ st' = { st1 with h := h } := by
          cases o <;> cases v <;> cases e <;> exact ⟨rfl, rfl⟩
        obtain ⟨rfl, rfl⟩ := hov
        refine ⟨h1, wh, fun y w hy => ?_⟩
        dsimp only at hy
        rw [ah] at hy
        dsimp only at hy
        by_cases hyx : y = x
        · subst hyx
          rw [if_pos rfl] at hy
          cases v with
          | none => exact g1.2 y w (by simpa using hy)
          | some v' => cases hy; exact h1
        · rw [if_neg hyx] at hy
          exact g1.2 y w hy
      cases eb : exec (apply hash body f) (body x) { st with calls := st.calls ++ [x] } with
      | ret st1 r => exact key st1 (some r) eb
      | thrown st1 => exact key st1 none eb
      | ub => rw [eb] at e; cases v <;> cases e
      | hang => rw [eb] at e; cases v <;> cases e

theorem good_new (body : K → Prog K V Unit V) (init : V) : Good hash body ⟨HashMap.new init, (), []⟩ := by
  refine ⟨HashMap.new_wf init 1 1 (Nat.le_refl 1), fun y v h => ?_⟩
  rw [HashMap.new_abs] at h
  cases h

/-! ### Functions with variables -/

omit [DecidableEq K] in
theorem exec_wf {query : K → St K V σ → Out K V σ V}
    (hq : ∀ y st st' o, st.h.WF hash → query y st = fin st' o → st'.h.WF hash) (p : Prog K V σ R) :
    ∀ st st' o, st.h.WF hash → exec query p st = fin st' o → st'.h.WF hash := by
  induction p with
  | ret r => intro st st' o w e; cases o <;> cases e; exact w
  | throw => intro st st' o w e; cases o <;> cases e; exact w
  | act u k ih => intro st st' o w e; exact ih st.env { st with env := u st.env } st' o w e
  | ask y k ih =>
    intro st st' o w e
    rw [exec] at e
    cases hy : query y st with
    | ret st1 r => rw [hy] at e; exact ih (some r) st1 st' o (hq y st st1 (some r) w hy) e
    | thrown st1 => rw [hy] at e; exact ih none st1 st' o (hq y st st1 none w hy) e
    | ub => rw [hy] at e; cases o <;> cases e
    | hang => rw [hy] at e; cases o <;> cases e

theorem apply_wf {body : K → Prog K V σ V} (f : Nat) : ∀ x st st' o, st.h.WF hash → apply hash body f x st = fin st' o →
    st'.h.WF hash ∧ ∀ v, o = some v → st'.h.abs x = some v := by
  induction f with
  | zero => intro x st st' o w e; cases o <;> cases e
  | succ f ih =>
    intro x st st' o w e
    cases hx : st.h.abs x with
    | some u =>
      rw [apply_hit w hx] at e
      cases o with
      | none => cases e
      | some v => cases e; exact ⟨w, fun v hv => by cases hv; exact hx⟩
    | none =>
      rw [apply_miss w hx] at e
      have key : ∀ st1 o1, exec (apply hash body f) (body x) { st with calls := st.calls ++ [x] } = fin st1 o1 →
          st'.h.WF hash ∧ ∀ v, o = some v → st'.h.abs x = some v := by
        intro st1 o1 eb
        have w1 := exec_wf (fun y st st' o w e => (ih y st st' o w e).1) (body x) { st with calls := st.calls ++ [x] } st1 o1 w eb
        obtain ⟨h, wh, ah, es⟩ := store_fin w1 x o1
        rw [eb, es] at e
        have hov : o = o1 ∧ st' = { st1 with h := h } := by
          cases o <;> cases o1 <;> cases e <;> exact ⟨rfl, rfl⟩
        obtain ⟨rfl, rfl⟩ := hov
        refine ⟨wh, fun v hv => ?_⟩
        dsimp only
        rw [ah, hv]
        dsimp only
        rw [if_pos rfl]
        rfl
      cases eb : exec (apply hash body f) (body x) { st with calls := st.calls ++ [x] } with
      | ret st1 r => exact key st1 (some r) eb
      | thrown st1 => exact key st1 none eb
      | ub => rw [eb] at e; cases o <;> cases e
      | hang => rw [eb] at e; cases o <;> cases e

/-- What is remembered stays, and the function is not called for it. -/
def Keeps (hash : K → BitVec 32) (x : K) (v : V) (st : St K V σ) : Out K V σ R → Prop
  | .ret st' _ => st'.h.WF hash ∧ st'.h.abs x = some v ∧ st'.calls.count x = st.calls.count x
  | .thrown st' => st'.h.WF hash ∧ st'.h.abs x = some v ∧ st'.calls.count x = st.calls.count x
  | .ub => True
  | .hang => True

theorem Keeps.eq {x : K} {v : V} {st st1 : St K V σ} {o : Out K V σ R} (h : Keeps hash x v st1 o)
    (e : st1.calls.count x = st.calls.count x) : Keeps hash x v st o := by
  cases o with
  | ret st' r => exact ⟨h.1, h.2.1, h.2.2.trans e⟩
  | thrown st' => exact ⟨h.1, h.2.1, h.2.2.trans e⟩
  | ub => trivial
  | hang => trivial

theorem exec_keeps {query : K → St K V σ → Out K V σ V} {x : K} {v : V}
    (hq : ∀ y st, st.h.WF hash → st.h.abs x = some v → Keeps hash x v st (query y st)) (p : Prog K V σ R) :
    ∀ st, st.h.WF hash → st.h.abs x = some v → Keeps hash x v st (exec query p st) := by
  induction p with
  | ret r => intro st w h; exact ⟨w, h, rfl⟩
  | throw => intro st w h; exact ⟨w, h, rfl⟩
  | act u k ih => intro st w h; exact ih st.env { st with env := u st.env } w h
  | ask y k ih =>
    intro st w h
    rw [exec]
    have := hq y st w h
    cases e : query y st with
    | ret st1 r =>
      rw [e] at this
      exact (ih (some r) st1 this.1 this.2.1).eq this.2.2
    | thrown st1 =>
      rw [e] at this
      exact (ih none st1 this.1 this.2.1).eq this.2.2
    | ub => trivial
    | hang => trivial

theorem apply_keeps {body : K → Prog K V σ V} {x : K} {v : V} (f : Nat) : ∀ y st, st.h.WF hash → st.h.abs x = some v →
    Keeps hash x v st (apply hash body f y st) := by
  induction f with
  | zero => intro y st w h; trivial
  | succ f ih =>
    intro y st w h
    cases hy : st.h.abs y with
    | some u =>
      rw [apply_hit w hy]
      exact ⟨w, h, rfl⟩
    | none =>
      have hne : y ≠ x := by
        rintro rfl
        rw [h] at hy
        cases hy
      rw [apply_miss w hy]
      have := exec_keeps ih (body y) { st with calls := st.calls ++ [y] } w h
      have hc : (st.calls ++ [y]).count x = st.calls.count x := by
        rw [List.count_append, List.count_cons_of_ne hne, List.count_nil, Nat.add_zero]
      cases e : exec (apply hash body f) (body y) { st with calls := st.calls ++ [y] } with
      | ret st1 r =>
        rw [e] at this
        obtain ⟨h2, wh, ah, es⟩ := store_fin this.1 y (some r)
        have es' : store hash y (.ret st1 r) = .ret { st1 with h := h2 } r := es
        rw [es']
        refine ⟨wh, ?_, this.2.2.trans hc⟩
        dsimp only
        rw [ah]
        dsimp only
        rw [if_neg (Ne.symm hne)]
        exact this.2.1
      | thrown st1 =>
        rw [e] at this
        exact ⟨this.1, this.2.1, this.2.2.trans hc⟩
      | ub => trivial
      | hang => trivial

/-! ## Properties -/

/-- **C180** (transparent): if a program gives a result or an exception when every query calls the function, which may itself make
queries, it gives the same with the hashfunc; and the function is called at most once for every argument for which it returns. -/
theorem C180_transparent (body : K → Prog K V Unit V) (init : V) {p : Prog K V Unit R} {o : Option R} (hp : Plain body p o) :
    ∃ N st, (∀ f, N ≤ f → run hash body f init () p = fin st o) ∧ ∀ y v, Plain body (body y) (some v) → st.calls.count y ≤ 1 := by
  obtain ⟨n, hp⟩ := plain_iff.1 hp
  obtain ⟨N, st, cs, e, -, c1, -, -, c4⟩ := complete (hash := hash) hp _ (good_new body init)
  refine ⟨N, st, e, fun y v hy => ?_⟩
  rw [c1]
  exact (c4 y v hy).1

/-- **C180** (sound): and it gives nothing else: if it comes to an end with the hashfunc, it does so, with the same outcome, if every
query calls the function. -/
theorem C180_sound (body : K → Prog K V Unit V) (init : V) {p : Prog K V Unit R} {o : Option R} {f : Nat} {st : St K V Unit}
    (e : run hash body f init () p = fin st o) : Plain body p o :=
  (exec_sound (apply_sound f) p _ st o (good_new body init) e).1

/-- **C180** (kept, partial): whatever variables the function reads and changes: once a query has been answered, the same query gets the
same answer, whatever is done in between, and the function is not called for this argument again. Missing: queries made while
the function is called for the same argument, see `C180_reentrant_violated`. -/
theorem C180_kept_partial {body : K → Prog K V σ V} {st st1 st2 : St K V σ} (hr : Reached hash body st) {f g : Nat} {x : K} {v : V}
    (e : apply hash body f x st = .ret st1 v) (q : Prog K V σ R) {o : Option R} (e2 : exec (apply hash body g) q st1 = fin st2 o) :
    st2.calls.count x = st1.calls.count x ∧ ∀ n, apply hash body (n + 1) x st2 = .ret st2 v := by
  obtain ⟨R', f', init, env, p, o', e'⟩ := hr
  have w : st.h.WF hash := exec_wf (fun y st st' o w e => (apply_wf f' y st st' o w e).1) p _ st o'
    (HashMap.new_wf init 1 1 (Nat.le_refl 1)) e'
  obtain ⟨w1, h1⟩ := apply_wf f x st st1 (some v) w e
  have hk := exec_keeps (apply_keeps (hash := hash) (body := body) (x := x) (v := v) g) q st1 w1 (h1 v rfl)
  rw [e2] at hk
  have hk' : st2.h.WF hash ∧ st2.h.abs x = some v ∧ st2.calls.count x = st1.calls.count x := by
    cases o with
    | none => exact hk
    | some r => exact hk
  exact ⟨hk'.2.2, fun n => apply_hit hk'.1 hk'.2.1 n⟩

/-- A function with a variable that lists the answers it has got: at its first call it asks for its own argument, and
returns `w`; at the second one it returns `v`. -/
def twice (x : K) (v w : V) : Prog K V (Bool × List V) V :=
  .act (fun s => (true, s.2)) fun s =>
    if s.1 then .ret v else .ask x fun o => .act (fun s => (s.1, s.2 ++ o.toList)) fun _ => .ret w

/-- **C180** (reentrant, violated): for any argument and any two values there is a function that, while it is called for this
argument, gets one value as the answer to the query for it, while the query itself and all later ones are answered with the
other value; and it is called twice for this argument. -/
theorem C180_reentrant_violated (init : V) (x : K) (v w : V) : ∃ st, ∀ f,
    run hash (fun y => twice y v w) (f + 2) init (false, []) (.ask x fun o => match o with | some r => .ret r | none => .throw) =
      .ret st w ∧ st.env.2 = [v] ∧ st.calls = [x, x] := by
  have w0 : (HashMap.new init : HashMap K V).WF hash := HashMap.new_wf init 1 1 (Nat.le_refl 1)
  have a0 : (HashMap.new init : HashMap K V).abs x = none := by rw [HashMap.new_abs]
  obtain ⟨h1, w1, -, e1⟩ := store_fin (σ := Bool × List V) (st := ⟨HashMap.new init, (true, []), [x, x]⟩) w0 x (some v)
  obtain ⟨h2, w2, -, e2⟩ := store_fin (σ := Bool × List V) (st := ⟨h1, (true, [v]), [x, x]⟩) w1 x (some w)
  refine ⟨⟨h2, (true, [v]), [x, x]⟩, fun f => ⟨?_, rfl, rfl⟩⟩
  have inner : apply hash (fun y => twice y v w) (f + 1) x ⟨HashMap.new init, (true, []), [x]⟩ = .ret ⟨h1, (true, []), [x, x]⟩ v := by
    rw [apply_miss w0 a0]
    exact e1
  have outer : apply hash (fun y => twice y v w) (f + 2) x ⟨HashMap.new init, (false, []), []⟩ = .ret ⟨h2, (true, [v]), [x, x]⟩ w := by
    rw [apply_miss w0 a0]
    refine Eq.trans (congrArg (store hash x) ?_) e2
    show exec (apply hash (fun y => twice y v w) (f + 1)) (twice x v w) ⟨HashMap.new init, (false, []), [x]⟩ = _
    have tw : twice x v w = .act (fun s => (true, s.2)) fun s =>
      if s.1 then .ret v else .ask x fun o => .act (fun s => (s.1, s.2 ++ o.toList)) fun _ => .ret w := rfl
    rw [tw, exec]
    dsimp only
    rw [if_neg (by simp), exec]
    rw [show apply hash (fun y => twice y v w) (f + 1) x ⟨HashMap.new init, (true, []), [x]⟩ = _ from inner]
    rfl
  unfold run
  rw [exec, outer]
  rfl

/-- **C180** (again): an exception is not remembered: `n` queries for an argument for which the function throws call it `n` times. -/
theorem C180_again (body : K → Prog K V σ V) (init : V) (env : σ) {x : K} (hx : body x = .throw) (n f : Nat) :
    ∃ st, run hash body (f + 1) init env (asks x n) = .ret st () ∧ st.calls = List.replicate n x := by
  have key : ∀ n cs, ∃ st, exec (apply hash body (f + 1)) (asks x n) ⟨HashMap.new init, env, cs⟩ = .ret st () ∧
      st.calls = cs ++ List.replicate n x := by
    intro n
    induction n with
    | zero => intro cs; exact ⟨_, rfl, by simp⟩
    | succ n ih =>
      intro cs
      obtain ⟨st, e, h⟩ := ih (cs ++ [x])
      refine ⟨st, ?_, by rw [h, List.replicate_succ]; simp⟩
      rw [asks, exec, apply_miss (HashMap.new_wf init 1 1 (Nat.le_refl 1)) (by rw [HashMap.new_abs]), hx]
      exact e
  obtain ⟨st, e, h⟩ := key n []
  exact ⟨st, e, by simpa using h⟩

/-! ## Examples -/

/-- The numbers of Fibonacci; exceptions are passed on. -/
def fib : Nat → Prog Nat Nat Unit Nat
  | 0 => .ret 0
  | 1 => .ret 1
  | n + 2 => .ask (n + 1) fun
    | none => .throw
    | some a => .ask n fun
      | none => .throw
      | some b => .ret (a + b)

example : Plain fib (fib 3) (some 2) :=
  .ask 2 _ (some 1) _ (.ask 1 _ (some 1) _ (.ret 1) (.ask 0 _ (some 0) _ (.ret 0) (.ret 1))) (.ask 1 _ (some 1) _ (.ret 1) (.ret 2))

/-- With the hashfunc the function is called once for each argument. -/
example : ∃ st, run (fun x => BitVec.ofNat 32 x) fib 9 0 () (fib 6) = .ret st 8 ∧ st.calls = [5, 4, 3, 2, 1, 0] := ⟨_, rfl, rfl⟩

/-- A function that counts its calls and returns their number: the second query for 7 gets the answer of the first one. -/
example : ∃ st1, Reached (fun x => BitVec.ofNat 32 x) (fun _ : Nat => .act (· + 1) fun s => .ret s) (⟨HashMap.new 0, 0, []⟩ : St Nat Nat Nat) ∧
    apply (fun x => BitVec.ofNat 32 x) (fun _ : Nat => .act (· + 1) fun s => .ret s) 1 7 (⟨HashMap.new 0, 0, []⟩ : St Nat Nat Nat) = .ret st1 0 ∧
    st1.env = 1 :=
  ⟨_, ⟨Unit, 1, 0, 0, .ret (), some (), rfl⟩, rfl, rfl⟩

end Lolly.HashFuncProps
