import Verif.Containers.RelThrowLemmas

/-!
# C178: merging layers of relative hash maps when functions of keys throw

`C178_throws`, `C178_returns`: when `merge` throws, and that it does what it should if it returns. `C178_merged`: then nothing
visible has changed. `C178_visible_partial`: if the table below need not grow, a `merge` that throws changes nothing visible and
can be repeated. `C178_below`: what the layer below is after an exception. `C178_half_violated`: the changes can no longer be
discarded. `C178_lost_violated`: values get lost.
-/

set_option autoImplicit false

namespace Lolly.RelThrowProps

open Lolly.HashThrow Lolly.HashThrowProps Lolly.RelThrow

variable {K V : Type} [DecidableEq K] {fails : Nat → Bool} {hash : K → BitVec 32}

/-! ## Specification -/

/-- The maps that come from a new map by calls that returned or threw. -/
inductive Used (hash : K → BitVec 32) : HashMap K V → Prop
  | new (d : V) (n : Nat) (max : Int) : 1 ≤ n → Used hash (HashMap.new d n max)
  | set {h h' : HashMap K V} (fails : Nat → Bool) (x : K) (v : V) (t t' : Nat) : Used hash h →
      (HashThrow.set fails hash h x v t = .ret h' t' () ∨ HashThrow.set fails hash h x v t = .thrown h' t') → Used hash h'
  | reset {h h' : HashMap K V} (fails : Nat → Bool) (x : K) (t t' : Nat) : Used hash h →
      (HashThrow.reset fails hash h x t = .ret h' t' () ∨ HashThrow.reset fails hash h x t = .thrown h' t') → Used hash h'

/-- The layer below has room for the keys of the layer above that it does not have yet. -/
def HasRoom (hash : K → BitVec 32) (below above : HashMap K V) : Prop :=
  below.N + ((above.generate.filter fun y => below.contains hash y = .ok false).length : Int) ≤ below.n * below.max

/-! ## Lemmas -/

theorem used_lax {h : HashMap K V} (u : Used hash h) : Lax hash h := by
  induction u with
  | new d n max hn => exact (past_inv (Past.new (fails := fun _ => false) (d := d) n max 0 hn)).1
  | @set h h' fails x v t t' _ e w =>
    rcases set_lax (fails := fails) w x v t with ⟨g, t1, e1, wg, -⟩ | ⟨g, t1, e1, hg⟩
    · rcases e with e | e <;> rw [e] at e1 <;> cases e1
      exact wg
    · rcases e with e | e <;> rw [e] at e1 <;> cases e1
      rcases hg with rfl | ⟨-, -, wg, -⟩
      · exact w
      · exact wg
  | @reset h h' fails x t t' _ e w =>
    rcases reset_lax (fails := fails) w x t with ⟨g, t1, e1, wg, -⟩ | ⟨g, t1, e1, hg⟩
    · rcases e with e | e <;> rw [e] at e1 <;> cases e1
      exact wg
    · rcases e with e | e <;> rw [e] at e1 <;> cases e1
      rcases hg with rfl | ⟨-, -, wg, -⟩
      · exact w
      · exact wg

theorem changeE_used (es : List (Entry K V)) {g g' : HashMap K V} (u : Used hash g) {t t' : Nat}
    (e : changeE fails hash es g t = .ret g' t' () ∨ changeE fails hash es g t = .thrown g' t') : Used hash g' := by
  induction es generalizing g t with
  | nil =>
    rcases e with e | e <;> cases e
    exact u
  | cons d es ih =>
    rw [changeE] at e
    cases hs : HashThrow.set fails hash g d.key d.im t with
    | ret h t1 y =>
      rw [hs] at e
      exact ih (.set fails d.key d.im t t1 u (.inl hs)) e
    | thrown h t1 =>
      rw [hs] at e
      rcases e with e | e <;> cases e
      exact .set fails d.key d.im t _ u (.inr hs)
    | ub =>
      rw [hs] at e
      rcases e with e | e <;> cases e

theorem room_iff {g item : HashMap K V} (w : Lax hash g) : HasRoom hash g item ↔ Room g item.a.flatten := by
  unfold HasRoom Room HashMap.N HashMap.generate
  rw [List.filter_map, List.length_map]
  have : (List.filter ((fun y => decide (g.contains hash y = .ok false)) ∘ fun e : Entry K V => e.key) item.a.flatten) =
      List.filter (fun e => (g.abs e.key).isNone) item.a.flatten := by
    congr 1
    funext e
    show decide (g.contains hash e.key = .ok false) = _
    rw [w.contains]
    cases g.abs e.key <;> simp
  rw [this]

theorem merge_two (item item' : HashMap K V) (next : RelHashMap K V) (t : Nat) :
    merge fails hash (item :: item' :: next) t = match changeE fails hash item.a.flatten item' t with
      | .ret h t _ => .ret (h :: next) t
      | .thrown h t => .thrown (item :: h :: next) t
      | .ub => .ub := by
  show (match change fails hash (item' :: next) item t with
    | .ret next t => ROut.ret next t
    | .thrown next t => .thrown (item :: next) t
    | .ub => .ub) = _
  unfold change
  dsimp only
  cases changeE fails hash item.a.flatten item' t <;> rfl

theorem merge_ret {item item' : HashMap K V} {next H' : RelHashMap K V} {t t' : Nat}
    (e : merge fails hash (item :: item' :: next) t = .ret H' t') :
    ∃ h, changeE fails hash item.a.flatten item' t = .ret h t' () ∧ H' = h :: next := by
  rw [merge_two] at e
  cases hc : changeE fails hash item.a.flatten item' t with
  | ret h t1 y => rw [hc] at e; cases e; exact ⟨h, rfl, rfl⟩
  | thrown h t1 => rw [hc] at e; cases e
  | ub => rw [hc] at e; cases e

theorem merge_thrown {item item' : HashMap K V} {next H' : RelHashMap K V} {t t' : Nat}
    (e : merge fails hash (item :: item' :: next) t = .thrown H' t') :
    ∃ h, changeE fails hash item.a.flatten item' t = .thrown h t' ∧ H' = item :: h :: next := by
  rw [merge_two] at e
  cases hc : changeE fails hash item.a.flatten item' t with
  | ret h t1 y => rw [hc] at e; cases e
  | thrown h t1 => rw [hc] at e; cases e; exact ⟨h, rfl, rfl⟩
  | ub => rw [hc] at e; cases e

theorem get_lax {g : HashMap K V} (w : Lax hash g) (next : RelHashMap K V) (y : K) :
    RelHashMap.get hash (g :: next) y = match g.abs y with
      | some v => .ok v
      | none => if next.isEmpty then .ok g.init else RelHashMap.get hash next y := by
  rw [RelHashMap.get, w.contains, Res.ok_bind, w.get]
  cases g.abs y <;> simp

theorem contains_lax {g : HashMap K V} (w : Lax hash g) (next : RelHashMap K V) (y : K) :
    RelHashMap.contains hash (g :: next) y = match g.abs y with
      | some _ => .ok true
      | none => if next.isEmpty then .ok false else RelHashMap.contains hash next y := by
  rw [RelHashMap.contains, w.contains, Res.ok_bind]
  cases g.abs y <;> simp

/-- Two lower layers that have the same entries for the keys that the upper one does not have. -/
theorem visible_congr {item g g' : HashMap K V} (w : Lax hash item) (wg : Lax hash g) (wg' : Lax hash g') (next : RelHashMap K V)
    {y : K} (ha : item.abs y = none → g'.abs y = g.abs y) (hi : g'.init = g.init) :
    RelHashMap.get hash (item :: g' :: next) y = RelHashMap.get hash (item :: g :: next) y ∧
    RelHashMap.contains hash (item :: g' :: next) y = RelHashMap.contains hash (item :: g :: next) y := by
  rw [get_lax w, get_lax w, contains_lax w, contains_lax w, get_lax wg, get_lax wg', contains_lax wg, contains_lax wg']
  cases hy : item.abs y with
  | some v => exact ⟨rfl, rfl⟩
  | none => rw [ha hy, hi]; exact ⟨rfl, rfl⟩

theorem abs_none {item : HashMap K V} {y : K} (h : item.abs y = none) : ∀ e ∈ item.a.flatten, e.key ≠ y :=
  fun _ he hk => Lolly.look_eq_none.1 h (hk ▸ List.mem_map_of_mem he)

omit [DecidableEq K] in
theorem lax_nodup {item : HashMap K V} (w : Lax hash item) : (item.a.flatten.map (·.key)).Nodup := w.1.nodup

theorem over_abs {item : HashMap K V} (w : Lax hash item) (f : K → Option V) (y : K) :
    over item.a.flatten f y = (item.abs y).or (f y) := by
  cases hy : item.abs y with
  | none => rw [over_eq _ _ _ (abs_none hy)]; rfl
  | some v =>
    have := (Lolly.look_eq_some (lax_nodup w)).1 hy
    obtain ⟨e, he, hk, hv⟩ := this
    rw [← hk, over_mem (lax_nodup w) f he, hv]
    rfl

/-! ## Properties -/

/-- **C178** (throws): `merge` throws exactly if one of the calls of functions of keys that it made threw, and then it makes no
further call. -/
theorem C178_throws {item item' : HashMap K V} {next H' : RelHashMap K V} {t t' : Nat} :
    (merge fails hash (item :: item' :: next) t = .ret H' t' → t ≤ t' ∧ ∀ k, t ≤ k → k < t' → fails k = false) ∧
    (merge fails hash (item :: item' :: next) t = .thrown H' t' →
      t < t' ∧ fails (t' - 1) = true ∧ ∀ k, t ≤ k → k < t' - 1 → fails k = false) := by
  have hf := fair_changeE (fails := fails) (hash := hash) item.a.flatten item' t
  constructor
  · intro e
    obtain ⟨h, e1, -⟩ := merge_ret e
    rw [e1] at hf
    exact hf
  · intro e
    obtain ⟨h, e1, -⟩ := merge_thrown e
    rw [e1] at hf
    exact hf

/-- **C178** (returns): a call of `merge` that returns leaves what it does if no function of a key ever throws. -/
theorem C178_returns {item item' : HashMap K V} {next H' : RelHashMap K V} {t t' : Nat}
    (e : merge fails hash (item :: item' :: next) t = .ret H' t') : RelHashMap.merge hash (item :: item' :: next) = .ok H' := by
  obtain ⟨h, e1, rfl⟩ := merge_ret e
  have key : ∀ (es : List (Entry K V)) (g : HashMap K V) (t : Nat), changeE fails hash es g t = .ret h t' () →
      g.joinEntries hash es = .ok h := by
    intro es
    induction es with
    | nil => intro g t e; cases e; rfl
    | cons d es ih =>
      intro g t e
      rw [changeE] at e
      obtain ⟨g1, t1, y, e2, e3⟩ := bind_ret e
      rw [HashMap.joinEntries, (C174_returns g g1 d.key d.im t t1).2.2.1 y e2, Res.ok_bind]
      exact ih g1 t1 e3
  rw [RelHashMap.merge, RelHashMap.change, key _ _ _ e1]
  rfl

/-- **C178** (merged): whatever was thrown before, after a `merge` that returns there is one layer less and every key has the
value it had. -/
theorem C178_merged {item item' : HashMap K V} {next H' : RelHashMap K V} {t t' : Nat} (u : Used hash item) (u' : Used hash item')
    (e : merge fails hash (item :: item' :: next) t = .ret H' t') : H'.length = next.length + 1 ∧ H'.tail = next ∧ ∀ y,
      RelHashMap.get hash H' y = RelHashMap.get hash (item :: item' :: next) y ∧
      RelHashMap.contains hash H' y = RelHashMap.contains hash (item :: item' :: next) y := by
  have w := used_lax u
  have w' := used_lax u'
  obtain ⟨h, e1, rfl⟩ := merge_ret e
  rcases changeE_lax (fails := fails) item.a.flatten w' t with ⟨g, t1, e2, wg, ag, ig⟩ | ⟨_, _, _, _, g, t1, _, e2, _⟩
  · rw [e1] at e2
    cases e2
    refine ⟨rfl, rfl, fun y => ?_⟩
    rw [get_lax wg, get_lax w, contains_lax wg, contains_lax w, get_lax w', contains_lax w', ag, over_abs w, ig]
    cases item.abs y with
    | some v => exact ⟨rfl, rfl⟩
    | none => exact ⟨rfl, rfl⟩
  · rw [e1] at e2
    cases e2

/-- **C178** (visible, partial): if the layer below has room for the new keys, a `merge` that throws changes nothing that is
visible, and the layers are such that all this can be said again of the next call of `merge`: it may be repeated until it
returns. Missing: layers that have to grow, see `C178_below` and `C178_lost_violated`; and discarding the changes
afterwards, see `C178_half_violated`. -/
theorem C178_visible_partial {item item' : HashMap K V} {next H' : RelHashMap K V} {t t' : Nat} (u : Used hash item)
    (u' : Used hash item') (hr : HasRoom hash item' item) (e : merge fails hash (item :: item' :: next) t = .thrown H' t') :
    ∃ h, H' = item :: h :: next ∧ Used hash h ∧ HasRoom hash h item ∧ ∀ y,
      RelHashMap.get hash H' y = RelHashMap.get hash (item :: item' :: next) y ∧
      RelHashMap.contains hash H' y = RelHashMap.contains hash (item :: item' :: next) y := by
  have w := used_lax u
  have w' := used_lax u'
  obtain ⟨h, e1, rfl⟩ := merge_thrown e
  obtain ⟨done, d, rest, e2, wh, ah, ih, rh⟩ := changeE_room _ w' ((room_iff w').1 hr) t e1
  refine ⟨h, rfl, changeE_used _ u' (.inr e1), (room_iff wh).2 ?_, fun y => ?_⟩
  · have hn := lax_nodup w
    rw [e2, List.map_append] at hn
    have hdone : done.filter (fun e => (h.abs e.key).isNone) = [] := by
      rw [List.filter_eq_nil_iff]
      intro e he
      rw [ah, over_mem (List.nodup_append.1 hn).1 _ he]
      simp
    unfold Room at rh ⊢
    rw [e2, List.filter_append, hdone, List.nil_append]
    exact rh
  · refine visible_congr w w' wh next (fun hy => ?_) ih
    rw [ah]
    exact over_eq _ _ _ fun e he => abs_none hy e (by rw [e2]; exact List.mem_append_left _ he)

/-- **C178** (below): what the layer below is after a `merge` that threw, in all cases: a key found there has its old value or,
if it is a key of the layer above, the value from there. -/
theorem C178_below {item item' : HashMap K V} {next H' : RelHashMap K V} {t t' : Nat} (u : Used hash item)
    (u' : Used hash item') (e : merge fails hash (item :: item' :: next) t = .thrown H' t') :
    ∃ h, H' = item :: h :: next ∧ Used hash h ∧ ∀ y, h.contains hash y = .ok true →
      (item'.contains hash y = .ok true ∧ h.get hash y = item'.get hash y) ∨
      (item.contains hash y = .ok true ∧ h.get hash y = item.get hash y) := by
  have w := used_lax u
  have w' := used_lax u'
  obtain ⟨h, e1, rfl⟩ := merge_thrown e
  refine ⟨h, rfl, changeE_used _ u' (.inr e1), fun y hy => ?_⟩
  rcases changeE_lax (fails := fails) item.a.flatten w' t with ⟨g, t1, e2, -⟩ | ⟨done, d, rest, g1, g, t1, es, e2, w1, wg, a1, ag, -⟩
  · rw [e1] at e2
    cases e2
  · rw [e1] at e2
    cases e2
    rw [wg.contains] at hy
    cases hv : h.abs y with
    | none => rw [hv] at hy; cases hy
    | some v =>
      have h1 := ag y v hv
      rw [a1] at h1
      by_cases hk : ∀ e ∈ done, e.key ≠ y
      · rw [over_eq _ _ _ hk] at h1
        refine .inl ⟨by rw [w'.contains, h1]; rfl, ?_⟩
        rw [wg.get, w'.get, hv, h1]
        rfl
      · have hn := lax_nodup w
        have ⟨e, he, hek⟩ : ∃ e ∈ done, e.key = y := by
          apply Classical.byContradiction
          intro hc
          exact hk fun e he hek => hc ⟨e, he, hek⟩
        have hmem : e ∈ item.a.flatten := by rw [es]; exact List.mem_append_left _ he
        rw [es, List.map_append] at hn
        rw [← hek, over_mem (List.nodup_append.1 hn).1 _ he] at h1
        have hi : item.abs y = some v := by
          rw [← h1]
          exact (Lolly.look_eq_some (lax_nodup w)).2 ⟨e, hmem, hek, rfl⟩
        refine .inr ⟨by rw [w.contains, hi]; rfl, ?_⟩
        rw [wg.get, w.get, hv, hi]
        rfl

/-- **C178** (half, violated): for every number `k` less than that of the keys of the upper layer, there is one call such that an
exception from it alone leaves the first `k` changes in the layer below and the others not. So `shorten`, which
discards the changes, gives neither the layer below as it was nor the merged one. -/
theorem C178_half_violated {item item' : HashMap K V} (next : RelHashMap K V) (t : Nat) (u : Used hash item)
    (u' : Used hash item') {k : Nat} (hk : k < item.generate.length) :
    ∃ j h t', merge (fun i => i == j) hash (item :: item' :: next) t = .thrown (item :: h :: next) t' ∧
      RelHashMap.shorten (item :: h :: next) = .ok (h :: next) ∧
      (∀ y ∈ item.generate.take k, h.contains hash y = .ok true ∧ h.get hash y = item.get hash y) ∧
      ∀ y, y ∉ item.generate.take k → h.contains hash y = item'.contains hash y ∧ h.get hash y = item'.get hash y := by
  have w := used_lax u
  have w' := used_lax u'
  have hl : k < item.a.flatten.length := by
    rw [HashMap.generate, List.length_map] at hk
    exact hk
  have hg : item.generate.take k = (item.a.flatten.take k).map (·.key) := by rw [HashMap.generate, List.map_take]
  rcases changeE_lax (fails := fun _ => false) (item.a.flatten.take k) w' t with
    ⟨h, j, e1, wh, ah, ih⟩ | ⟨_, _, _, _, g, t1, _, e1, _⟩
  · have e2 := (local_changeE (hash := hash) (item.a.flatten.take k) item' t (fun _ => false) (fun i => i == j) h j () e1).2
      (fun i _ hi => by simp; omega)
    dsimp only at e2
    refine ⟨j, h, j + 1, ?_, rfl, ?_, ?_⟩
    · rw [merge_two]
      have hs : item.a.flatten = item.a.flatten.take k ++ item.a.flatten[k] :: item.a.flatten.drop (k + 1) := by
        rw [← List.drop_eq_getElem_cons hl, List.take_append_drop]
      have hset : ∀ (x : K) (v : V), HashThrow.set (fun i => i == j) hash h x v j = .thrown h (j + 1) := by
        intro x v
        unfold HashThrow.set touch HashThrow.look call
        simp [Out.bind]
      have : changeE (fun i => i == j) hash item.a.flatten item' t = .thrown h (j + 1) := by
        rw [hs, changeE_append, e2]
        show changeE _ hash (_ :: _) h j = _
        rw [changeE, hset]
        rfl
      rw [this]
    · intro y hy
      rw [hg] at hy
      obtain ⟨e, he, rfl⟩ := List.mem_map.1 hy
      have hn : ((item.a.flatten.take k).map (·.key)).Nodup := by
        rw [List.map_take]
        exact (lax_nodup w).sublist (List.take_sublist _ _)
      have h1 : h.abs e.key = some e.im := by rw [ah]; exact over_mem hn _ he
      have h2 : item.abs e.key = some e.im :=
        (Lolly.look_eq_some (lax_nodup w)).2 ⟨e, List.mem_of_mem_take he, rfl, rfl⟩
      rw [wh.contains, wh.get, w.get, h1, h2]
      exact ⟨rfl, rfl⟩
    · intro y hy
      have h1 : h.abs y = item'.abs y := by
        rw [ah]
        refine over_eq _ _ _ fun e he hek => hy ?_
        rw [hg, ← hek]
        exact List.mem_map_of_mem he
      rw [wh.contains, wh.get, w'.contains, w'.get, h1, ih]
      exact ⟨rfl, rfl⟩
  · have hf := fair_changeE (fails := fun _ => false) (hash := hash) (item.a.flatten.take k) item' t
    rw [e1] at hf
    exact absurd hf.2.1 (by simp)

/-- **C178** (lost, violated): if the layer below is about to grow and does not have the first key of the layer above, there is one
call such that an exception from it alone makes `merge` lose all that is in the layer below, so that a key which only this layer
had is no longer found. -/
theorem C178_lost_violated {item item' : HashMap K V} (next : RelHashMap K V) (t : Nat) (u : Used hash item)
    (u' : Used hash item') {x : K} {xs : List K} (hg : item.generate = x :: xs) (hx : item'.contains hash x = .ok false)
    (hf : item'.N ≥ item'.n * item'.max) {y : K} (hy : item'.contains hash y = .ok true) (hyi : item.contains hash y = .ok false)
    (hyn : next.isEmpty = true ∨ RelHashMap.contains hash next y = .ok false) :
    RelHashMap.contains hash (item :: item' :: next) y = .ok true ∧
    ∃ j H' t', merge (fun i => i == j) hash (item :: item' :: next) t = .thrown H' t' ∧ RelHashMap.contains hash H' y = .ok false := by
  have w := used_lax u
  have w' := used_lax u'
  have ai : item.abs y = none := by rw [w.contains] at hyi; simpa using hyi
  have ai' : ∃ v, item'.abs y = some v := by
    rw [w'.contains] at hy
    exact Option.isSome_iff_exists.1 (by simpa using hy)
  obtain ⟨v, hv⟩ := ai'
  constructor
  · rw [contains_lax w, ai, contains_lax w', hv]
    rfl
  · cases hfl : item.a.flatten with
    | nil => rw [HashMap.generate, hfl] at hg; cases hg
    | cons e es =>
      rw [HashMap.generate, hfl, List.map_cons] at hg
      injection hg with hex _
      subst hex
      obtain ⟨j, h, t', -, e1, -, hn, -⟩ := lost_lax (t := t) w' e.key y e.im hx hy hf
      have wh : Lax hash h := used_lax (.set _ _ _ _ _ u' (.inr e1))
      refine ⟨j, item :: h :: next, t', ?_, ?_⟩
      · rw [merge_two, hfl, changeE, e1]
        rfl
      · have ah : h.abs y = none := by
          have := hn y
          rw [wh.contains] at this
          simpa using this
        rw [contains_lax w, ai, contains_lax wh, ah]
        dsimp only
        rw [if_neg (by simp)]
        rcases hyn with hyn | hyn
        · rw [if_pos hyn]
        · rw [hyn]; simp

/-! ## Examples -/

/-- A lower layer with room for four entries, after `H(5)= 50`. -/
def low : HashMap Nat Nat := { size := 1, n := 2, max := 2, init := 0, a := [[], [⟨code 5, 5, 50⟩]] }

/-- An upper layer with two changes. -/
def high : HashMap Nat Nat := { size := 2, n := 2, max := 1, init := 0, a := [[⟨code 6, 6, 61⟩], [⟨code 5, 5, 51⟩]] }

theorem low_used : Used code low := .set (fun _ => false) 5 50 0 1 (.new 0 2 2 (by decide)) (.inl rfl)

theorem high_used : Used code high :=
  .set (h := { size := 1, n := 2, max := 1, init := 0, a := [[], [⟨code 5, 5, 51⟩]] }) (fun _ => false) 6 61 0 1
    (.set (fun _ => false) 5 51 0 1 (.new 0 2 1 (by decide)) (.inl rfl)) (.inl rfl)

example : HasRoom code low high := by unfold HasRoom; decide

/-- Call 0 is the hash of 6, call 1 that of 5: the first change is made, the second is not. -/
example : merge (fun i => i == 1) code [high, low] 0 =
    .thrown [high, { low with size := 2, a := [[⟨code 6, 6, 61⟩], [⟨code 5, 5, 50⟩]] }] 2 := rfl

example : ∃ H t, merge (fun _ => false) code [high, low] 0 = .ret H t ∧ RelHashMap.get code H 5 = .ok 51 := ⟨_, _, rfl, rfl⟩

/-- A full lower layer with the key 5, and above it one with the key 6: the exception of call 1 loses the value of 5. -/
def six : HashMap Nat Nat := { size := 1, n := 1, max := 1, init := 0, a := [[⟨code 6, 6, 60⟩]] }

example : Used code one ∧ Used code six ∧ six.generate = [6] ∧ one.contains code 6 = .ok false ∧
    one.N ≥ one.n * one.max ∧ one.contains code 5 = .ok true ∧ six.contains code 5 = .ok false :=
  ⟨.set (fun _ => false) 5 50 0 1 (.new 0 1 1 (by decide)) (.inl rfl),
    .set (fun _ => false) 6 60 0 1 (.new 0 1 1 (by decide)) (.inl rfl), rfl, rfl, by decide, rfl, rfl⟩

end Lolly.RelThrowProps
