import Verif.Containers.HashMapRefs
import Verif.Containers.HashMapLemmas

/-!
# Property C144 (references to the values of hash maps)

`Calm s o` says in terms of the numbers of keys and of buckets that the operation `o` does not reorganise the table,
`Kept` that a whole program does not and does not remove a key. The values of a map are a function from keys to optional
values (`sstep`, `srun`).
-/

set_option autoImplicit false

namespace Lolly.MapRefsProps

open MapRefs HashMap

variable {K V : Type} [DecidableEq K]

/-! ## Lemmas -/

section lemmas
variable {hash : K → BitVec 32}

/-- Changing the values of all entries. -/
def mapIm {W : Type} (f : W → W) (h : HashMap K W) : HashMap K W :=
  { h with a := h.a.map (·.map fun e => { e with im := f e.im }) }

omit [DecidableEq K] in
theorem mapIm_flatten {W : Type} (f : W → W) (h : HashMap K W) :
    (mapIm f h).a.flatten = h.a.flatten.map fun e => { e with im := f e.im } := by
  simp [mapIm, List.map_flatten]

theorem mapIm_abs {W : Type} (f : W → W) (h : HashMap K W) (x : K) : (mapIm f h).abs x = (h.abs x).map f := by
  unfold HashMap.abs
  rw [mapIm_flatten]
  induction h.a.flatten with
  | nil => rfl
  | cons e l ih =>
    rw [List.map_cons, look_cons, look_cons, ih]
    split <;> rfl

omit [DecidableEq K] in
theorem mapIm_wf {W : Type} (f : W → W) {h : HashMap K W} (w : h.WF hash) : (mapIm f h).WF hash := by
  refine ⟨?_, w.pos, ?_, ?_, ?_⟩
  · simp only [mapIm, List.length_map]; exact w.len
  · intro i hi e he
    simp only [mapIm, List.getElem_map, List.mem_map] at he
    obtain ⟨e', he', rfl⟩ := he
    exact w.loc i (by simpa [mapIm] using hi) e' he'
  · rw [mapIm_flatten, List.map_map]
    exact w.nodup
  · rw [mapIm_flatten, List.length_map]
    exact w.size

omit [DecidableEq K] in
theorem resize_n {W : Type} {h h' : HashMap K W} {n : Nat} (e : h.resize hash n = .ok h') : h'.n = n := by
  simp only [HashMap.resize, Res.bind_eq_ok] at e
  obtain ⟨a, -, e⟩ := e
  cases e; rfl

omit [DecidableEq K] in
theorem insertNew_n {W : Type} {h h' : HashMap K W} {x : K} (e : h.insertNew hash x = .ok h') :
    ∃ g, (if h.size ≥ h.n * h.max then h.resize hash (h.n <<< 1) else .ok h) = .ok g ∧ h'.n = g.n := by
  unfold HashMap.insertNew at e
  dsimp only at e
  split at e
  · rename_i hs
    obtain ⟨g, eg, e⟩ := Res.bind_eq_ok.1 e
    obtain ⟨l, -, e⟩ := Res.bind_eq_ok.1 e
    obtain ⟨a, -, e⟩ := Res.bind_eq_ok.1 e
    cases e
    exact ⟨g, by rw [if_pos hs, eg], rfl⟩
  · rename_i hs
    obtain ⟨g, eg, e⟩ := Res.bind_eq_ok.1 e
    obtain ⟨l, -, e⟩ := Res.bind_eq_ok.1 e
    obtain ⟨a, -, e⟩ := Res.bind_eq_ok.1 e
    cases e
    exact ⟨g, by rw [if_neg hs, eg], rfl⟩

theorem touch_n {W : Type} {h h' : HashMap K W} (w : h.WF hash) {x : K} (e : h.touch hash x = .ok h') :
    h'.n = h.n ↔ h.abs x ≠ none ∨ h.size < h.n * h.max := by
  obtain ⟨l, h1, h2⟩ := w.findB x
  have hp := w.pos
  cases hx : h.abs x with
  | some v =>
    rw [HashMap.touch, h1, Res.ok_bind, h2, hx] at e
    cases e; simp
  | none =>
    rw [HashMap.touch, h1, Res.ok_bind, h2, hx] at e
    obtain ⟨g, eg, e⟩ := insertNew_n e
    by_cases hs : h.size ≥ h.n * h.max
    · rw [if_pos hs] at eg
      rw [e, resize_n eg, Nat.shiftLeft_eq]
      simp; omega
    · rw [if_neg hs] at eg
      cases eg
      rw [e]
      simp; omega

theorem reset_n {W : Type} {h h' : HashMap K W} (w : h.WF hash) {x : K} (e : h.reset hash x = .ok h') :
    h'.n = h.n ↔ h.abs x = none ∨ ((h.n / 2 : Nat) : Int) * h.max ≤ h.size - 1 := by
  have hi := w.idx x
  have hc : ∀ e ∈ h.a[bidx (hash x) h.n], e.code = hash e.key := fun e he => (w.loc _ hi e he).1
  have hp := w.pos
  rcases removeB_spec hc x with ⟨h1, h2⟩ | ⟨l', e', h1, h2, h3, -⟩
  · rw [w.look_bucket] at h2
    simp only [HashMap.reset, rd_ok hi, Res.ok_bind, h1] at e
    cases e; simp [h2]
  · have hx : h.abs x ≠ none := by
      rw [← w.look_bucket, Ne, look_eq_none, Decidable.not_not]
      exact List.mem_map.2 ⟨e', h2.mem_iff.2 (by simp), h3⟩
    simp only [HashMap.reset, rd_ok hi, Res.ok_bind, h1, wr_ok hi] at e
    split at e
    · rename_i hs
      rw [resize_n e]
      simp only [Nat.shiftRight_eq_div_pow, Nat.pow_one] at hs ⊢
      constructor
      · omega
      · rintro (h | h)
        · exact absurd h hx
        · omega
    · rename_i hs
      cases e
      simp only [Nat.shiftRight_eq_div_pow, Nat.pow_one] at hs
      exact ⟨fun _ => .inr (by omega), fun _ => rfl⟩

/-- The invariant: the table is well formed, and identities are below `next` and those of different keys differ. -/
structure Inv (hash : K → BitVec 32) (s : St K V) : Prop where
  wf : s.map.WF hash
  uniq : ∀ x y i v w, s.map.abs x = some (i, v) → s.map.abs y = some (i, w) → x = y
  bound : ∀ x i v, s.map.abs x = some (i, v) → i < s.next

/-- The values of a map. -/
def vals (s : St K V) (x : K) : Option V := (s.map.abs x).map (·.2)

omit [DecidableEq K] in
theorem wf_init {W : Type} {h : HashMap K W} (w : h.WF hash) (d : W) : ({ h with init := d } : HashMap K W).WF hash :=
  ⟨w.len, w.pos, w.loc, w.nodup, w.size⟩

theorem mem_abs {W : Type} {h : HashMap K W} (w : h.WF hash) {e : Entry K W} (he : e ∈ h.a.flatten) :
    h.abs e.key = some e.im := (look_eq_some w.nodup).2 ⟨e, he, rfl, rfl⟩

theorem renew_abs (s : St K V) (x : K) :
    (renew s).map.abs x = (s.map.abs x).map fun p => (p.1 + s.next, p.2) :=
  mapIm_abs (fun p => (p.1 + s.next, p.2)) s.map x

theorem renew_inv {s : St K V} (i : Inv hash s) : Inv hash (renew s) := by
  refine ⟨mapIm_wf (fun p => (p.1 + s.next, p.2)) i.wf, ?_, ?_⟩
  · intro x y k v w hx hy
    rw [renew_abs, Option.map_eq_some_iff] at hx hy
    obtain ⟨⟨i1, v1⟩, h1, e1⟩ := hx
    obtain ⟨⟨i2, v2⟩, h2, e2⟩ := hy
    simp only [Prod.mk.injEq] at e1 e2
    have : i1 = i2 := by omega
    subst this
    exact i.uniq x y i1 v1 v2 h1 h2
  · intro x k v hx
    rw [renew_abs, Option.map_eq_some_iff] at hx
    obtain ⟨⟨i1, v1⟩, h1, e1⟩ := hx
    simp only [Prod.mk.injEq] at e1
    have := i.bound x i1 v1 h1
    show k < s.next + s.next
    omega

/-- What every operation does to nodes: nodes are new or were nodes of the same key. `calm`: nothing was reorganised. -/
structure Tr (s s' : St K V) (calm : Prop) : Prop where
  grow : s.next ≤ s'.next
  old : ∀ y i v, s'.map.abs y = some (i, v) → s.next ≤ i ∨ ∃ w, s.map.abs y = some (i, w)
  loud : ¬ calm → ∀ y i v, s'.map.abs y = some (i, v) → s.next ≤ i
  quiet : calm → ∀ y i w, s.map.abs y = some (i, w) → s'.map.abs y = none ∨ ∃ w', s'.map.abs y = some (i, w')

theorem load_ok {s : St K V} (i : Inv hash s) {x : K} {r : Nat} {v : V} (h : s.map.abs x = some (r, v)) :
    ∃ e ∈ s.map.a.flatten, s.map.a.flatten.find? (fun e => e.im.1 = r) = some e ∧ e.im = (r, v) := by
  obtain ⟨e, he, hk, him⟩ := (look_eq_some i.wf.nodup).1 h
  cases hf : s.map.a.flatten.find? (fun e => e.im.1 = r) with
  | none =>
    have := List.find?_eq_none.1 hf e he
    rw [him] at this
    simp at this
  | some e' =>
    have hm := List.mem_of_find?_eq_some hf
    have hr : e'.im.1 = r := by simpa using List.find?_some hf
    have ha := mem_abs i.wf hm
    have : s.map.abs e'.key = some (r, e'.im.2) := by rw [ha, ← hr]
    have hxk := i.uniq _ _ _ _ _ this h
    rw [hxk, h] at this
    refine ⟨e', hm, rfl, ?_⟩
    injection this with this
    rw [← hr] at this
    rw [← hr]
    exact this.symm

theorem load_gone {s : St K V} (i : Inv hash s) {r : Nat} (h : ∀ y k v, s.map.abs y = some (k, v) → k ≠ r) :
    s.map.a.flatten.find? (fun e => e.im.1 = r) = none := by
  rw [List.find?_eq_none]
  intro e he
  have := h _ _ _ (mem_abs i.wf he)
  simpa using this

/-- Writing to the node of `x`. -/
theorem store_ok {s : St K V} (i : Inv hash s) {x : K} {r : Nat} {v : V} (h : s.map.abs x = some (r, v)) (u : V) :
    ∃ s', store s r u = .ok s' ∧ Inv hash s' ∧ s'.next = s.next ∧ s'.dflt = s.dflt ∧
      (∀ y, s'.map.abs y = if y = x then some (r, u) else s.map.abs y) := by
  obtain ⟨e, -, hf, -⟩ := load_ok i h
  have ha : ∀ y, (mapIm (fun p : Nat × V => if p.1 = r then (r, u) else p) s.map).abs y =
      if y = x then some (r, u) else s.map.abs y := by
    intro y
    rw [mapIm_abs]
    by_cases hy : y = x
    · subst hy
      rw [h, if_pos rfl]; simp
    · rw [if_neg hy]
      cases hs : s.map.abs y with
      | none => rfl
      | some p =>
        obtain ⟨k, w⟩ := p
        by_cases hk : k = r
        · subst hk
          exact absurd (i.uniq _ _ _ _ _ hs h) hy
        · simp [hk]
  refine ⟨{ s with map := mapIm (fun p : Nat × V => if p.1 = r then (r, u) else p) s.map }, ?_,
    ⟨mapIm_wf (fun p : Nat × V => if p.1 = r then (r, u) else p) i.wf, ?_, ?_⟩, rfl, rfl, ha⟩
  · rw [store, hf]; rfl
  · intro y z k w w' hy hz
    dsimp only at hy hz
    rw [ha] at hy hz
    have hx : ∀ y w, (if y = x then some (r, u) else s.map.abs y) = some (k, w) → ∃ w, s.map.abs y = some (k, w) := by
      intro y w hy
      split at hy
      · rename_i e
        simp only [Option.some.injEq, Prod.mk.injEq] at hy
        rw [e, ← hy.1]; exact ⟨_, h⟩
      · exact ⟨_, hy⟩
    obtain ⟨w1, h1⟩ := hx y w hy
    obtain ⟨w2, h2⟩ := hx z w' hz
    exact i.uniq _ _ _ _ _ h1 h2
  · intro y k w hy
    dsimp only at hy ⊢
    rw [ha] at hy
    split at hy
    · simp only [Option.some.injEq, Prod.mk.injEq] at hy
      rw [← hy.1]; exact i.bound _ _ _ h
    · exact i.bound _ _ _ hy

/-- The state after a call, from the table it gave. -/
theorem after_spec {s : St K V} {h : HashMap K (Nat × V)} {next : Nat} (hi : Inv hash { s with map := h, next := next })
    (hn : s.next ≤ next)
    (hold : ∀ y i v, h.abs y = some (i, v) → s.next ≤ i ∨ ∃ w, s.map.abs y = some (i, w))
    (hq : ∀ y i w, s.map.abs y = some (i, w) → h.abs y = none ∨ ∃ w', h.abs y = some (i, w')) :
    Inv hash (after s h next) ∧ (after s h next).dflt = s.dflt ∧ (∀ y, vals (after s h next) y = (h.abs y).map (·.2)) ∧
      Tr s (after s h next) (h.n = s.map.n) := by
  unfold after
  by_cases e : h.n = s.map.n
  · rw [if_pos e]
    exact ⟨hi, rfl, fun _ => rfl, hn, hold, fun c => absurd e c, fun _ => hq⟩
  · rw [if_neg e]
    refine ⟨renew_inv hi, rfl, fun y => ?_, ?_, ?_, ?_, fun c => absurd c e⟩
    · unfold vals
      rw [renew_abs]
      cases h.abs y <;> rfl
    · show s.next ≤ next + next
      omega
    · intro y k v hy
      rw [renew_abs, Option.map_eq_some_iff] at hy
      obtain ⟨p, -, hp⟩ := hy
      simp only [Prod.mk.injEq] at hp
      exact .inl (by omega)
    · intro _ y k v hy
      rw [renew_abs, Option.map_eq_some_iff] at hy
      obtain ⟨p, -, hp⟩ := hy
      simp only [Prod.mk.injEq] at hp
      omega

end lemmas

/-! ## Specification -/

/-- The operation does not reorganise the table: the key is there already or the table is not full; the removed key was
not there or the table stays at least half full. -/
def Calm (s : St K V) : Op K V → Prop
  | .ref y => s.map.abs y ≠ none ∨ s.map.size < s.map.n * s.map.max
  | .set y _ => s.map.abs y ≠ none ∨ s.map.size < s.map.n * s.map.max
  | .reset y => s.map.abs y = none ∨ ((s.map.n / 2 : Nat) : Int) * s.map.max ≤ s.map.size - 1
  | .resize _ => False

/-- What an operation does to the values. -/
def sstep (d : V) (m : K → Option V) : Op K V → K → Option V
  | .ref x => fun y => if y = x then some ((m x).getD d) else m y
  | .set x v => fun y => if y = x then some v else m y
  | .reset x => fun y => if y = x then none else m y
  | .resize _ => m

def srun (d : V) (m : K → Option V) : List (Op K V) → K → Option V
  | [] => m
  | o :: os => srun d (sstep d m o) os

/-- The table is never reorganised and `x` is not removed. -/
def Kept (hash : K → BitVec 32) (x : K) (s : St K V) : List (Op K V) → Prop
  | [] => True
  | o :: os => Calm s o ∧ (∀ y, o = .reset y → y = x → False) ∧ ∀ s', step hash s o = .ok s' → Kept hash x s' os

/-- Tables have at least one bucket. -/
def Sized : List (Op K V) → Prop
  | [] => True
  | .resize n :: os => 1 ≤ n ∧ Sized os
  | _ :: os => Sized os

section proofs
variable {hash : K → BitVec 32}

theorem new_inv (d : V) (n : Nat) (max : Int) (hn : 1 ≤ n) : Inv hash (new d n max : St K V) := by
  have ha : ∀ x, (new d n max : St K V).map.abs x = none := fun x => congrFun (new_abs (0, d) n max) x
  refine ⟨new_wf _ n max hn, ?_, ?_⟩
  · intro x y i v w h; rw [ha] at h; cases h
  · intro x i v h; rw [ha] at h; cases h

theorem ref_spec {s : St K V} (i : Inv hash s) (x : K) :
    ∃ r s' v, ref hash s x = .ok (r, s') ∧ Inv hash s' ∧ s'.dflt = s.dflt ∧ vals s' = sstep s.dflt (vals s) (.ref x) ∧
      s'.map.abs x = some (r, v) ∧ Tr s s' (Calm s (.ref x)) := by
  have wi := wf_init i.wf (s.next, s.dflt)
  obtain ⟨h, e, w, a, -, -⟩ := touch_spec wi x
  have a : ∀ y, h.abs y = if y = x then some ((s.map.abs x).getD (s.next, s.dflt)) else s.map.abs y := fun y => congrFun a y
  have hn := touch_n wi e
  have hn : h.n = s.map.n ↔ Calm s (.ref x) := hn
  have old : ∀ y k v, h.abs y = some (k, v) → (y = x ∧ k = s.next ∧ s.map.abs x = none) ∨ s.map.abs y = some (k, v) := by
    intro y k v hy
    rw [a] at hy
    split at hy
    · rename_i hyx
      subst hyx
      cases hs : s.map.abs y with
      | none =>
        rw [hs] at hy
        simp only [Option.getD_none, Option.some.injEq, Prod.mk.injEq] at hy
        exact .inl ⟨rfl, hy.1.symm, rfl⟩
      | some p =>
        rw [hs] at hy
        exact .inr hy
    · exact .inr hy
  have hinv : Inv hash { s with map := h, next := s.next + 1 } := by
    refine ⟨w, ?_, ?_⟩
    · intro y z k v v' hy hz
      rcases old y k v hy with ⟨h1, h2, -⟩ | h1 <;> rcases old z k v' hz with ⟨h3, h4, -⟩ | h3
      · rw [h1, h3]
      · have := i.bound _ _ _ h3; omega
      · have := i.bound _ _ _ h1; omega
      · exact i.uniq _ _ _ _ _ h1 h3
    · intro y k v hy
      show k < s.next + 1
      rcases old y k v hy with ⟨-, h2, -⟩ | h1
      · omega
      · have := i.bound _ _ _ h1; omega
  obtain ⟨i', d', v', t'⟩ := after_spec (s := s) (next := s.next + 1) hinv (by omega)
    (fun y k v hy => by
      rcases old y k v hy with ⟨-, h2, -⟩ | h1
      · exact .inl (by omega)
      · exact .inr ⟨v, h1⟩)
    (fun y k v hy => by
      right
      rw [a]
      split
      · rename_i hyx
        subst hyx
        rw [hy]; exact ⟨v, rfl⟩
      · exact ⟨v, hy⟩)
  have hx : (vals (after s h (s.next + 1)) x).isSome := by
    rw [v', a, if_pos rfl]; rfl
  unfold vals at hx
  cases hab : (after s h (s.next + 1)).map.abs x with
  | none => rw [hab] at hx; cases hx
  | some p =>
    obtain ⟨r, v⟩ := p
    refine ⟨r, after s h (s.next + 1), v, ?_, i', d', ?_, hab, ?_⟩
    · rw [ref, e, Res.ok_bind]
      dsimp only
      rw [get_spec i'.wf, hab]; rfl
    · funext y
      rw [v', a]
      show _ = if y = x then some ((vals s x).getD s.dflt) else vals s y
      split
      · unfold vals
        cases s.map.abs x <;> rfl
      · rfl
    · rw [hn] at t'; exact t'

theorem step_spec {s : St K V} (i : Inv hash s) (o : Op K V) (ho : Sized [o]) :
    ∃ s', step hash s o = .ok s' ∧ Inv hash s' ∧ s'.dflt = s.dflt ∧ vals s' = sstep s.dflt (vals s) o ∧
      Tr s s' (Calm s o) := by
  cases o with
  | ref x =>
    obtain ⟨r, s', v, e, i', d', v', -, t⟩ := ref_spec i x
    exact ⟨s', by rw [step, e]; rfl, i', d', v', t⟩
  | set x u =>
    obtain ⟨r, s', v, e, i', d', v', h', t⟩ := ref_spec i x
    obtain ⟨s2, e2, i2, n2, d2, a2⟩ := store_ok i' h' u
    refine ⟨s2, ?_, i2, d2.trans d', ?_, ?_⟩
    · rw [step, MapRefs.set, e, Res.ok_bind]; exact e2
    · funext y
      have := congrFun v' y
      unfold vals at this ⊢
      rw [a2]
      show _ = if y = x then some u else vals s y
      split
      · rfl
      · rename_i hy
        rw [this]
        show (if y = x then _ else _) = _
        rw [if_neg hy]; rfl
    · have old : ∀ y k w, s2.map.abs y = some (k, w) → ∃ w', s'.map.abs y = some (k, w') := by
        intro y k w hy
        rw [a2] at hy
        split at hy
        · rename_i hyx
          simp only [Option.some.injEq, Prod.mk.injEq] at hy
          rw [hyx, ← hy.1]; exact ⟨v, h'⟩
        · exact ⟨w, hy⟩
      refine ⟨by rw [n2]; exact t.grow, ?_, ?_, ?_⟩
      · intro y k w hy
        obtain ⟨w', h1⟩ := old y k w hy
        exact t.old y k w' h1
      · intro hc y k w hy
        obtain ⟨w', h1⟩ := old y k w hy
        exact t.loud hc y k w' h1
      · intro hc y k w hy
        rw [a2]
        rcases t.quiet hc y k w hy with h1 | ⟨w', h1⟩
        · split
          · rename_i hyx
            rw [hyx, h'] at h1; cases h1
          · exact .inl h1
        · split
          · rename_i hyx
            rw [hyx, h'] at h1
            simp only [Option.some.injEq, Prod.mk.injEq] at h1
            exact .inr ⟨u, by rw [h1.1]⟩
          · exact .inr ⟨w', h1⟩
  | reset x =>
    obtain ⟨h, e, w, a, -, -⟩ := reset_spec i.wf x
    have a : ∀ y, h.abs y = if y = x then none else s.map.abs y := fun y => congrFun a y
    have old : ∀ y k v, h.abs y = some (k, v) → s.map.abs y = some (k, v) := by
      intro y k v hy
      rw [a] at hy
      split at hy
      · cases hy
      · exact hy
    have hn : h.n = s.map.n ↔ Calm s (.reset x) := reset_n i.wf e
    obtain ⟨i', d', v', t'⟩ := after_spec (s := s) (h := h) (next := s.next)
      ⟨w, fun y z k v v' hy hz => i.uniq _ _ _ _ _ (old y k v hy) (old z k v' hz),
        fun y k v hy => i.bound _ _ _ (old y k v hy)⟩ (by omega)
      (fun y k v hy => .inr ⟨v, old y k v hy⟩)
      (fun y k v hy => by
        rw [a]
        split
        · exact .inl rfl
        · exact .inr ⟨v, hy⟩)
    refine ⟨after s h s.next, by rw [step, MapRefs.reset, e]; rfl, i', d', ?_, by rw [hn] at t'; exact t'⟩
    funext y
    rw [v', a]
    show _ = if y = x then none else vals s y
    split <;> rfl
  | resize n =>
    obtain ⟨h, e, w, p, -, -, -⟩ := resize_spec i.wf (n2 := n) ho.1
    have a := abs_congr i.wf p
    refine ⟨renew { s with map := h }, by rw [step, MapRefs.resize, e]; rfl, ?_, rfl, ?_, ?_⟩
    · apply renew_inv
      refine ⟨w, ?_, ?_⟩
      · intro y z k v v' hy hz
        dsimp only at hy hz
        rw [a] at hy hz
        exact i.uniq _ _ _ _ _ hy hz
      · intro y k v hy
        dsimp only at hy
        rw [a] at hy
        exact i.bound _ _ _ hy
    · funext y
      unfold vals
      rw [renew_abs]
      show _ = (s.map.abs y).map (·.2)
      dsimp only
      rw [a]
      cases s.map.abs y <;> rfl
    · refine ⟨by show s.next ≤ s.next + s.next; omega, ?_, ?_, fun c => c.elim⟩
      · intro y k v hy
        rw [renew_abs, Option.map_eq_some_iff] at hy
        obtain ⟨q, -, hq⟩ := hy
        simp only [Prod.mk.injEq] at hq
        exact .inl (by omega)
      · intro _ y k v hy
        rw [renew_abs, Option.map_eq_some_iff] at hy
        obtain ⟨q, -, hq⟩ := hy
        simp only [Prod.mk.injEq] at hq
        omega

omit [DecidableEq K] in
theorem Sized.split {o : Op K V} {os : List (Op K V)} (h : Sized (o :: os)) : Sized [o] ∧ Sized os := by
  cases o with
  | resize n => exact ⟨⟨h.1, trivial⟩, h.2⟩
  | ref x => exact ⟨trivial, h⟩
  | set x v => exact ⟨trivial, h⟩
  | reset x => exact ⟨trivial, h⟩

theorem run_spec {s : St K V} (i : Inv hash s) (os : List (Op K V)) (ho : Sized os) :
    ∃ s', run hash s os = .ok s' ∧ Inv hash s' ∧ s'.dflt = s.dflt ∧ vals s' = srun s.dflt (vals s) os := by
  induction os generalizing s with
  | nil => exact ⟨s, rfl, i, rfl, rfl⟩
  | cons o os ih =>
    obtain ⟨s1, e1, i1, d1, v1, -⟩ := step_spec i o ho.split.1
    obtain ⟨s2, e2, i2, d2, v2⟩ := ih i1 ho.split.2
    refine ⟨s2, by rw [run, e1, Res.ok_bind, e2], i2, d2.trans d1, ?_⟩
    rw [v2, srun, v1, d1]

theorem gone_run {s s' : St K V} (i : Inv hash s) (os : List (Op K V)) (ho : Sized os) {r : Nat} (hr : r < s.next)
    (hg : ∀ y k v, s.map.abs y = some (k, v) → k ≠ r) (e : run hash s os = .ok s') :
    ∀ y k v, s'.map.abs y = some (k, v) → k ≠ r := by
  induction os generalizing s with
  | nil => cases e; exact hg
  | cons o os ih =>
    obtain ⟨s1, e1, i1, -, -, t⟩ := step_spec i o ho.split.1
    rw [run, e1, Res.ok_bind] at e
    refine ih i1 ho.split.2 (by have := t.grow; omega) (fun y k v hy => ?_) e
    rcases t.old y k v hy with h | ⟨w, h⟩
    · omega
    · exact hg y k w h

theorem held_run {s s' : St K V} (i : Inv hash s) (os : List (Op K V)) (ho : Sized os) {r : Nat} {x : K} {v : V}
    (hx : s.map.abs x = some (r, v)) (e : run hash s os = .ok s') :
    (Kept hash x s os ∧ ∃ w, s'.map.abs x = some (r, w)) ∨
      (¬ Kept hash x s os ∧ ∀ y k v, s'.map.abs y = some (k, v) → k ≠ r) := by
  induction os generalizing s v with
  | nil => cases e; exact .inl ⟨trivial, v, hx⟩
  | cons o os ih =>
    obtain ⟨s1, e1, i1, -, v1, t⟩ := step_spec i o ho.split.1
    have hr := i.bound _ _ _ hx
    have hg := t.grow
    have e' : run hash s1 os = .ok s' := by rw [run, e1, Res.ok_bind] at e; exact e
    by_cases hc : Calm s o
    · by_cases hres : ∀ y, o = .reset y → y = x → False
      · have h1 : ∃ w, s1.map.abs x = some (r, w) := by
          rcases t.quiet hc x r v hx with h | h
          · exfalso
            have h2 : vals s1 x = none := by unfold vals; rw [h]; rfl
            have h3 : vals s x = some v := by unfold vals; rw [hx]; rfl
            rw [v1] at h2
            cases o with
            | ref y =>
              simp only [sstep] at h2
              split at h2
              · cases h2
              · rw [h3] at h2; cases h2
            | set y u =>
              simp only [sstep] at h2
              split at h2
              · cases h2
              · rw [h3] at h2; cases h2
            | reset y =>
              simp only [sstep] at h2
              split at h2
              · rename_i hy
                exact hres y rfl hy.symm
              · rw [h3] at h2; cases h2
            | resize n => exact hc
          · exact h
        obtain ⟨w, h1⟩ := h1
        rcases ih i1 ho.split.2 h1 e' with ⟨k, h⟩ | ⟨k, h⟩
        · refine .inl ⟨⟨hc, hres, fun s2 e2 => ?_⟩, h⟩
          rw [e1] at e2; cases e2; exact k
        · exact .inr ⟨fun k' => k (k'.2.2 _ e1), h⟩
      · refine .inr ⟨fun k => hres k.2.1, gone_run i1 os ho.split.2 (by omega) (fun y k w hy => ?_) e'⟩
        obtain ⟨z, hz, hzx⟩ : ∃ z, o = .reset z ∧ z = x :=
          Classical.byContradiction fun hne => hres fun y h1 h2 => hne ⟨y, h1, h2⟩
        rintro rfl
        rcases t.old y k w hy with h | ⟨w', h⟩
        · omega
        · have := i.uniq _ _ _ _ _ h hx
          subst this
          have h2 : vals s1 y = some w := by unfold vals; rw [hy]; rfl
          rw [v1, hz] at h2
          simp only [sstep, hzx] at h2
          simp at h2
    · refine .inr ⟨fun k => hc k.1, gone_run i1 os ho.split.2 (by omega) (fun y k w hy => ?_) e'⟩
      have := t.loud hc y k w hy
      omega

theorem get_vals {s : St K V} (i : Inv hash s) (x : K) : get hash s x = .ok ((vals s x).getD s.dflt) := by
  rw [MapRefs.get, get_spec (wf_init i.wf (0, s.dflt)), Res.ok_bind]
  show Res.ok ((s.map.abs x).getD (0, s.dflt)).2 = _
  unfold vals
  cases s.map.abs x <;> rfl

end proofs

/-! ## The property -/

variable (hash : K → BitVec 32)

/-- The values of a map after any operations are those of the function from keys to values. -/
theorem C144_values (d : V) (n : Nat) (max : Int) (hn : 1 ≤ n) (os : List (Op K V)) (ho : Sized os) (x : K) :
    ∃ s, run hash (new d n max) os = .ok s ∧ get hash s x = .ok ((srun d (fun _ => none) os x).getD d) := by
  obtain ⟨s, e, i, d', v'⟩ := run_spec (hash := hash) (new_inv d n max hn) os ho
  refine ⟨s, e, ?_⟩
  rw [get_vals i, d', v']
  have : vals (new d n max : St K V) = fun _ => none := by
    funext y
    show ((HashMap.new (0, d) n max).abs y).map _ = none
    rw [new_abs]; rfl
  rw [this]; rfl

/-- A reference `r= h(x)` in any map, used after further operations `os`: as long as the table is not reorganised and
`x` not removed, it stands for the value of `x`; reading gives `h[x]`, and writing changes `h[x]` and nothing else. -/
theorem C144_valid_partial (d : V) (n : Nat) (max : Int) (hn : 1 ≤ n) (os0 os : List (Op K V)) (ho0 : Sized os0)
    (ho : Sized os) (x : K) {s0 s1 s2 : St K V} {r : Nat} (e0 : run hash (new d n max) os0 = .ok s0)
    (e1 : ref hash s0 x = .ok (r, s1)) (e2 : run hash s1 os = .ok s2) (hk : Kept hash x s1 os) :
    (load s2 r = get hash s2 x) ∧
    ∀ v, ∃ s3, store s2 r v = .ok s3 ∧ get hash s3 x = .ok v ∧
      (∀ y, y ≠ x → get hash s3 y = get hash s2 y) ∧ s3.map.N = s2.map.N := by
  obtain ⟨s0', e0', i0, -, -⟩ := run_spec (hash := hash) (new_inv d n max hn) os0 ho0
  rw [e0] at e0'; cases e0'
  obtain ⟨r', s1', v', e1', i1, -, -, h1, -⟩ := ref_spec i0 x
  rw [e1] at e1'; cases e1'
  obtain ⟨s2', e2', i2, -, -⟩ := run_spec i1 os ho
  rw [e2] at e2'; cases e2'
  rcases held_run i1 os ho h1 e2 with ⟨-, w, h⟩ | ⟨k, -⟩
  · refine ⟨?_, fun v => ?_⟩
    · obtain ⟨e, -, hf, him⟩ := load_ok i2 h
      rw [load, hf, get_vals i2]
      unfold vals
      rw [h]
      show Res.ok e.im.2 = _
      rw [him]; rfl
    · obtain ⟨s3, e3, i3, -, d3, a3⟩ := store_ok i2 h v
      refine ⟨s3, e3, ?_, fun y hy => ?_, ?_⟩
      · rw [get_vals i3]; unfold vals; rw [a3, if_pos rfl]; rfl
      · rw [get_vals i3, get_vals i2, d3]; unfold vals; rw [a3, if_neg hy]
      · rw [store] at e3
        split at e3
        · cases e3; rfl
        · cases e3
  · exact absurd hk k

/-- Otherwise the reference is dangling: using it is undefined behaviour. -/
theorem C144_dangling (d : V) (n : Nat) (max : Int) (hn : 1 ≤ n) (os0 os : List (Op K V)) (ho0 : Sized os0)
    (ho : Sized os) (x : K) {s0 s1 s2 : St K V} {r : Nat} (e0 : run hash (new d n max) os0 = .ok s0)
    (e1 : ref hash s0 x = .ok (r, s1)) (e2 : run hash s1 os = .ok s2) (hk : ¬ Kept hash x s1 os) :
    load s2 r = .ub ∧ ∀ v, store s2 r v = .ub := by
  obtain ⟨s0', e0', i0, -, -⟩ := run_spec (hash := hash) (new_inv d n max hn) os0 ho0
  rw [e0] at e0'; cases e0'
  obtain ⟨r', s1', v', e1', i1, -, -, h1, -⟩ := ref_spec i0 x
  rw [e1] at e1'; cases e1'
  obtain ⟨s2', e2', i2, -, -⟩ := run_spec i1 os ho
  rw [e2] at e2'; cases e2'
  rcases held_run i1 os ho h1 e2 with ⟨k, -⟩ | ⟨-, h⟩
  · exact absurd k hk
  · have := load_gone i2 h
    exact ⟨by rw [load, this], fun v => by rw [store, this]⟩

/-- In particular a program that only looks up and assigns keys that are in the map keeps all references valid. -/
theorem C144_present {d : V} {n : Nat} {max : Int} (hn : 1 ≤ n) {os0 : List (Op K V)} (ho0 : Sized os0)
    {s0 : St K V} (e0 : run hash (new d n max) os0 = .ok s0) (x : K) (os : List (Op K V))
    (hos : ∀ o ∈ os, ∃ y, (o = .ref y ∨ ∃ v, o = .set y v) ∧ (srun d (fun _ => none) os0 y).isSome) : Kept hash x s0 os := by
  obtain ⟨s0', e0', i0, d0, v0⟩ := run_spec (hash := hash) (new_inv d n max hn) os0 ho0
  rw [e0] at e0'; cases e0'
  have hv : vals (new d n max : St K V) = fun _ => none := by
    funext y
    show ((HashMap.new (0, d) n max).abs y).map _ = none
    rw [new_abs]; rfl
  rw [hv] at v0
  have hp : ∀ y, (srun d (fun _ => none) os0 y).isSome → (vals s0 y).isSome := by
    intro y hy; rw [v0]; exact hy
  clear v0 e0 d0 hv
  induction os generalizing s0 with
  | nil => trivial
  | cons o os ih =>
    obtain ⟨y, ho, hy⟩ := hos o (by simp)
    have hys := hp y hy
    have hpres : s0.map.abs y ≠ none := by
      intro h; unfold vals at hys; rw [h] at hys; cases hys
    refine ⟨?_, ?_, fun s' e' => ?_⟩
    · rcases ho with rfl | ⟨v, rfl⟩
      · exact .inl hpres
      · exact .inl hpres
    · rintro z rfl -
      rcases ho with h | ⟨v, h⟩ <;> cases h
    · have hs : Sized [o] := by
        rcases ho with rfl | ⟨v, rfl⟩ <;> trivial
      obtain ⟨s1, e1, i1, -, v1, -⟩ := step_spec i0 o hs
      rw [e1] at e'; cases e'
      refine ih (fun o' ho' => hos o' (List.mem_cons_of_mem _ ho')) i1 fun z hz => ?_
      have hz' := hp z hz
      rw [v1]
      rcases ho with rfl | ⟨v, rfl⟩
      · simp only [sstep]; split
        · rfl
        · exact hz'
      · simp only [sstep]; split
        · rfl
        · exact hz'

/-- A reference does not stay valid while its key is in the map: `int& r= h(1); h(2)= 5; r= 7` in a new map is undefined
behaviour, since the second key makes the table grow. -/
theorem C144_violated : ∃ s1 s2 : St Nat Nat, ∃ r, ref (fun x => BitVec.ofNat 32 x) (new 0 1 1) 1 = .ok (r, s1) ∧
    run (fun x => BitVec.ofNat 32 x) s1 [.set 2 5] = .ok s2 ∧
    s2.map.contains (fun x => BitVec.ofNat 32 x) 1 = .ok true ∧ store s2 r 7 = .ub :=
  ⟨_, _, _, rfl, rfl, rfl, rfl⟩

/-- A map of four buckets with keys 1, 2: after `int& r= h(1)`, `h(3)= 5`, `h(2)= 6` the reference is still valid. -/
example : ∃ s0 s1 s2 : St Nat Nat, ∃ r, run (fun x => BitVec.ofNat 32 x) (new 0 4 1) [.set 1 7, .set 2 8] = .ok s0 ∧
    ref (fun x => BitVec.ofNat 32 x) s0 1 = .ok (r, s1) ∧
    run (fun x => BitVec.ofNat 32 x) s1 [.set 3 5, .set 2 6] = .ok s2 ∧
    Kept (fun x => BitVec.ofNat 32 x) 1 s1 [.set 3 5, .set 2 6] ∧ load s2 r = .ok 7 := by
  refine ⟨_, _, _, _, rfl, rfl, rfl, ⟨.inr (by decide), fun y h => (by cases h), fun s' e => ?_⟩, rfl⟩
  cases e
  exact ⟨.inl (by decide), fun y h => (by cases h), fun s' e => trivial⟩

end Lolly.MapRefsProps
