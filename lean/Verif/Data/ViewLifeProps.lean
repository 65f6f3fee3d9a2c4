import Verif.Data.ViewLife

/-!
# C167: how long a view of a string may be used, and what it shows
-/

set_option autoImplicit false

namespace Lolly.ViewLifeProps

open Lolly.ViewLife

/-! ## Specification

No pointers and no blocks: a string has a length, room for some characters, and an age, the number of times that its
room was changed. A view remembers which string it looks at, the age that this string had, and which characters. -/

/-- A string: its characters are the first `len` of `cells`. -/
structure Txt where
  len : Nat
  cells : Bytes
  age : Nat
  deriving DecidableEq

/-- A view: the characters `start`, ..., `start + len - 1` of the string with number `str`. -/
structure Look where
  str : Nat
  age : Nat
  start : Nat
  len : Nat
  deriving DecidableEq

structure World where
  strs : List (Option Txt)
  views : List Look

/-- The room for a string of length `n`; see `C167_room`. -/
def room (n : Nat) : Nat := Str.roundLength n

/-- A new length: if the room changes, then the string gets older. -/
def newLen (t : Txt) (m : Nat) : Txt :=
  if room m = room t.len then { t with len := m }
  else ⟨m, (t.cells ++ List.replicate (room m) 0).take (room m), t.age + 1⟩

/-- An assignment to a character; outside of the room it is not defined. -/
def write (t : Txt) (i : Nat) (x : UInt8) : Option Txt :=
  if i < t.cells.length then some { t with cells := t.cells.set i x } else none

def World.get (w : World) (s : Nat) : Option Txt := (w.strs[s]?).join

def World.set (w : World) (s : Nat) (t : Option Txt) : World := { w with strs := w.strs.set s t }

/-- What each operation does; `none` if it is not defined. -/
def World.step (w : World) : Op → Option World
  | .make l => some { w with strs := w.strs ++ [some ⟨l.length, (l ++ List.replicate (room l.length) 0).take (room l.length), 0⟩] }
  | .view s => do
    let t ← w.get s
    some { w with views := w.views ++ [⟨s, t.age, 0, t.len⟩] }
  | .part v b e => do
    let k ← w.views[v]?
    some { w with views := w.views ++
      [⟨k.str, k.age, k.start + min k.len b.toNat, min k.len e.toNat - min k.len b.toNat⟩] }
  | .put s i x => do
    let t ← w.get s
    let t ← write t i x
    some (w.set s (some t))
  | .resize s m => do
    let t ← w.get s
    some (w.set s (some (newLen t m)))
  | .push s x => do
    let t ← w.get s
    let t ← write (newLen t (t.len + 1)) t.len x
    some (w.set s (some t))
  | .drop s => do
    let _ ← w.get s
    some (w.set s none)

def World.run : World → List Op → Option World
  | w, [] => some w
  | w, op :: ops => do
    let w ← w.step op
    World.run w ops

def start : World := ⟨[], []⟩

/-- What a view shows: `none` if it must not be used any more. -/
def World.shows (w : World) (k : Look) : Option Bytes :=
  if k.len = 0 then some []
  else
    match w.get k.str with
    | some t => if t.age = k.age then some ((t.cells.drop k.start).take k.len) else none
    | none => none

/-! ## Invariant -/

/-- A view and what it stands for, in the memory `blk` and with the strings `g`. -/
def VOk (blk : Nat → Option Bytes) (next : Nat) (g : List (Option (Rep × Txt))) (v : View) (k : Look) : Prop :=
  v.n = k.len ∧ (k.len ≠ 0 → ∃ b, v.a = some (b, k.start) ∧ b < next ∧ k.str < g.length ∧
    (∀ r t, g[k.str]? = some (some (r, t)) →
      k.age ≤ t.age ∧ (t.age = k.age → r.a = some b ∧ k.start + k.len ≤ t.cells.length)) ∧
    ((∀ r t, g[k.str]? = some (some (r, t)) → t.age ≠ k.age) → blk b = none))

/-- A string and what it stands for. -/
def SOk (blk : Nat → Option Bytes) (next : Nat) (r : Rep) (t : Txt) : Prop :=
  r.n = t.len ∧ t.cells.length = room t.len ∧ (t.len ≠ 0 → ∃ b, r.a = some b ∧ blk b = some t.cells) ∧
  ∀ b, r.a = some b → b < next ∧ (t.len = 0 → blk b = none)

structure Inv (blk : Nat → Option Bytes) (next : Nat) (g : List (Option (Rep × Txt))) (gv : List (View × Look)) : Prop where
  str : ∀ (s : Nat) (r : Rep) (t : Txt), g[s]? = some (some (r, t)) → SOk blk next r t
  apart : ∀ (s s' : Nat) (r : Rep) (t : Txt) (r' : Rep) (t' : Txt) (b : Nat), g[s]? = some (some (r, t)) → g[s']? = some (some (r', t')) → s ≠ s' →
    r.a = some b → r'.a = some b → False
  view : ∀ p, p ∈ gv → VOk blk next g p.1 p.2

/-- The state and the specification agree. -/
def Rel (st : State) (w : World) : Prop :=
  ∃ g gv, st.strs = g.map (Option.map Prod.fst) ∧ w.strs = g.map (Option.map Prod.snd) ∧
    st.views = gv.map Prod.fst ∧ w.views = gv.map Prod.snd ∧ Inv st.block st.next g gv

theorem room_zero {n : Nat} : room n = 0 ↔ n = 0 := Str.roundLength_eq_zero

theorem get_cases {st : State} {w : World} {g : List (Option (Rep × Txt))}
    (h1 : st.strs = g.map (Option.map Prod.fst)) (h2 : w.strs = g.map (Option.map Prod.snd)) (s : Nat) :
    (getStr st s = .ub ∧ w.get s = none ∧ ∀ r t, g[s]? ≠ some (some (r, t))) ∨
    ∃ r t, getStr st s = .ok r ∧ w.get s = some t ∧ g[s]? = some (some (r, t)) := by
  unfold getStr World.get
  rw [h1, h2, List.getElem?_map, List.getElem?_map]
  cases g[s]? with
  | none => exact .inl ⟨rfl, rfl, fun r t h => by cases h⟩
  | some o =>
    cases o with
    | none => exact .inl ⟨rfl, rfl, fun r t h => by cases h⟩
    | some p => exact .inr ⟨p.1, p.2, rfl, rfl, rfl⟩

theorem getBlk_ok {st : State} {a : Option Nat} {b : Nat} {c : Bytes} (ha : a = some b) (hc : st.block b = some c) :
    getBlk st a = .ok (b, c) := by
  rw [ha]; unfold getBlk; dsimp only; rw [hc]

theorem inv_set {blk blk' : Nat → Option Bytes} {next next' : Nat} {g : List (Option (Rep × Txt))}
    {gv : List (View × Look)} (h : Inv blk next g gv) {s : Nat} {r r' : Rep} {t t' : Txt}
    (hs : g[s]? = some (some (r, t))) (h1 : SOk blk' next' r' t') (h2 : next ≤ next')
    (h3 : ∀ b, r.a ≠ some b → b < next → blk' b = blk b)
    (h4 : r'.a = r.a ∨ ∃ nb, next ≤ nb ∧ r'.a = some nb)
    (h5 : (t'.age = t.age ∧ r'.a = r.a ∧ t'.cells.length = t.cells.length) ∨
      (t'.age = t.age + 1 ∧ ∀ b, r.a = some b → blk' b = none))
    (h6 : ∀ b, b < next → blk b = none → blk' b = none) :
    Inv blk' next' (g.set s (some (r', t'))) gv := by
  have hl : s < g.length := by
    by_cases hl : s < g.length
    · exact hl
    · rw [List.getElem?_eq_none (by omega)] at hs; cases hs
  have get : ∀ k, (g.set s (some (r', t')))[k]? = if k = s then some (some (r', t')) else g[k]? := by
    intro k
    rw [List.getElem?_set]
    by_cases hk : k = s
    · rw [if_pos hk.symm, if_pos hk, if_pos hl]
    · rw [if_neg (Ne.symm hk), if_neg hk]
  constructor
  · intro k rk tk hk
    rw [get] at hk
    by_cases e : k = s
    · rw [if_pos e] at hk
      cases hk
      exact h1
    · rw [if_neg e] at hk
      obtain ⟨a1, a2, a3, a4⟩ := h.str k rk tk hk
      have hne : ∀ b, rk.a = some b → r.a ≠ some b := fun b hb hb' => h.apart k s rk tk r t b hk hs e hb hb'
      refine ⟨a1, a2, fun h0 => ?_, fun b hb => ⟨by have := (a4 b hb).1; omega, fun h0 => ?_⟩⟩
      · obtain ⟨b, hb, hc⟩ := a3 h0
        exact ⟨b, hb, by rw [h3 b (hne b hb) (a4 b hb).1, hc]⟩
      · rw [h3 b (hne b hb) (a4 b hb).1, (a4 b hb).2 h0]
  · intro k k' rk tk rk' tk' b hk hk' hne hb hb'
    have key : ∀ j rj tj, g[j]? = some (some (rj, tj)) → j ≠ s → rj.a = some b → r'.a = some b → False := by
      intro j rj tj hj hjs e1 e2
      rcases h4 with e | ⟨nb, hnb, e⟩
      · exact h.apart j s rj tj r t b hj hs hjs e1 (e ▸ e2)
      · rw [e] at e2; cases e2
        have := ((h.str j rj tj hj).2.2.2 _ e1).1
        omega
    rw [get] at hk hk'
    by_cases e : k = s
    · rw [if_pos e] at hk; cases hk
      have e' : k' ≠ s := fun x => hne (e.trans x.symm)
      rw [if_neg e'] at hk'
      exact key k' rk' tk' hk' e' hb' hb
    · rw [if_neg e] at hk
      by_cases e' : k' = s
      · rw [if_pos e'] at hk'; cases hk'
        exact key k rk tk hk e hb hb'
      · rw [if_neg e'] at hk'
        exact h.apart k k' rk tk rk' tk' b hk hk' hne hb hb'
  · intro p hp
    obtain ⟨a1, a2⟩ := h.view p hp
    refine ⟨a1, fun h0 => ?_⟩
    obtain ⟨b, c1, c2, c3, c4, c5⟩ := a2 h0
    refine ⟨b, c1, by omega, by rw [List.length_set]; exact c3, ?_, ?_⟩
    · intro rk tk hk
      rw [get] at hk
      by_cases e : p.2.str = s
      · rw [if_pos e] at hk; cases hk
        obtain ⟨d1, d2⟩ := c4 r t (e ▸ hs)
        rcases h5 with ⟨e1, e2, e3⟩ | ⟨e1, _⟩
        · exact ⟨by omega, fun e4 => ⟨by rw [e2]; exact (d2 (by omega)).1, by rw [e3]; exact (d2 (by omega)).2⟩⟩
        · exact ⟨by omega, fun e4 => by omega⟩
      · rw [if_neg e] at hk
        exact c4 rk tk hk
    · intro hold
      by_cases e : p.2.str = s
      · have ht : t'.age ≠ p.2.age := hold r' t' (by rw [get, if_pos e])
        by_cases ea : t.age = p.2.age
        · rcases h5 with ⟨e1, _⟩ | ⟨_, e2⟩
          · exact absurd (e1.trans ea) ht
          · exact e2 b ((c4 r t (e ▸ hs)).2 ea).1
        · refine h6 b c2 (c5 fun rk tk hk => ?_)
          rw [e, hs] at hk; cases hk
          exact ea
      · by_cases hx : ∃ rk tk, g[p.2.str]? = some (some (rk, tk)) ∧ tk.age = p.2.age
        · obtain ⟨rk, tk, hk, ha⟩ := hx
          exact absurd ha (hold rk tk (by rw [get, if_neg e]; exact hk))
        · exact h6 b c2 (c5 fun rk tk hk ha => hx ⟨rk, tk, hk, ha⟩)

theorem inv_drop {blk blk' : Nat → Option Bytes} {next : Nat} {g : List (Option (Rep × Txt))}
    {gv : List (View × Look)} (h : Inv blk next g gv) {s : Nat} {r : Rep} {t : Txt}
    (hs : g[s]? = some (some (r, t))) (h3 : ∀ b, r.a ≠ some b → blk' b = blk b)
    (h5 : ∀ b, r.a = some b → blk' b = none) : Inv blk' next (g.set s none) gv := by
  have hl : s < g.length := by
    by_cases hl : s < g.length
    · exact hl
    · rw [List.getElem?_eq_none (by omega)] at hs; cases hs
  have get : ∀ k, (g.set s none)[k]? = if k = s then some none else g[k]? := by
    intro k
    rw [List.getElem?_set]
    by_cases hk : k = s
    · rw [if_pos hk.symm, if_pos hk, if_pos hl]
    · rw [if_neg (Ne.symm hk), if_neg hk]
  have old : ∀ k x, (g.set s none)[k]? = some (some x) → k ≠ s ∧ g[k]? = some (some x) := by
    intro k x hk
    rw [get] at hk
    by_cases e : k = s
    · rw [if_pos e] at hk; cases hk
    · rw [if_neg e] at hk; exact ⟨e, hk⟩
  constructor
  · intro k rk tk hk
    obtain ⟨e, hk⟩ := old k _ hk
    obtain ⟨a1, a2, a3, a4⟩ := h.str k rk tk hk
    have hne : ∀ b, rk.a = some b → r.a ≠ some b := fun b hb hb' => h.apart k s rk tk r t b hk hs e hb hb'
    refine ⟨a1, a2, fun h0 => ?_, fun b hb => ⟨(a4 b hb).1, fun h0 => ?_⟩⟩
    · obtain ⟨b, hb, hc⟩ := a3 h0
      exact ⟨b, hb, by rw [h3 b (hne b hb), hc]⟩
    · rw [h3 b (hne b hb), (a4 b hb).2 h0]
  · intro k k' rk tk rk' tk' b hk hk' hne hb hb'
    exact h.apart k k' rk tk rk' tk' b (old k _ hk).2 (old k' _ hk').2 hne hb hb'
  · intro p hp
    obtain ⟨a1, a2⟩ := h.view p hp
    refine ⟨a1, fun h0 => ?_⟩
    obtain ⟨b, c1, c2, c3, c4, c5⟩ := a2 h0
    have hnone : blk b = none → blk' b = none := by
      intro hb
      by_cases hr : r.a = some b
      · exact h5 b hr
      · rw [h3 b hr, hb]
    refine ⟨b, c1, c2, by rw [List.length_set]; exact c3, fun rk tk hk => c4 rk tk (old _ _ hk).2, ?_⟩
    intro hold
    by_cases e : p.2.str = s
    · by_cases ea : t.age = p.2.age
      · exact h5 b ((c4 r t (e ▸ hs)).2 ea).1
      · refine hnone (c5 fun rk tk hk => ?_)
        rw [e, hs] at hk; cases hk
        exact ea
    · exact hnone (c5 fun rk tk hk => hold rk tk (by rw [get, if_neg e]; exact hk))

theorem inv_add {blk blk' : Nat → Option Bytes} {next next' : Nat} {g : List (Option (Rep × Txt))}
    {gv : List (View × Look)} (h : Inv blk next g gv) {r : Rep} {t : Txt} (h1 : SOk blk' next' r t) (h2 : next ≤ next')
    (h3 : ∀ b, b < next → blk' b = blk b) (h4 : ∀ b, r.a = some b → next ≤ b) :
    Inv blk' next' (g ++ [some (r, t)]) gv := by
  have old : ∀ k x, (g ++ [some (r, t)])[k]? = some (some x) → (k = g.length ∧ x = (r, t)) ∨ g[k]? = some (some x) := by
    intro k x hk
    by_cases e : k < g.length
    · rw [List.getElem?_append_left e] at hk; exact .inr hk
    · rw [List.getElem?_append_right (by omega)] at hk
      by_cases e' : k = g.length
      · rw [e', Nat.sub_self] at hk; cases hk; exact .inl ⟨e', rfl⟩
      · rw [List.getElem?_eq_none (by rw [List.length_singleton]; omega)] at hk; cases hk
  constructor
  · intro k rk tk hk
    rcases old k _ hk with ⟨_, e⟩ | hk
    · cases e; exact h1
    · obtain ⟨a1, a2, a3, a4⟩ := h.str k rk tk hk
      refine ⟨a1, a2, fun h0 => ?_, fun b hb => ⟨by have := (a4 b hb).1; omega, fun h0 => ?_⟩⟩
      · obtain ⟨b, hb, hc⟩ := a3 h0
        exact ⟨b, hb, by rw [h3 b (a4 b hb).1, hc]⟩
      · rw [h3 b (a4 b hb).1, (a4 b hb).2 h0]
  · intro k k' rk tk rk' tk' b hk hk' hne hb hb'
    rcases old k _ hk with ⟨e1, e⟩ | hk
    · cases e
      rcases old k' _ hk' with ⟨e2, _⟩ | hk'
      · exact hne (e1.trans e2.symm)
      · have := h4 b hb
        have := ((h.str k' rk' tk' hk').2.2.2 b hb').1
        omega
    · rcases old k' _ hk' with ⟨_, e⟩ | hk'
      · cases e
        have := h4 b hb'
        have := ((h.str k rk tk hk).2.2.2 b hb).1
        omega
      · exact h.apart k k' rk tk rk' tk' b hk hk' hne hb hb'
  · intro p hp
    obtain ⟨a1, a2⟩ := h.view p hp
    refine ⟨a1, fun h0 => ?_⟩
    obtain ⟨b, c1, c2, c3, c4, c5⟩ := a2 h0
    have get : (g ++ [some (r, t)])[p.2.str]? = g[p.2.str]? := List.getElem?_append_left c3
    refine ⟨b, c1, by omega, by rw [List.length_append]; omega, ?_, ?_⟩
    · rw [get]; exact c4
    · rw [get]; intro hold; rw [h3 b c2]; exact c5 hold

theorem inv_look {blk : Nat → Option Bytes} {next : Nat} {g : List (Option (Rep × Txt))} {gv : List (View × Look)}
    (h : Inv blk next g gv) {v : View} {k : Look} (hv : VOk blk next g v k) : Inv blk next g (gv ++ [(v, k)]) := by
  refine ⟨h.str, h.apart, fun p hp => ?_⟩
  rcases List.mem_append.1 hp with hp | hp
  · exact h.view p hp
  · rw [List.mem_singleton.1 hp]; exact hv

/-- The result of an operation matches the specification. -/
def Match (x : Res State) (y : Option World) : Prop :=
  (x = .ub ∧ y = none) ∨ ∃ st w, x = .ok st ∧ y = some w ∧ Rel st w

theorem rel_set {st : State} {w : World} {g : List (Option (Rep × Txt))} {gv : List (View × Look)}
    (e1 : st.strs = g.map (Option.map Prod.fst)) (e2 : w.strs = g.map (Option.map Prod.snd))
    (e3 : st.views = gv.map Prod.fst) (e4 : w.views = gv.map Prod.snd) {blk' : Nat → Option Bytes} {next' : Nat}
    {s : Nat} {r' : Rep} {t' : Txt} (h : Inv blk' next' (g.set s (some (r', t'))) gv) :
    Rel ⟨blk', next', st.strs.set s (some r'), st.views⟩ (w.set s (some t')) := by
  refine ⟨_, gv, ?_, ?_, e3, e4, h⟩
  · show st.strs.set s (some r') = _
    rw [e1, List.map_set]; rfl
  · show w.strs.set s (some t') = _
    rw [e2, List.map_set]; rfl

theorem take_room (c : Bytes) (m : Nat) :
    (c ++ List.replicate m 0).take m = c.take m ++ List.replicate (m - c.length) 0 := by
  rw [List.take_append, List.take_replicate, Nat.min_eq_left (by omega)]

theorem resize_match {st : State} {w : World} (h : Rel st w) (s m : Nat) :
    Match (resize st s m) (w.step (.resize s m)) := by
  obtain ⟨g, gv, e1, e2, e3, e4, hi⟩ := h
  unfold resize
  rw [World.step]
  rcases get_cases e1 e2 s with ⟨q1, q2, _⟩ | ⟨r, t, q1, q2, q3⟩
  · rw [q1, q2]; exact .inl ⟨rfl, rfl⟩
  rw [q1, q2]
  obtain ⟨a1, a2, a3, a4⟩ := hi.str s r t q3
  show Match (if Str.roundLength m ≠ Str.roundLength r.n then _ else _) (some (w.set s (some (newLen t m))))
  unfold newLen
  rw [a1]
  by_cases hm : room m = room t.len
  · have hm' : Str.roundLength m = Str.roundLength t.len := hm
    rw [if_pos hm, if_neg (not_not_intro hm')]
    refine .inr ⟨_, _, rfl, rfl, ?_⟩
    refine rel_set e1 e2 e3 e4 (inv_set hi q3 ?_ (Nat.le_refl _) (fun b _ _ => rfl) (.inl rfl) (.inl ⟨rfl, rfl, rfl⟩)
      (fun b _ hb => hb))
    have h0 : m = 0 ↔ t.len = 0 := by rw [← room_zero, hm, room_zero]
    exact ⟨rfl, a2.trans hm.symm, fun hx => a3 (fun hy => hx (h0.2 hy)), fun b hb => ⟨(a4 b hb).1, fun hx => (a4 b hb).2 (h0.1 hx)⟩⟩
  · have hm' : Str.roundLength m ≠ Str.roundLength t.len := hm
    rw [if_neg hm, if_pos hm']
    have fresh : ∀ b, r.a = some b → b ≠ st.next := fun b hb e => by have := (a4 b hb).1; omega
    by_cases hz : Str.roundLength m = 0
    · rw [if_neg (not_not_intro hz)]
      have ht : t.len ≠ 0 := fun e => hm (by rw [show room m = 0 from hz, room_zero.2 e])
      obtain ⟨b, hb, hc⟩ := a3 ht
      have hg : getBlk st r.a = .ok (b, t.cells) := getBlk_ok hb hc
      rw [hg]
      refine .inr ⟨_, _, rfl, rfl, ?_⟩
      have hm0 : m = 0 := room_zero.1 hz
      refine rel_set e1 e2 e3 e4 (inv_set (blk' := upd st.block b none) hi q3 ?_ (Nat.le_refl _) ?_ (.inl rfl)
        (.inr ⟨rfl, ?_⟩) ?_)
      · refine ⟨rfl, ?_, fun hx => absurd hm0 hx, fun b' hb' => ⟨(a4 b' hb').1, fun _ => ?_⟩⟩
        · rw [List.length_take, List.length_append, List.length_replicate]; exact Nat.min_eq_left (by omega)
        · rw [hb] at hb'; cases hb'; exact if_pos rfl
      · intro b' hb' _
        exact if_neg (fun e => hb' (by rw [hb, e]))
      · intro b' hb'
        rw [hb] at hb'; cases hb'; exact if_pos rfl
      · intro b' _ hb'
        unfold upd; split
        · rfl
        · exact hb'
    · rw [if_pos hz]
      have hm0 : m ≠ 0 := fun e => hz (room_zero.2 e)
      by_cases hn : Str.roundLength t.len = 0
      · rw [if_neg (not_not_intro hn)]
        have ht : t.len = 0 := room_zero.1 hn
        refine .inr ⟨_, _, rfl, rfl, ?_⟩
        have hcl : t.cells = [] := List.length_eq_zero_iff.1 (by rw [a2]; exact hn)
        refine rel_set e1 e2 e3 e4 (inv_set (blk' := upd st.block st.next (some (List.replicate (Str.roundLength m) 0)))
          (next' := st.next + 1) hi q3 ?_ (by omega) ?_ (.inr ⟨st.next, Nat.le_refl _, rfl⟩) (.inr ⟨rfl, ?_⟩) ?_)
        · refine ⟨rfl, ?_, fun hx => ⟨st.next, rfl, ?_⟩, fun b' hb' => ⟨?_, fun hx => absurd hx hm0⟩⟩
          · rw [List.length_take, List.length_append, List.length_replicate]; exact Nat.min_eq_left (by omega)
          · show upd _ _ _ _ = _
            rw [hcl, List.nil_append, List.take_of_length_le (by rw [List.length_replicate]; omega)]
            exact if_pos rfl
          · cases hb'; omega
        · intro b' _ hb'
          exact if_neg (by omega)
        · intro b' hb'
          have := fresh b' hb'
          show upd _ _ _ _ = _
          unfold upd
          rw [if_neg this]; exact (a4 b' hb').2 ht
        · intro b' hb' hb2
          unfold upd
          rw [if_neg (by omega)]; exact hb2
      · rw [if_pos hn]
        have ht : t.len ≠ 0 := fun e => hn (room_zero.2 e)
        obtain ⟨b, hb, hc⟩ := a3 ht
        have hg : getBlk st r.a = .ok (b, t.cells) := getBlk_ok hb hc
        rw [hg]
        have hbn := fresh b hb
        refine .inr ⟨_, _, rfl, rfl, ?_⟩
        refine rel_set e1 e2 e3 e4 (inv_set
          (blk' := upd (upd st.block b none) st.next (some (Arr.resizeCells 0 (Str.roundLength m) t.cells)))
          (next' := st.next + 1) hi q3 ?_ (by omega) ?_ (.inr ⟨st.next, Nat.le_refl _, rfl⟩) (.inr ⟨rfl, ?_⟩) ?_)
        · refine ⟨rfl, ?_, fun hx => ⟨st.next, rfl, ?_⟩, fun b' hb' => ⟨?_, fun hx => absurd hx hm0⟩⟩
          · rw [List.length_take, List.length_append, List.length_replicate]; exact Nat.min_eq_left (by omega)
          · show upd _ _ _ _ = _
            rw [take_room]
            exact if_pos rfl
          · cases hb'; omega
        · intro b' hb' hl
          unfold upd
          rw [if_neg (by omega), if_neg (fun e => hb' (by rw [hb, e]))]
        · intro b' hb'
          rw [hb] at hb'; cases hb'
          unfold upd
          rw [if_neg hbn, if_pos rfl]
        · intro b' hb' hb2
          unfold upd
          rw [if_neg (by omega)]
          split
          · rfl
          · exact hb2

theorem put_match {st : State} {w : World} (h : Rel st w) (s i : Nat) (x : UInt8) :
    Match (put st s i x) (w.step (.put s i x)) := by
  obtain ⟨g, gv, e1, e2, e3, e4, hi⟩ := h
  unfold put
  rw [World.step]
  rcases get_cases e1 e2 s with ⟨q1, q2, _⟩ | ⟨r, t, q1, q2, q3⟩
  · rw [q1, q2]; exact .inl ⟨rfl, rfl⟩
  rw [q1, q2]
  obtain ⟨a1, a2, a3, a4⟩ := hi.str s r t q3
  by_cases ht : t.len = 0
  · have hg : getBlk st r.a = .ub := by
      cases hr : r.a with
      | none => rfl
      | some b => unfold getBlk; dsimp only; rw [(a4 b hr).2 ht]
    have hc : ¬ i < t.cells.length := by rw [a2, room_zero.2 ht]; omega
    refine .inl ⟨?_, ?_⟩
    · rw [Res.ok_bind, hg]; rfl
    · show (write t i x).bind _ = none
      unfold write
      rw [if_neg hc]; rfl
  · obtain ⟨b, hb, hc⟩ := a3 ht
    have hg : getBlk st r.a = .ok (b, t.cells) := getBlk_ok hb hc
    by_cases hl : i < t.cells.length
    · refine .inr ⟨{ st with block := upd st.block b (some (t.cells.set i x)) },
        w.set s (some { t with cells := t.cells.set i x }), ?_, ?_, ?_⟩
      · rw [Res.ok_bind, hg, Res.ok_bind, wr_ok hl]; rfl
      · show (write t i x).bind _ = _
        unfold write
        rw [if_pos hl]; rfl
      · have key : Rel ⟨upd st.block b (some (t.cells.set i x)), st.next, st.strs.set s (some r), st.views⟩
            (w.set s (some { t with cells := t.cells.set i x })) := by
          refine rel_set e1 e2 e3 e4 (inv_set hi q3 ?_ (Nat.le_refl _) ?_ (.inl rfl)
            (.inl ⟨rfl, rfl, List.length_set⟩) ?_)
          · refine ⟨a1, ?_, fun _ => ⟨b, hb, if_pos rfl⟩, fun b' hb' => ⟨(a4 b' hb').1, fun hx => absurd hx ht⟩⟩
            show (t.cells.set i x).length = _
            rw [List.length_set]; exact a2
          · intro b' hb' _
            exact if_neg (fun e => hb' (by rw [hb, e]))
          · intro b' _ hb'
            unfold upd
            rw [if_neg]
            · exact hb'
            · rintro rfl; rw [hc] at hb'; cases hb'
        have same : st.strs.set s (some r) = st.strs := by
          refine List.ext_getElem? fun k => ?_
          rw [List.getElem?_set]
          split
          · next e =>
            subst e
            have : st.strs[s]? = some (some r) := by rw [e1, List.getElem?_map, q3]; rfl
            rw [this]
            split
            · rfl
            · next hx => rw [List.getElem?_eq_none (by omega)] at this; cases this
          · rfl
        rw [same] at key
        exact key
    · refine .inl ⟨?_, ?_⟩
      · rw [Res.ok_bind, hg, Res.ok_bind]; unfold wr; rw [if_neg hl]; rfl
      · show (write t i x).bind _ = none
        unfold write
        rw [if_neg hl]; rfl

theorem get_set {w : World} {s : Nat} {t t' : Txt} (h : w.get s = some t) : (w.set s (some t')).get s = some t' := by
  unfold World.get World.set at *
  have hl : s < w.strs.length := by
    by_cases hl : s < w.strs.length
    · exact hl
    · rw [List.getElem?_eq_none (by omega)] at h; cases h
  dsimp only
  rw [List.getElem?_set, if_pos rfl, if_pos hl]
  rfl

theorem set_set (w : World) (s : Nat) (t t' : Option Txt) : (w.set s t).set s t' = w.set s t' := by
  unfold World.set
  dsimp only
  rw [List.set_set]

theorem push_match {st : State} {w : World} (h : Rel st w) (s : Nat) (x : UInt8) :
    Match (push st s x) (w.step (.push s x)) := by
  have h' := h
  obtain ⟨g, gv, e1, e2, e3, e4, hi⟩ := h'
  unfold push
  rcases get_cases e1 e2 s with ⟨q1, q2, _⟩ | ⟨r, t, q1, q2, q3⟩
  · refine .inl ⟨by rw [q1]; rfl, ?_⟩
    rw [World.step, q2]; rfl
  rw [q1, Res.ok_bind]
  have a1 : r.n = t.len := (hi.str s r t q3).1
  rw [a1]
  have hw : w.step (.resize s (t.len + 1)) = some (w.set s (some (newLen t (t.len + 1)))) := by
    rw [World.step, q2]; rfl
  rcases resize_match h s (t.len + 1) with ⟨_, f2⟩ | ⟨st1, w1, f1, f2, f3⟩
  · rw [hw] at f2; cases f2
  · rw [hw] at f2
    have f2 := Option.some.inj f2
    rw [f1, Res.ok_bind]
    have hlen : (newLen t (t.len + 1)).len = t.len + 1 := by unfold newLen; split <;> rfl
    have hget : w1.get s = some (newLen t (t.len + 1)) := by rw [← f2]; exact get_set q2
    obtain ⟨g1, gv1, b1, b2, b3, b4, bi⟩ := f3
    rcases get_cases b1 b2 s with ⟨_, p2, _⟩ | ⟨r1, t1, p1, p2, p3⟩
    · rw [hget] at p2; cases p2
    · rw [hget] at p2
      cases p2
      have hr1 : r1.n = t.len + 1 := by rw [(bi.str s r1 _ p3).1, hlen]
      rw [p1, Res.ok_bind, hr1, Nat.add_sub_cancel]
      have hp := put_match ⟨g1, gv1, b1, b2, b3, b4, bi⟩ s t.len x
      have hs : w1.step (.put s t.len x) = w.step (.push s x) := by
        rw [World.step, World.step, hget, q2]
        show (write (newLen t (t.len + 1)) t.len x).bind _ = (write (newLen t (t.len + 1)) t.len x).bind _
        cases write (newLen t (t.len + 1)) t.len x with
        | none => rfl
        | some t2 =>
          show some (w1.set s (some t2)) = some (w.set s (some t2))
          rw [← f2, set_set]
      rw [hs] at hp
      exact hp

theorem drop_match {st : State} {w : World} (h : Rel st w) (s : Nat) :
    Match (drop st s) (w.step (.drop s)) := by
  obtain ⟨g, gv, e1, e2, e3, e4, hi⟩ := h
  unfold drop
  rw [World.step]
  rcases get_cases e1 e2 s with ⟨q1, q2, _⟩ | ⟨r, t, q1, q2, q3⟩
  · rw [q1, q2]; exact .inl ⟨rfl, rfl⟩
  rw [q1, q2]
  obtain ⟨a1, a2, a3, a4⟩ := hi.str s r t q3
  show Match (if r.n ≠ 0 then _ else _) (some (w.set s none))
  have rel : ∀ blk', Inv blk' st.next (g.set s none) gv → Rel ⟨blk', st.next, st.strs.set s none, st.views⟩ (w.set s none) := by
    intro blk' hI
    refine ⟨_, gv, ?_, ?_, e3, e4, hI⟩
    · show st.strs.set s none = _
      rw [e1, List.map_set]; rfl
    · show w.strs.set s none = _
      rw [e2, List.map_set]; rfl
  by_cases ht : t.len = 0
  · rw [if_neg (by omega)]
    refine .inr ⟨_, _, rfl, rfl, rel st.block (inv_drop hi q3 (fun _ _ => rfl) fun b hb => (a4 b hb).2 ht)⟩
  · rw [if_pos (by omega)]
    obtain ⟨b, hb, hc⟩ := a3 ht
    have hg : getBlk st r.a = .ok (b, t.cells) := getBlk_ok hb hc
    rw [hg]
    refine .inr ⟨_, _, rfl, rfl, rel (upd st.block b none) (inv_drop hi q3 ?_ ?_)⟩
    · intro b' hb'
      exact if_neg (fun e => hb' (by rw [hb, e]))
    · intro b' hb'
      rw [hb] at hb'; cases hb'; exact if_pos rfl

theorem make_match {st : State} {w : World} (h : Rel st w) (l : Bytes) :
    Match (.ok (make st l)) (w.step (.make l)) := by
  obtain ⟨g, gv, e1, e2, e3, e4, hi⟩ := h
  refine .inr ⟨_, _, rfl, rfl, ?_⟩
  have hcl : ((l ++ List.replicate (room l.length) 0).take (room l.length)).length = room l.length := by
    rw [List.length_take, List.length_append, List.length_replicate]; exact Nat.min_eq_left (by omega)
  unfold make
  by_cases hl : l.length = 0
  · rw [if_pos hl]
    refine ⟨g ++ [some (⟨0, none⟩, ⟨l.length, (l ++ List.replicate (room l.length) 0).take (room l.length), 0⟩)], gv,
      by rw [e1, List.map_append]; rfl, by rw [e2, List.map_append]; rfl, e3, e4, ?_⟩
    exact inv_add hi ⟨hl.symm, hcl, fun h0 => absurd hl h0, fun b hb => by cases hb⟩ (Nat.le_refl _) (fun _ _ => rfl)
      (fun b hb => by cases hb)
  · rw [if_neg hl]
    refine ⟨g ++ [some (⟨l.length, some st.next⟩,
      ⟨l.length, (l ++ List.replicate (room l.length) 0).take (room l.length), 0⟩)], gv,
      by rw [e1, List.map_append]; rfl, by rw [e2, List.map_append]; rfl, e3, e4, ?_⟩
    refine inv_add hi ⟨rfl, hcl, fun _ => ⟨st.next, rfl, ?_⟩, fun b hb => ⟨?_, fun h0 => absurd h0 hl⟩⟩ (Nat.le_succ _) ?_ ?_
    · rw [take_room, List.take_of_length_le (show l.length ≤ room l.length from Str.le_roundLength _)]
      exact if_pos rfl
    · cases hb; exact Nat.lt_succ_self _
    · intro b hb
      exact if_neg (by omega)
    · intro b hb
      cases hb; exact Nat.le_refl _

theorem view_match {st : State} {w : World} (h : Rel st w) (s : Nat) :
    Match (view st s) (w.step (.view s)) := by
  obtain ⟨g, gv, e1, e2, e3, e4, hi⟩ := h
  unfold view
  rw [World.step]
  rcases get_cases e1 e2 s with ⟨q1, q2, _⟩ | ⟨r, t, q1, q2, q3⟩
  · rw [q1, q2]; exact .inl ⟨rfl, rfl⟩
  rw [q1, q2]
  obtain ⟨a1, a2, a3, a4⟩ := hi.str s r t q3
  refine .inr ⟨_, _, rfl, rfl, ?_⟩
  refine ⟨g, gv ++ [(⟨r.n, r.a.map fun b => (b, 0)⟩, ⟨s, t.age, 0, t.len⟩)], e1, e2,
    by rw [List.map_append, ← e3]; rfl, by rw [List.map_append, ← e4]; rfl, inv_look hi ⟨a1, fun h0 => ?_⟩⟩
  obtain ⟨b, hb, hc⟩ := a3 h0
  refine ⟨b, by rw [hb]; rfl, (a4 b hb).1, ?_, fun r' t' hr => ?_, fun hold => absurd rfl (hold r t q3)⟩
  · show s < g.length
    by_cases hl : s < g.length
    · exact hl
    · rw [List.getElem?_eq_none (by omega)] at q3; cases q3
  · dsimp only at hr
    rw [q3] at hr; cases hr
    refine ⟨Nat.le_refl _, fun _ => ⟨hb, ?_⟩⟩
    have := Str.le_roundLength t.len
    dsimp only
    rw [a2]; unfold room; omega

theorem part_match {st : State} {w : World} (h : Rel st w) (v : Nat) (b e : Int) :
    Match (part st v b e) (w.step (.part v b e)) := by
  obtain ⟨g, gv, e1, e2, e3, e4, hi⟩ := h
  unfold part rd
  rw [World.step]
  rw [e3, e4, List.getElem?_map, List.getElem?_map]
  cases hv : gv[v]? with
  | none => exact .inl ⟨rfl, rfl⟩
  | some p =>
    obtain ⟨a1, a2⟩ := hi.view p (List.mem_of_getElem? hv)
    show Match (if e ≤ b then _ else _) (some _)
    have rel : ∀ v' k', VOk st.block st.next g v' k' → Rel { st with views := gv.map Prod.fst ++ [v'] }
        { w with views := gv.map Prod.snd ++ [k'] } := fun v' k' hk =>
      ⟨g, gv ++ [(v', k')], e1, e2, by rw [List.map_append]; rfl, by rw [List.map_append]; rfl, inv_look hi hk⟩
    by_cases hbe : e ≤ b
    · rw [if_pos hbe]
      refine .inr ⟨_, _, rfl, rfl, rel _ _ ⟨?_, fun h0 => absurd ?_ h0⟩⟩
      · show 0 = min p.2.len e.toNat - min p.2.len b.toNat; omega
      · show min p.2.len e.toNat - min p.2.len b.toNat = 0; omega
    · rw [if_neg hbe]
      refine .inr ⟨_, _, rfl, rfl, rel _ _ ⟨?_, fun h0 => ?_⟩⟩
      · dsimp only; omega
      · dsimp only at h0
        obtain ⟨bl, c1, c2, c3, c4, c5⟩ := a2 (by omega)
        refine ⟨bl, ?_, c2, c3, fun r t hr => ⟨(c4 r t hr).1, fun ha => ⟨((c4 r t hr).2 ha).1, ?_⟩⟩, c5⟩
        · dsimp only
          rw [c1]
          show some (bl, p.2.start + (max (min (p.1.n : Int) b) 0).toNat) = _
          rw [show (max (min (p.1.n : Int) b) 0).toNat = min p.2.len b.toNat by omega]
        · have := ((c4 r t hr).2 ha).2
          dsimp only; omega

theorem step_match {st : State} {w : World} (h : Rel st w) (op : Op) : Match (step st op) (w.step op) := by
  cases op with
  | make l => exact make_match h l
  | view s => exact view_match h s
  | part v b e => exact part_match h v b e
  | put s i x => exact put_match h s i x
  | resize s m => exact resize_match h s m
  | push s x => exact push_match h s x
  | drop s => exact drop_match h s

theorem run_match {st : State} {w : World} (h : Rel st w) (ops : List Op) : Match (run st ops) (w.run ops) := by
  induction ops generalizing st w with
  | nil => exact .inr ⟨st, w, rfl, rfl, h⟩
  | cons op ops ih =>
    unfold run World.run
    rcases step_match h op with ⟨f1, f2⟩ | ⟨st1, w1, f1, f2, f3⟩
    · rw [f1, f2]; exact .inl ⟨rfl, rfl⟩
    · rw [f1, f2]; exact ih f3

theorem rel_init : Rel init start :=
  ⟨[], [], rfl, rfl, rfl, rfl, ⟨fun s r t h => (by cases h), fun s s' r t r' t' b h => (by cases h), fun p h => (by cases h)⟩⟩

theorem text_rel {st : State} {w : World} (h : Rel st w) (v : Nat) :
    text st v = Res.ofOption ((w.views[v]?).bind w.shows) := by
  obtain ⟨g, gv, e1, e2, e3, e4, hi⟩ := h
  unfold text rd
  rw [e3, e4, List.getElem?_map, List.getElem?_map]
  cases hv : gv[v]? with
  | none => rfl
  | some p =>
    obtain ⟨a1, a2⟩ := hi.view p (List.mem_of_getElem? hv)
    show (if p.1.n = 0 then _ else _) = Res.ofOption (w.shows p.2)
    unfold World.shows
    rw [a1]
    by_cases h0 : p.2.len = 0
    · rw [if_pos h0, if_pos h0]; rfl
    · rw [if_neg h0, if_neg h0]
      obtain ⟨b, c1, c2, c3, c4, c5⟩ := a2 h0
      rw [c1]
      dsimp only
      rcases get_cases e1 e2 p.2.str with ⟨_, q2, q3⟩ | ⟨r, t, _, q2, q3⟩
      · rw [q2, c5 fun r t hr => absurd hr (q3 r t)]; rfl
      · rw [q2]
        dsimp only
        by_cases ha : t.age = p.2.age
        · rw [if_pos ha]
          obtain ⟨d1, d2⟩ := (c4 r t q3).2 ha
          obtain ⟨_, s2, s3, _⟩ := hi.str _ r t q3
          have ht : t.len ≠ 0 := fun e => by rw [s2, room_zero.2 e] at d2; omega
          obtain ⟨b', hb', hc⟩ := s3 ht
          rw [d1] at hb'; cases hb'
          rw [hc]
          dsimp only
          rw [if_pos d2]; rfl
        · rw [if_neg ha, c5 fun r' t' hr => by rw [q3] at hr; cases hr; exact ha]; rfl

theorem chars_rel {st : State} {w : World} (h : Rel st w) (s : Nat) :
    chars st s = Res.ofOption ((w.get s).map fun t => t.cells.take t.len) := by
  obtain ⟨g, gv, e1, e2, e3, e4, hi⟩ := h
  unfold chars
  rcases get_cases e1 e2 s with ⟨q1, q2, _⟩ | ⟨r, t, q1, q2, q3⟩
  · rw [q1, q2]; rfl
  rw [q1, q2]
  obtain ⟨a1, a2, a3, a4⟩ := hi.str s r t q3
  show (if r.n = 0 then _ else _) = Res.ok (t.cells.take t.len)
  rw [a1]
  by_cases ht : t.len = 0
  · rw [if_pos ht, ht]; rfl
  · rw [if_neg ht]
    obtain ⟨b, hb, hc⟩ := a3 ht
    have hg : getBlk st r.a = .ok (b, t.cells) := getBlk_ok hb hc
    rw [hg, Res.ok_bind]
    dsimp only
    rw [if_pos (by rw [a2]; exact Str.le_roundLength _)]

theorem reach_rel {ops : List Op} {st : State} (h : run init ops = .ok st) : ∃ w, start.run ops = some w ∧ Rel st w := by
  rcases run_match rel_init ops with ⟨f1, _⟩ | ⟨st1, w, f1, f2, f3⟩
  · rw [h] at f1; cases f1
  · rw [h] at f1; cases f1; exact ⟨w, f2, f3⟩

theorem run_rel {st st' : State} {w : World} (h : Rel st w) {ops : List Op} (hr : run st ops = .ok st') :
    ∃ w', w.run ops = some w' ∧ Rel st' w' := by
  rcases run_match h ops with ⟨f1, _⟩ | ⟨st1, w', f1, f2, f3⟩
  · rw [hr] at f1; cases f1
  · rw [hr] at f1; cases f1; exact ⟨w', f2, f3⟩

theorem views_length {st : State} {w : World} (h : Rel st w) : st.views.length = w.views.length := by
  obtain ⟨g, gv, _, _, e3, e4, _⟩ := h
  rw [e3, e4, List.length_map, List.length_map]

theorem get_set_ne {w : World} {s s' : Nat} (t : Option Txt) (h : s' ≠ s) : (w.set s' t).get s = w.get s := by
  unfold World.get World.set
  dsimp only
  rw [List.getElem?_set_ne h]

/-- The operation does not change the length of the string `s` and does not destroy it. -/
def Keeps (s : Nat) : Op → Prop
  | .resize s' _ => s' ≠ s
  | .push s' _ => s' ≠ s
  | .drop s' => s' ≠ s
  | _ => True

theorem keeps_step {w w' : World} {op : Op} {s : Nat} {t : Txt} {v : Nat} {k : Look} (hk : Keeps s op)
    (ht : w.get s = some t) (hv : w.views[v]? = some k) (h : w.step op = some w') :
    (∃ t', w'.get s = some t' ∧ t'.age = t.age ∧ t'.len = t.len) ∧ w'.views[v]? = some k := by
  have hvl : v < w.views.length := by
    by_cases hl : v < w.views.length
    · exact hl
    · rw [List.getElem?_eq_none (by omega)] at hv; cases hv
  cases op with
  | make l =>
    rw [World.step] at h
    cases h
    refine ⟨⟨t, ?_, rfl, rfl⟩, hv⟩
    have hsl : s < w.strs.length := by
      by_cases hl : s < w.strs.length
      · exact hl
      · unfold World.get at ht; rw [List.getElem?_eq_none (by omega)] at ht; cases ht
    unfold World.get at *
    dsimp only
    rw [List.getElem?_append_left hsl]; exact ht
  | view s' =>
    rw [World.step] at h
    cases hs : w.get s' with
    | none => rw [hs] at h; cases h
    | some t' =>
      rw [hs] at h; cases h
      exact ⟨⟨t, ht, rfl, rfl⟩, (List.getElem?_append_left hvl).trans hv⟩
  | part v' b e =>
    rw [World.step] at h
    cases hs : w.views[v']? with
    | none => rw [hs] at h; cases h
    | some k' =>
      rw [hs] at h; cases h
      exact ⟨⟨t, ht, rfl, rfl⟩, (List.getElem?_append_left hvl).trans hv⟩
  | put s' i x =>
    rw [World.step] at h
    cases hs : w.get s' with
    | none => rw [hs] at h; cases h
    | some t' =>
      rw [hs] at h
      replace h : (write t' i x).bind (fun t => some (w.set s' (some t))) = some w' := h
      unfold write at h
      by_cases hi : i < t'.cells.length
      · rw [if_pos hi] at h; cases h
        refine ⟨?_, hv⟩
        by_cases e : s' = s
        · subst e
          rw [ht] at hs; cases hs
          exact ⟨_, get_set ht, rfl, rfl⟩
        · exact ⟨t, by rw [get_set_ne _ e]; exact ht, rfl, rfl⟩
      · rw [if_neg hi] at h; cases h
  | resize s' m =>
    rw [World.step] at h
    cases hs : w.get s' with
    | none => rw [hs] at h; cases h
    | some t' =>
      rw [hs] at h; cases h
      exact ⟨⟨t, by rw [get_set_ne _ hk]; exact ht, rfl, rfl⟩, hv⟩
  | push s' x =>
    rw [World.step] at h
    cases hs : w.get s' with
    | none => rw [hs] at h; cases h
    | some t' =>
      rw [hs] at h
      replace h : (write (newLen t' (t'.len + 1)) t'.len x).bind (fun t => some (w.set s' (some t))) = some w' := h
      cases hw : write (newLen t' (t'.len + 1)) t'.len x with
      | none => rw [hw] at h; cases h
      | some t2 =>
        rw [hw] at h; cases h
        exact ⟨⟨t, by rw [get_set_ne _ hk]; exact ht, rfl, rfl⟩, hv⟩
  | drop s' =>
    rw [World.step] at h
    cases hs : w.get s' with
    | none => rw [hs] at h; cases h
    | some t' =>
      rw [hs] at h; cases h
      exact ⟨⟨t, by rw [get_set_ne _ hk]; exact ht, rfl, rfl⟩, hv⟩

theorem keeps_run {s v : Nat} {k : Look} : ∀ (ops : List Op) {w w' : World} {t : Txt}, (∀ op ∈ ops, Keeps s op) →
    w.get s = some t → w.views[v]? = some k → w.run ops = some w' →
    (∃ t', w'.get s = some t' ∧ t'.age = t.age ∧ t'.len = t.len) ∧ w'.views[v]? = some k
  | [], w, w', t, _, ht, hv, h => by
    cases h; exact ⟨⟨t, ht, rfl, rfl⟩, hv⟩
  | op :: ops, w, w', t, hk, ht, hv, h => by
    rw [World.run] at h
    cases hs : w.step op with
    | none => rw [hs] at h; cases h
    | some w1 =>
      rw [hs] at h
      obtain ⟨⟨t1, a1, a2, a3⟩, a4⟩ := keeps_step (hk op (.head _)) ht hv hs
      obtain ⟨⟨t2, b1, b2, b3⟩, b4⟩ := keeps_run ops (fun o ho => hk o (.tail _ ho)) a1 a4 h
      exact ⟨⟨t2, b1, by omega, by omega⟩, b4⟩

theorem view_step {w w' : World} {s : Nat} (h : w.step (.view s) = some w') :
    ∃ t, w.get s = some t ∧ w' = { w with views := w.views ++ [⟨s, t.age, 0, t.len⟩] } := by
  rw [World.step] at h
  cases hs : w.get s with
  | none => rw [hs] at h; cases h
  | some t => rw [hs] at h; cases h; exact ⟨t, rfl, rfl⟩

theorem shows_whole {w : World} {s : Nat} {t : Txt} {n : Nat} (ht : w.get s = some t) :
    w.shows ⟨s, t.age, 0, n⟩ = some (t.cells.take n) := by
  unfold World.shows
  dsimp only
  by_cases h0 : n = 0
  · rw [if_pos h0, h0]; rfl
  · rw [if_neg h0, ht]
    dsimp only
    rw [if_pos rfl]; rfl

theorem pow2up_shape (n i : Nat) (hi : 0 < i) : ∃ k, pow2up n i = i * 2 ^ k ∧ (k = 0 ∨ pow2up n i < 2 * n) := by
  induction hd : n - i using Nat.strongRecOn generalizing i with
  | ind d ih =>
    rw [pow2up]
    by_cases h : n > i ∧ 0 < i
    · rw [dif_pos h]
      obtain ⟨k, e, hk⟩ := ih (n - i * 2) (by omega) (i * 2) (by omega) rfl
      refine ⟨k + 1, by rw [e, Nat.pow_succ, Nat.mul_assoc, Nat.mul_comm 2], .inr ?_⟩
      rcases hk with hk | hk
      · subst hk; rw [e]; omega
      · exact hk
    · rw [dif_neg h]
      exact ⟨0, by omega, .inl rfl⟩

/-! ## C167 -/

/-- The operations are defined exactly if the specification says so, and then every view shows what the specification
says: the characters that are now in the places where it looks, if the string still exists and its room was not changed
since the view was made; otherwise it must not be used, except if it is empty. -/
theorem C167_exact (ops : List Op) :
    (run init ops = .ub ∧ start.run ops = none) ∨
    ∃ st w, run init ops = .ok st ∧ start.run ops = some w ∧ st.views.length = w.views.length ∧
      (∀ v, text st v = Res.ofOption ((w.views[v]?).bind w.shows)) ∧
      ∀ s, chars st s = Res.ofOption ((w.get s).map fun t => t.cells.take t.len) := by
  rcases run_match rel_init ops with h | ⟨st, w, f1, f2, f3⟩
  · exact .inl h
  · exact .inr ⟨st, w, f1, f2, views_length f3, text_rel f3, chars_rel f3⟩

/-- The room of a string: the next multiple of four up to 20, and then the next number among 32, 64, 128, ... -/
theorem C167_room (n : Nat) :
    (n ≤ 20 → room n = (n + 3) / 4 * 4) ∧
    (20 < n → n ≤ room n ∧ ∃ k, room n = 32 * 2 ^ k ∧ (k = 0 ∨ room n < 2 * n)) := by
  constructor
  · intro h
    unfold room Str.roundLength
    dsimp only
    by_cases hh : (n + 3) / 4 * 4 < 24
    · rw [if_pos hh]
    · omega
  · intro h
    refine ⟨Str.le_roundLength n, ?_⟩
    unfold room Str.roundLength
    dsimp only
    rw [if_neg (by omega)]
    obtain ⟨k, e, hk⟩ := pow2up_shape ((n + 3) / 4 * 4) 32 (by omega)
    refine ⟨k, e, ?_⟩
    cases k with
    | zero => exact .inl rfl
    | succ k =>
      refine .inr ?_
      rcases hk with hk | hk
      · cases hk
      · rw [e, Nat.pow_succ] at hk ⊢
        generalize 2 ^ k = x at hk ⊢
        omega

/-- The lengths at which one more character needs more room. -/
def Full (n : Nat) : Prop := (n ≤ 20 ∧ n % 4 = 0) ∨ ∃ k, n = 32 * 2 ^ k

/-- One more character needs more room exactly at the lengths 0, 4, 8, 12, 16, 20, 32, 64, 128, ... -/
theorem C167_full (n : Nat) : room (n + 1) ≠ room n ↔ Full n := by
  have h1 := C167_room n
  have h2 := C167_room (n + 1)
  by_cases hs : n < 20
  · rw [h1.1 (by omega), h2.1 (by omega)]
    constructor
    · intro h; exact .inl ⟨by omega, by omega⟩
    · rintro (⟨_, h⟩ | ⟨k, h⟩)
      · omega
      · have := Nat.two_pow_pos k; omega
  · obtain ⟨b1, j, b2, b3⟩ := h2.2 (by omega)
    by_cases h20 : n = 20
    · subst h20
      rw [h1.1 (by omega)]
      exact ⟨fun _ => .inl ⟨by omega, rfl⟩, fun _ => by omega⟩
    · obtain ⟨a1, i, a2, a3⟩ := h1.2 (by omega)
      constructor
      · intro hne
        refine .inr ⟨i, ?_⟩
        by_cases e : n = room n
        · rw [← a2]; exact e
        · exfalso
          rcases Nat.lt_trichotomy i j with hij | hij | hij
          · have : 2 ^ (i + 1) ≤ 2 ^ j := Nat.pow_le_pow_right (by omega) (by omega)
            rw [Nat.pow_succ] at this
            omega
          · rw [a2, b2, hij] at hne; exact hne rfl
          · have : 2 ^ (j + 1) ≤ 2 ^ i := Nat.pow_le_pow_right (by omega) (by omega)
            rw [Nat.pow_succ] at this
            omega
      · rintro (⟨h, _⟩ | ⟨k, h⟩)
        · omega
        · intro e
          rcases Nat.lt_trichotomy i k with hik | hik | hik
          · have : 2 ^ (i + 1) ≤ 2 ^ k := Nat.pow_le_pow_right (by omega) (by omega)
            rw [Nat.pow_succ] at this
            omega
          · subst hik; omega
          · have : 2 ^ (k + 1) ≤ 2 ^ i := Nat.pow_le_pow_right (by omega) (by omega)
            rw [Nat.pow_succ] at this
            omega

example : Full 4 ∧ ¬ Full 5 ∧ Full 64 := by
  refine ⟨.inl (by decide), ?_, .inr ⟨1, rfl⟩⟩
  rw [← C167_full]; unfold room Str.roundLength; decide

/-- As long as a string exists and its length is not changed, a view of it shows the characters that the string has at
the time when the view is read, whatever happens to other strings and to the characters. -/
theorem C167_steady {ops more : List Op} {st st' : State} {s : Nat} (h : run init ops = .ok st)
    (h' : run st (.view s :: more) = .ok st') (hk : ∀ op ∈ more, Keeps s op) :
    ∃ l, chars st' s = .ok l ∧ text st' st.views.length = .ok l := by
  obtain ⟨w, _, hR⟩ := reach_rel h
  obtain ⟨w', hw', hR'⟩ := run_rel hR h'
  rw [World.run] at hw'
  cases hs : w.step (.view s) with
  | none => rw [hs] at hw'; cases hw'
  | some w1 =>
    rw [hs] at hw'
    obtain ⟨t, ht, e⟩ := view_step hs
    have hv : w1.views[st.views.length]? = some ⟨s, t.age, 0, t.len⟩ := by
      rw [e, views_length hR]
      exact List.getElem?_concat_length
    obtain ⟨⟨t', a1, a2, a3⟩, a4⟩ := keeps_run more hk (show w1.get s = some t by rw [e]; exact ht) hv hw'
    refine ⟨t'.cells.take t'.len, ?_, ?_⟩
    · rw [chars_rel hR', a1]; rfl
    · rw [text_rel hR', a4, ← a2, ← a3]
      show Res.ofOption (w'.shows _) = _
      rw [shows_whole a1]; rfl

theorem two_steps {st st' : State} {w : World} (hR : Rel st w) {s : Nat} {op : Op}
    (h : run st [.view s, op] = .ok st') :
    ∃ t w', w.get s = some t ∧
      ({ w with views := w.views ++ [⟨s, t.age, 0, t.len⟩] } : World).step op = some w' ∧ Rel st' w' := by
  obtain ⟨w', hw', hR'⟩ := run_rel hR h
  rw [World.run] at hw'
  cases hs : w.step (.view s) with
  | none => rw [hs] at hw'; cases hw'
  | some w1 =>
    rw [hs] at hw'
    obtain ⟨t, ht, e⟩ := view_step hs
    replace hw' : w1.run [op] = some w' := hw'
    rw [World.run] at hw'
    cases ho : w1.step op with
    | none => rw [ho] at hw'; cases hw'
    | some w2 =>
      rw [ho] at hw'
      cases hw'
      exact ⟨t, _, ht, by rw [← e]; exact ho, hR'⟩

theorem chars_length {st : State} {w : World} (hR : Rel st w) {s : Nat} {t : Txt} (ht : w.get s = some t) {l : Bytes}
    (hl : chars st s = .ok l) : t.len = l.length ∧ l = t.cells.take t.len ∧ t.cells.length = room t.len := by
  have hc := chars_rel hR s
  rw [hl, ht] at hc
  have hc := Res.ok.inj hc
  obtain ⟨g, gv, e1, e2, _, _, hi⟩ := hR
  rcases get_cases e1 e2 s with ⟨_, q2, _⟩ | ⟨r, t', _, q2, q3⟩
  · rw [ht] at q2; cases q2
  · rw [ht] at q2; cases q2
    have h2 := (hi.str s r t q3).2.1
    refine ⟨?_, hc, h2⟩
    rw [hc, List.length_take, h2]
    exact (Nat.min_eq_left (Str.le_roundLength _)).symm

/-- After one more character was appended to the string, a view that was made before may be used exactly if the string
was empty or its length was none of 4, 8, 12, 16, 20, 32, 64, 128, ...; then it shows what it showed before. -/
theorem C167_append {ops : List Op} {st st' : State} {s : Nat} {x : UInt8} {l : Bytes} (h : run init ops = .ok st)
    (hl : chars st s = .ok l) (h' : run st [.view s, .push s x] = .ok st') :
    (l = [] ∨ ¬ Full l.length → text st' st.views.length = .ok l) ∧
    (l ≠ [] ∧ Full l.length → text st' st.views.length = .ub) := by
  obtain ⟨w, _, hR⟩ := reach_rel h
  obtain ⟨t, w', ht, hw, hR'⟩ := two_steps hR h'
  obtain ⟨c1, c2, c3⟩ := chars_length hR ht hl
  rw [World.step] at hw
  have hg : ({ w with views := w.views ++ [⟨s, t.age, 0, t.len⟩] } : World).get s = some t := ht
  rw [hg] at hw
  replace hw : (write (newLen t (t.len + 1)) t.len x).bind (fun t2 =>
    some (({ w with views := w.views ++ [⟨s, t.age, 0, t.len⟩] } : World).set s (some t2))) = some w' := hw
  unfold write at hw
  by_cases hi : t.len < (newLen t (t.len + 1)).cells.length
  · rw [if_pos hi] at hw
    have hw := (Option.some.inj hw).symm
    have hv : w'.views[st.views.length]? = some ⟨s, t.age, 0, t.len⟩ := by
      rw [hw, views_length hR]
      exact List.getElem?_concat_length
    have hg' := get_set (t' := { newLen t (t.len + 1) with
      cells := (newLen t (t.len + 1)).cells.set t.len x }) hg
    rw [← hw] at hg'
    rw [text_rel hR', hv]
    show (_ → Res.ofOption (w'.shows _) = _) ∧ (_ → Res.ofOption (w'.shows _) = _)
    unfold World.shows
    dsimp only
    rw [hg']
    dsimp only
    by_cases h0 : t.len = 0
    · have : l = [] := List.length_eq_zero_iff.1 (by omega)
      rw [if_pos h0, this]
      exact ⟨fun _ => rfl, fun h => absurd rfl h.1⟩
    · rw [if_neg h0]
      have hne : l ≠ [] := fun e => h0 (by rw [c1, e]; rfl)
      rw [← C167_full, ← c1]
      unfold newLen
      by_cases hroom : room (t.len + 1) = room t.len
      · rw [if_pos hroom]
        dsimp only
        rw [if_pos rfl]
        refine ⟨fun _ => ?_, fun h => absurd hroom h.2⟩
        rw [c2]
        show Res.ok _ = _
        rw [List.drop_zero, List.take_set_of_le (Nat.le_refl _)]
      · rw [if_neg hroom]
        dsimp only
        rw [if_neg (by omega)]
        refine ⟨fun h => ?_, fun _ => rfl⟩
        rcases h with h | h
        · exact absurd h hne
        · exact absurd hroom h
  · rw [if_neg hi] at hw; cases hw

/-- After the string was destroyed, a view of it may be used exactly if it is empty. -/
theorem C167_destroyed {ops : List Op} {st st' : State} {s : Nat} {l : Bytes} (h : run init ops = .ok st)
    (hl : chars st s = .ok l) (h' : run st [.view s, .drop s] = .ok st') :
    text st' st.views.length = if l = [] then .ok [] else .ub := by
  obtain ⟨w, _, hR⟩ := reach_rel h
  obtain ⟨t, w', ht, hw, hR'⟩ := two_steps hR h'
  obtain ⟨c1, c2, c3⟩ := chars_length hR ht hl
  rw [World.step] at hw
  have hg : ({ w with views := w.views ++ [⟨s, t.age, 0, t.len⟩] } : World).get s = some t := ht
  rw [hg] at hw
  have hw := (Option.some.inj hw).symm
  have hv : w'.views[st.views.length]? = some ⟨s, t.age, 0, t.len⟩ := by
    rw [hw, views_length hR]
    exact List.getElem?_concat_length
  have hg' : w'.get s = none := by
    rw [hw]
    unfold World.get World.set
    dsimp only
    rw [List.getElem?_set, if_pos rfl]
    split <;> rfl
  rw [text_rel hR', hv]
  show Res.ofOption (w'.shows _) = _
  unfold World.shows
  dsimp only
  rw [hg']
  by_cases h0 : t.len = 0
  · rw [if_pos h0, if_pos (List.length_eq_zero_iff.1 (by omega))]; rfl
  · rw [if_neg h0, if_neg (fun e => h0 (by rw [c1, e]; rfl))]; rfl

/-- After the string was made shorter with the same room, the view still shows the characters that were removed. -/
theorem C167_shorter_violated {ops : List Op} {st st' : State} {s m : Nat} {l : Bytes} (h : run init ops = .ok st)
    (hl : chars st s = .ok l) (h' : run st [.view s, .resize s m] = .ok st') (hm : m < l.length)
    (hroom : room m = room l.length) : text st' st.views.length = .ok l ∧ chars st' s = .ok (l.take m) := by
  obtain ⟨w, _, hR⟩ := reach_rel h
  obtain ⟨t, w', ht, hw, hR'⟩ := two_steps hR h'
  obtain ⟨c1, c2, c3⟩ := chars_length hR ht hl
  rw [World.step] at hw
  have hg : ({ w with views := w.views ++ [⟨s, t.age, 0, t.len⟩] } : World).get s = some t := ht
  rw [hg] at hw
  have hw := (Option.some.inj hw).symm
  have hv : w'.views[st.views.length]? = some ⟨s, t.age, 0, t.len⟩ := by
    rw [hw, views_length hR]
    exact List.getElem?_concat_length
  have hg' := get_set (t' := newLen t m) hg
  rw [← hw] at hg'
  have hn : newLen t m = { t with len := m } := by
    unfold newLen; rw [if_pos (by rw [c1]; exact hroom)]
  rw [hn] at hg'
  constructor
  · rw [text_rel hR', hv]
    show Res.ofOption (w'.shows ⟨s, ({ t with len := m } : Txt).age, 0, t.len⟩) = _
    rw [shows_whole hg', c2]; rfl
  · rw [chars_rel hR', hg', c2, List.take_take, Nat.min_eq_left (by omega)]; rfl

/-- A string of 4, 8, 12, 16, 20, 32, 64, ... characters: appending one character succeeds, and the view which was made
before must not be used any more. -/
theorem C167_append_violated (l : Bytes) (x : UInt8) (hl : l ≠ []) (hf : Full l.length) :
    ∃ st, run init [.make l, .view 0, .push 0 x] = .ok st ∧ chars st 0 = .ok (l ++ [x]) ∧ text st 0 = .ub := by
  have hle : ∀ n, n ≤ room n := Str.le_roundLength
  have hne : room (l.length + 1) ≠ room l.length := (C167_full _).2 hf
  have hlt : l.length < room (l.length + 1) := hle _
  have hlr := hle l.length
  have key : ∀ c : Bytes, c.length = room l.length → c.take l.length = l →
      ∃ w : World, (⟨[some ⟨l.length, c, 0⟩], []⟩ : World).run [.view 0, .push 0 x] = some w ∧
        ((w.get 0).map fun t => t.cells.take t.len) = some (l ++ [x]) ∧ (w.views[0]?).bind w.shows = none := by
    intro c hc hcl
    let d := (c ++ List.replicate (room (l.length + 1)) 0).take (room (l.length + 1))
    have hd : l.length < d.length := by
      show l.length < List.length (List.take _ _)
      rw [List.length_take, List.length_append, List.length_replicate]; omega
    have hnl : newLen ⟨l.length, c, 0⟩ (l.length + 1) = ⟨l.length + 1, d, 1⟩ := by
      unfold newLen; rw [if_neg hne]
    refine ⟨⟨[some ⟨l.length + 1, d.set l.length x, 1⟩], [⟨0, 0, 0, l.length⟩]⟩, ?_, ?_, ?_⟩
    · show (write (newLen ⟨l.length, c, 0⟩ (l.length + 1)) l.length x).bind _ >>= _ = _
      rw [hnl]
      unfold write
      dsimp only
      rw [if_pos hd]
      rfl
    · show some ((d.set l.length x).take (l.length + 1)) = _
      have hdl : d.take l.length = l := by
        show List.take _ (List.take _ _) = _
        rw [List.take_take, Nat.min_eq_left (by omega), List.take_append_of_le_length (by omega), hcl]
      rw [List.take_add_one, List.take_set_of_le (Nat.le_refl _), hdl, List.getElem?_set, if_pos rfl, if_pos hd]
      rfl
    · show (if l.length = 0 then _ else _) = none
      rw [if_neg (fun e => hl (List.length_eq_zero_iff.1 e))]
      rfl
  obtain ⟨w, k1, k2, k3⟩ := key ((l ++ List.replicate (room l.length) 0).take (room l.length))
    (by rw [List.length_take, List.length_append, List.length_replicate]; omega)
    (by rw [List.take_take, Nat.min_eq_left hlr, List.take_left])
  have hw : start.run [.make l, .view 0, .push 0 x] = some w := k1
  rcases C167_exact [.make l, .view 0, .push 0 x] with ⟨_, f2⟩ | ⟨st, w', f1, f2, _, f4, f5⟩
  · rw [hw] at f2; cases f2
  · rw [hw] at f2; cases f2
    exact ⟨st, f1, by rw [f5, k2]; rfl, by rw [f4, k3]; rfl⟩

/-- Writing to the string is seen through the view, appending to it may make the view unusable. -/
example :
    (run init [.make (b!"abcd"), .view 0, .put 0 1 (c! 'x'), .make (b!"yz"), .push 1 (c! '!')]).bind
      (fun st => text st 0) = .ok (b!"axcd") ∧
    (run init [.make (b!"abcd"), .view 0, .push 0 (c! 'e')]).bind (fun st => text st 0) = .ub ∧
    (run init [.make (b!"abc"), .view 0, .part 0 1 9, .push 0 (c! 'd')]).bind (fun st => text st 1) = .ok (b!"bc") ∧
    (run init [.make (b!"abcd"), .view 0, .resize 0 2]).bind (fun st => text st 0) = .ok (b!"abcd") ∧
    (run init [.make (b!"abcd"), .view 0, .drop 0]).bind (fun st => text st 0) = .ub := by
  decide +kernel

end Lolly.ViewLifeProps
