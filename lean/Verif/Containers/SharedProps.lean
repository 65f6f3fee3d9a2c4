import Verif.Containers.Shared
import Verif.Containers.HashMapPatchLemmas

set_option autoImplicit false

/-!
# C152: values of hash maps that are changed in place

The specification is a program with values instead of handles: each variable, each key and the default has a value of its own,
and a statement changes the variable or key that it names. `C152_alone_partial` says that the code does this as long as
whatever is changed in place has a handle that occurs nowhere else, and `C152_copies_partial` that this is so if values are copied
whenever they are passed on and `h (k) << x` is used only after `h (k)= ...`. The violations are for every map.
-/

namespace Lolly.SharedProps

open Shared

variable {K α : Type} [DecidableEq K] {hash : K → BitVec 32}

/-! ## Specification -/

/-- Variables, keys and the default have values. -/
structure Values (K α : Type) where
  vars : Nat → Option (List α)
  keys : K → Option (List α)
  dflt : List α

/-- What `h[k]` is. -/
def Values.read (vs : Values K α) (k : K) : List α := (vs.keys k).getD vs.dflt

def Values.setVar (vs : Values K α) (v : Nat) (s : List α) : Values K α :=
  { vs with vars := fun w => if w = v then some s else vs.vars w }

def Values.setKey (vs : Values K α) (k : K) (s : Option (List α)) : Values K α :=
  { vs with keys := fun j => if j = k then s else vs.keys j }

/-- The meaning of a statement, `none` if a variable was not declared or a place does not exist. -/
def Values.step (vs : Values K α) : Stmt K α → Option (Values K α)
  | .fresh v s => some (vs.setVar v s)
  | .share v w => (vs.vars w).map (vs.setVar v)
  | .copy v w => (vs.vars w).map (vs.setVar v)
  | .append v x => (vs.vars v).map fun s => vs.setVar v (s ++ [x])
  | .extend v w => (vs.vars v).bind fun s => (vs.vars w).map fun t => vs.setVar v (s ++ t)
  | .write v i x => (vs.vars v).bind fun s => if i < s.length then some (vs.setVar v (s.set i x)) else none
  | .get v k => some (vs.setVar v (vs.read k))
  | .getCopy v k => some (vs.setVar v (vs.read k))
  | .put k v => (vs.vars v).map fun s => vs.setKey k (some s)
  | .putCopy k v => (vs.vars v).map fun s => vs.setKey k (some s)
  | .appendAt k x => some (vs.setKey k (some (vs.read k ++ [x])))
  | .look k => some (vs.setKey k (some (vs.read k)))
  | .reset k => some (vs.setKey k none)

def Values.run : Values K α → List (Stmt K α) → Option (Values K α)
  | vs, [] => some vs
  | vs, s :: l => (vs.step s).bind fun vs => Values.run vs l

/-- The map and the variables of the program show these values. -/
def Shows (hash : K → BitVec 32) (st : State K α) (vs : Values K α) : Prop :=
  (∀ v s, vs.vars v = some s → st.var v = .ok s) ∧ (∀ k, st.at hash k = .ok (vs.read k)) ∧
  ∀ k, st.map.contains hash k = .ok (vs.keys k).isSome

/-! ## Places and their handles -/

inductive Place (K : Type) where
  | var (v : Nat)
  | key (k : K)
  | dflt

def handle (st : State K α) : Place K → Option Nat
  | .var v => st.vars v
  | .key k => st.map.abs k
  | .dflt => some st.map.init

def value (vs : Values K α) : Place K → Option (List α)
  | .var v => vs.vars v
  | .key k => vs.keys k
  | .dflt => some vs.dflt

/-- The place exists and its handle is at no other place. -/
def Alone (st : State K α) (p : Place K) : Prop := ∃ a, handle st p = some a ∧ ∀ q, q ≠ p → handle st q ≠ some a

/-- What the statement changes in place has a handle that occurs nowhere else. -/
def Single (st : State K α) : Stmt K α → Prop
  | .append v _ => Alone st (.var v)
  | .extend v _ => Alone st (.var v)
  | .write v _ _ => Alone st (.var v)
  | .appendAt k _ => Alone st (.key k)
  | _ => True

/-- This holds at each statement of the program. -/
def Careful (hash : K → BitVec 32) : State K α → List (Stmt K α) → Prop
  | _, [] => True
  | st, s :: l => Single st s ∧ ∀ st', step hash st s = .ok st' → Careful hash st' l

/-- The places have the values. -/
structure Rel (hash : K → BitVec 32) (st : State K α) (vs : Values K α) : Prop where
  wf : st.map.WF hash
  val : ∀ p, match handle st p with
    | none => value vs p = none
    | some a => ∃ s, st.store[a]? = some s ∧ value vs p = some s

theorem Rel.have_ {st : State K α} {vs : Values K α} (r : Rel hash st vs) {p : Place K} {s : List α} (h : value vs p = some s) :
    ∃ a, handle st p = some a ∧ st.store[a]? = some s := by
  have := r.val p
  cases e : handle st p with
  | none => rw [e] at this; rw [this] at h; cases h
  | some a =>
    rw [e] at this
    obtain ⟨s', h1, h2⟩ := this
    rw [h] at h2
    cases h2
    exact ⟨a, rfl, h1⟩

theorem Rel.held {st : State K α} {vs : Values K α} (r : Rel hash st vs) {p : Place K} {a : Nat} (h : handle st p = some a) :
    ∃ s, st.store[a]? = some s ∧ value vs p = some s := by
  have := r.val p
  rw [h] at this
  exact this

theorem Rel.lost {st : State K α} {vs : Values K α} (r : Rel hash st vs) {p : Place K} (h : handle st p = none) :
    value vs p = none := by
  have := r.val p
  rw [h] at this
  exact this

/-- What `h[k]` finds. -/
theorem Rel.reads {st : State K α} {vs : Values K α} (r : Rel hash st vs) (k : K) :
    ∃ a, st.map.get hash k = .ok a ∧ st.store[a]? = some (vs.read k) := by
  rw [HashMap.get_spec r.wf]
  refine ⟨_, rfl, ?_⟩
  obtain ⟨d, h1, h2⟩ := r.held (p := .dflt) rfl
  cases e : st.map.abs k with
  | none =>
    have := r.lost (p := .key k) e
    simp only [value] at this h2
    rw [Values.read, this]
    simp only [Option.getD_none]
    rw [h1]; exact h2.symm
  | some a =>
    obtain ⟨s, h3, h4⟩ := r.held (p := .key k) e
    simp only [value] at h4
    rw [Values.read, h4]
    exact h3

theorem Rel.shows {st : State K α} {vs : Values K α} (r : Rel hash st vs) : Shows hash st vs := by
  refine ⟨fun v s h => ?_, fun k => ?_, fun k => ?_⟩
  · obtain ⟨a, h1, h2⟩ := r.have_ (p := .var v) h
    simp only [handle] at h1
    unfold State.var State.handle
    rw [h1]
    exact rd_eq_ok.2 h2
  · obtain ⟨a, h1, h2⟩ := r.reads k
    unfold State.at
    rw [h1, Res.ok_bind]
    exact rd_eq_ok.2 h2
  · rw [HashMap.contains_spec r.wf]
    congr 1
    cases e : st.map.abs k with
    | none =>
      have : vs.keys k = none := r.lost (p := .key k) e
      rw [this]; rfl
    | some a =>
      obtain ⟨s, _, h4⟩ := r.held (p := .key k) e
      have : vs.keys k = some s := h4
      rw [this]; rfl

/-- A new representation. -/
theorem Rel.make {st : State K α} {vs : Values K α} (r : Rel hash st vs) (s : List α) : Rel hash (st.make s).1 vs := by
  refine ⟨r.wf, fun p => ?_⟩
  have e : handle (st.make s).1 p = handle st p := by cases p <;> rfl
  rw [e]
  cases h : handle st p with
  | none => exact r.lost h
  | some a =>
    obtain ⟨t, h1, h2⟩ := r.held h
    refine ⟨t, ?_, h2⟩
    show (st.store ++ [s])[a]? = _
    rw [List.getElem?_append_left (List.getElem?_eq_some_iff.1 h1).1]
    exact h1

omit [DecidableEq K] in
theorem make_get (st : State K α) (s : List α) : (st.make s).1.store[(st.make s).2]? = some s := by
  simp [State.make]

/-- A variable gets a handle with this value. -/
theorem Rel.setVar {st : State K α} {vs : Values K α} (r : Rel hash st vs) (v : Nat) {a : Nat} {s : List α}
    (h : st.store[a]? = some s) : Rel hash (st.setVar v a) (vs.setVar v s) := by
  refine ⟨r.wf, fun p => ?_⟩
  cases p with
  | var w =>
    by_cases hw : w = v
    · subst hw
      simp only [handle, State.setVar, if_true, value, Values.setVar]
      exact ⟨s, h, rfl⟩
    · have := r.val (.var w)
      simp only [handle, State.setVar, value, Values.setVar, hw, if_false] at *
      exact this
  | key k => exact r.val (.key k)
  | dflt => exact r.val .dflt

/-- A key gets a handle with this value, or is removed. -/
theorem Rel.setKey {st : State K α} {vs : Values K α} (r : Rel hash st vs) (k : K) {m : HashMap K Nat} (w : m.WF hash)
    {a : Option Nat} (hm : m.abs = fun j => if j = k then a else st.map.abs j) (hi : m.init = st.map.init) {s : Option (List α)}
    (h : a.bind (st.store[·]?) = s) (ha : ∀ b, a = some b → b < st.store.length) :
    Rel hash { st with map := m } (vs.setKey k s) := by
  refine ⟨w, fun p => ?_⟩
  cases p with
  | var v => exact r.val (.var v)
  | key j =>
    by_cases hj : j = k
    · subst hj
      simp only [handle, hm, if_true, value, Values.setKey]
      cases a with
      | none => exact h.symm
      | some b =>
        have hb := ha b rfl
        simp only [Option.bind_some] at h
        exact ⟨st.store[b], List.getElem?_eq_getElem hb, by rw [← h, List.getElem?_eq_getElem hb]⟩
    · have := r.val (.key j)
      simp only [handle, hm, value, Values.setKey, hj, if_false] at *
      exact this
  | dflt =>
    have := r.val .dflt
    simp only [handle, hi, value, Values.setKey] at *
    exact this

/-- A representation is changed that is at one place only. -/
theorem Rel.change {st : State K α} {vs : Values K α} (r : Rel hash st vs) {p : Place K} {a : Nat} (h : handle st p = some a)
    (al : ∀ q, q ≠ p → handle st q ≠ some a) (s : List α) (vs' : Values K α) (hp : value vs' p = some s)
    (hq : ∀ q, q ≠ p → value vs' q = value vs q) : Rel hash { st with store := st.store.set a s } vs' := by
  refine ⟨r.wf, fun q => ?_⟩
  have e : handle { st with store := st.store.set a s } q = handle st q := by cases q <;> rfl
  rw [e]
  by_cases hqp : q = p
  · subst hqp
    rw [h]
    obtain ⟨t, h1, h2⟩ := r.held h
    exact ⟨s, by rw [List.getElem?_set_self (List.getElem?_eq_some_iff.1 h1).1], hp⟩
  · rw [hq q hqp]
    cases h' : handle st q with
    | none => exact r.lost h'
    | some b =>
      obtain ⟨t, h1, h2⟩ := r.held h'
      refine ⟨t, ?_, h2⟩
      show (st.store.set a s)[b]? = _
      rw [List.getElem?_set_ne (by rintro rfl; exact al q hqp h')]
      exact h1

omit [DecidableEq K] in
theorem value_setVar (vs : Values K α) (v : Nat) (s : List α) (q : Place K) (hq : q ≠ .var v) :
    value (vs.setVar v s) q = value vs q := by
  cases q with
  | var w =>
    have : w ≠ v := fun h => hq (by rw [h])
    simp [value, Values.setVar, this]
  | key k => rfl
  | dflt => rfl

theorem value_setKey (vs : Values K α) (k : K) (s : Option (List α)) (q : Place K) (hq : q ≠ .key k) :
    value (vs.setKey k s) q = value vs q := by
  cases q with
  | var w => rfl
  | key j =>
    have : j ≠ k := fun h => hq (by rw [h])
    simp [value, Values.setKey, this]
  | dflt => rfl

omit [DecidableEq K] in
theorem grow_ok {st : State K α} {a : Nat} {s : List α} (h : st.store[a]? = some s) (x : List α) :
    st.grow a x = .ok { st with store := st.store.set a (s ++ x) } := by
  unfold State.grow
  rw [rd_eq_ok.2 h, Res.ok_bind, wr_ok (List.getElem?_eq_some_iff.1 h).1, Res.ok_bind]

theorem Rel.lt {st : State K α} {vs : Values K α} (r : Rel hash st vs) {p : Place K} {a : Nat} (h : handle st p = some a) :
    a < st.store.length := by
  obtain ⟨s, h1, _⟩ := r.held h
  exact (List.getElem?_eq_some_iff.1 h1).1

theorem Rel.next {st : State K α} {vs vs' : Values K α} (r : Rel hash st vs) (s : Stmt K α) (sg : Single st s)
    (h : vs.step s = some vs') : ∃ st', step hash st s = .ok st' ∧ Rel hash st' vs' := by
  have hv : ∀ {v : Nat} {t : List α}, vs.vars v = some t → ∃ a, st.handle v = .ok a ∧ st.store[a]? = some t ∧
      handle st (.var v : Place K) = some a := fun {v t} h => by
    obtain ⟨a, h1, h2⟩ := r.have_ (p := .var v) h
    refine ⟨a, ?_, h2, h1⟩
    simp only [handle] at h1
    unfold State.handle
    rw [h1]; rfl
  cases s with
  | fresh v t =>
    cases h
    exact ⟨_, rfl, (r.make t).setVar v (make_get st t)⟩
  | share v w =>
    obtain ⟨t, ht, rfl⟩ := Option.map_eq_some_iff.1 h
    obtain ⟨a, h1, h2, _⟩ := hv ht
    exact ⟨_, by simp only [Shared.step, h1, Res.ok_bind], r.setVar v h2⟩
  | copy v w =>
    obtain ⟨t, ht, rfl⟩ := Option.map_eq_some_iff.1 h
    obtain ⟨a, h1, h2, _⟩ := hv ht
    exact ⟨_, by simp only [Shared.step, h1, Res.ok_bind, rd_eq_ok.2 h2], (r.make t).setVar v (make_get st t)⟩
  | append v x =>
    obtain ⟨t, ht, rfl⟩ := Option.map_eq_some_iff.1 h
    obtain ⟨a, h1, h2, h3⟩ := hv ht
    obtain ⟨a', h4, h5⟩ := sg
    rw [h3] at h4
    cases h4
    exact ⟨_, by simp only [Shared.step, h1, Res.ok_bind]; exact grow_ok h2 [x],
      r.change h3 h5 (t ++ [x]) (vs.setVar v (t ++ [x])) (by simp [value, Values.setVar]) (value_setVar vs v _)⟩
  | extend v w =>
    obtain ⟨t, ht, h⟩ := Option.bind_eq_some_iff.1 h
    obtain ⟨u, hu, rfl⟩ := Option.map_eq_some_iff.1 h
    obtain ⟨a, h1, h2, h3⟩ := hv ht
    obtain ⟨b, g1, g2, g3⟩ := hv hu
    obtain ⟨a', h4, h5⟩ := sg
    rw [h3] at h4
    cases h4
    exact ⟨_, by simp only [Shared.step, h1, Res.ok_bind, g1, rd_eq_ok.2 g2]; exact grow_ok h2 u,
      r.change h3 h5 (t ++ u) (vs.setVar v (t ++ u)) (by simp [value, Values.setVar]) (value_setVar vs v _)⟩
  | write v i x =>
    obtain ⟨t, ht, h⟩ := Option.bind_eq_some_iff.1 h
    split at h
    case isFalse => cases h
    case isTrue hi =>
      cases h
      obtain ⟨a, h1, h2, h3⟩ := hv ht
      obtain ⟨a', h4, h5⟩ := sg
      rw [h3] at h4
      cases h4
      refine ⟨_, ?_, r.change h3 h5 (t.set i x) (vs.setVar v (t.set i x)) (by simp [value, Values.setVar]) (value_setVar vs v _)⟩
      simp only [Shared.step, h1, Res.ok_bind, State.poke]
      rw [rd_eq_ok.2 h2, Res.ok_bind, wr_ok hi, Res.ok_bind, wr_ok (List.getElem?_eq_some_iff.1 h2).1, Res.ok_bind]
  | get v k =>
    cases h
    obtain ⟨a, h1, h2⟩ := r.reads k
    exact ⟨_, by simp only [Shared.step, h1, Res.ok_bind], r.setVar v h2⟩
  | getCopy v k =>
    cases h
    obtain ⟨a, h1, h2⟩ := r.reads k
    exact ⟨_, by simp only [Shared.step, h1, Res.ok_bind, rd_eq_ok.2 h2], (r.make _).setVar v (make_get st _)⟩
  | put k v =>
    obtain ⟨t, ht, rfl⟩ := Option.map_eq_some_iff.1 h
    obtain ⟨a, h1, h2, h3⟩ := hv ht
    obtain ⟨m, e, w, ab, i, _⟩ := HashMap.set_spec r.wf k a
    exact ⟨_, by simp only [Shared.step, h1, Res.ok_bind, e], r.setKey k w ab i (by simpa using h2) (fun b hb => by
      cases hb; exact r.lt h3)⟩
  | putCopy k v =>
    obtain ⟨t, ht, rfl⟩ := Option.map_eq_some_iff.1 h
    obtain ⟨a, h1, h2, h3⟩ := hv ht
    have r' := r.make t
    obtain ⟨m, e, w, ab, i, _⟩ := HashMap.set_spec r'.wf k (st.make t).2
    exact ⟨_, by simp only [Shared.step, h1, Res.ok_bind, rd_eq_ok.2 h2, e], r'.setKey k w ab i
      (by simpa using make_get st t) (fun b hb => by cases hb; simp [State.make])⟩
  | appendAt k x =>
    cases h
    obtain ⟨a, h1, h2⟩ := sg
    have h1' : st.map.abs k = some a := h1
    obtain ⟨m, e, w, ab, i, _⟩ := HashMap.touch_spec r.wf k
    have hab : m.abs = st.map.abs := by
      rw [ab]; funext j
      by_cases hj : j = k
      · subst hj; simp [h1']
      · simp [hj]
    obtain ⟨s, h3, h4⟩ := r.held h1
    have h4' : vs.keys k = some s := h4
    have hh : ∀ q : Place K, handle { st with map := m } q = handle st q := by
      intro q
      cases q with
      | var v => rfl
      | key j => simp only [handle, hab]
      | dflt => simp only [handle, i]
    have r' : Rel hash { st with map := m } vs := ⟨w, fun q => by rw [hh q]; exact r.val q⟩
    refine ⟨_, ?_, r'.change (p := .key k) (a := a) (by rw [hh]; exact h1) (fun q hq => by rw [hh]; exact h2 q hq) (s ++ [x])
      (vs.setKey k (some (vs.read k ++ [x]))) (by simp [value, Values.setKey, Values.read, h4']) (value_setKey vs k _)⟩
    simp only [Shared.step, e, Res.ok_bind, HashMap.get_spec w, hab, h1', Option.getD_some]
    exact grow_ok (st := { st with map := m }) h3 [x]
  | look k =>
    cases h
    obtain ⟨m, e, w, ab, i, _⟩ := HashMap.touch_spec r.wf k
    obtain ⟨a, h1, h2⟩ := r.reads k
    rw [HashMap.get_spec r.wf] at h1
    cases h1
    exact ⟨_, by simp only [Shared.step, e, Res.ok_bind], r.setKey k w ab i (by simpa using h2) (fun b hb => by
      cases hb; exact (List.getElem?_eq_some_iff.1 h2).1)⟩
  | reset k =>
    cases h
    obtain ⟨m, e, w, ab, i, _⟩ := HashMap.reset_spec r.wf k
    exact ⟨_, by simp only [Shared.step, e, Res.ok_bind], r.setKey k w ab i rfl (fun b hb => by cases hb)⟩

theorem Rel.all : ∀ (l : List (Stmt K α)) {st : State K α} {vs vs' : Values K α}, Rel hash st vs → Careful hash st l →
    Values.run vs l = some vs' → ∃ st', run hash st l = .ok st' ∧ Rel hash st' vs'
  | [], st, vs, vs', r, _, h => by cases h; exact ⟨st, rfl, r⟩
  | s :: l, st, vs, vs', r, c, h => by
    obtain ⟨vs1, h1, h2⟩ := Option.bind_eq_some_iff.1 h
    obtain ⟨st1, e1, r1⟩ := r.next s c.1 h1
    obtain ⟨st2, e2, r2⟩ := Rel.all l r1 (c.2 st1 e1) h2
    exact ⟨st2, by rw [Shared.run, e1, Res.ok_bind, e2], r2⟩

theorem rel_start (d : List α) : Rel hash (start d : State K α) ⟨fun _ => none, fun _ => none, d⟩ := by
  refine ⟨HashMap.new_wf _ _ _ (Nat.le_refl _), fun p => ?_⟩
  cases p with
  | var v => rfl
  | key k => simp [handle, start, HashMap.new_abs, value]
  | dflt => exact ⟨d, rfl, rfl⟩

/-- C152 for programs in which whatever is changed in place has a handle that occurs nowhere else. -/
theorem C152_alone_partial (d : List α) (l : List (Stmt K α)) (c : Careful hash (start d) l) {vs : Values K α}
    (h : Values.run ⟨fun _ => none, fun _ => none, d⟩ l = some vs) :
    ∃ st, run hash (start d) l = .ok st ∧ Shows hash st vs := by
  obtain ⟨st, e, r⟩ := Rel.all l (rel_start d) c h
  exact ⟨st, e, r.shows⟩

/-! ## Programs that copy -/

/-- Values are copied when they are passed on, and `h (k) << x` comes after `h (k)= ...`; `own` are the keys for which this
happened already. -/
def Tidy : List K → List (Stmt K α) → Prop
  | _, [] => True
  | own, .fresh _ _ :: l => Tidy own l
  | own, .copy _ _ :: l => Tidy own l
  | own, .append _ _ :: l => Tidy own l
  | own, .extend _ _ :: l => Tidy own l
  | own, .write _ _ _ :: l => Tidy own l
  | own, .getCopy _ _ :: l => Tidy own l
  | own, .putCopy k _ :: l => Tidy (k :: own) l
  | own, .appendAt k _ :: l => k ∈ own ∧ Tidy own l
  | own, .look _ :: l => Tidy own l
  | own, .reset k :: l => Tidy (own.filter (· ≠ k)) l
  | _, .share _ _ :: _ => False
  | _, .get _ _ :: _ => False
  | _, .put _ _ :: _ => False

/-- Variables, the keys `own` and the default have different handles, and the other keys have the one of the default. -/
structure Apart (hash : K → BitVec 32) (own : List K) (st : State K α) : Prop where
  wf : st.map.WF hash
  lt : ∀ p a, handle st p = some a → a < st.store.length
  has : ∀ k ∈ own, (st.map.abs k).isSome
  vv : ∀ v w a, st.vars v = some a → st.vars w = some a → v = w
  vk : ∀ v k a, st.vars v = some a → st.map.abs k ≠ some a
  vd : ∀ v, st.vars v ≠ some st.map.init
  kk : ∀ k ∈ own, ∀ j a, st.map.abs k = some a → st.map.abs j = some a → j = k
  kd : ∀ k ∈ own, st.map.abs k ≠ some st.map.init
  ot : ∀ k, k ∉ own → ∀ a, st.map.abs k = some a → a = st.map.init

theorem Apart.aloneVar {own : List K} {st : State K α} (w : Apart hash own st) {v a : Nat} (h : st.vars v = some a) :
    Alone st (.var v) := by
  refine ⟨a, h, fun q hq => ?_⟩
  cases q with
  | var u => exact fun g => hq (by rw [w.vv _ _ _ h g])
  | key k => exact w.vk v k a h
  | dflt => exact fun g => w.vd v (h.trans g.symm)

theorem Apart.aloneKey {own : List K} {st : State K α} (w : Apart hash own st) {k : K} (hk : k ∈ own) : Alone st (.key k) := by
  obtain ⟨a, h⟩ := Option.isSome_iff_exists.1 (w.has k hk)
  refine ⟨a, h, fun q hq => ?_⟩
  cases q with
  | var u => exact fun g => w.vk u k a g h
  | key j => exact fun g => hq (by rw [w.kk k hk j a h g])
  | dflt => exact fun g => w.kd k hk (h.trans g.symm)

/-- The handles are the same. -/
theorem Apart.store {own : List K} {st : State K α} (w : Apart hash own st) {t : List (List α)} (h : st.store.length ≤ t.length) :
    Apart hash own { st with store := t } where
  wf := w.wf
  lt := fun p a e => Nat.lt_of_lt_of_le (w.lt p a (by cases p <;> exact e)) h
  has := w.has
  vv := w.vv
  vk := w.vk
  vd := w.vd
  kk := w.kk
  kd := w.kd
  ot := w.ot

/-- A variable gets a handle that was nowhere. -/
theorem Apart.newVar {own : List K} {st : State K α} (w : Apart hash own st) (v : Nat) (s : List α) :
    Apart hash own ((st.make s).1.setVar v (st.make s).2) where
  wf := w.wf
  lt := fun p a e => by
    show a < (st.store ++ [s]).length
    rw [List.length_append, List.length_singleton]
    cases p with
    | var u =>
      simp only [handle, State.setVar, State.make] at e
      split at e
      · cases e; omega
      · exact Nat.lt_succ_of_lt (w.lt (.var u) a e)
    | key k => exact Nat.lt_succ_of_lt (w.lt (.key k) a e)
    | dflt => exact Nat.lt_succ_of_lt (w.lt .dflt a e)
  has := w.has
  vv := fun u x a e e' => by
    have l : ∀ u, st.vars u = some st.store.length → False := fun u h => Nat.lt_irrefl _ (w.lt (.var u) _ h)
    simp only [State.setVar, State.make] at e e'
    split at e
    · cases e
      split at e'
      · omega
      · exact (l _ e').elim
    · split at e'
      · cases e'; exact (l _ e).elim
      · exact w.vv _ _ _ e e'
  vk := fun u k a e => by
    simp only [State.setVar, State.make] at e
    split at e
    · cases e; exact fun h => Nat.lt_irrefl _ (w.lt (.key k) _ h)
    · exact w.vk u k a e
  vd := fun u e => by
    simp only [State.setVar, State.make] at e
    split at e
    · have := w.lt .dflt _ rfl
      have e := Option.some.inj e
      omega
    · exact w.vd u e
  kk := w.kk
  kd := w.kd
  ot := w.ot

/-- A key gets a handle that was nowhere. -/
theorem Apart.newKey {own : List K} {st : State K α} (w : Apart hash own st) (k : K) (s : List α) {m : HashMap K Nat}
    (wf : m.WF hash) (hm : m.abs = fun j => if j = k then some st.store.length else st.map.abs j) (hi : m.init = st.map.init) :
    Apart hash (k :: own) { (st.make s).1 with map := m } where
  wf := wf
  lt := fun p a e => by
    show a < (st.store ++ [s]).length
    rw [List.length_append, List.length_singleton]
    cases p with
    | var u => exact Nat.lt_succ_of_lt (w.lt (.var u) a e)
    | key j =>
      simp only [handle, hm] at e
      split at e
      · cases e; omega
      · exact Nat.lt_succ_of_lt (w.lt (.key j) a e)
    | dflt =>
      simp only [handle, hi] at e
      exact Nat.lt_succ_of_lt (w.lt .dflt a e)
  has := fun j hj => by
    simp only [hm]
    split
    · rfl
    · rename_i h
      exact w.has j ((List.mem_cons.1 hj).resolve_left h)
  vv := w.vv
  vk := fun u j a e h => by
    simp only [hm] at h
    split at h
    · cases h; exact Nat.lt_irrefl _ (w.lt (.var u) _ e)
    · exact w.vk u j a e h
  vd := fun u h => by
    simp only [hi] at h
    exact w.vd u h
  kk := fun j hj i a e e' => by
    have l : ∀ u, st.map.abs u = some st.store.length → False := fun u h => Nat.lt_irrefl _ (w.lt (.key u) _ h)
    simp only [hm] at e e'
    split at e
    · cases e
      split at e'
      · rename_i h h'; rw [h, h']
      · exact (l _ e').elim
    · rename_i h
      split at e'
      · cases e'; exact (l _ e).elim
      · exact w.kk j ((List.mem_cons.1 hj).resolve_left h) i a e e'
  kd := fun j hj e => by
    simp only [hm, hi] at e
    split at e
    · have := w.lt .dflt _ rfl
      have e := Option.some.inj e
      omega
    · rename_i h
      exact w.kd j ((List.mem_cons.1 hj).resolve_left h) e
  ot := fun j hj a e => by
    simp only [hm, hi] at *
    rw [if_neg (fun h => hj (by rw [h]; exact List.mem_cons_self))] at e
    exact w.ot j (fun h => hj (List.mem_cons_of_mem _ h)) a e

/-- `h (k)` gives a key that is not there the handle of the default. -/
theorem Apart.touch {own : List K} {st : State K α} (w : Apart hash own st) (k : K) {m : HashMap K Nat} (wf : m.WF hash)
    (hm : m.abs = fun j => if j = k then some ((st.map.abs k).getD st.map.init) else st.map.abs j) (hi : m.init = st.map.init) :
    Apart hash own { st with map := m } := by
  have ab : ∀ j a, m.abs j = some a → st.map.abs j = some a ∨ (j = k ∧ st.map.abs k = none ∧ a = st.map.init) := by
    intro j a e
    rw [hm] at e
    dsimp only at e
    split at e
    · rename_i hj
      subst hj
      cases h : st.map.abs j with
      | none => rw [h] at e; cases e; exact .inr ⟨rfl, rfl, rfl⟩
      | some b => rw [h] at e; exact .inl e
    · exact .inl e
  have no : ∀ j ∈ own, ∀ a, m.abs j = some a → st.map.abs j = some a := fun j hj a e => by
    rcases ab j a e with h | ⟨rfl, h, _⟩
    · exact h
    · have := w.has j hj
      rw [h] at this
      cases this
  exact {
    wf := wf
    lt := fun p a e => by
      cases p with
      | var u => exact w.lt (.var u) a e
      | key j =>
        rcases ab j a e with h | ⟨_, _, rfl⟩
        · exact w.lt (.key j) a h
        · exact w.lt .dflt _ rfl
      | dflt =>
        simp only [handle, hi] at e
        exact w.lt .dflt a e
    has := fun j hj => by
      show (m.abs j).isSome
      rw [hm]
      dsimp only
      split
      · rfl
      · exact w.has j hj
    vv := w.vv
    vk := fun u j a e h => by
      rcases ab j a h with h | ⟨_, _, rfl⟩
      · exact w.vk u j a e h
      · exact w.vd u e
    vd := fun u h => by
      simp only [hi] at h
      exact w.vd u h
    kk := fun j hj i a e e' => by
      have e1 := no j hj a e
      rcases ab i a e' with h | ⟨_, _, rfl⟩
      · exact w.kk j hj i a e1 h
      · exact (w.kd j hj e1).elim
    kd := fun j hj e => by
      simp only [hi] at e
      exact w.kd j hj (no j hj _ e)
    ot := fun j hj a e => by
      show a = m.init
      rw [hi]
      rcases ab j a e with h | ⟨_, _, rfl⟩
      · exact w.ot j hj a h
      · rfl }

theorem Apart.reset {own : List K} {st : State K α} (w : Apart hash own st) (k : K) {m : HashMap K Nat} (wf : m.WF hash)
    (hm : m.abs = fun j => if j = k then none else st.map.abs j) (hi : m.init = st.map.init) :
    Apart hash (own.filter (· ≠ k)) { st with map := m } := by
  have ab : ∀ j a, m.abs j = some a → j ≠ k ∧ st.map.abs j = some a := fun j a e => by
    rw [hm] at e
    dsimp only at e
    split at e
    · cases e
    · exact ⟨by assumption, e⟩
  have fl : ∀ j, j ∈ own.filter (· ≠ k) ↔ j ∈ own ∧ j ≠ k := fun j => by simp [List.mem_filter]
  exact {
    wf := wf
    lt := fun p a e => by
      cases p with
      | var u => exact w.lt (.var u) a e
      | key j => exact w.lt (.key j) a (ab j a e).2
      | dflt =>
        simp only [handle, hi] at e
        exact w.lt .dflt a e
    has := fun j hj => by
      show (m.abs j).isSome
      rw [hm]
      dsimp only
      rw [if_neg ((fl j).1 hj).2]
      exact w.has j ((fl j).1 hj).1
    vv := w.vv
    vk := fun u j a e h => w.vk u j a e (ab j a h).2
    vd := fun u h => by
      simp only [hi] at h
      exact w.vd u h
    kk := fun j hj i a e e' => w.kk j ((fl j).1 hj).1 i a (ab j a e).2 (ab i a e').2
    kd := fun j hj e => by
      simp only [hi] at e
      exact w.kd j ((fl j).1 hj).1 (ab _ _ e).2
    ot := fun j hj a e => by
      show a = m.init
      rw [hi]
      obtain ⟨h1, h2⟩ := ab j a e
      exact w.ot j (fun h => hj ((fl j).2 ⟨h, h1⟩)) a h2 }

omit [DecidableEq K] in
theorem grow_len {st st' : State K α} {a : Nat} {x : List α} (h : st.grow a x = .ok st') :
    ∃ t, t.length = st.store.length ∧ st' = { st with store := t } := by
  unfold State.grow at h
  obtain ⟨s, h1, h⟩ := Res.bind_eq_ok.1 h
  rw [wr_ok (List.getElem?_eq_some_iff.1 (rd_eq_ok.1 h1)).1, Res.ok_bind] at h
  cases h
  exact ⟨_, by simp, rfl⟩

theorem Tidy.careful : ∀ (l : List (Stmt K α)) (own : List K) (st : State K α), Apart hash own st → Tidy own l →
    (∃ vs vs', Rel hash st vs ∧ Values.run vs l = some vs') → Careful hash st l := by
  intro l
  induction l with
  | nil => intro own st _ _ _; trivial
  | cons s l ih =>
    intro own st w t ⟨vs, vs', r, h⟩
    obtain ⟨vs1, h1, h2⟩ := Option.bind_eq_some_iff.1 h
    have key : Single st s → (∀ st', step hash st s = .ok st' → ∃ own', Apart hash own' st' ∧ Tidy own' l) →
        Careful hash st (s :: l) := by
      intro sg next
      refine ⟨sg, fun st' e => ?_⟩
      obtain ⟨st1, e1, r1⟩ := r.next s sg h1
      rw [e] at e1
      cases e1
      obtain ⟨own', w', t'⟩ := next st' e
      exact ih own' st' w' t' ⟨vs1, vs', r1, h2⟩
    have isVar : ∀ {v : Nat} {s : List α}, vs.vars v = some s → ∃ a, st.vars v = some a := fun {v s} h => by
      obtain ⟨a, h1, _⟩ := r.have_ (p := .var v) h
      exact ⟨a, h1⟩
    cases s with
    | fresh v s =>
      exact key trivial fun st' e => by cases e; exact ⟨own, w.newVar v s, t⟩
    | share v u => exact t.elim
    | copy v u =>
      refine key trivial fun st' e => ⟨own, ?_, t⟩
      simp only [step] at e
      obtain ⟨a, _, e⟩ := Res.bind_eq_ok.1 e
      obtain ⟨s, _, e⟩ := Res.bind_eq_ok.1 e
      cases e
      exact w.newVar v s
    | append v x =>
      obtain ⟨s, hs, _⟩ := Option.map_eq_some_iff.1 h1
      obtain ⟨a, ha⟩ := isVar hs
      refine key (w.aloneVar ha) fun st' e => ⟨own, ?_, t⟩
      simp only [step] at e
      obtain ⟨b, _, e⟩ := Res.bind_eq_ok.1 e
      obtain ⟨t', ht, rfl⟩ := grow_len e
      exact w.store (by omega)
    | extend v u =>
      obtain ⟨s, hs, _⟩ := Option.bind_eq_some_iff.1 h1
      obtain ⟨a, ha⟩ := isVar hs
      refine key (w.aloneVar ha) fun st' e => ⟨own, ?_, t⟩
      simp only [step] at e
      obtain ⟨b, _, e⟩ := Res.bind_eq_ok.1 e
      obtain ⟨c, _, e⟩ := Res.bind_eq_ok.1 e
      obtain ⟨d, _, e⟩ := Res.bind_eq_ok.1 e
      obtain ⟨t', ht, rfl⟩ := grow_len e
      exact w.store (by omega)
    | write v i x =>
      obtain ⟨s, hs, _⟩ := Option.bind_eq_some_iff.1 h1
      obtain ⟨a, ha⟩ := isVar hs
      refine key (w.aloneVar ha) fun st' e => ⟨own, ?_, t⟩
      simp only [step, State.poke] at e
      obtain ⟨b, _, e⟩ := Res.bind_eq_ok.1 e
      obtain ⟨c, hc, e⟩ := Res.bind_eq_ok.1 e
      obtain ⟨d, _, e⟩ := Res.bind_eq_ok.1 e
      rw [wr_ok (List.getElem?_eq_some_iff.1 (rd_eq_ok.1 hc)).1, Res.ok_bind] at e
      cases e
      exact w.store (by simp)
    | get v k => exact t.elim
    | getCopy v k =>
      refine key trivial fun st' e => ⟨own, ?_, t⟩
      simp only [step] at e
      obtain ⟨a, _, e⟩ := Res.bind_eq_ok.1 e
      obtain ⟨s, _, e⟩ := Res.bind_eq_ok.1 e
      cases e
      exact w.newVar v s
    | put k v => exact t.elim
    | putCopy k v =>
      refine key trivial fun st' e => ⟨k :: own, ?_, t⟩
      simp only [step] at e
      obtain ⟨a, _, e⟩ := Res.bind_eq_ok.1 e
      obtain ⟨s, _, e⟩ := Res.bind_eq_ok.1 e
      obtain ⟨m, e1, wf, ab, i, _⟩ := HashMap.set_spec (h := (st.make s).1.map) w.wf k (st.make s).2
      rw [e1, Res.ok_bind] at e
      cases e
      exact w.newKey k s wf ab i
    | appendAt k x =>
      refine key (w.aloneKey t.1) fun st' e => ⟨own, ?_, t.2⟩
      simp only [step] at e
      obtain ⟨m, e1, wf, ab, i, _⟩ := HashMap.touch_spec w.wf k
      rw [e1, Res.ok_bind] at e
      obtain ⟨b, _, e⟩ := Res.bind_eq_ok.1 e
      obtain ⟨t', ht, rfl⟩ := grow_len e
      exact (w.touch k wf ab i).store (by simp only at ht ⊢; omega)
    | look k =>
      refine key trivial fun st' e => ⟨own, ?_, t⟩
      simp only [step] at e
      obtain ⟨m, e1, wf, ab, i, _⟩ := HashMap.touch_spec w.wf k
      rw [e1, Res.ok_bind] at e
      cases e
      exact w.touch k wf ab i
    | reset k =>
      refine key trivial fun st' e => ⟨_, ?_, t⟩
      simp only [step] at e
      obtain ⟨m, e1, wf, ab, i, _⟩ := HashMap.reset_spec w.wf k
      rw [e1, Res.ok_bind] at e
      cases e
      exact w.reset k wf ab i

/-- C152 for programs that copy values when they pass them on, and use `h (k) << x` after `h (k)= ...` only. -/
theorem C152_copies_partial (d : List α) (l : List (Stmt K α)) (t : Tidy [] l) {vs : Values K α}
    (h : Values.run ⟨fun _ => none, fun _ => none, d⟩ l = some vs) :
    ∃ st, run hash (start d) l = .ok st ∧ Shows hash st vs := by
  refine C152_alone_partial d l (Tidy.careful l [] _ ?_ t ⟨_, _, rel_start d, h⟩) h
  exact {
    wf := HashMap.new_wf _ _ _ (Nat.le_refl _)
    lt := fun p a e => by
      cases p with
      | var u => cases e
      | key j => simp [handle, start, HashMap.new_abs] at e
      | dflt => simp [handle, start, HashMap.new] at e; subst e; simp [start]
    has := fun j hj => by cases hj
    vv := fun u v a e => by cases e
    vk := fun u v a e => by cases e
    vd := fun u e => by cases e
    kk := fun j hj => by cases hj
    kd := fun j hj => by cases hj
    ot := fun j hj a e => by simp [start, HashMap.new_abs] at e }

/-! ## The violations -/

/-- Every state of a program has values. -/
theorem rel_of {st : State K α} (wf : st.map.WF hash) (lt : ∀ (p : Place K) a, handle st p = some a → a < st.store.length) :
    ∃ vs, Rel hash st vs := by
  have d := lt .dflt _ rfl
  refine ⟨⟨fun v => (st.vars v).bind (st.store[·]?), fun k => (st.map.abs k).bind (st.store[·]?), st.store[st.map.init]⟩, wf,
    fun p => ?_⟩
  cases p with
  | var v =>
    cases e : handle st (.var v : Place K) with
    | none => simp only [handle] at e; simp [value, e]
    | some a =>
      have l := lt _ _ e
      simp only [handle] at e
      exact ⟨st.store[a], List.getElem?_eq_getElem l, by simp [value, e, l]⟩
  | key k =>
    cases e : handle st (.key k) with
    | none => simp only [handle] at e; simp [value, e]
    | some a =>
      have l := lt _ _ e
      simp only [handle] at e
      exact ⟨st.store[a], List.getElem?_eq_getElem l, by simp [value, e, l]⟩
  | dflt => exact ⟨st.store[st.map.init], List.getElem?_eq_getElem d, rfl⟩

theorem rel_next {st st' : State K α} {vs : Values K α} (r : Rel hash st vs) (s : Stmt K α) (h : step hash st s = .ok st') :
    ∃ vs', Rel hash st' vs' := by
  have same : ∀ {st : State K α} {vs : Values K α} {t : List (List α)}, Rel hash st vs → t.length = st.store.length →
      ∃ vs', Rel hash { st with store := t } vs' := fun {st vs t} r ht =>
    rel_of r.wf fun p a e => by
      have : a < st.store.length := r.lt (p := p) (by cases p <;> exact e)
      show a < t.length
      omega
  have var : ∀ {v a : Nat}, st.handle v = .ok a → ∃ t, st.store[a]? = some t := fun {v a} e => by
    have e : st.vars v = some a := by
      unfold State.handle at e
      cases e' : st.vars v with
      | none => rw [e'] at e; cases e
      | some b => rw [e'] at e; cases e; rfl
    obtain ⟨t, h1, _⟩ := r.held (p := .var v) e
    exact ⟨t, h1⟩
  cases s with
  | fresh v s => cases h; exact ⟨_, (r.make s).setVar v (make_get st s)⟩
  | share v u =>
    simp only [step] at h
    obtain ⟨a, ha, h⟩ := Res.bind_eq_ok.1 h
    cases h
    obtain ⟨t, ht⟩ := var ha
    exact ⟨_, r.setVar v ht⟩
  | copy v u =>
    simp only [step] at h
    obtain ⟨a, ha, h⟩ := Res.bind_eq_ok.1 h
    obtain ⟨s, _, h⟩ := Res.bind_eq_ok.1 h
    cases h
    exact ⟨_, (r.make s).setVar v (make_get st s)⟩
  | append v x =>
    simp only [step] at h
    obtain ⟨a, ha, h⟩ := Res.bind_eq_ok.1 h
    obtain ⟨t, ht, rfl⟩ := grow_len h
    exact same r ht
  | extend v u =>
    simp only [step] at h
    obtain ⟨a, ha, h⟩ := Res.bind_eq_ok.1 h
    obtain ⟨b, hb, h⟩ := Res.bind_eq_ok.1 h
    obtain ⟨c, hc, h⟩ := Res.bind_eq_ok.1 h
    obtain ⟨t, ht, rfl⟩ := grow_len h
    exact same r ht
  | write v i x =>
    simp only [step, State.poke] at h
    obtain ⟨b, _, h⟩ := Res.bind_eq_ok.1 h
    obtain ⟨c, hc, h⟩ := Res.bind_eq_ok.1 h
    obtain ⟨d, _, h⟩ := Res.bind_eq_ok.1 h
    rw [wr_ok (List.getElem?_eq_some_iff.1 (rd_eq_ok.1 hc)).1, Res.ok_bind] at h
    cases h
    exact same r (by simp)
  | get v k =>
    obtain ⟨a, h1, h2⟩ := r.reads k
    simp only [step, h1, Res.ok_bind] at h
    cases h
    exact ⟨_, r.setVar v h2⟩
  | getCopy v k =>
    obtain ⟨a, h1, h2⟩ := r.reads k
    simp only [step, h1, Res.ok_bind, rd_eq_ok.2 h2] at h
    cases h
    exact ⟨_, (r.make _).setVar v (make_get st _)⟩
  | put k v =>
    simp only [step] at h
    obtain ⟨a, ha, h⟩ := Res.bind_eq_ok.1 h
    obtain ⟨t, ht⟩ := var ha
    obtain ⟨m, e, w, ab, i, _⟩ := HashMap.set_spec r.wf k a
    rw [e, Res.ok_bind] at h
    cases h
    exact ⟨_, r.setKey k w ab i rfl (fun b hb => by cases hb; exact (List.getElem?_eq_some_iff.1 ht).1)⟩
  | putCopy k v =>
    simp only [step] at h
    obtain ⟨a, ha, h⟩ := Res.bind_eq_ok.1 h
    obtain ⟨t, ht, h⟩ := Res.bind_eq_ok.1 h
    have r' := r.make t
    obtain ⟨m, e, w, ab, i, _⟩ := HashMap.set_spec r'.wf k (st.make t).2
    rw [e, Res.ok_bind] at h
    cases h
    exact ⟨_, r'.setKey k w ab i rfl (fun b hb => by cases hb; simp [State.make])⟩
  | appendAt k x =>
    simp only [step] at h
    obtain ⟨m, e, w, ab, i, _⟩ := HashMap.touch_spec r.wf k
    rw [e, Res.ok_bind] at h
    obtain ⟨a, ha, h⟩ := Res.bind_eq_ok.1 h
    obtain ⟨t, ht, rfl⟩ := grow_len h
    obtain ⟨b, h1, h2⟩ := r.reads k
    rw [HashMap.get_spec r.wf] at h1
    cases h1
    have r' := r.setKey k w ab i rfl (fun b hb => by cases hb; exact (List.getElem?_eq_some_iff.1 h2).1)
    exact same r' ht
  | look k =>
    simp only [step] at h
    obtain ⟨m, e, w, ab, i, _⟩ := HashMap.touch_spec r.wf k
    rw [e, Res.ok_bind] at h
    cases h
    obtain ⟨b, h1, h2⟩ := r.reads k
    rw [HashMap.get_spec r.wf] at h1
    cases h1
    exact ⟨_, r.setKey k w ab i rfl (fun b hb => by cases hb; exact (List.getElem?_eq_some_iff.1 h2).1)⟩
  | reset k =>
    simp only [step] at h
    obtain ⟨m, e, w, ab, i, _⟩ := HashMap.reset_spec r.wf k
    rw [e, Res.ok_bind] at h
    cases h
    exact ⟨_, r.setKey k w ab i rfl (fun b hb => by cases hb)⟩

theorem rel_all : ∀ (l : List (Stmt K α)) {st st' : State K α} {vs : Values K α}, Rel hash st vs → run hash st l = .ok st' →
    ∃ vs', Rel hash st' vs'
  | [], st, st', vs, r, h => by cases h; exact ⟨vs, r⟩
  | s :: l, st, st', vs, r, h => by
    obtain ⟨st1, e, h⟩ := Res.bind_eq_ok.1 h
    obtain ⟨vs1, r1⟩ := rel_next r s e
    exact rel_all l r1 h

theorem Rel.absent {st : State K α} {vs : Values K α} (r : Rel hash st vs) {k : K} :
    st.map.contains hash k = .ok false ↔ vs.keys k = none := by
  have := r.shows.2.2 k
  rw [this]
  cases vs.keys k <;> simp

theorem Rel.at_eq {st : State K α} {vs : Values K α} (r : Rel hash st vs) {k : K} {s : List α} (h : st.at hash k = .ok s) :
    vs.read k = s := by
  have := r.shows.2.1 k
  rw [h] at this
  cases this
  rfl

theorem default_grows {st : State K α} {vs : Values K α} (r : Rel hash st vs) {k j : K} (hk : vs.keys k = none)
    (hj : vs.keys j = none) (hkj : j ≠ k) (x y : α) :
    ∃ st', run hash st [.appendAt k x, .appendAt j y] = .ok st' ∧
      (∀ i, vs.keys i = none → st'.at hash i = .ok (vs.dflt ++ [x, y])) := by
  have none' : ∀ i, vs.keys i = none → st.map.abs i = none := fun i hi => by
    cases e : st.map.abs i with
    | none => rfl
    | some a =>
      obtain ⟨s, _, h4⟩ := r.held (p := .key i) e
      have h4 : vs.keys i = some s := h4
      rw [hi] at h4; cases h4
  obtain ⟨d, hd, hd'⟩ := r.held (p := .dflt) rfl
  cases hd'
  obtain ⟨m, e, w, ab, i1, _⟩ := HashMap.touch_spec r.wf k
  have hk0 := none' k hk
  have lt := (List.getElem?_eq_some_iff.1 hd).1
  rw [hk0] at ab
  have e1 : step hash st (.appendAt k x) = .ok { st with map := m, store := st.store.set st.map.init (vs.dflt ++ [x]) } := by
    simp only [step, e, Res.ok_bind, HashMap.get_spec w, ab, if_true, Option.getD_some, Option.getD_none]
    exact grow_ok (st := { st with map := m }) hd [x]
  obtain ⟨m', e', w', ab', i2, _⟩ := HashMap.touch_spec w j
  have hj0 : m.abs j = none := by rw [ab]; simp [hkj, none' j hj]
  rw [hj0, i1] at ab'
  have hd2 : (st.store.set st.map.init (vs.dflt ++ [x]))[st.map.init]? = some (vs.dflt ++ [x]) := by
    rw [List.getElem?_set_self lt]
  have e2 : step hash { st with map := m, store := st.store.set st.map.init (vs.dflt ++ [x]) } (.appendAt j y) =
      .ok { st with map := m', store := (st.store.set st.map.init (vs.dflt ++ [x])).set st.map.init (vs.dflt ++ [x] ++ [y]) } := by
    simp only [step, e', Res.ok_bind, HashMap.get_spec w', ab', if_true, Option.getD_some, Option.getD_none]
    exact grow_ok (st := { st with map := m', store := st.store.set st.map.init (vs.dflt ++ [x]) }) hd2 [y]
  refine ⟨_, by rw [run, e1, Res.ok_bind, run, e2, Res.ok_bind, run], fun i hi => ?_⟩
  have ha : (m'.abs i).getD m'.init = st.map.init := by
    rw [ab', i2, i1, ab]
    dsimp only
    split
    · rfl
    · split
      · rfl
      · rw [none' i hi]; rfl
  unfold State.at
  simp only [HashMap.get_spec w', Res.ok_bind, ha]
  refine rd_eq_ok.2 ?_
  rw [List.getElem?_set_self (by simpa using lt)]
  simp

/-- C152 is violated by appending to the value of a key that is not there: the default grows, and with it what all keys show
that are not there or came in the same way. After any program, for any two such keys `k` and `j`, `h (k) << x; h (j) << y` gives
both, and every other absent key, the default followed by `x` and `y`. -/
theorem C152_default_violated {d : List α} {l : List (Stmt K α)} {st : State K α} (h : run hash (start d) l = .ok st) {k j : K}
    (hk : st.map.contains hash k = .ok false) (hj : st.map.contains hash j = .ok false) (hkj : j ≠ k) (x y : α) {s : List α}
    (hs : st.at hash k = .ok s) : ∃ st', run hash st [.appendAt k x, .appendAt j y] = .ok st' ∧
      ∀ i, st.map.contains hash i = .ok false → st.at hash i = .ok s ∧ st'.at hash i = .ok (s ++ [x, y]) := by
  obtain ⟨vs, r⟩ := rel_all l (rel_start d) h
  have e := r.at_eq hs
  rw [Values.read, r.absent.1 hk, Option.getD_none] at e
  obtain ⟨st', e1, e2⟩ := default_grows r (r.absent.1 hk) (r.absent.1 hj) hkj x y
  refine ⟨st', e1, fun i hi => ⟨?_, by rw [← e]; exact e2 i (r.absent.1 hi)⟩⟩
  rw [r.shows.2.1 i, Values.read, r.absent.1 hi, Option.getD_none, e]

/-- C152 is violated by changing what was read: after `v= h[k]` every `v << x` changes the map. -/
theorem C152_read_violated {d : List α} {l : List (Stmt K α)} {st : State K α} (h : run hash (start d) l = .ok st) (v : Nat) {k : K}
    {s : List α} (hs : st.at hash k = .ok s) (x : α) :
    ∃ st', run hash st [.get v k, .append v x] = .ok st' ∧ st'.at hash k = .ok (s ++ [x]) := by
  obtain ⟨vs, r⟩ := rel_all l (rel_start d) h
  rw [← r.at_eq hs]
  obtain ⟨a, h1, h2⟩ := r.reads k
  have e1 : step hash st (.get v k) = .ok (st.setVar v a) := by simp only [step, h1, Res.ok_bind]
  have e2 : step hash (st.setVar v a) (.append v x) =
      .ok { st.setVar v a with store := st.store.set a (vs.read k ++ [x]) } := by
    have : (st.setVar v a).handle v = .ok a := by simp [State.handle, State.setVar, Res.ofOption]
    simp only [step, this, Res.ok_bind]
    exact grow_ok (st := st.setVar v a) h2 [x]
  refine ⟨_, by rw [run, e1, Res.ok_bind, run, e2, Res.ok_bind, run], ?_⟩
  unfold State.at
  have : (st.setVar v a).map = st.map := rfl
  simp only [this, h1, Res.ok_bind]
  exact rd_eq_ok.2 (List.getElem?_set_self (List.getElem?_eq_some_iff.1 h2).1)

/-- C152 is violated by changing what was stored: after `h (k)= v` every `v << x` changes the map. -/
theorem C152_stored_violated {d : List α} {l : List (Stmt K α)} {st : State K α} (h : run hash (start d) l = .ok st) {v : Nat} (k : K)
    {s : List α} (hs : st.var v = .ok s) (x : α) :
    ∃ st', run hash st [.put k v, .append v x] = .ok st' ∧ st'.at hash k = .ok (s ++ [x]) := by
  obtain ⟨vs, r⟩ := rel_all l (rel_start d) h
  have hv : vs.vars v = some s := by
    unfold State.var State.handle at hs
    cases e : st.vars v with
    | none => rw [e] at hs; cases hs
    | some a =>
      rw [e] at hs
      obtain ⟨t, h1, h2⟩ := r.held (p := .var v) e
      have hs : rd st.store a = .ok s := hs
      rw [rd_eq_ok.2 h1] at hs
      cases hs
      exact h2
  obtain ⟨a, h1, h2⟩ := r.have_ (p := .var v) hv
  have h1' : st.vars v = some a := h1
  have hh : ∀ m : HashMap K Nat, State.handle { st with map := m } v = .ok a := fun m => by simp [State.handle, h1', Res.ofOption]
  obtain ⟨m, e, w, ab, i, _⟩ := HashMap.set_spec r.wf k a
  have e1 : step hash st (.put k v) = .ok { st with map := m } := by
    have := hh st.map
    simp only [step, this, Res.ok_bind, e]
  have e2 : step hash { st with map := m } (.append v x) = .ok { st with map := m, store := st.store.set a (s ++ [x]) } := by
    simp only [step, hh m, Res.ok_bind]
    exact grow_ok (st := { st with map := m }) h2 [x]
  refine ⟨_, by rw [run, e1, Res.ok_bind, run, e2, Res.ok_bind, run], ?_⟩
  unfold State.at
  simp only [HashMap.get_spec w, ab, if_true, Option.getD_some, Res.ok_bind]
  exact rd_eq_ok.2 (List.getElem?_set_self (List.getElem?_eq_some_iff.1 h2).1)

/-- C152 is violated by `copy (h)`: the copy has the same handles, so a value that is changed in the copy, `c (k) << x`, changes in
`h`, for each key. -/
theorem C152_copied_map_violated {d : List α} {l : List (Stmt K α)} {st : State K α} (h : run hash (start d) l = .ok st) {k : K}
    {s : List α} (hc : st.map.contains hash k = .ok true) (hs : st.at hash k = .ok s) (x : α) :
    ∃ st', run hash { st with map := st.map.copy } [.appendAt k x] = .ok st' ∧
      State.at hash { st' with map := st.map } k = .ok (s ++ [x]) := by
  rw [HashMap.copy_eq]
  obtain ⟨vs, r⟩ := rel_all l (rel_start d) h
  have hk : vs.keys k = some s := by
    have := r.shows.2.2 k
    rw [hc] at this
    have e := r.at_eq hs
    unfold Values.read at e
    cases hv : vs.keys k with
    | none => rw [hv] at this; cases this
    | some t => rw [hv] at e; rw [← e]; rfl
  obtain ⟨a, h1, h2⟩ := r.have_ (p := .key k) hk
  have h1' : st.map.abs k = some a := h1
  obtain ⟨m, e, w, ab, i, _⟩ := HashMap.touch_spec r.wf k
  rw [h1'] at ab
  have e1 : step hash st (.appendAt k x) = .ok { st with map := m, store := st.store.set a (s ++ [x]) } := by
    simp only [step, e, Res.ok_bind, HashMap.get_spec w, ab, if_true, Option.getD_some]
    exact grow_ok (st := { st with map := m }) h2 [x]
  refine ⟨_, by rw [run, e1, Res.ok_bind, run], ?_⟩
  unfold State.at
  simp only [HashMap.get_spec r.wf, h1', Option.getD_some, Res.ok_bind]
  exact rd_eq_ok.2 (List.getElem?_set_self (List.getElem?_eq_some_iff.1 h2).1)

/-! ## Examples -/

/-- A tidy program: the values of two keys grow separately. -/
example : Tidy (K := Nat) (α := Nat) [] [.fresh 0 [1], .putCopy 5 0, .putCopy 6 0, .appendAt 5 2, .appendAt 6 3, .append 0 4, .look 7,
      .getCopy 1 5, .append 1 9, .reset 6] ∧
    (Values.run (K := Nat) (α := Nat) ⟨fun _ => none, fun _ => none, [0]⟩ [.fresh 0 [1], .putCopy 5 0, .putCopy 6 0, .appendAt 5 2, .appendAt 6 3,
      .append 0 4, .look 7, .getCopy 1 5, .append 1 9, .reset 6]).map (fun vs => (vs.read 5, vs.read 6, vs.read 7, vs.vars 0, vs.vars 1)) =
      some ([1, 2], [0], [0], some [1, 4], some [1, 2, 9]) := by
  refine ⟨?_, rfl⟩
  simp [Tidy]

/-- `h (1) << 'x'; h (2) << 'y'` on a new map whose default is empty. -/
example : (run (fun k => BitVec.ofNat 32 k) (start (K := Nat) (α := Nat) []) [.appendAt 1 10, .appendAt 2 20]).bind
    (fun st => (st.at (fun k => BitVec.ofNat 32 k) 1).bind fun a => (st.at (fun k => BitVec.ofNat 32 k) 3).bind fun b => .ok (a, b)) =
    .ok ([10, 20], [10, 20]) := by decide

end Lolly.SharedProps
