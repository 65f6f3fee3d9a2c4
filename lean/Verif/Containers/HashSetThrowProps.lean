import Verif.Containers.HashSetThrow
import Verif.Containers.HashSetProps

/-!
# C176: hash sets with elements whose functions throw

`C176_throws`: an exception of an element's function is passed on at once, and only then a call throws. `C176_members`: whatever
was thrown before, an element that is found was inserted and not removed since, the set can be used on, and a call that returns
did what it should. `C176_kept_partial`: a call that throws leaves the set as it was unless the table is rebuilt.
`C176_lost_violated`: inserting may lose all elements, even if the element is there already; `N` counts them still.
`C176_equal_violated`: a set that has lost elements is equal to another one that has its elements.
-/

set_option autoImplicit false

namespace Lolly.HashSetThrowProps

open Lolly.HashSetThrow

variable {T α : Type} {fails : Nat → Bool} {hash : T → BitVec 32}

/-! ## Lemmas: when a call throws -/

/-- The calls from `t` on went well, up to the last one in front of `t'` if something was thrown. -/
def Span (fails : Nat → Bool) (t t' : Nat) (fine : Bool) : Prop :=
  if fine then t ≤ t' ∧ ∀ k, t ≤ k → k < t' → fails k = false
  else t < t' ∧ fails (t' - 1) = true ∧ ∀ k, t ≤ k → k < t' - 1 → fails k = false

theorem span_self (t : Nat) : Span fails t t true := ⟨Nat.le_refl _, fun k a b => by omega⟩

theorem span_fail {t : Nat} (h : fails t = true) : Span fails t (t + 1) false := ⟨by omega, h, fun k a b => by omega⟩

theorem span_trans {t u v : Nat} {b : Bool} (h : Span fails t u true) (h' : Span fails u v b) : Span fails t v b := by
  obtain ⟨h1, h2⟩ := h
  cases b with
  | true => exact ⟨Nat.le_trans h1 h'.1, fun k a b => if c : k < u then h2 k a c else h'.2 k (by omega) b⟩
  | false =>
    obtain ⟨h3, h4, h5⟩ := h'
    exact ⟨by omega, h4, fun k a b => if c : k < u then h2 k a c else h5 k (by omega) b⟩

theorem span_one {t : Nat} (h : ¬ fails t = true) : Span fails t (t + 1) true := by
  refine ⟨by omega, fun k a b => ?_⟩
  rw [show k = t by omega]
  simpa using h

/-- What `Span` says of an outcome. -/
def Fair (fails : Nat → Bool) (t : Nat) : Out T α → Prop
  | .ret _ t' _ => Span fails t t' true
  | .thrown _ t' => Span fails t t' false
  | .ub => True

theorem rehash_span (n2 : Nat) (xs : List T) : ∀ a t a' t' b, HashSetThrow.rehash fails hash n2 xs a t = .ok (a', t', b) →
    Span fails t t' b := by
  induction xs with
  | nil => intro a t a' t' b e; cases e; exact span_self _
  | cons x xs ih =>
    intro a t a' t' b e
    rw [HashSetThrow.rehash] at e
    split at e
    · rename_i hf
      cases e
      exact span_fail hf
    · rename_i hf
      obtain ⟨l, -, e⟩ := Res.bind_eq_ok.1 e
      obtain ⟨a2, -, e⟩ := Res.bind_eq_ok.1 e
      exact span_trans (span_one hf) (ih _ _ _ _ _ e)

theorem fair_resize (h : HashSet T) (n2 t : Nat) : Fair fails t (HashSetThrow.resize fails hash h n2 t) := by
  unfold HashSetThrow.resize
  split
  · rename_i e; exact rehash_span _ _ _ _ _ _ _ e
  · rename_i e; exact rehash_span _ _ _ _ _ _ _ e
  · trivial

variable [DecidableEq T]

theorem search_span (x : T) (l : List T) : ∀ t, Span fails t (search fails x l t).1 (search fails x l t).2.isSome := by
  induction l with
  | nil => exact fun t => span_self t
  | cons y l ih =>
    intro t
    rw [search]
    split
    · rename_i hf; exact span_fail hf
    · rename_i hf
      split
      · exact span_one hf
      · exact span_trans (span_one hf) (ih _)

theorem unlink_span (x : T) (l : List T) : ∀ t, Span fails t (unlink fails x l t).1 (unlink fails x l t).2.isSome := by
  induction l with
  | nil => exact fun t => span_self t
  | cons y l ih =>
    intro t
    rw [unlink]
    split
    · rename_i hf; exact span_fail hf
    · rename_i hf
      split
      · exact span_one hf
      · dsimp only
        rw [Option.isSome_map]
        exact span_trans (span_one hf) (ih _)

theorem fair_add (h : HashSet T) (x : T) (t : Nat) : Fair fails t (add fails hash h x t) := by
  unfold add
  split
  · rename_i hf; exact span_fail hf
  · rename_i hf
    split
    · rename_i l _
      have hs := search_span (fails := fails) x l (t + 1)
      split
      · rename_i e; rw [e] at hs; exact span_trans (span_one hf) hs
      · rename_i e; rw [e] at hs
        split
        · exact span_trans (span_one hf) hs
        · trivial
      · rename_i e; rw [e] at hs; exact span_trans (span_one hf) hs
    · trivial

/-- **C176** (throws): the functions of hash sets throw if and only if one of the functions of elements they call throws, and
then at once: no further one is called. -/
theorem C176_throws (h : HashSet T) (x : T) (t : Nat) : Fair fails t (contains fails hash h x t) ∧
    Fair fails t (HashSetThrow.insert fails hash h x t) ∧ Fair fails t (HashSetThrow.remove fails hash h x t) := by
  refine ⟨?_, ?_, ?_⟩
  · unfold contains
    split
    · rename_i hf; exact span_fail hf
    · rename_i hf
      split
      · rename_i l _
        have hs := search_span (fails := fails) x l (t + 1)
        split
        · rename_i e; rw [e] at hs; exact span_trans (span_one hf) hs
        · rename_i e; rw [e] at hs; exact span_trans (span_one hf) hs
      · trivial
  · unfold HashSetThrow.insert
    split
    · have hr := fair_resize (fails := fails) (hash := hash) h (h.n <<< 1) t
      split
      · rename_i h1 t1 u e
        rw [e] at hr
        have ha := fair_add (fails := fails) (hash := hash) h1 x t1
        revert ha
        cases add fails hash h1 x t1 with
        | ub => exact fun _ => trivial
        | ret _ _ _ => exact fun ha => span_trans hr ha
        | thrown _ _ => exact fun ha => span_trans hr ha
      · exact hr
    · exact fair_add _ _ _
  · unfold HashSetThrow.remove
    split
    · rename_i hf; exact span_fail hf
    · rename_i hf
      split
      · rename_i l _
        have hs := unlink_span (fails := fails) x l (t + 1)
        split
        · rename_i e; rw [e] at hs; exact span_trans (span_one hf) hs
        · rename_i e; rw [e] at hs
          split
          · exact span_trans (span_one hf) hs
          · trivial
        · rename_i e; rw [e] at hs; exact span_trans (span_one hf) hs
      · trivial

/-! ## Lemmas: what the functions do -/

theorem search_some (x : T) (l : List T) : ∀ t t' b, search fails x l t = (t', some b) → b = HashSet.search l x := by
  induction l with
  | nil => intro t t' b e; cases e; rfl
  | cons y l ih =>
    intro t t' b e
    rw [search] at e
    rw [HashSet.search]
    split at e
    · cases e
    · split at e
      · rename_i hy; cases e; rw [if_pos hy]
      · rename_i hy; rw [if_neg hy]; exact ih _ _ _ e

theorem unlink_some (x : T) (l : List T) : ∀ t t' o, unlink fails x l t = (t', some o) → o = HashSet.unlink l x := by
  induction l with
  | nil => intro t t' b e; cases e; rfl
  | cons y l ih =>
    intro t t' b e
    rw [unlink] at e
    rw [HashSet.unlink]
    split at e
    · cases e
    · split at e
      · rename_i hy; cases e; rw [if_pos hy]
      · rename_i hy
        rw [if_neg hy]
        dsimp only at e
        cases hu : unlink fails x l (t + 1) with
        | mk t2 o =>
          rw [hu] at e
          cases o with
          | none => cases e
          | some o => cases e; rw [ih _ _ _ hu]

omit [DecidableEq T] in
theorem rehash_true (n2 : Nat) (xs : List T) : ∀ a t a' t', HashSetThrow.rehash fails hash n2 xs a t = .ok (a', t', true) →
    HashSet.rehash hash n2 xs a = .ok a' := by
  induction xs with
  | nil => intro a t a' t' e; cases e; rfl
  | cons x xs ih =>
    intro a t a' t' e
    rw [HashSetThrow.rehash] at e
    split at e
    · cases e
    · obtain ⟨l, h1, e⟩ := Res.bind_eq_ok.1 e
      obtain ⟨a2, h2, e⟩ := Res.bind_eq_ok.1 e
      rw [HashSet.rehash]
      rw [h1, Res.ok_bind, h2, Res.ok_bind]
      exact ih _ _ _ _ e

omit [DecidableEq T] in
theorem rehash_false (n2 : Nat) (xs : List T) : ∀ a t a' t', HashSetThrow.rehash fails hash n2 xs a t = .ok (a', t', false) →
    ∃ k < xs.length, HashSet.rehash hash n2 (xs.take k) a = .ok a' := by
  induction xs with
  | nil => intro a t a' t' e; cases e
  | cons x xs ih =>
    intro a t a' t' e
    rw [HashSetThrow.rehash] at e
    split at e
    · cases e; exact ⟨0, Nat.succ_pos _, rfl⟩
    · obtain ⟨l, h1, e⟩ := Res.bind_eq_ok.1 e
      obtain ⟨a2, h2, e⟩ := Res.bind_eq_ok.1 e
      obtain ⟨k, hk, h3⟩ := ih _ _ _ _ e
      refine ⟨k + 1, Nat.succ_lt_succ hk, ?_⟩
      rw [List.take_succ_cons, HashSet.rehash]
      rw [h1, Res.ok_bind, h2, Res.ok_bind]
      exact h3

/-- The end of `insert` without exceptions. -/
def plainAdd (hash : T → BitVec 32) (h : HashSet T) (x : T) : Res (HashSet T) := do
  let l ← rd h.a (bidx (hash x) h.n)
  if HashSet.search l x then .ok h
  else do
    let a ← wr h.a (bidx (hash x) h.n) (x :: l)
    .ok { h with a := a, size := h.size + 1 }

theorem add_ret {h h' : HashSet T} {x : T} {t t' : Nat} {u : Unit} (e : add fails hash h x t = .ret h' t' u) :
    plainAdd hash h x = .ok h' := by
  unfold add at e
  unfold plainAdd
  split at e
  · cases e
  · split at e
    · rename_i l hl
      rw [hl, Res.ok_bind]
      split at e
      · rename_i hs
        rw [← search_some _ _ _ _ _ hs]
        cases e
        rfl
      · rename_i hs
        rw [← search_some _ _ _ _ _ hs]
        split at e
        · rename_i a ha
          cases e
          rw [if_neg (by decide), ha]
          rfl
        · cases e
      · cases e
    · cases e

theorem add_thrown {h h' : HashSet T} {x : T} {t t' : Nat} (e : add fails hash h x t = .thrown h' t') : h' = h := by
  unfold add at e
  split at e
  · cases e; rfl
  · split at e
    · split at e
      · cases e
      · split at e <;> cases e
      · cases e; rfl
    · cases e

/-- **C176** (calls that return): a call that returns did what it does without exceptions. -/
theorem C176_returns (h h' : HashSet T) (x : T) (t t' : Nat) :
    (∀ b, contains fails hash h x t = .ret h' t' b → h' = h ∧ h.contains hash x = .ok b) ∧
    (HashSetThrow.insert fails hash h x t = .ret h' t' () → h.insert hash x = .ok h') ∧
    (HashSetThrow.remove fails hash h x t = .ret h' t' () → h.remove hash x = .ok h') := by
  refine ⟨fun b e => ?_, fun e => ?_, fun e => ?_⟩
  · unfold contains at e
    split at e
    · cases e
    · split at e
      · rename_i l hl
        split at e
        · rename_i hs
          cases e
          refine ⟨rfl, ?_⟩
          unfold HashSet.contains
          rw [hl, Res.ok_bind, ← search_some _ _ _ _ _ hs]
        · cases e
      · cases e
  · unfold HashSetThrow.insert at e
    unfold HashSet.insert
    split at e
    · rename_i hg
      rw [if_pos hg]
      split at e
      · rename_i h1 t1 u hr
        unfold HashSetThrow.resize at hr
        split at hr
        · rename_i a t2 hq
          cases hr
          unfold HashSet.resize
          rw [rehash_true _ _ _ _ _ _ hq]
          exact add_ret e
        · cases hr
        · cases hr
      · rename_i hn
        exact (hn _ _ _ e).elim
    · rename_i hg
      rw [if_neg hg]
      exact add_ret e
  · unfold HashSetThrow.remove at e
    unfold HashSet.remove
    split at e
    · cases e
    · split at e
      · rename_i l hl
        dsimp only
        rw [hl, Res.ok_bind]
        split at e
        · rename_i hs
          rw [← unlink_some _ _ _ _ _ hs]
          cases e
          rfl
        · rename_i hs
          rw [← unlink_some _ _ _ _ _ hs]
          split at e
          · rename_i a ha
            cases e
            dsimp only
            rw [ha]
            rfl
          · cases e
        · cases e
      · cases e

/-- **C176** (calls that throw; partial: growing is not undone): a call of `contains` or `remove` that throws leaves the set as it
was. So does a call of `insert` unless the set has reached its limit; then the table has been rebuilt, with all the elements or
only those of a beginning of the old table. -/
theorem C176_kept_partial (h h' : HashSet T) (x : T) (t t' : Nat) :
    (contains fails hash h x t = .thrown h' t' → h' = h) ∧
    (HashSetThrow.remove fails hash h x t = .thrown h' t' → h' = h) ∧
    (HashSetThrow.insert fails hash h x t = .thrown h' t' → h' = h ∧ h.size ≠ h.n * h.max ∨
      h.size = h.n * h.max ∧ ∃ k ≤ h.a.flatten.length, ∃ a, HashSet.rehash hash (2 * h.n) (h.a.flatten.take k)
        (List.replicate (2 * h.n) []) = .ok a ∧ h' = { h with n := 2 * h.n, a := a }) := by
  refine ⟨fun e => ?_, fun e => ?_, fun e => ?_⟩
  · unfold contains at e
    split at e
    · cases e; rfl
    · split at e
      · split at e
        · cases e
        · cases e; rfl
      · cases e
  · unfold HashSetThrow.remove at e
    split at e
    · cases e; rfl
    · split at e
      · split at e
        · cases e
        · split at e <;> cases e
        · cases e; rfl
      · cases e
  · unfold HashSetThrow.insert at e
    split at e
    · rename_i hg
      refine .inr ⟨hg, ?_⟩
      have h2 : h.n <<< 1 = 2 * h.n := by rw [Nat.shiftLeft_eq]; omega
      rw [h2] at e
      split at e
      · rename_i h1 t1 u hr
        obtain rfl := add_thrown e
        unfold HashSetThrow.resize at hr
        split at hr
        · rename_i a t2 hq
          cases hr
          exact ⟨_, Nat.le_refl _, a, by rw [List.take_length]; exact rehash_true _ _ _ _ _ _ hq, rfl⟩
        · cases hr
        · cases hr
      · unfold HashSetThrow.resize at e
        split at e
        · cases e
        · rename_i a t2 hq
          cases e
          obtain ⟨k, hk, h3⟩ := rehash_false _ _ _ _ _ _ hq
          exact ⟨k, Nat.le_of_lt hk, a, h3, rfl⟩
        · cases e
    · rename_i hg
      exact .inl ⟨add_thrown e, hg⟩

/-! ## Lemmas: sets that may have lost elements -/

/-- Every element is in its place and there once, and `N` counts at least the elements. -/
structure Lax (hash : T → BitVec 32) (h : HashSet T) : Prop where
  loc : HashSet.Loc hash h.n h.a
  pos : 1 ≤ h.n
  nodup : h.a.flatten.Nodup
  size : (h.a.flatten.length : Int) ≤ h.size

omit [DecidableEq T] in
theorem Lax.idx {h : HashSet T} (w : Lax hash h) (x : T) : bidx (hash x) h.n < h.a.length := by
  rw [w.loc.1]; exact bidx_lt w.pos

omit [DecidableEq T] in
/-- The same set with the right count. -/
theorem Lax.wf {h : HashSet T} (w : Lax hash h) : HashSet.WF hash { h with size := h.a.flatten.length } :=
  ⟨w.loc, w.pos, w.nodup, rfl⟩

theorem Lax.contains {h : HashSet T} (w : Lax hash h) (x : T) : h.contains hash x = .ok (decide (x ∈ h.a.flatten)) :=
  HashSet.contains_spec w.wf x

theorem lax_rehash {h : HashSet T} (w : Lax hash h) (n2 : Nat) (hn : 1 ≤ n2) (k : Nat) (a : List (List T))
    (e : HashSet.rehash hash n2 (h.a.flatten.take k) (List.replicate n2 []) = .ok a) :
    Lax hash { h with n := n2, a := a } ∧ a.flatten.Perm (h.a.flatten.take k) := by
  obtain ⟨a', h1, h2, h3⟩ := HashSet.rehash_spec (hash := hash) n2 hn (h.a.flatten.take k)
    (List.replicate n2 []) ⟨by simp, by intro i hi e he; simp at he⟩
  rw [e] at h1
  cases h1
  have h3 : a.flatten.Perm (h.a.flatten.take k) := by simpa using h3
  refine ⟨⟨h2, hn, h3.nodup_iff.2 (w.nodup.sublist (List.take_sublist _ _)), ?_⟩, h3⟩
  have := w.size
  have h4 := h3.length_eq
  rw [List.length_take] at h4
  dsimp only
  omega

theorem lax_add {h h' : HashSet T} (w : Lax hash h) (x : T) (e : plainAdd hash h x = .ok h') :
    Lax hash h' ∧ (∀ y, y ∈ h'.a.flatten ↔ y = x ∨ y ∈ h.a.flatten) ∧
      h'.size - (h'.a.flatten.length : Int) = h.size - (h.a.flatten.length : Int) := by
  have hi := w.idx x
  have hm : x ∈ h.a[bidx (hash x) h.n] ↔ x ∈ h.a.flatten := w.wf.mem_bucket x
  unfold plainAdd at e
  rw [rd_ok hi, Res.ok_bind] at e
  split at e
  · rename_i hs
    cases e
    have hx := hm.1 (HashSet.search_iff.1 hs)
    exact ⟨w, fun y => ⟨.inr, fun q => q.elim (fun q => q ▸ hx) id⟩, rfl⟩
  · rename_i hs
    have hx : x ∉ h.a.flatten := fun q => hs (HashSet.search_iff.2 (hm.2 q))
    rw [wr_ok hi, Res.ok_bind] at e
    cases e
    have hp := (flatten_set_perm h.a _ hi (x :: h.a[bidx (hash x) h.n])).trans
      ((flatten_perm h.a _ hi).symm.cons _)
    have hl := hp.length_eq
    rw [List.length_cons] at hl
    have := w.size
    refine ⟨⟨w.loc.push hi, w.pos, ?_, ?_⟩, fun y => ?_, ?_⟩
    · rw [hp.nodup_iff, List.nodup_cons]; exact ⟨hx, w.nodup⟩
    · dsimp only; omega
    · simp only [hp.mem_iff, List.mem_cons]
    · dsimp only; omega

theorem lax_insert {h h' : HashSet T} (w : Lax hash h) (x : T) (e : h.insert hash x = .ok h') :
    Lax hash h' ∧ (∀ y, y ∈ h'.a.flatten ↔ y = x ∨ y ∈ h.a.flatten) ∧
      h'.size - (h'.a.flatten.length : Int) = h.size - (h.a.flatten.length : Int) := by
  unfold HashSet.insert at e
  split at e
  · have hn : 1 ≤ h.n <<< 1 := by have := w.pos; rw [Nat.shiftLeft_eq]; omega
    obtain ⟨h1, e1, e2⟩ := Res.bind_eq_ok.1 e
    unfold HashSet.resize at e1
    obtain ⟨a, e3, e1⟩ := Res.bind_eq_ok.1 e1
    cases e1
    obtain ⟨w1, p1⟩ := lax_rehash w _ hn h.a.flatten.length a (by rw [List.take_length]; exact e3)
    rw [List.take_length] at p1
    obtain ⟨w2, m2, s2⟩ := lax_add w1 x e2
    refine ⟨w2, fun y => by rw [m2]; dsimp only; rw [p1.mem_iff], ?_⟩
    rw [s2]
    dsimp only
    rw [p1.length_eq]
  · exact lax_add w x e

theorem lax_remove {h h' : HashSet T} (w : Lax hash h) (x : T) (e : h.remove hash x = .ok h') :
    Lax hash h' ∧ (∀ y, y ∈ h'.a.flatten ↔ y ≠ x ∧ y ∈ h.a.flatten) ∧
      h'.size - (h'.a.flatten.length : Int) = h.size - (h.a.flatten.length : Int) := by
  have hi := w.idx x
  obtain ⟨g, e1, w1, m1⟩ := HashSet.remove_spec w.wf x
  unfold HashSet.remove at e e1
  dsimp only at e e1
  rw [rd_ok hi, Res.ok_bind] at e e1
  cases hu : HashSet.unlink h.a[bidx (hash x) h.n] x with
  | none =>
    rw [hu] at e e1
    cases e
    cases e1
    exact ⟨w, m1, rfl⟩
  | some l =>
    rw [hu] at e e1
    dsimp only at e e1
    rw [wr_ok hi, Res.ok_bind] at e e1
    cases e
    cases e1
    have hs := w1.size
    have hw := w.size
    dsimp only at hs
    refine ⟨⟨w1.loc, w1.pos, w1.nodup, ?_⟩, m1, ?_⟩ <;> dsimp only <;> omega

/-! ## Histories -/

/-- What happened to a set: a call of `insert` or `remove` that returned, or a call of `insert` that threw. -/
inductive Ev (T : Type)
  | ins (x : T)
  | rem (x : T)
  | cut
  deriving DecidableEq

/-- The sets that calls lead to, with what happened, the last call first. The calls of functions of elements of each call may
throw or not. Calls of `contains` and calls of `remove` that throw may be in between. -/
inductive Past (hash : T → BitVec 32) : HashSet T → List (Ev T) → Prop
  | new (max : Int) (n : Nat) (hn : 1 ≤ n) : Past hash (HashSet.new n max) []
  | ins (h h' evs x) (fails : Nat → Bool) (t t') (p : Past hash h evs)
      (e : HashSetThrow.insert fails hash h x t = .ret h' t' ()) : Past hash h' (.ins x :: evs)
  | cut (h h' evs x) (fails : Nat → Bool) (t t') (p : Past hash h evs)
      (e : HashSetThrow.insert fails hash h x t = .thrown h' t') : Past hash h' (.cut :: evs)
  | rem (h h' evs x) (fails : Nat → Bool) (t t') (p : Past hash h evs)
      (e : HashSetThrow.remove fails hash h x t = .ret h' t' ()) : Past hash h' (.rem x :: evs)
  | remThrown (h h' evs x) (fails : Nat → Bool) (t t') (p : Past hash h evs)
      (e : HashSetThrow.remove fails hash h x t = .thrown h' t') : Past hash h' evs
  | contains (h h' evs x) (fails : Nat → Bool) (t t' b) (p : Past hash h evs)
      (e : contains fails hash h x t = .ret h' t' b) : Past hash h' evs
  | containsThrown (h h' evs x) (fails : Nat → Bool) (t t') (p : Past hash h evs)
      (e : contains fails hash h x t = .thrown h' t') : Past hash h' evs

/-- `x` has been inserted and not removed since. -/
def Put (x : T) : List (Ev T) → Prop
  | [] => False
  | .ins y :: evs => x = y ∨ Put x evs
  | .rem y :: evs => x ≠ y ∧ Put x evs
  | .cut :: evs => Put x evs

/-- `x` has been inserted, and since then it was not removed and no insertion threw. -/
def Sure (x : T) : List (Ev T) → Prop
  | [] => False
  | .ins y :: evs => x = y ∨ Sure x evs
  | .rem y :: evs => x ≠ y ∧ Sure x evs
  | .cut :: _ => False

theorem past {h : HashSet T} {evs : List (Ev T)} (p : Past hash h evs) : Lax hash h ∧
    (∀ x, x ∈ h.a.flatten → Put x evs) ∧ (∀ x, Sure x evs → x ∈ h.a.flatten) ∧
    (.cut ∉ evs → h.size = h.a.flatten.length) := by
  induction p with
  | new max n hn =>
    have hf : (HashSet.new (T := T) n max).a.flatten = [] := by simp [HashSet.new]
    refine ⟨⟨⟨by simp [HashSet.new], fun i hi x hx => by simp [HashSet.new] at hx⟩, hn, ?_, ?_⟩, ?_, ?_, ?_⟩
    · rw [hf]; exact List.nodup_nil
    · rw [hf]; exact Int.le_refl _
    · rw [hf]; intro x hx; cases hx
    · intro x hx; exact hx.elim
    · rw [hf]; intro _; rfl
  | ins h h' evs x fails t t' p e ih =>
    obtain ⟨w, h1, h2, h3⟩ := ih
    obtain ⟨w', m, s⟩ := lax_insert w x ((C176_returns h h' x t t').2.1 e)
    refine ⟨w', fun y hy => ((m y).1 hy).imp id (h1 y), fun y hy => (m y).2 (hy.imp id (h2 y)), fun hc => ?_⟩
    have := h3 fun q => hc (List.mem_cons_of_mem _ q)
    omega
  | rem h h' evs x fails t t' p e ih =>
    obtain ⟨w, h1, h2, h3⟩ := ih
    obtain ⟨w', m, s⟩ := lax_remove w x ((C176_returns h h' x t t').2.2 e)
    refine ⟨w', fun y hy => ((m y).1 hy).imp id (h1 y), fun y hy => (m y).2 (hy.imp id (h2 y)), fun hc => ?_⟩
    have := h3 fun q => hc (List.mem_cons_of_mem _ q)
    omega
  | cut h h' evs x fails t t' p e ih =>
    obtain ⟨w, h1, h2, h3⟩ := ih
    rcases (C176_kept_partial h h' x t t').2.2 e with ⟨rfl, -⟩ | ⟨-, k, hk, a, ha, rfl⟩
    · exact ⟨w, h1, fun y hy => hy.elim, fun hc => (hc List.mem_cons_self).elim⟩
    · obtain ⟨w', m⟩ := lax_rehash w _ (by have := w.pos; omega) k a ha
      exact ⟨w', fun y hy => h1 y (List.mem_of_mem_take (m.mem_iff.1 hy)), fun y hy => hy.elim,
        fun hc => (hc List.mem_cons_self).elim⟩
  | remThrown h h' evs x fails t t' p e ih => obtain rfl := (C176_kept_partial h h' x t t').2.1 e; exact ih
  | contains h h' evs x fails t t' b p e ih => obtain ⟨rfl, -⟩ := (C176_returns h h' x t t').1 b e; exact ih
  | containsThrown h h' evs x fails t t' p e ih => obtain rfl := (C176_kept_partial h h' x t t').1 e; exact ih

/-- **C176** (what is found): whatever was thrown before, an element that is found was inserted and not removed since; an element
that was inserted and not removed is found unless an insertion threw since then; `N` is at least the number of elements that are
found, and exactly that number unless an insertion threw. -/
theorem C176_members {h : HashSet T} {evs : List (Ev T)} (p : Past hash h evs) :
    (∀ x h' t t' b, contains fails hash h x t = .ret h' t' b → (b = true → Put x evs) ∧ (Sure x evs → b = true)) ∧
    ∃ l : List T, l.Nodup ∧ (∀ x, x ∈ l ↔ h.contains hash x = .ok true) ∧ (l.length : Int) ≤ h.N ∧
      (.cut ∉ evs → h.N = l.length) := by
  obtain ⟨w, h1, h2, h3⟩ := past p
  refine ⟨fun x h' t t' b e => ?_, h.a.flatten, w.nodup, fun x => ?_, w.size, h3⟩
  · have := ((C176_returns h h' x t t').1 b e).2
    rw [w.contains x] at this
    cases this
    exact ⟨fun q => h1 x (of_decide_eq_true q), fun q => decide_eq_true (h2 x q)⟩
  · rw [w.contains x]
    exact ⟨fun q => by rw [decide_eq_true q], fun q => by cases q2 : decide (x ∈ h.a.flatten) with
      | true => exact of_decide_eq_true q2
      | false => rw [q2] at q; cases q⟩

/-! ## The set can be used on -/

omit [DecidableEq T] in
theorem rehash_ok (n2 : Nat) (hn : 1 ≤ n2) (xs : List T) : ∀ a t, a.length = n2 →
    ∃ a' t' b, HashSetThrow.rehash fails hash n2 xs a t = .ok (a', t', b) ∧ a'.length = n2 := by
  induction xs with
  | nil => intro a t ha; exact ⟨a, t, true, rfl, ha⟩
  | cons x xs ih =>
    intro a t ha
    rw [HashSetThrow.rehash]
    split
    · exact ⟨a, t + 1, false, rfl, ha⟩
    · have hi : bidx (hash x) n2 < a.length := by rw [ha]; exact bidx_lt hn
      rw [rd_ok hi, Res.ok_bind, wr_ok hi, Res.ok_bind]
      exact ih _ _ (by rw [List.length_set]; exact ha)

theorem add_ok {h : HashSet T} (hn : 1 ≤ h.n) (ha : h.a.length = h.n) (x : T) (t : Nat) : add fails hash h x t ≠ .ub := by
  have hi : bidx (hash x) h.n < h.a.length := by rw [ha]; exact bidx_lt hn
  unfold add
  rw [rd_ok hi]
  dsimp only
  split
  · intro c; cases c
  · rw [wr_ok hi]
    split <;> intro c <;> cases c

/-- **C176** (use after exceptions): whatever was thrown before, no call leads to undefined behaviour. -/
theorem C176_progress {h : HashSet T} {evs : List (Ev T)} (p : Past hash h evs) (x : T) (t : Nat) :
    contains fails hash h x t ≠ .ub ∧ HashSetThrow.insert fails hash h x t ≠ .ub ∧ HashSetThrow.remove fails hash h x t ≠ .ub := by
  obtain ⟨w, -⟩ := past p
  have hi := w.idx x
  refine ⟨?_, ?_, ?_⟩
  · unfold contains
    rw [rd_ok hi]
    dsimp only
    split
    · intro c; cases c
    · split <;> intro c <;> cases c
  · unfold HashSetThrow.insert HashSetThrow.resize
    split
    · have hn : 1 ≤ h.n <<< 1 := by have := w.pos; rw [Nat.shiftLeft_eq]; omega
      obtain ⟨a, t', b, e, ha⟩ := rehash_ok (fails := fails) (hash := hash) _ hn h.a.flatten (List.replicate _ []) t
        (List.length_replicate)
      rw [e]
      cases b with
      | true => exact add_ok (h := { h with n := h.n <<< 1, a := a }) hn ha x t'
      | false => intro c; cases c
    · exact add_ok w.pos w.loc.1 x t
  · unfold HashSetThrow.remove
    rw [rd_ok hi]
    dsimp only
    split
    · intro c; cases c
    · split
      · intro c; cases c
      · rw [wr_ok hi]; intro c; cases c
      · intro c; cases c

/-! ## Elements get lost -/

/-- **C176** violated (elements get lost): if the set has elements and has reached its limit, and the first function of an element
that `insert` calls throws, then all elements are lost, whether or not the element to insert was there. `N` counts them still. -/
theorem C176_lost_violated {h : HashSet T} {evs : List (Ev T)} (p : Past hash h evs) (hl : h.size = h.n * h.max)
    (hne : ∃ y, h.contains hash y = .ok true) (x : T) (t : Nat) (hf : fails t = true) :
    ∃ h', HashSetThrow.insert fails hash h x t = .thrown h' (t + 1) ∧ (∀ y, h'.contains hash y = .ok false) ∧
      h'.N = h.N ∧ 0 < h'.N := by
  obtain ⟨w, -⟩ := past p
  have hn : 1 ≤ h.n <<< 1 := by have := w.pos; rw [Nat.shiftLeft_eq]; omega
  obtain ⟨y, hy⟩ := hne
  rw [w.contains] at hy
  have hy : y ∈ h.a.flatten := by
    cases q : decide (y ∈ h.a.flatten) with
    | true => exact of_decide_eq_true q
    | false => rw [q] at hy; cases hy
  refine ⟨{ h with n := h.n <<< 1, a := List.replicate (h.n <<< 1) [] }, ?_, fun z => ?_, rfl, ?_⟩
  · unfold HashSetThrow.insert HashSetThrow.resize
    rw [if_pos hl]
    cases hq : h.a.flatten with
    | nil => rw [hq] at hy; cases hy
    | cons u us =>
      rw [HashSetThrow.rehash, if_pos hf]
  · have hi : bidx (hash z) (h.n <<< 1) < (List.replicate (h.n <<< 1) ([] : List T)).length := by
      rw [List.length_replicate]; exact bidx_lt hn
    unfold HashSet.contains
    dsimp only
    rw [rd_ok hi, Res.ok_bind, List.getElem_replicate]
    rfl
  · have := List.length_pos_of_mem hy
    have := w.size
    unfold HashSet.N
    dsimp only
    omega

/-- **C176** violated (comparing): a set that has lost all its elements is equal to every set of which `N` is the same, and none
of these that finds an element is equal to it. -/
theorem C176_equal_violated {h h2 : HashSet T} {evs : List (Ev T)} (p : Past hash h evs) (w2 : HashSet.WF hash h2)
    (he : ∀ y, h.contains hash y = .ok false) (hN : h.N = h2.N) (x : T) (hx : h2.contains hash x = .ok true) :
    HashSet.eqv hash h h2 = .ok true ∧ HashSet.eqv hash h2 h = .ok false := by
  obtain ⟨w, -⟩ := past p
  have hnil : h.a.flatten = [] := by
    cases hq : h.a.flatten with
    | nil => rfl
    | cons u us =>
      have := he u
      rw [w.contains, hq, decide_eq_true List.mem_cons_self] at this
      cases this
  refine ⟨?_, ?_⟩
  · unfold HashSet.eqv HashSet.le
    rw [if_pos hN, if_neg (by omega), hnil]
    rfl
  · unfold HashSet.eqv HashSet.le
    rw [if_pos hN.symm, if_neg (by omega)]
    have hm : h2.a.flatten ≠ [] := by
      intro q
      rw [HashSet.contains_spec w2, q] at hx
      cases hx
    cases hq : h2.a.flatten with
    | nil => exact (hm hq).elim
    | cons u us =>
      rw [HashSet.leLoop, he u]
      rfl

/-! ## Cases -/

/-- Growing at the second insertion: the first call of it throws, although the element is there. -/
example : HashSetThrow.insert (fun k => k == 1) (fun x : Nat => BitVec.ofNat 32 x) (HashSet.new 1 1) 5 0 =
      .ret ⟨1, 1, 1, [[5]]⟩ 1 () ∧
    HashSetThrow.insert (fun k => k == 1) (fun x : Nat => BitVec.ofNat 32 x) ⟨1, 1, 1, [[5]]⟩ 5 1 =
      .thrown ⟨1, 2, 1, [[], []]⟩ 2 := by decide +kernel

/-- Half of the elements are left when the second call throws. -/
example : HashSetThrow.insert (fun k => k == 1) (fun x : Nat => BitVec.ofNat 32 x) ⟨2, 1, 2, [[5, 6]]⟩ 7 0 =
      .thrown ⟨2, 2, 2, [[], [5]]⟩ 2 ∧
    HashSetThrow.remove (fun k => k == 1) (fun x : Nat => BitVec.ofNat 32 x) ⟨2, 1, 2, [[5, 6]]⟩ 6 0 =
      .thrown ⟨2, 1, 2, [[5, 6]]⟩ 2 := by decide +kernel

/-- The hypotheses of `C176_lost_violated` and `C176_equal_violated` are met. -/
example : ∃ h : HashSet Nat, Past (fun x => BitVec.ofNat 32 x) h [.ins 5] ∧ h.size = h.n * h.max ∧
    h.contains (fun x => BitVec.ofNat 32 x) 5 = .ok true :=
  ⟨⟨1, 1, 1, [[5]]⟩, .ins _ _ _ 5 (fun _ => false) 0 1 (.new 1 1 (Nat.le_refl _)) (by decide +kernel), by decide +kernel,
    by decide +kernel⟩

end Lolly.HashSetThrowProps
