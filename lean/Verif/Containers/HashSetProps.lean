import Verif.Containers.HashSet
import Verif.Containers.HashMapPatchLemmas
import Verif.ListUtil

/-!
# Property C05: hashsets behave as finite sets

Helper lemmas first, then the theorems `C05_*`. Specification: a predicate on items, updated by
each operation of the history (`Built`).
-/

set_option linter.unusedSectionVars false

namespace Lolly

variable {T : Type} [DecidableEq T] {hash : T → BitVec 32}

namespace HashSet

theorem search_iff {l : List T} {x : T} : search l x = true ↔ x ∈ l := by
  induction l with
  | nil => simp [search]
  | cons y l ih =>
    by_cases h : y = x
    · simp [search, h]
    · have : x ≠ y := fun e => h e.symm
      simp [search, h, ih, this]

theorem unlink_spec (l : List T) (x : T) :
    (unlink l x = none ∧ x ∉ l) ∨ ∃ l', unlink l x = some l' ∧ l.Perm (x :: l') := by
  induction l with
  | nil => left; simp [unlink]
  | cons y l ih =>
    by_cases h : y = x
    · subst h; right; exact ⟨l, by simp [unlink], .refl _⟩
    · rcases ih with ⟨h1, h2⟩ | ⟨l', h1, h2⟩
      · left
        have : x ≠ y := fun e => h e.symm
        simp [unlink, h, h1, h2, this]
      · right
        exact ⟨y :: l', by simp [unlink, h, h1], (h2.cons y).trans (.swap _ _ _)⟩

/-- Every item is in the bucket of its hash. -/
def Loc (hash : T → BitVec 32) (n : Nat) (a : List (List T)) : Prop :=
  a.length = n ∧ ∀ i (hi : i < a.length), ∀ x ∈ a[i], bidx (hash x) n = i

/-- Representation invariant. -/
structure WF (hash : T → BitVec 32) (h : HashSet T) : Prop where
  loc : Loc hash h.n h.a
  pos : 1 ≤ h.n
  nodup : h.a.flatten.Nodup
  size : h.size = h.a.flatten.length

theorem WF.idx {h : HashSet T} (w : h.WF hash) (x : T) : bidx (hash x) h.n < h.a.length := by
  rw [w.loc.1]; exact bidx_lt w.pos

theorem WF.mem_bucket {h : HashSet T} (w : h.WF hash) (x : T) :
    x ∈ h.a[bidx (hash x) h.n]'(w.idx x) ↔ x ∈ h.a.flatten := by
  have hi := w.idx x
  constructor
  · intro hx; exact List.mem_flatten.2 ⟨_, List.getElem_mem hi, hx⟩
  · intro hx
    obtain ⟨l, hl, hxl⟩ := List.mem_flatten.1 hx
    obtain ⟨j, hj, rfl⟩ := List.getElem_of_mem hl
    have := w.loc.2 j hj x hxl
    subst this; exact hxl

theorem Loc.push {n : Nat} {a : List (List T)} (hl : Loc hash n a) {x : T}
    (hi : bidx (hash x) n < a.length) :
    Loc hash n (a.set (bidx (hash x) n) (x :: a[bidx (hash x) n])) := by
  constructor
  · simpa using hl.1
  · intro i h' y hy
    rw [List.getElem_set] at hy
    split at hy
    · rename_i hij
      rcases List.mem_cons.1 hy with rfl | hy
      · exact hij
      · subst hij; exact hl.2 _ hi _ hy
    · exact hl.2 _ (by simpa using h') _ hy

theorem rehash_spec (n2 : Nat) (hn : 1 ≤ n2) (xs : List T) (a : List (List T))
    (hl : Loc hash n2 a) :
    ∃ a', rehash hash n2 xs a = .ok a' ∧ Loc hash n2 a' ∧ a'.flatten.Perm (xs ++ a.flatten) := by
  induction xs generalizing a with
  | nil => exact ⟨a, rfl, hl, by simp⟩
  | cons x xs ih =>
    have hi : bidx (hash x) n2 < a.length := by rw [hl.1]; exact bidx_lt hn
    obtain ⟨a', h1, h2, h3⟩ := ih _ (hl.push hi)
    refine ⟨a', ?_, h2, ?_⟩
    · simp [rehash, rd_ok hi, wr_ok hi, h1]
    · refine h3.trans ?_
      have hp := flatten_set_perm a _ hi (x :: a[bidx (hash x) n2])
      have hq := flatten_perm a _ hi
      exact (List.Perm.append_left xs (hp.trans ((hq.symm.cons x)))).trans List.perm_middle

theorem resize_spec {h : HashSet T} (w : h.WF hash) {n2 : Nat} (hn : 1 ≤ n2) :
    ∃ h', h.resize hash n2 = .ok h' ∧ h'.WF hash ∧ h'.a.flatten.Perm h.a.flatten := by
  obtain ⟨a', h1, h2, h3⟩ := rehash_spec (hash := hash) n2 hn h.a.flatten
    (List.replicate n2 []) ⟨by simp, by intro i hi e he; simp at he⟩
  have h3 : a'.flatten.Perm h.a.flatten := by simpa using h3
  refine ⟨{ h with n := n2, a := a' }, by simp [resize, h1], ⟨h2, hn, ?_, ?_⟩, h3⟩
  · exact h3.nodup_iff.2 w.nodup
  · simp only [w.size, h3.length_eq]

theorem contains_spec {h : HashSet T} (w : h.WF hash) (x : T) :
    h.contains hash x = .ok (decide (x ∈ h.a.flatten)) := by
  simp only [contains, rd_ok (w.idx x), Res.ok_bind]
  congr 1
  rw [Bool.eq_iff_iff, search_iff, w.mem_bucket, decide_eq_true_iff]

theorem insert_core {h : HashSet T} (w : h.WF hash) (x : T) :
    ∃ h', (do
      let i := bidx (hash x) h.n
      let l ← rd h.a i
      if search l x then .ok h
      else do
        let a ← wr h.a i (x :: l)
        .ok { h with a := a, size := h.size + 1 }) = Res.ok h' ∧ h'.WF hash ∧
      ∀ y, y ∈ h'.a.flatten ↔ y = x ∨ y ∈ h.a.flatten := by
  have hi := w.idx x
  by_cases hx : x ∈ h.a.flatten
  · have : search h.a[bidx (hash x) h.n] x = true := search_iff.2 ((w.mem_bucket x).2 hx)
    refine ⟨h, by simp [rd_ok hi, this], w, fun y => ?_⟩
    constructor
    · exact .inr
    · rintro (rfl | h)
      · exact hx
      · exact h
  · have : ¬ search h.a[bidx (hash x) h.n] x = true := fun h => hx ((w.mem_bucket x).1 (search_iff.1 h))
    have hp := (flatten_set_perm h.a _ hi (x :: h.a[bidx (hash x) h.n])).trans
      ((flatten_perm h.a _ hi).symm.cons _)
    refine ⟨{ h with
        a := List.set h.a (bidx (hash x) h.n) (x :: h.a[bidx (hash x) h.n])
        size := h.size + 1 }, by simp [rd_ok hi, this, wr_ok hi],
      ⟨w.loc.push hi, w.pos, ?_, ?_⟩, fun y => ?_⟩
    · rw [hp.nodup_iff, List.nodup_cons]; exact ⟨hx, w.nodup⟩
    · simp only [hp.length_eq, w.size, List.length_cons]; omega
    · simp only [hp.mem_iff, List.mem_cons]

theorem insert_spec {h : HashSet T} (w : h.WF hash) (x : T) :
    ∃ h', h.insert hash x = .ok h' ∧ h'.WF hash ∧
      ∀ y, y ∈ h'.a.flatten ↔ y = x ∨ y ∈ h.a.flatten := by
  by_cases hs : h.size = h.n * h.max
  · have hn : 1 ≤ h.n <<< 1 := by have := w.pos; rw [Nat.shiftLeft_eq]; omega
    obtain ⟨h1, e1, w1, p1⟩ := resize_spec w hn
    obtain ⟨h2, e2, w2, m2⟩ := insert_core w1 x
    refine ⟨h2, ?_, w2, fun y => by rw [m2, p1.mem_iff]⟩
    simp only [insert, if_pos hs, e1, Res.ok_bind]; exact e2
  · obtain ⟨h2, e2, w2, m2⟩ := insert_core w x
    refine ⟨h2, ?_, w2, m2⟩
    simp only [insert, if_neg hs, Res.ok_bind]; exact e2

theorem remove_spec {h : HashSet T} (w : h.WF hash) (x : T) :
    ∃ h', h.remove hash x = .ok h' ∧ h'.WF hash ∧
      ∀ y, y ∈ h'.a.flatten ↔ y ≠ x ∧ y ∈ h.a.flatten := by
  have hi := w.idx x
  rcases unlink_spec h.a[bidx (hash x) h.n] x with ⟨h1, h2⟩ | ⟨l', h1, h2⟩
  · refine ⟨h, by simp [remove, rd_ok hi, h1], w, fun y => ?_⟩
    rw [w.mem_bucket] at h2
    constructor
    · intro hy; exact ⟨fun e => h2 (e ▸ hy), hy⟩
    · exact fun h => h.2
  · have hp := flatten_set_perm h.a _ hi l'
    have hq := flatten_perm h.a _ hi
    have hpe : h.a.flatten.Perm (x :: (h.a.set (bidx (hash x) h.n) l').flatten) :=
      hq.trans ((h2.append_right _).trans (hp.symm.cons x))
    have hnd := hpe.nodup_iff.1 w.nodup
    rw [List.nodup_cons] at hnd
    refine ⟨{ h with a := List.set h.a (bidx (hash x) h.n) l', size := h.size - 1 },
      by simp [remove, rd_ok hi, h1, wr_ok hi], ⟨⟨by simpa using w.loc.1, ?_⟩, w.pos, hnd.2, ?_⟩, ?_⟩
    · intro i hi' y hy
      simp only [List.getElem_set] at hy
      split at hy
      · rename_i hij
        have := w.loc.2 _ hi y (h2.mem_iff.2 (List.mem_cons_of_mem _ hy))
        exact this.trans hij
      · exact w.loc.2 _ (by simpa using hi') _ hy
    · have := hpe.length_eq
      simp only [List.length_cons] at this
      simp only [w.size]; omega
    · intro y
      rw [hpe.mem_iff, List.mem_cons]
      constructor
      · intro hy
        refine ⟨?_, .inr hy⟩
        rintro rfl; exact hnd.1 hy
      · rintro ⟨hne, rfl | hy⟩
        · exact absurd rfl hne
        · exact hy

theorem copy_eq (h : HashSet T) : h.copy = h := by
  have : ∀ l : List T, copyList l = l := by
    intro l; induction l with
    | nil => rfl
    | cons x l ih => rw [copyList, ih]
  have : (copyList : List T → _) = id := by funext l; exact this l
  rw [copy, this]; simp

theorem leLoop_spec {h2 : HashSet T} (w : h2.WF hash) (xs : List T) :
    leLoop hash h2 xs = .ok (decide (∀ x ∈ xs, x ∈ h2.a.flatten)) := by
  induction xs with
  | nil => simp [leLoop]
  | cons x xs ih =>
    simp only [leLoop, contains_spec w, Res.ok_bind, ih]
    by_cases hx : x ∈ h2.a.flatten
    · simp only [hx, decide_true, Bool.not_true, Bool.false_eq_true, if_false]
      congr 1; apply decide_eq_decide.2
      simp only [List.forall_mem_cons, hx, true_and]
    · simp only [hx, decide_false, Bool.not_false, if_true]
      congr 1; symm; apply decide_eq_false
      intro h; exact hx (h x List.mem_cons_self)

end HashSet

namespace HashSetProps
open HashSet

/-- All histories of a hashset, with the set of items each stands for. -/
inductive Built (hash : T → BitVec 32) : HashSet T → (T → Prop) → Prop
  | new (n : Nat) (max : Int) : 1 ≤ n → Built hash (new n max) (fun _ => False)
  | insert {h s h'} (x : T) : Built hash h s → h.insert hash x = .ok h' →
      Built hash h' (fun y => y = x ∨ s y)
  | remove {h s h'} (x : T) : Built hash h s → h.remove hash x = .ok h' →
      Built hash h' (fun y => y ≠ x ∧ s y)
  | resize {h s h'} (m : Nat) : 1 ≤ m → Built hash h s → h.resize hash m = .ok h' → Built hash h' s
  | copy {h s} : Built hash h s → Built hash h.copy s

theorem built_inv {h : HashSet T} {s : T → Prop} (b : Built hash h s) :
    h.WF hash ∧ ∀ x, x ∈ h.a.flatten ↔ s x := by
  induction b with
  | new n max hn =>
    refine ⟨⟨⟨by simp [new], ?_⟩, hn, by simp [new], by simp [new]⟩, by simp [new]⟩
    intro i hi x hx; simp [new] at hx
  | insert x _ e ih =>
    obtain ⟨h', e', w', m'⟩ := insert_spec ih.1 x
    rw [e] at e'; obtain rfl := Res.ok.inj e'
    exact ⟨w', fun y => by rw [m', ih.2]⟩
  | remove x _ e ih =>
    obtain ⟨h', e', w', m'⟩ := remove_spec ih.1 x
    rw [e] at e'; obtain rfl := Res.ok.inj e'
    exact ⟨w', fun y => by rw [m', ih.2]⟩
  | resize m hm _ e ih =>
    obtain ⟨h', e', w', p'⟩ := HashSet.resize_spec ih.1 hm
    rw [e] at e'; obtain rfl := Res.ok.inj e'
    exact ⟨w', fun y => by rw [p'.mem_iff, ih.2]⟩
  | copy _ ih => rw [copy_eq]; exact ih

/-- C05, progress: no operation is ever undefined, throws or loops. -/
theorem C05_progress {h : HashSet T} {s : T → Prop} (b : Built hash h s) (x : T) (m : Nat)
    (hm : 1 ≤ m) : (∃ h', h.insert hash x = .ok h') ∧ (∃ h', h.remove hash x = .ok h') ∧
      (∃ h', h.resize hash m = .ok h') := by
  have w := (built_inv b).1
  refine ⟨?_, ?_, ?_⟩
  · obtain ⟨h', e, _⟩ := insert_spec w x; exact ⟨h', e⟩
  · obtain ⟨h', e, _⟩ := remove_spec w x; exact ⟨h', e⟩
  · obtain ⟨h', e, _⟩ := HashSet.resize_spec w hm; exact ⟨h', e⟩

/-- C05, membership. -/
theorem C05_contains {h : HashSet T} {s : T → Prop} (b : Built hash h s) (x : T) :
    ∃ r, h.contains hash x = .ok r ∧ (r = true ↔ s x) := by
  obtain ⟨w, m⟩ := built_inv b
  exact ⟨_, contains_spec w x, by rw [decide_eq_true_iff, m]⟩

/-- C05, size and iteration: iterating stops after `N (h)` rounds and visits each element exactly
once; `N (h)` is their number. -/
theorem C05_size_iterate {h : HashSet T} {s : T → Prop} (b : Built hash h s) (fuel : Nat)
    (hf : h.N < fuel) :
    ∃ it es, Iter.new h.a = .ok it ∧ it.drain fuel = .ok es ∧ es.Nodup ∧ (∀ x, x ∈ es ↔ s x) ∧
      h.N = es.length := by
  obtain ⟨w, m⟩ := built_inv b
  have hne : h.a ≠ [] := by
    intro e; have := w.loc.1; rw [e] at this; have := w.pos; simp at *; omega
  have hlt : h.a.flatten.length < fuel := by
    have := w.size; simp only [N] at hf; omega
  obtain ⟨it, h1, h2⟩ := Iter.drain_new h.a hne fuel hlt
  exact ⟨it, _, h1, h2, w.nodup, m, w.size⟩

/-- C05, `<=` is inclusion. -/
theorem C05_le {h1 h2 : HashSet T} {s1 s2 : T → Prop} (b1 : Built hash h1 s1)
    (b2 : Built hash h2 s2) : ∃ r, le hash h1 h2 = .ok r ∧ (r = true ↔ ∀ x, s1 x → s2 x) := by
  obtain ⟨w1, m1⟩ := built_inv b1
  obtain ⟨w2, m2⟩ := built_inv b2
  by_cases hN : h1.N > h2.N
  · refine ⟨false, by simp [le, hN], ?_⟩
    simp only [Bool.false_eq_true, false_iff]
    intro h
    have := nodup_subset_length w1.nodup (l' := h2.a.flatten) (fun x hx => (m2 x).2 (h x ((m1 x).1 hx)))
    simp only [N, w1.size, w2.size] at hN; omega
  · refine ⟨_, by simp only [le, hN, if_false]; exact leLoop_spec w2 _, ?_⟩
    rw [decide_eq_true_iff]
    simp only [m1, m2]

/-- C05, `<` is strict inclusion. -/
theorem C05_lt {h1 h2 : HashSet T} {s1 s2 : T → Prop} (b1 : Built hash h1 s1)
    (b2 : Built hash h2 s2) :
    ∃ r, lt hash h1 h2 = .ok r ∧ (r = true ↔ (∀ x, s1 x → s2 x) ∧ ∃ x, s2 x ∧ ¬ s1 x) := by
  obtain ⟨w1, m1⟩ := built_inv b1
  obtain ⟨w2, m2⟩ := built_inv b2
  obtain ⟨r, e, hr⟩ := C05_le b1 b2
  by_cases hN : h1.N < h2.N
  · refine ⟨r, by simp [lt, hN, e], ?_⟩
    rw [hr]
    constructor
    · intro h
      refine ⟨h, ?_⟩
      apply Classical.byContradiction
      intro hne
      have := nodup_subset_length w2.nodup (l' := h1.a.flatten) (fun x hx => by
        rw [m1]; apply Classical.byContradiction
        intro h1x; exact hne ⟨x, (m2 x).1 hx, h1x⟩)
      simp only [N, w1.size, w2.size] at hN; omega
    · exact fun h => h.1
  · refine ⟨false, by simp [lt, hN], ?_⟩
    simp only [Bool.false_eq_true, false_iff]
    rintro ⟨h, x, hx2, hx1⟩
    have := nodup_subset_length (l := x :: h1.a.flatten) (l' := h2.a.flatten)
      (List.nodup_cons.2 ⟨by rw [m1]; exact hx1, w1.nodup⟩) (fun y hy => by
        rw [m2]; rcases List.mem_cons.1 hy with rfl | hy
        · exact hx2
        · exact h y ((m1 y).1 hy))
    simp only [List.length_cons] at this
    simp only [N, w1.size, w2.size] at hN; omega

/-- C05, `==` is extensional equality. -/
theorem C05_eq {h1 h2 : HashSet T} {s1 s2 : T → Prop} (b1 : Built hash h1 s1)
    (b2 : Built hash h2 s2) : ∃ r, eqv hash h1 h2 = .ok r ∧ (r = true ↔ ∀ x, s1 x ↔ s2 x) := by
  obtain ⟨w1, m1⟩ := built_inv b1
  obtain ⟨w2, m2⟩ := built_inv b2
  obtain ⟨r, e, hr⟩ := C05_le b1 b2
  by_cases hN : h1.N = h2.N
  · refine ⟨r, by simp [eqv, hN, e], ?_⟩
    rw [hr]
    constructor
    · intro h x
      refine ⟨h x, fun hx => ?_⟩
      have := nodup_subset_of_length w1.nodup (l' := h2.a.flatten)
        (fun x hx => (m2 x).2 (h x ((m1 x).1 hx)))
        (by simp only [N, w1.size, w2.size] at hN; omega) x ((m2 x).2 hx)
      exact (m1 x).1 this
    · exact fun h x => (h x).1
  · refine ⟨false, by simp [eqv, hN], ?_⟩
    simp only [Bool.false_eq_true, false_iff]
    intro h
    have h1' := nodup_subset_length w1.nodup (l' := h2.a.flatten)
      (fun x hx => (m2 x).2 ((h x).1 ((m1 x).1 hx)))
    have h2' := nodup_subset_length w2.nodup (l' := h1.a.flatten)
      (fun x hx => (m1 x).2 ((h x).2 ((m2 x).1 hx)))
    simp only [N, w1.size, w2.size] at hN; omega

/-- Non-vacuity: a history with a collision, growth and a removal. -/
example : ∃ h : HashSet Nat, ∃ s, Built (fun _ => 5#32) h s ∧ s 2 ∧ ¬ s 1 ∧
    h.contains (fun _ => 5#32) 2 = .ok true ∧ h.N = 1 :=
  ⟨_, _, .remove 1 (.insert 2 (.insert 1 (.new 1 1 (by decide)) rfl) rfl) rfl,
    by simp, by simp, rfl, rfl⟩

end HashSetProps
end Lolly
