import Verif.Containers.RelLayers
import Verif.Containers.RelHashMapProps

set_option autoImplicit false
set_option linter.unusedSectionVars false

/-!
# C186: leaving out what a layer of a relative hashmap does not change
-/

namespace Lolly.RelLayersProps

open HashMapProps RelHashMapProps

variable {K V : Type} [DecidableEq K] [DecidableEq V] {hash : K → BitVec 32}

/-- **C186, values.** After `H->next->find_changes (H->item)` all keys have the same values as before, the layers below are
the same, and the innermost layer has exactly the keys whose values differ from those below. -/
theorem C186_values {item : HashMap K V} {next : RelHashMap K V} {s s' : Spec K V} {S : List (Spec K V)}
    (l : Layers hash (item :: next) (s :: s' :: S)) :
    ∃ item', RelLayers.reduce hash (item :: next) = .ok (item' :: next) ∧
      (∀ x, RelHashMap.get hash (item' :: next) x = RelHashMap.get hash (item :: next) x) ∧
      ∀ x, item'.contains hash x = .ok true ↔
        item.contains hash x = .ok true ∧ item.get hash x ≠ RelHashMap.get hash next x := by
  cases l with
  | cons b l =>
    obtain ⟨c, e, bc⟩ := findChanges_spec l b
    refine ⟨c, by rw [RelLayers.reduce, e, Res.ok_bind], fun x => ?_, fun x => ?_⟩
    · rw [C06_get (.cons bc l), C06_get (.cons b l)]
      rw [show ∀ t : Spec K V, vis (t :: s' :: S) x = (t.val x).or (vis (s' :: S) x) from fun _ => rfl,
        show ∀ t : Spec K V, vis (t :: s' :: S) x = (t.val x).or (vis (s' :: S) x) from fun _ => rfl]
      simp only [outerDflt]
      generalize vis (s' :: S) x = w
      cases hx : s.val x with
      | none => simp
      | some v =>
        by_cases hv : w.getD (outerDflt s' S) = v
        · simp [Option.filter, hv]
        · simp [Option.filter, hv]
    · rw [C01_contains bc, C01_contains b, C01_get b, C06_get l]
      simp only [Spec.read]
      generalize vis (s' :: S) x = w
      cases hx : s.val x with
      | none => simp
      | some v =>
        by_cases hv : w.getD (outerDflt s' S) = v
        · simp [Option.filter, hv]
        · have hv' : ¬ v = w.getD (outerDflt s' S) := fun e => hv e.symm
          simp [Option.filter, hv, hv']

/-- **C186, membership (partial).** Exactly which keys the map has afterwards: those of the layers below, and those of the
innermost layer whose values differ from what is read below.

Missing: the keys are the same as before, which does not hold (`C186_contains_violated`). -/
theorem C186_contains_partial {item : HashMap K V} {next : RelHashMap K V} {s s' : Spec K V} {S : List (Spec K V)}
    (l : Layers hash (item :: next) (s :: s' :: S)) :
    ∃ item', RelLayers.reduce hash (item :: next) = .ok (item' :: next) ∧
      ∀ x, RelHashMap.contains hash (item' :: next) x = .ok true ↔
        RelHashMap.contains hash next x = .ok true ∨
          item.contains hash x = .ok true ∧ item.get hash x ≠ RelHashMap.get hash next x := by
  cases l with
  | cons b l =>
    obtain ⟨c, e, bc⟩ := findChanges_spec l b
    refine ⟨c, by rw [RelLayers.reduce, e, Res.ok_bind], fun x => ?_⟩
    rw [C06_contains (.cons bc l), C06_contains l, C01_contains b, C01_get b, C06_get l]
    rw [show ∀ t : Spec K V, vis (t :: s' :: S) x = (t.val x).or (vis (s' :: S) x) from fun _ => rfl]
    simp only [Spec.read]
    generalize vis (s' :: S) x = w
    cases hx : s.val x with
    | none => simp
    | some v =>
      by_cases hv : w.getD (outerDflt s' S) = v
      · simp [Option.filter, hv]
      · have hv' : ¬ v = w.getD (outerDflt s' S) := fun e => hv e.symm
        simp [Option.filter, hv, hv']

/-- **C186 (violated), membership.** A key that only the innermost layer has, with the value that is read below as the
default, is not in the map any more. -/
theorem C186_contains_violated {item : HashMap K V} {next : RelHashMap K V} {s s' : Spec K V} {S : List (Spec K V)}
    (l : Layers hash (item :: next) (s :: s' :: S)) (x : K) (h1 : item.contains hash x = .ok true)
    (h2 : RelHashMap.contains hash next x = .ok false) (h3 : item.get hash x = RelHashMap.get hash next x) :
    ∃ item', RelLayers.reduce hash (item :: next) = .ok (item' :: next) ∧
      RelHashMap.contains hash (item :: next) x = .ok true ∧
      RelHashMap.contains hash (item' :: next) x = .ok false := by
  cases l with
  | cons b l =>
    obtain ⟨c, e, bc⟩ := findChanges_spec l b
    refine ⟨c, by rw [RelLayers.reduce, e, Res.ok_bind], by rw [RelHashMap.contains, h1]; rfl, ?_⟩
    rw [C06_contains (.cons bc l)]
    rw [show ∀ t : Spec K V, vis (t :: s' :: S) x = (t.val x).or (vis (s' :: S) x) from fun _ => rfl]
    rw [C06_contains l] at h2
    rw [C01_get b, C06_get l] at h3
    injection h2 with h2
    injection h3 with h3
    simp only [Spec.read] at h3 ⊢
    generalize vis (s' :: S) x = w at h2 h3 ⊢
    cases hx : s.val x with
    | none => simpa using h2
    | some v =>
      rw [hx, Option.getD_some] at h3
      simp [Option.filter, ← h3, h2]

/-- **C186 (violated), the whole map.** `H->find_changes (H->item)`, which asks the map for the changes with respect to
itself, empties the innermost layer: all keys have the values of the layers below, and what had been changed is lost. -/
theorem C186_own_violated {item : HashMap K V} {next : RelHashMap K V} {s s' : Spec K V} {S : List (Spec K V)}
    (l : Layers hash (item :: next) (s :: s' :: S)) :
    ∃ item', RelLayers.findOwn hash (item :: next) = .ok (item' :: next) ∧
      ∀ x, item'.contains hash x = .ok false ∧
        RelHashMap.get hash (item' :: next) x = RelHashMap.get hash next x := by
  have l0 := l
  cases l with
  | cons b l =>
    obtain ⟨c, e, bc⟩ := findChanges_spec l0 b
    have hn : ∀ x, c.contains hash x = .ok false := by
      intro x
      rw [C01_contains bc]
      have : (s.val x).filter (fun v => decide ((vis (s :: s' :: S) x).getD (outerDflt s (s' :: S)) ≠ v)) = none := by
        rw [Option.filter_eq_none_iff]
        intro v hv
        have hw : vis (s :: s' :: S) x = some v := by simp [vis, hv]
        simp [hw]
      exact congrArg (fun o => Res.ok (Option.isSome o)) this
    refine ⟨c, by rw [RelLayers.findOwn, e, Res.ok_bind], fun x => ⟨hn x, ?_⟩⟩
    have : next.isEmpty = false := by cases l; rfl
    rw [RelHashMap.get, hn x, Res.ok_bind, this]
    rfl

/-- A map with two layers: 1 below, and 1 (the same), 2 (changed) and 3 (the default) above. The hypotheses of all theorems
of this file hold, for `C186_contains_violated` with the key 3. -/
example : ∃ (item below : HashMap Nat Nat) (s s' : Spec Nat Nat),
    Layers (fun x => BitVec.ofNat 32 x) [item, below] [s, s'] ∧
    item.contains (fun x => BitVec.ofNat 32 x) 3 = .ok true ∧
    RelHashMap.contains (fun x => BitVec.ofNat 32 x) [below] 3 = .ok false ∧
    item.get (fun x => BitVec.ofNat 32 x) 3 = RelHashMap.get (fun x => BitVec.ofNat 32 x) [below] 3 ∧
    item.get (fun x => BitVec.ofNat 32 x) 2 ≠ RelHashMap.get (fun x => BitVec.ofNat 32 x) [below] 2 :=
  ⟨_, _, _, _, .cons (.set 3 0 (.set 2 20 (.set 1 10 (.new 0 1 1 (Nat.le_refl 1)) rfl) rfl) rfl)
    (.cons (.set 1 10 (.new 0 1 1 (Nat.le_refl 1)) rfl) .nil), rfl, rfl, rfl, by decide⟩

end Lolly.RelLayersProps
