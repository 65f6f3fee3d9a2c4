import Verif.System.OstreamEq
import Verif.System.OstreamProps

set_option autoImplicit false

/-!
# C184: streams are equal if what is written to one is written to the other
-/

namespace Lolly.OstreamEqProps

open Ostream

/-- Two variables are the same stream: writing to one has exactly the effect of writing to the other. -/
def SameStream (fails : Nat → Bytes → Bytes → Option Nat) (w : World) (i j : Nat) : Prop :=
  ∀ s, run fails w [.write i s] = run fails w [.write j s]

/-- **C184 (partial).** In every state of a program, variables that compare equal are the same stream, and a variable is
equal to itself whatever it was redirected to.

Missing: variables that are the same stream compare equal, which does not hold (`C184_copy_violated`). -/
theorem C184_equal_partial (fails : Nat → Bytes → Bytes → Option Nat) (w : World) (i j : Nat) :
    (equal w i j = .ok true → SameStream fails w i j) ∧ (i < w.vars.length → equal w i i = .ok true) := by
  constructor
  · intro h s
    unfold equal var at h
    split at h
    · rw [Res.ok_bind] at h
      split at h
      · rw [Res.ok_bind] at h
        injection h with h
        rw [of_decide_eq_true h]
      · cases h
    · cases h
  · intro h
    simp [equal, var, h]

theorem same_of_var {fails : Nat → Bytes → Bytes → Option Nat} {w : World} {i j : Nat}
    (h : w.vars[i]? = w.vars[j]?) : SameStream fails w i j := by
  intro s
  simp only [run, step, var, h]

theorem srun_append {fails : Nat → Bytes → Bytes → Option Nat} {n : Nat} {w t : SWorld} {out : List Bytes}
    {a : List Op} (h : srun fails n w a = some (t, out)) (op : Op) {t' : SWorld} {o : List Bytes}
    (h' : sstep fails n t op = some (t', o)) : srun fails n w (a ++ [op]) = some (t', out ++ o) := by
  induction a generalizing w out with
  | nil =>
    simp only [srun, Option.some.injEq, Prod.mk.injEq] at h
    obtain ⟨rfl, rfl⟩ := h
    simp [srun, h']
  | cons p a ih =>
    rw [srun] at h
    rw [List.cons_append, srun]
    cases hs : sstep fails n w p with
    | none => rw [hs] at h; cases h
    | some r =>
      rw [hs, Option.bind_some] at h
      cases hq : srun fails n r.1 a with
      | none => rw [hq] at h; cases h
      | some q =>
        rw [hq] at h
        simp only [Option.map_some, Option.some.injEq, Prod.mk.injEq] at h
        obtain ⟨rfl, rfl⟩ := h
        rw [Option.bind_some, ih hq]
        simp

/-- **C184 (violated), copies.** Wherever a program has got to, a copy of a stream, such as the argument of a function that
takes a stream by value, is the same stream, but it does not compare equal to it. -/
theorem C184_copy_violated {n : Nat} {fails : Nat → Bytes → Bytes → Option Nat} {ops : List Op} {t : SWorld}
    {out : List Bytes} (h : srun fails n (sstart n) ops = some (t, out)) {i : Nat} (hi : i < t.vars.length) :
    ∃ w j, run fails (start n) (ops ++ [.copy i]) = .ok (w, out) ∧ j < w.vars.length ∧ SameStream fails w i j ∧
      equal w i j = .ok false := by
  have hs : sstep fails n t (.copy i) = some ({ t with vars := t.vars ++ [t.vars[i]] }, []) := by
    simp [sstep, hi]
  obtain ⟨w, e, v, -⟩ := OstreamProps.C58_refines (srun_append h _ hs)
  rw [List.append_nil] at e
  dsimp only at v
  have a : w.vars[i]? = some t.vars[i] := by
    rw [v, List.getElem?_append_left hi]; exact List.getElem?_eq_getElem hi
  have b : w.vars[t.vars.length]? = some t.vars[i] := by
    rw [v, List.getElem?_append_right (Nat.le_refl _), Nat.sub_self]; rfl
  refine ⟨w, t.vars.length, e, by rw [v]; simp, same_of_var (a.trans b.symm), ?_⟩
  have : t.vars.length ≠ i := by omega
  simp [equal, var, a, b, this]

/-- **C184 (violated), assignments.** The same for a stream that was assigned or redirected to another variable. -/
theorem C184_assign_violated {n : Nat} {fails : Nat → Bytes → Bytes → Option Nat} {ops : List Op} {t : SWorld}
    {out : List Bytes} (h : srun fails n (sstart n) ops = some (t, out)) {i j : Nat} (hi : i < t.vars.length)
    (hj : j < t.vars.length) (hn : i ≠ j) :
    ∃ w, run fails (start n) (ops ++ [.assign i j]) = .ok (w, out) ∧ SameStream fails w i j ∧
      equal w i j = .ok false := by
  have hs : sstep fails n t (.assign i j) = some ({ t with vars := t.vars.set i t.vars[j] }, []) := by
    simp [sstep, hi, hj]
  obtain ⟨w, e, v, -⟩ := OstreamProps.C58_refines (srun_append h _ hs)
  rw [List.append_nil] at e
  dsimp only at v
  have a : w.vars[i]? = some t.vars[j] := by rw [v]; exact List.getElem?_set_self hi
  have b : w.vars[j]? = some t.vars[j] := by rw [v, List.getElem?_set_ne hn]; simp [hj]
  refine ⟨w, e, same_of_var (a.trans b.symm), ?_⟩
  simp [equal, var, a, b, Ne.symm hn]

/-- A program with two streams on files meets the hypotheses. -/
example : ∃ t, srun (fun _ _ _ => none) 2 (sstart 2) [.file 0, .file 1, .write 0 (b!"a")] = some (t, []) ∧
    0 < t.vars.length ∧ 1 < t.vars.length ∧ t.files = [b!"a", []] := ⟨_, rfl, by decide, by decide, rfl⟩

/-- Streams on different files are not the same stream and do not compare equal. -/
example : ∃ w, run (fun _ _ _ => none) (start 2) [.file 0, .file 1] = .ok (w, []) ∧ equal w 0 1 = .ok false ∧
    ¬ SameStream (fun _ _ _ => none) w 0 1 :=
  ⟨_, rfl, rfl, fun h => absurd (h (b!"a")) (by decide +kernel)⟩

end Lolly.OstreamEqProps
