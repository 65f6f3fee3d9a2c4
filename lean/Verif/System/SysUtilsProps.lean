import Verif.System.SysUtils
import Verif.System.SpawnNetProps
import Verif.Strings.ConvertProps
import Verif.Strings.SearchLemmas

/-!
# C108: environment variables; C110: the result of `evaluate_system`
-/

set_option autoImplicit false

namespace Lolly.SysUtilsProps

open Lolly.SysUtils

/-! ## Specification -/

/-- What a program does with the variables; each call says whether tbox works. -/
inductive Op
  | set (var value : Bytes) (init save : Bool)
  | get (var : Bytes)

/-- A run; the answers of `get_env`. -/
def run (split : Bytes → List Bytes) : Vars → List Op → List Bytes × Vars
  | vars, [] => ([], vars)
  | vars, .set v x i s :: os => run split (setEnv vars i s v x) os
  | vars, .get v :: os =>
    let r := run split vars os
    (getEnv split vars true v :: r.1, r.2)

/-- The variables as a dictionary, where a variable that is not set is empty: the last value that was set and not empty
counts; a call that fails changes nothing. -/
def spec : (Bytes → Bytes) → List Op → List Bytes × (Bytes → Bytes)
  | d, [] => ([], d)
  | d, .set v x i s :: os => spec (if x ≠ [] ∧ i ∧ s then fun w => if w = v then x else d w else d) os
  | d, .get v :: os =>
    let r := spec d os
    (d v :: r.1, r.2)

/-- No name and no value has a NUL. -/
def NoNul : List Op → Prop
  | [] => True
  | .set v x _ _ :: os => 0 ∉ v ∧ 0 ∉ x ∧ NoNul os
  | .get v :: os => 0 ∉ v ∧ NoNul os

/-- The values that tbox gives are those between the colons. -/
def Splits (split : Bytes → List Bytes) : Prop := ∀ v, An.join (b!":") (split v) = v

/-! ## Lemmas -/

theorem cstr_eq {s : Bytes} (h : (0 : UInt8) ∉ s) : cstr s = s := by
  unfold cstr
  induction s with
  | nil => rfl
  | cons c s ih =>
    have hc : c ≠ 0 := fun e => h (by simp [e])
    rw [List.takeWhile_cons, if_pos (by simpa using hc), ih fun e => h (by simp [e])]

theorem collect_eq (vs : List Bytes) (h : vs ≠ []) : ∀ ret, collect ret vs = ret ++ An.join (b!":") vs ++ (b!":") := by
  induction vs with
  | nil => exact absurd rfl h
  | cons v vs ih =>
    intro ret
    rw [collect]
    cases vs with
    | nil => simp [collect, An.join]
    | cons w vs => rw [ih (by simp), An.join]; simp

/-! ## C108 -/

/-- C108: `get_env` gives the values of a variable with colons between them, and the empty string if it is not set. -/
theorem C108_get (split : Bytes → List Bytes) (vars : Vars) (var : Bytes) :
    getEnv split vars true var = An.join (b!":") ((vars (cstr var)).elim [] split) ∧
    getEnv split vars false var = [] := by
  refine ⟨?_, rfl⟩
  unfold getEnv
  simp only [if_true, true_and]
  generalize (vars (cstr var)).elim [] split = vs
  by_cases h : vs = []
  · subst h; rfl
  · have hl : 1 ≤ vs.length := by
      cases vs with
      | nil => exact absurd rfl h
      | cons => simp
    rw [if_pos hl, if_neg (by omega), collect_eq vs h, List.nil_append]
    have : (((An.join (b!":") vs ++ (b!":")).length : Int) - 1) = ((An.join (b!":") vs).length : Nat) := by simp
    rw [this, An.sub_from_zero, List.take_left]

/-- C108: after every program, variables have the values of the dictionary, and this is what `get_env` answered.
Missing: empty values and values with NULs, see `C108_clear_violated`, `C108_nul_violated`. -/
theorem C108_refines_partial (split : Bytes → List Bytes) (hsp : Splits split) (os : List Op) :
    ∀ (vars : Vars) (d : Bytes → Bytes), NoNul os → (∀ v, (vars v).getD [] = d v) →
      (run split vars os).1 = (spec d os).1 ∧ ∀ v, ((run split vars os).2 v).getD [] = (spec d os).2 v := by
  have hg : ∀ (vars : Vars) (v : Bytes), (0 : UInt8) ∉ v → getEnv split vars true v = (vars v).getD [] := by
    intro vars v hv
    rw [(C108_get split vars v).1, cstr_eq hv]
    cases vars v with
    | none => rfl
    | some x => exact hsp x
  induction os with
  | nil => intro vars d _ h; exact ⟨rfl, h⟩
  | cons o os ih =>
    intro vars d hn h
    cases o with
    | get v =>
      obtain ⟨h1, h2⟩ := ih vars d hn.2 h
      refine ⟨?_, h2⟩
      simp only [run, spec, h1, hg vars v hn.1, h v]
    | set v x i s =>
      rw [run, spec]
      refine ih _ _ hn.2.2 fun w => ?_
      unfold setEnv
      by_cases hx : x = []
      · simp [hx, h w]
      · cases i <;> cases s <;> simp [hx, h w, cstr_eq hn.1, cstr_eq hn.2.1, An.join]
        by_cases hw : w = v
        · simp [hw]
        · simp [hw, h w]

/-- Setting twice, reading another variable. -/
example : spec (fun _ => []) [.set (b!"A") (b!"x") true true, .set (b!"A") (b!"y:z") true true, .get (b!"A"), .get (b!"B")] =
    ([b!"y:z", []], fun w => if w = (b!"A") then (b!"y:z") else if w = (b!"A") then (b!"x") else []) := by
  rfl

/-- There is such a way to cut values. -/
example : Splits (fun v => if v = [] then [] else [v]) := by
  intro v
  by_cases h : v = [] <;> simp [h, An.join]

/-- C108 fails for the empty value: the old one stays, it cannot be cleared. -/
theorem C108_clear_violated (split : Bytes → List Bytes) (vars : Vars) (var : Bytes) (i s : Bool) :
    setEnv vars i s var [] = vars ∧
      getEnv split (setEnv vars i s var []) true var = getEnv split vars true var := by
  simp [setEnv]

/-- C108 fails for values with a NUL: the rest is lost. -/
theorem C108_nul_violated (split : Bytes → List Bytes) (hsp : Splits split) (vars : Vars) :
    getEnv split (setEnv vars true true (b!"A") [97, 0, 98]) true (b!"A") = (b!"a") := by
  rw [(C108_get _ _ _).1]
  have : (setEnv vars true true (b!"A") [97, 0, 98] (cstr (b!"A"))) = some (b!"a") := by
    simp [setEnv, cstr, An.join]
  rw [this]
  exact hsp _

/-! ## C110 -/

section
open Spawn SpawnProps
variable {σ ι κ : Type} [DecidableEq ι] [DecidableEq κ]

/-- C110: `evaluate_system` of a program that reads all of its inputs, none of them empty: under every schedule the first
string denotes the exit status, and the others are what the program writes to each descriptor, in the order of
`fd_out`. -/
theorem C110_evaluate_partial {prog : σ → Act σ ι κ} {cap : Nat} (hcap : chunk ≤ cap) {s : σ} {d : ι → Bytes}
    {o : κ → Bytes} {c : UInt8} {n : Nat} (h : Eval prog s d o (fun _ => []) c n) (hd : ∀ i, d i ≠ []) (is : List ι)
    (ks : List κ) (his : ∀ i, i ∈ is) (hks : ∀ j, j ∈ ks) (hnd : ks.Nodup) {k : Nat} {x : Net σ ι κ}
    (hx : Steps prog cap k (start s d) x) (hstop : ∀ y, ¬ Step prog cap x y) :
    ∃ a, evaluateSystem is ks x = a :: ks.map o ∧ Conv.asInt (2 ^ 31) a = .ok (c.toNat : Int) := by
  obtain ⟨h1, h2⟩ := C95_total hcap h hd is ks his hks hnd hx hstop
  refine ⟨Conv.asString c.toNat, ?_, ?_⟩
  · unfold evaluateSystem
    rw [h2, List.singleton_append]
    congr 1
    exact List.map_congr_left fun j _ => h1 j
  · have := c.toNat_lt
    exact (ConvProps.C16_round_trip_partial (lim := 2 ^ 31) (c.toNat : Int) (by omega) (by omega)).2.2

/-- C110 fails for a program that leaves more of an input unread than fits into the pipe: the first string is `-1`
whatever its exit status, although all outputs are there. -/
theorem C110_unread_violated {prog : σ → Act σ ι κ} {cap : Nat} {s : σ} {d : ι → Bytes} {o : κ → Bytes} {r : ι → Bytes}
    {c : UInt8} {n : Nat} (h : Eval prog s d o r c n) (is : List ι) (ks : List κ) (his : ∀ i, i ∈ is)
    (hks : ∀ j, j ∈ ks) (hnd : ks.Nodup) {k : Nat} {x : Net σ ι κ} (hx : Steps prog cap k (start s d) x) (hf : Final x)
    (i : ι) (hr : cap < (r i).length) : evaluateSystem is ks x = (b!"-1") :: ks.map o := by
  unfold evaluateSystem
  rw [C95_unread_violated h is ks his hks hnd hx hf i hr, List.singleton_append]
  have e : Conv.asString (-1) = (b!"-1") := by decide +kernel
  rw [e]
  congr 1
  exact List.map_congr_left fun j _ => (C95_output h is ks his hks hnd hx hf).1 j
end

end Lolly.SysUtilsProps
