import Verif.Kernel.Failure

set_option autoImplicit false

/-!
# C140: failed checks are reported, reach one handler each and stay pending until they are handled
-/

namespace Lolly.FailureProps

open Lolly.Failure
open Lolly.Display hiding St start run step Op
open Lolly.Ostream hiding start run step Op

/-! ## Specification -/

/-- What can be observed. -/
inductive Event
  | text (s : Bytes)
  | ctrl (c : Ctrl)
  | fail (msg : Bytes)
  | caught (msg : Bytes)
  | handle
  deriving DecidableEq

/-- How programs run: the first failed check ends the block it is in, and the handler of the innermost block runs next. -/
inductive Runs : Prog → List Event → Option Bytes → Prop
  | done : Runs .done [] none
  | print {s : Bytes} {p : Prog} {e : List Event} {r : Option Bytes} :
    Runs p e r → Runs (.print s p) (.text (s.takeWhile (· ≠ 0)) :: e) r
  | ctrl {c : Ctrl} {p : Prog} {e : List Event} {r : Option Bytes} : Runs p e r → Runs (.ctrl c p) (.ctrl c :: e) r
  | pass {m : Bytes} {p : Prog} {e : List Event} {r : Option Bytes} : Runs p e r → Runs (.check true m p) e r
  | fail {m : Bytes} {p : Prog} :
    Runs (.check false m p) [.fail (m.takeWhile (· ≠ 0))] (some (m.takeWhile (· ≠ 0)))
  | quiet {b h p : Prog} {e e' : List Event} {r : Option Bytes} :
    Runs b e none → Runs p e' r → Runs (.attempt b h p) (e ++ e') r
  | caught {b h p : Prog} {m : Bytes} {e e' e'' : List Event} {r : Option Bytes} :
    Runs b e (some m) → Runs h e' none → Runs p e'' r → Runs (.attempt b h p) (e ++ .caught m :: (e' ++ e'')) r
  | again {b h p : Prog} {m m' : Bytes} {e e' : List Event} :
    Runs b e (some m) → Runs h e' (some m') → Runs (.attempt b h p) (e ++ .caught m :: e') (some m')
  | handle {p : Prog} {e : List Event} {r : Option Bytes} : Runs p e r → Runs (.handle p) (.handle :: e) r

/-- The messages of the failed checks. -/
def failures (e : List Event) : List Bytes := e.filterMap fun x => match x with | .fail m => some m | _ => none

/-- The messages the handlers got. -/
def caughts (e : List Event) : List Bytes := e.filterMap fun x => match x with | .caught m => some m | _ => none

/-- The depth of indentation. -/
def depth : List Event → Int
  | [] => 0
  | .ctrl .indent :: e => depth e + 1
  | .ctrl .unindent :: e => depth e - 1
  | _ :: e => depth e

/-- A new line with `d` levels of indentation. -/
def line (d : Int) : Bytes := 10 :: List.replicate (2 * d).toNat 32

/-- 49 dashes and the end of the line. -/
def dashes : Bytes := List.replicate 49 45 ++ [10]

/-- What is printed for an event at a depth. -/
def shown (d : Int) : Event → Bytes
  | .text s => s
  | .ctrl .indent => [32, 32]
  | .ctrl .unindent => [8, 8]
  | .ctrl .hrule => List.replicate (78 - 2 * d).toNat 45 ++ line d
  | .ctrl .lf => line d
  | .fail m => (b!"Throwing ") ++ m ++ line d ++ dashes ++ line d ++ dashes
  | .caught _ => []
  | .handle => []

/-- What is printed by a run. -/
def printed : List Event → Int → Bytes
  | [], _ => []
  | x :: e, d => shown d x ++ printed e (d + depth [x])

/-- An event after which nothing is pending that was pending before. -/
def settles : Event → Bool
  | .fail _ => true
  | .handle => true
  | _ => false

/-- Every block with a handler is followed by `handle_exceptions`, and handlers do not fail. -/
inductive Careful : Prog → Prop
  | done : Careful .done
  | print {s : Bytes} {p : Prog} : Careful p → Careful (.print s p)
  | ctrl {c : Ctrl} {p : Prog} : Careful p → Careful (.ctrl c p)
  | check {b : Bool} {m : Bytes} {p : Prog} : Careful p → Careful (.check b m p)
  | attempt {b h p : Prog} : Careful p → Careful (.attempt b h (.handle p))
  | handle {p : Prog} : Careful p → Careful (.handle p)

/-! ## Lemmas -/

theorem depth_append (a b : List Event) : depth (a ++ b) = depth a + depth b := by
  induction a with
  | nil => simp [depth]
  | cons x a ih =>
    rw [List.cons_append]
    cases x with
    | ctrl c => cases c <;> simp only [depth, ih] <;> omega
    | _ => simp only [depth, ih]

theorem printed_append (a b : List Event) (d : Int) : printed (a ++ b) d = printed a d ++ printed b (d + depth a) := by
  induction a generalizing d with
  | nil => simp [printed, depth]
  | cons x a ih =>
    rw [List.cons_append, printed, printed, ih, List.append_assoc]
    have : depth (x :: a) = depth [x] + depth a := depth_append [x] a
    rw [this, Int.add_assoc]

/-- What is pending after events. -/
def pend (p : Bytes) : List Event → Bytes
  | [] => p
  | .fail m :: e => pend m e
  | .handle :: e => pend [] e
  | _ :: e => pend p e

theorem pend_append (p : Bytes) (a b : List Event) : pend p (a ++ b) = pend (pend p a) b := by
  induction a generalizing p with
  | nil => rfl
  | cons x a ih => rw [List.cons_append]; cases x <;> simp only [pend, ih]

theorem pend_quiet {p : Bytes} {e : List Event} (h : ∀ x ∈ e, settles x = false) : pend p e = p := by
  induction e with
  | nil => rfl
  | cons x e ih =>
    have hx := h x (by simp)
    have ih := ih fun y hy => h y (by simp [hy])
    cases x <;> simp_all [pend, settles]

theorem newLine_eq (d : Int) : newLine (2 * d) = line d := by
  simp [newLine, fill, line]

theorem rule_eq : rule = dashes := by decide +kernel

/-- The state after events. -/
structure After (st : St) (e : List Event) (st' : St) : Prop where
  ind : st'.ind = st.ind + 2 * depth e
  out : ∀ d, st.ind = 2 * d → st'.out = st.out ++ printed e d
  pending : st'.pending = pend st.pending e
  report : st'.report = []
  caught : st'.caught = st.caught ++ caughts e

theorem After.trans {a b c : St} {e f : List Event} (h : After a e b) (k : After b f c) : After a (e ++ f) c where
  ind := by rw [k.ind, h.ind, depth_append]; omega
  out := by
    intro d hd
    rw [k.out (d + depth e) (by rw [h.ind]; omega), h.out d hd, printed_append, List.append_assoc]
  pending := by rw [k.pending, h.pending, pend_append]
  report := k.report
  caught := by rw [k.caught, h.caught, List.append_assoc]; simp [caughts]

theorem After.refl {st : St} (h : st.report = []) : After st [] st :=
  ⟨by simp [depth], by simp [printed], rfl, h, by simp [caughts]⟩

theorem throw_after {st st' : St} {msg m : Bytes} (hr : st.report = []) (h : tmThrow st msg = .ok (st', m)) :
    m = msg.takeWhile (· ≠ 0) ∧ After st [.fail m] st' := by
  unfold tmThrow at h
  simp only [display, Res.ok_bind, hr] at h
  injection h with h
  injection h with h1 h2
  subst h1
  subst h2
  refine ⟨rfl, ?_, ?_, rfl, rfl, ?_⟩
  · simp [depth]
  · intro d hd
    simp [printed, shown, hd, newLine_eq, rule_eq]
  · simp [caughts]

theorem handle_after {st : St} (hr : st.report = []) : After st [.handle] (handleExceptions st) := by
  unfold handleExceptions
  split
  · exact ⟨by simp [depth], by simp [printed, shown], rfl, rfl, by simp [caughts]⟩
  · next h =>
    have : st.pending = [] := List.length_eq_zero_iff.1 (by omega)
    exact ⟨by simp [depth], by simp [printed, shown], this, hr, by simp [caughts]⟩

theorem ctrl_after {st : St} {c : Ctrl} {s : Bytes} {i : Int} (hr : st.report = []) (h : display st.ind c = .ok (s, i)) :
    After st [.ctrl c] { st with ind := i, out := st.out ++ s } := by
  have key : i = st.ind + 2 * depth [.ctrl c] ∧ ∀ d, st.ind = 2 * d → s = shown d (.ctrl c) := by
    cases c with
    | indent =>
      simp only [display, addIndent] at h
      split at h
      · simp only [Res.ok_bind] at h
        injection h with h
        injection h with h1 h2
        subst h1 h2
        exact ⟨by simp [depth], fun _ _ => rfl⟩
      · cases h
    | unindent =>
      simp only [display, addIndent] at h
      split at h
      · simp only [Res.ok_bind] at h
        injection h with h
        injection h with h1 h2
        subst h1 h2
        exact ⟨by simp only [depth]; omega, fun _ _ => rfl⟩
      · cases h
    | hrule =>
      simp only [display] at h
      injection h with h
      injection h with h1 h2
      subst h1 h2
      refine ⟨by simp [depth], fun d hd => ?_⟩
      rw [hd, newLine_eq]
      simp [shown, fill]
    | lf =>
      simp only [display] at h
      injection h with h
      injection h with h1 h2
      subst h1 h2
      refine ⟨by simp [depth], fun d hd => ?_⟩
      rw [hd, newLine_eq]
      rfl
  refine ⟨key.1, fun d hd => ?_, rfl, hr, by simp [caughts]⟩
  dsimp only
  rw [key.2 d hd]
  simp [printed]

theorem exec_runs (p : Prog) : ∀ {st st' : St} {r : Option Bytes}, st.report = [] → exec p st = .ok (st', r) →
    ∃ e, Runs p e r ∧ After st e st' := by
  induction p with
  | done =>
    intro st st' r hr h
    rw [exec] at h
    injection h with h
    injection h with h1 h2
    subst h1 h2
    exact ⟨[], .done, .refl hr⟩
  | print s p ih =>
    intro st st' r hr h
    rw [exec] at h
    obtain ⟨e, h1, h2⟩ := ih (by exact hr) h
    refine ⟨_, .print h1, After.trans (e := [.text (s.takeWhile (· ≠ 0))]) ?_ h2⟩
    exact ⟨by simp [depth], by intro d _; simp [printed, shown, cstr], rfl, hr, by simp [caughts]⟩
  | ctrl c p ih =>
    intro st st' r hr h
    simp only [exec, Res.bind_eq_ok] at h
    obtain ⟨⟨s, i⟩, h0, h⟩ := h
    obtain ⟨e, h1, h2⟩ := ih (by exact hr) h
    exact ⟨_, .ctrl h1, After.trans (e := [.ctrl c]) (ctrl_after hr h0) h2⟩
  | check b m p ih =>
    intro st st' r hr h
    cases b with
    | true =>
      have h : exec p st = .ok (st', r) := by simpa [exec] using h
      obtain ⟨e, h1, h2⟩ := ih hr h
      exact ⟨e, .pass h1, h2⟩
    | false =>
      simp only [exec, Bool.not_false, if_true, Res.bind_eq_ok] at h
      obtain ⟨⟨s, i⟩, h0, h⟩ := h
      injection h with h
      injection h with h1 h2
      subst h1 h2
      obtain ⟨rfl, ha⟩ := throw_after hr h0
      exact ⟨_, .fail, ha⟩
  | attempt b hd p ihb ihh ihp =>
    intro st st' r hr h
    simp only [exec, Res.bind_eq_ok] at h
    obtain ⟨⟨s1, r1⟩, h0, h⟩ := h
    obtain ⟨e1, k1, a1⟩ := ihb hr h0
    cases r1 with
    | none =>
      dsimp only at h
      obtain ⟨e2, k2, a2⟩ := ihp a1.report h
      exact ⟨_, .quiet k1 k2, a1.trans a2⟩
    | some m =>
      simp only [Res.bind_eq_ok] at h
      obtain ⟨⟨s2, r2⟩, h3, h⟩ := h
      obtain ⟨e2, k2, a2⟩ := ihh (st := { s1 with caught := s1.caught ++ [m] }) a1.report h3
      have c : After s1 [.caught m] { s1 with caught := s1.caught ++ [m] } :=
        ⟨by simp [depth], by intro d _; simp [printed, shown], rfl, a1.report, by simp [caughts]⟩
      cases r2 with
      | none =>
        dsimp only at h
        obtain ⟨e3, k3, a3⟩ := ihp a2.report h
        exact ⟨_, .caught k1 k2 k3, a1.trans (c.trans (a2.trans a3))⟩
      | some m' =>
        dsimp only at h
        injection h with h
        injection h with h1 h2
        subst h1 h2
        exact ⟨_, .again k1 k2, a1.trans (c.trans a2)⟩
  | handle p ih =>
    intro st st' r hr h
    rw [exec] at h
    have a := handle_after hr
    obtain ⟨e, h1, h2⟩ := ih a.report h
    exact ⟨_, .handle h1, After.trans (e := [.handle]) a h2⟩

/-- Every failure is caught once, in order, or leaves the program. -/
theorem runs_failures {p : Prog} {e : List Event} {r : Option Bytes} (h : Runs p e r) :
    failures e = caughts e ++ r.toList := by
  induction h with
  | done => rfl
  | print _ ih => simpa [failures, caughts] using ih
  | ctrl _ ih => simpa [failures, caughts] using ih
  | pass _ ih => exact ih
  | fail => rfl
  | quiet _ _ i1 i2 => simp [failures, caughts] at *; simp [i1, i2]
  | caught _ _ _ i1 i2 i3 => simp [failures, caughts] at *; simp [i1, i2, i3]
  | again _ _ i1 i2 => simp [failures, caughts] at *; simp [i1, i2]
  | handle _ ih => simpa [failures, caughts] using ih

theorem careful_pend {p : Prog} (hp : Careful p) : ∀ {e : List Event}, Runs p e none → pend [] e = [] := by
  induction hp with
  | done => intro e h; cases h; rfl
  | print _ ih => intro e h; cases h with | print h => have := ih h; simpa only [pend] using this
  | ctrl _ ih => intro e h; cases h with | ctrl h => have := ih h; simpa only [pend] using this
  | check _ ih => intro e h; cases h with | pass h => exact ih h
  | attempt _ ih =>
    intro e h
    cases h with
    | quiet h1 h2 =>
      cases h2 with
      | handle h2 => rw [pend_append]; exact ih h2
    | caught h1 h2 h3 =>
      cases h3 with
      | handle h3 =>
        rw [pend_append, pend, pend_append]
        · exact ih h3
        · intro _ h; cases h
        · intro h; cases h
  | handle _ ih => intro e h; cases h with | handle h => have := ih h; simpa only [pend] using this

/-! ## C140 -/

/-- Programs run as C++ runs them; `cout` gets exactly what is printed and a report for every failure; every failure reaches
exactly one handler, with its message and in order, or leaves the program. -/
theorem C140_run {p : Prog} {st : St} {r : Option Bytes} (h : exec p start = .ok (st, r)) :
    ∃ e, Runs p e r ∧ st.out = printed e 0 ∧ st.caught = caughts e ∧ failures e = st.caught ++ r.toList := by
  obtain ⟨e, h1, h2⟩ := exec_runs p rfl h
  have c : st.caught = caughts e := by simpa [start] using h2.caught
  exact ⟨e, h1, by simpa [start] using h2.out 0 rfl, c, by rw [c]; exact runs_failures h1⟩

/-- After a failure its message is in `the_exception` until the next failure or `handle_exceptions`.
Missing: telling an empty message from none, see `C140_empty_violated`. -/
theorem C140_pending_partial {p : Prog} {st : St} {r : Option Bytes} (h : exec p start = .ok (st, r)) :
    ∃ e, Runs p e r ∧
      (∀ a m b, e = a ++ .fail m :: b → (∀ x ∈ b, settles x = false) → st.pending = m) ∧
      (∀ a b, e = a ++ .handle :: b → (∀ x ∈ b, settles x = false) → st.pending = []) ∧
      ((∀ x ∈ e, settles x = false) → st.pending = []) := by
  obtain ⟨e, h1, h2⟩ := exec_runs p rfl h
  have hp := h2.pending
  refine ⟨e, h1, ?_, ?_, ?_⟩
  · intro a m b he hb
    rw [hp, he, pend_append, pend, pend_quiet hb]
  · intro a b he hb
    rw [hp, he, pend_append, pend, pend_quiet hb]
  · intro he
    rw [hp, pend_quiet he]; rfl

/-- If every block with a handler is followed by `handle_exceptions`, nothing is pending at the end. -/
theorem C140_careful {p : Prog} (hp : Careful p) {st : St} (h : exec p start = .ok (st, none)) : st.pending = [] := by
  obtain ⟨e, h1, h2⟩ := exec_runs p rfl h
  rw [h2.pending]
  exact careful_pend hp h1

/-! ### No undefined behaviour -/

/-- The number of controls in a program. -/
def controls : Prog → Nat
  | .done => 0
  | .print _ p => controls p
  | .ctrl _ p => controls p + 1
  | .check _ _ p => controls p
  | .attempt b h p => controls b + controls h + controls p
  | .handle p => controls p

theorem exec_total (p : Prog) : ∀ (st : St) (k : Nat), -(2 * (k : Int)) ≤ st.ind → st.ind ≤ 2 * k → k + controls p < 2 ^ 30 →
    ∃ st' r, exec p st = .ok (st', r) ∧ -(2 * ((k + controls p : Nat) : Int)) ≤ st'.ind ∧
      st'.ind ≤ 2 * (k + controls p : Nat) := by
  induction p with
  | done => intro st k h1 h2 h3; exact ⟨st, none, rfl, by simpa [controls] using h1, by simpa [controls] using h2⟩
  | print s p ih => intro st k h1 h2 h3; exact ih { st with out := st.out ++ cstr s } k h1 h2 h3
  | ctrl c p ih =>
    intro st k h1 h2 h3
    simp only [controls] at h3 ⊢
    have : ∃ s i, display st.ind c = .ok (s, i) ∧ -(2 * ((k + 1 : Nat) : Int)) ≤ i ∧ i ≤ 2 * (k + 1 : Nat) := by
      cases c with
      | indent =>
        refine ⟨(b!"  "), st.ind + 2, ?_, by omega, by omega⟩
        simp only [display, addIndent]
        rw [if_pos (by omega)]
        rfl
      | unindent =>
        refine ⟨[8, 8], st.ind + -2, ?_, by omega, by omega⟩
        simp only [display, addIndent]
        rw [if_pos (by omega)]
        rfl
      | hrule => exact ⟨_, st.ind, rfl, by omega, by omega⟩
      | lf => exact ⟨_, st.ind, rfl, by omega, by omega⟩
    obtain ⟨s, i, e, i1, i2⟩ := this
    obtain ⟨st', r, e', j1, j2⟩ := ih { st with ind := i, out := st.out ++ s } (k + 1) i1 i2 (by omega)
    refine ⟨st', r, ?_, by omega, by omega⟩
    simp only [exec, e, Res.ok_bind]
    exact e'
  | check b m p ih =>
    intro st k h1 h2 h3
    simp only [controls] at h3 ⊢
    cases b with
    | true =>
      obtain ⟨st', r, e', j⟩ := ih st k h1 h2 h3
      exact ⟨st', r, by simpa [exec] using e', j⟩
    | false => exact ⟨_, _, rfl, by dsimp only; omega, by dsimp only; omega⟩
  | attempt b hd p ihb ihh ihp =>
    intro st k h1 h2 h3
    simp only [controls] at h3 ⊢
    obtain ⟨s1, r1, e1, i1, j1⟩ := ihb st k h1 h2 (by omega)
    cases r1 with
    | none =>
      obtain ⟨s2, r2, e2, i2, j2⟩ := ihp s1 (k + controls b) i1 j1 (by omega)
      refine ⟨s2, r2, ?_, by omega, by omega⟩
      simp only [exec, e1, Res.ok_bind]
      exact e2
    | some m =>
      obtain ⟨s2, r2, e2, i2, j2⟩ := ihh { s1 with caught := s1.caught ++ [m] } (k + controls b) i1 j1 (by omega)
      cases r2 with
      | none =>
        obtain ⟨s3, r3, e3, i3, j3⟩ := ihp s2 (k + controls b + controls hd) i2 j2 (by omega)
        refine ⟨s3, r3, ?_, by omega, by omega⟩
        simp only [exec, e1, e2, Res.ok_bind]
        exact e3
      | some m' =>
        refine ⟨s2, some m', ?_, by omega, by omega⟩
        simp only [exec, e1, e2, Res.ok_bind]
  | handle p ih =>
    intro st k h1 h2 h3
    have : (handleExceptions st).ind = st.ind := by unfold handleExceptions; split <;> rfl
    exact ih (handleExceptions st) k (by rw [this]; exact h1) (by rw [this]; exact h2) h3

/-- Programs with less than 2^30 controls have no undefined behaviour. -/
theorem C140_defined (p : Prog) (h : controls p < 2 ^ 30) : ∃ st r, exec p start = .ok (st, r) := by
  obtain ⟨st, r, e, -⟩ := exec_total p start 0 (by decide) (by decide) (by omega)
  exact ⟨st, r, e⟩

/-! ### Violations -/

/-- A failure with an empty message is not pending. -/
theorem C140_empty_violated :
    ¬ ∀ (p : Prog) (st : St) (m : Bytes), exec p start = .ok (st, some m) → st.pending ≠ [] := by
  intro h
  exact h (.check false [] .done) _ [] rfl rfl

/-- `handle_exceptions` is documented to display the message, but it prints nothing. -/
theorem C140_display_violated :
    ¬ ∀ (p : Prog) (st : St) (m : Bytes), exec p start = .ok (st, some m) → m ≠ [] →
      ∃ s, s ≠ [] ∧ (handleExceptions st).out = st.out ++ s := by
  intro h
  obtain ⟨s, h1, h2⟩ := h (.check false (b!"x") .done) _ (b!"x") rfl (by decide)
  exact h1 (by simpa [handleExceptions, cstr] using h2)

/-! ### Cases -/

/-- A failure in a handler, inside of another block. -/
def sample : Prog :=
  .ctrl .indent (.attempt (.attempt (.check true (b!"no") (.check false (b!"one") (.print (b!"never") .done)))
    (.print (b!"h") (.check false (b!"two") .done)) .done) (.print (b!"g") .done) (.handle (.print (b!"end") .done)))

example : Careful sample := .ctrl (.attempt (.print .done))

example : (match exec sample start with | .ok (st, r) => (st.pending, st.caught, st.ind, r) | _ => ([0], [], 0, none)) =
    ([], [b!"one", b!"two"], 2, none) := by decide +kernel

example : controls sample = 1 := rfl

end Lolly.FailureProps
