import Verif.System.OstreamRun

set_option autoImplicit false

/-!
# C58: buffered output is captured exactly and nests

`srun` is the program in a world where streams are never destroyed (OstreamSpec.lean).
-/

namespace Lolly.OstreamProps

open Lolly.Ostream

/-- Every program that does not unbuffer a stream without buffer runs without touching a destroyed stream object or a
closed file, whatever handles are shared; the strings that `unbuffer` returns, the variables, the contents of the files
and of the buffers that can still be got at are as if nothing was ever destroyed. -/
theorem C58_refines {n : Nat} {fails : Nat → Bytes → Bytes → Option Nat} {ops : List Op} {t : SWorld} {out : List Bytes}
    (h : srun fails n (sstart n) ops = some (t, out)) :
    ∃ w, run fails (start n) ops = .ok (w, out) ∧ w.vars = t.vars ∧ w.files.map (·.out) = t.files ∧
      ∀ id, Reachable t id → ∃ r : Rep, w.reps[id]? = some r ∧ r.alive = true ∧
        (∀ k v own, r.kind = .std k v own → t.streams[id]? = some (.file k v)) ∧
        (∀ m d, r.kind = .buf m d → t.streams[id]? = some (.buffer m d)) := by
  obtain ⟨w, e, hr⟩ := run_rel (rel_start n) h
  refine ⟨w, e, hr.vars, hr.files.symm, fun id hid => ?_⟩
  have hpos : 0 < w.vars.count id + held w.reps id := by
    induction hid with
    | var hv =>
      rw [← hr.vars] at hv
      have := List.count_pos_iff.2 hv
      omega
    | @under id b d _ hs ih =>
      cases hx : w.reps[id]? with
      | none => have := hr.inv.none id hx; omega
      | some r =>
        cases ha : r.alive with
        | false => have := hr.inv.dead id r hx ha; omega
        | true =>
          rcases hr.kinds id r hx with hk | hk
          · rw [hs] at hk
            injection hk with hk
            have hkind : r.kind = .buf b d := by
              cases hrk : r.kind with
              | std => rw [hrk] at hk; cases hk
              | buf m d' => rw [hrk] at hk; injection hk with h1 h2; rw [h1, h2]
            have := held_ge (p := b) hx
            have e : holds b r = 1 := by simp [holds, ha, hkind]
            omega
          · rw [ha] at hk; cases hk
  cases hx : w.reps[id]? with
  | none => have := hr.inv.none id hx; omega
  | some r =>
    cases ha : r.alive with
    | false => have := hr.inv.dead id r hx ha; omega
    | true =>
      rcases hr.kinds id r hx with hk | hk
      · refine ⟨r, rfl, ha, fun k v own hk' => ?_, fun m d hk' => ?_⟩
        · rw [hk, hk']; rfl
        · rw [hk, hk']; rfl
      · rw [ha] at hk; cases hk

/-- After every operation, the stream objects that are not destroyed are those that can be got at; a file is open
exactly if it was handed to the program, which must close it itself, or if a stream on it can still be got at. -/
theorem C58_released {n : Nat} {fails : Nat → Bytes → Bytes → Option Nat} {ops : List Op} {t : SWorld} {out : List Bytes}
    (h : srun fails n (sstart n) ops = some (t, out)) {w : World} (hw : run fails (start n) ops = .ok (w, out)) :
    (∀ (id : Nat) (r : Rep), w.reps[id]? = some r → (r.alive = true ↔ Reachable t id)) ∧
    (∀ (k : Nat) (f : File), w.files[k]? = some f →
      (f.isOpen = true ↔ k < n ∨ ∃ id v, Reachable t id ∧ t.streams[id]? = some (.file (some k) v))) := by
  obtain ⟨w', e, hr⟩ := run_rel (rel_start n) h
  rw [hw] at e
  injection e with e
  injection e with e
  subst e
  have key : ∀ (id : Nat) (r : Rep), w.reps[id]? = some r → (r.alive = true ↔ Reachable t id) := by
    intro id r hx
    constructor
    · intro ha
      suffices ∀ a id r, w.reps.length - id = a → w.reps[id]? = some r → r.alive = true → Reachable t id from
        this _ id r rfl hx ha
      intro a
      induction a using Nat.strongRecOn with
      | ind a ih =>
        intro id r hn hx ha
        have hpos := (hr.inv.alive id r hx ha).2
        by_cases hv : id ∈ w.vars
        · exact .var (by rw [← hr.vars]; exact hv)
        · have h0 := List.count_eq_zero.2 hv
          obtain ⟨j, x, d, h1, h2, h3⟩ := held_pos (p := id) (reps := w.reps) (by omega)
          have hlt := hr.inv.older j x id d h1 h3
          have hjl : j < w.reps.length := (List.getElem?_eq_some_iff.1 h1).1
          have hrj := ih (w.reps.length - j) (by omega) j x rfl h1 h2
          rcases hr.kinds j x h1 with hk | hk
          · rw [h3] at hk
            exact .under hrj hk
          · rw [h2] at hk; cases hk
    · intro hid
      obtain ⟨w'', e, -, -, hl⟩ := C58_refines h
      rw [hw] at e
      injection e with e
      injection e with e
      subst e
      obtain ⟨r', h1, h2, -⟩ := hl id hid
      rw [hx] at h1
      injection h1 with h1
      rw [h1]; exact h2
  refine ⟨key, fun k f hf => ⟨fun ho => ?_, ?_⟩⟩
  · rcases Nat.lt_or_ge k n with hk | hk
    · exact .inl hk
    · obtain ⟨id, r, v, h1, h2⟩ := hr.inv.owned k hk (List.getElem?_eq_some_iff.1 hf).1
      obtain ⟨-, f', h3, h4⟩ := hr.inv.mine id r k v h1 h2
      rw [hf] at h3
      injection h3 with h3
      subst h3
      have ha : r.alive = true := h4.symm.trans ho
      rcases hr.kinds id r h1 with hk' | hk'
      · exact .inr ⟨id, v, (key id r h1).1 ha, by rw [hk', h2]; rfl⟩
      · rw [ha] at hk'; cases hk'
  · intro hc
    have hfirst : k < n → f.isOpen = true := by
      intro hk
      obtain ⟨f', h1, h2⟩ := hr.inv.first k hk
      rw [hf] at h1
      injection h1 with h1
      rw [h1]; exact h2
    rcases hc with hk | ⟨id, v, hre, hs⟩
    · exact hfirst hk
    · obtain ⟨w'', e, -, -, hl⟩ := C58_refines h
      rw [hw] at e
      injection e with e
      injection e with e
      subst e
      obtain ⟨r, h1, h2, -, hb⟩ := hl id hre
      rcases hr.kinds id r h1 with hk | hk
      · cases hrk : r.kind with
        | buf m d => rw [hb m d hrk] at hs; cases hs
        | std file isW own =>
          rw [hrk, hs] at hk
          injection hk with hk
          injection hk with hk1 hk2
          subst hk1
          cases own with
          | true =>
            obtain ⟨-, f', h3, h4⟩ := hr.inv.mine id r k isW h1 hrk
            rw [hf] at h3
            injection h3 with h3
            rw [h3, h4]; exact h2
          | false => exact hfirst (hr.inv.given id r k isW h1 hrk)
      · rw [h2] at hk; cases hk

/-! ## Nested buffers on one stream -/

/-- A sequence of operations on the variable `i` in which buffers nest: `d` is the text written outside of its buffers,
without NUL, and `o` are the texts of its buffers in the order in which they end. -/
inductive Session (i : Nat) : List Op → Bytes → List Bytes → Prop
  | nil : Session i [] [] []
  | write (s : Bytes) {l : List Op} {d : Bytes} {o : List Bytes} : Session i l d o →
    Session i (.write i s :: l) (s.filter (· ≠ 0) ++ d) o
  | buffer {a l : List Op} {da d : Bytes} {oa o : List Bytes} : Session i a da oa → Session i l d o →
    Session i (.buffer i :: (a ++ .unbuffer i :: l)) d (oa ++ da :: o)

/-- A stream that can be written to. -/
def Good (w : World) (id : Nat) : Prop :=
  ∃ r : Rep, w.reps[id]? = some r ∧ r.alive = true ∧ 1 ≤ r.count ∧
    ∀ k own, r.kind = .std (some k) true own → ∃ f : File, w.files[k]? = some f ∧ f.isOpen = true

theorem set_self {A : Type} {l : List A} {i : Nat} {x : A} (h : l[i]? = some x) : l.set i x = l := by
  apply List.ext_getElem?
  intro j
  rw [List.getElem?_set]
  split
  · next hi => subst hi; rw [h]; simp [(List.getElem?_eq_some_iff.1 h).1]
  · rfl

theorem writeRep_good {fails : Nat → Bytes → Bytes → Option Nat} {w : World} {id : Nat} (h : Good w id) (s : Bytes) :
    ∃ w', writeRep fails w id s = .ok w' ∧ Good w' id ∧ w'.vars = w.vars ∧ w'.reps.length = w.reps.length ∧
      (s = [] → w' = w) ∧
      ∀ (v : List Nat) (X : List Rep), writeRep fails ⟨v, w.reps ++ X, w.files⟩ id s = .ok ⟨v, w'.reps ++ X, w'.files⟩ := by
  obtain ⟨r, hr, ha, hc, hf⟩ := h
  have hlt : id < w.reps.length := (List.getElem?_eq_some_iff.1 hr).1
  have hr' : ∀ X : List Rep, (w.reps ++ X)[id]? = some r := by
    intro X; rw [List.getElem?_append_left hlt]; exact hr
  cases hk : r.kind with
  | buf m d =>
    refine ⟨{ w with reps := w.reps.set id { r with kind := .buf m (d ++ s) } }, ?_, ?_, rfl, by simp, ?_, ?_⟩
    · rw [writeRep, hr]
      simp only [ha, hk, Bool.not_true, Bool.false_eq_true, if_false]
    · exact ⟨{ r with kind := .buf m (d ++ s) }, by simp [hlt], ha, hc, by simp⟩
    · intro hs
      subst hs
      have : w.reps.set id { r with kind := .buf m (d ++ []) } = w.reps :=
        set_self (by rw [hr, List.append_nil, ← hk])
      simp only [this]
    · intro v X
      rw [writeRep, hr']
      simp only [ha, hk, Bool.not_true, Bool.false_eq_true, if_false]
      rw [List.set_append_left _ _ hlt]
  | std file isW own =>
    by_cases hno : file = none ∨ isW = false
    · refine ⟨w, ?_, ⟨r, hr, ha, hc, hf⟩, rfl, rfl, fun _ => rfl, ?_⟩
      · rw [writeRep, hr]
        simp only [ha, hk, Bool.not_true, Bool.false_eq_true, if_false]
        cases file with
        | none => rfl
        | some k =>
          rcases hno with hno | hno
          · cases hno
          · subst hno; rfl
      · intro v X
        rw [writeRep, hr']
        simp only [ha, hk, Bool.not_true, Bool.false_eq_true, if_false]
        cases file with
        | none => rfl
        | some k =>
          rcases hno with hno | hno
          · cases hno
          · subst hno; rfl
    · cases file with
      | none => exact absurd (.inl rfl) hno
      | some k =>
      cases isW with
      | false => exact absurd (.inr rfl) hno
      | true =>
      obtain ⟨f, hf1, ho⟩ := hf k own hk
      have hklt : k < w.files.length := (List.getElem?_eq_some_iff.1 hf1).1
      by_cases hs : s = []
      · refine ⟨w, ?_, ⟨r, hr, ha, hc, hf⟩, rfl, rfl, fun _ => rfl, ?_⟩
        · rw [writeRep, hr]
          simp only [ha, hk, Bool.not_true, Bool.false_eq_true, if_false, hf1, ho, hs, if_true]
        · intro v X
          rw [writeRep, hr']
          simp only [ha, hk, Bool.not_true, Bool.false_eq_true, if_false, hf1, ho, hs, if_true]
      · cases hfail : fails k f.out s with
        | none =>
          refine ⟨{ w with files := w.files.set k { f with out := f.out ++ s } }, ?_, ?_, rfl, rfl, fun h => absurd h hs, ?_⟩
          · rw [writeRep, hr]
            simp only [ha, hk, Bool.not_true, Bool.false_eq_true, if_false, hf1, ho, hs, hfail]
          · refine ⟨r, hr, ha, hc, fun k' own' hk' => ?_⟩
            rw [hk] at hk'
            injection hk' with h1
            injection h1 with h1
            subst h1
            exact ⟨{ f with out := f.out ++ s }, by simp [hklt], ho⟩
          · intro v X
            rw [writeRep, hr']
            simp only [ha, hk, Bool.not_true, Bool.false_eq_true, if_false, hf1, ho, hs, hfail]
        | some a =>
          refine ⟨{ w with
              files := w.files.set k { f with out := f.out ++ s.take a }
              reps := w.reps.set id { r with kind := .std (some k) false own } }, ?_, ?_, rfl, by simp, fun h => absurd h hs, ?_⟩
          · rw [writeRep, hr]
            simp only [ha, hk, Bool.not_true, Bool.false_eq_true, if_false, hf1, ho, hs, hfail]
          · exact ⟨{ r with kind := .std (some k) false own }, by simp [hlt], ha, hc, by simp⟩
          · intro v X
            rw [writeRep, hr']
            simp only [ha, hk, Bool.not_true, Bool.false_eq_true, if_false, hf1, ho, hs, hfail]
            rw [List.set_append_left _ _ hlt]

theorem writeString_good {fails : Nat → Bytes → Bytes → Option Nat} {w : World} {id : Nat} (h : Good w id) (s : Bytes) :
    ∃ w', writeString fails w id s = .ok w' ∧ writeString fails w id (s.filter (· ≠ 0)) = .ok w' ∧ Good w' id ∧
      w'.vars = w.vars ∧ w'.reps.length = w.reps.length ∧
      ∀ (v : List Nat) (X : List Rep), writeString fails ⟨v, w.reps ++ X, w.files⟩ id s = .ok ⟨v, w'.reps ++ X, w'.files⟩ := by
  induction s generalizing w with
  | nil => exact ⟨w, rfl, rfl, h, rfl, rfl, fun _ _ => rfl⟩
  | cons c s ih =>
    obtain ⟨w1, e1, g1, v1, l1, n1, f1⟩ := writeRep_good (fails := fails) h (cstr [c])
    obtain ⟨w2, e2, e2', g2, v2, l2, f2⟩ := ih g1
    refine ⟨w2, by rw [writeString, e1, Res.ok_bind, e2], ?_, g2, v2.trans v1, l2.trans l1, fun v X => ?_⟩
    · by_cases hc : c = 0
      · subst hc
        have := n1 (by simp [cstr])
        subst this
        simpa using e2'
      · rw [List.filter_cons_of_pos (by simpa using hc), writeString, e1, Res.ok_bind, e2']
    · rw [writeString, f1, Res.ok_bind]
      exact f2 v X

theorem writeString_append (fails : Nat → Bytes → Bytes → Option Nat) (w : World) (id : Nat) (s s' : Bytes) :
    writeString fails w id (s ++ s') = (writeString fails w id s >>= fun w => writeString fails w id s') := by
  induction s generalizing w with
  | nil => rfl
  | cons c s ih =>
    rw [List.cons_append, writeString, writeString]
    cases writeRep fails w id (cstr [c]) with
    | ok w1 => simp only [Res.ok_bind, ih]
    | ub => rfl
    | thrown => rfl
    | hang => rfl

theorem writeString_last (fails : Nat → Bytes → Bytes → Option Nat) (v : List Nat) (reps X : List Rep) (files : List File)
    (m : Nat) (d s : Bytes) :
    writeString fails ⟨v, reps ++ ⟨1, .buf m d, true⟩ :: X, files⟩ reps.length s =
      .ok ⟨v, reps ++ ⟨1, .buf m (d ++ s.filter (· ≠ 0)), true⟩ :: X, files⟩ := by
  induction s generalizing d with
  | nil => simp [writeString]
  | cons c s ih =>
    have e : writeRep fails ⟨v, reps ++ ⟨1, .buf m d, true⟩ :: X, files⟩ reps.length (cstr [c]) =
        .ok ⟨v, reps ++ ⟨1, .buf m (d ++ cstr [c]), true⟩ :: X, files⟩ := by
      simp [writeRep]
    rw [writeString, e, Res.ok_bind, ih]
    by_cases hc : c = 0
    · simp [cstr, hc]
    · simp [cstr, hc]

theorem run_append (fails : Nat → Bytes → Bytes → Option Nat) (w : World) (a b : List Op) :
    run fails w (a ++ b) =
      (run fails w a >>= fun r => run fails r.1 b >>= fun q => .ok (q.1, r.2 ++ q.2)) := by
  induction a generalizing w with
  | nil =>
    simp only [List.nil_append, run, Res.ok_bind]
    cases run fails w b <;> rfl
  | cons op a ih =>
    rw [List.cons_append, run, run]
    cases step fails w op with
    | ok r =>
      obtain ⟨w1, o1⟩ := r
      simp only [Res.ok_bind]
      rw [ih]
      cases run fails w1 a with
      | ok q =>
        obtain ⟨w2, o2⟩ := q
        simp only [Res.ok_bind]
        cases run fails w2 b with
        | ok p => simp
        | ub => rfl
        | thrown => rfl
        | hang => rfl
      | ub => rfl
      | thrown => rfl
      | hang => rfl
    | ub => rfl
    | thrown => rfl
    | hang => rfl

/-- Take the innermost buffer away. -/
theorem unbuffer_eq (fails : Nat → Bytes → Bytes → Option Nat) {v : List Nat} {reps X : List Rep} {files : List File} {i id : Nat}
    {r : Rep} {d : Bytes} (hi : v[i]? = some reps.length) (hr : reps[id]? = some r) (ha : r.alive = true) (hc : 1 ≤ r.count) :
    step fails ⟨v, reps ++ ⟨1, .buf id d, true⟩ :: X, files⟩ (.unbuffer i) =
      .ok (⟨v.set i id, reps ++ ⟨0, .buf id d, false⟩ :: X, files⟩, [d]) := by
  have hlt : id < reps.length := (List.getElem?_eq_some_iff.1 hr).1
  have hinc : inc (reps ++ ⟨1, .buf id d, true⟩ :: X) id =
      .ok (reps.set id { r with count := r.count + 1 } ++ ⟨1, .buf id d, true⟩ :: X) := by
    rw [inc, List.getElem?_append_left hlt, hr]
    simp only [ha, if_true]
    rw [List.set_append_left _ _ hlt]
  have hdec : ∀ fuel, dec (fuel + 2) (reps.set id { r with count := r.count + 1 } ++ ⟨1, .buf id d, true⟩ :: X) files reps.length =
      .ok (reps ++ ⟨0, .buf id d, false⟩ :: X, files) := by
    intro fuel
    have hg : (reps.set id { r with count := r.count + 1 } ++ ⟨1, .buf id d, true⟩ :: X)[reps.length]? = some ⟨1, .buf id d, true⟩ := by
      rw [List.getElem?_append_right (by simp)]
      simp
    have hs : (reps.set id { r with count := r.count + 1 } ++ ⟨1, .buf id d, true⟩ :: X).set reps.length ⟨0, .buf id d, false⟩ =
        reps.set id { r with count := r.count + 1 } ++ ⟨0, .buf id d, false⟩ :: X := by
      rw [List.set_append_right _ _ (by simp)]
      simp
    have hg2 : (reps.set id { r with count := r.count + 1 } ++ ⟨0, .buf id d, false⟩ :: X)[id]? = some { r with count := r.count + 1 } := by
      rw [List.getElem?_append_left (by simpa using hlt)]
      simp [hlt]
    rw [dec, hg]
    simp only [Bool.not_true, Bool.false_eq_true, if_false, Int.sub_self, if_true, hs]
    rw [dec, hg2]
    simp only [ha, Bool.not_true, Bool.false_eq_true, if_false]
    rw [if_neg (by omega), List.set_append_left _ _ (by simpa using hlt), List.set_set]
    have : reps.set id { r with count := r.count + 1 - 1, alive := true } = reps := by
      refine set_self ?_
      rw [hr]
      congr 1
      obtain ⟨c, k, a⟩ := r
      simp only at ha ⊢
      subst ha
      congr 1
      omega
    rw [this]
  have hfuel : ∃ fuel, (reps.set id { r with count := r.count + 1 } ++ ⟨1, .buf id d, true⟩ :: X).length = fuel + 2 :=
    ⟨reps.length + X.length - 1, by simp; omega⟩
  obtain ⟨fuel, hfuel⟩ := hfuel
  simp only [step, var, hi, Res.ok_bind]
  have hg : (reps ++ ⟨1, .buf id d, true⟩ :: X)[reps.length]? = some ⟨1, .buf id d, true⟩ := by simp
  rw [hg]
  simp only [Bool.not_true, Bool.false_eq_true, if_false]
  rw [hinc, Res.ok_bind, release, hfuel, hdec]
  rfl

theorem session_run {fails : Nat → Bytes → Bytes → Option Nat} {i : Nat} {l : List Op} {d : Bytes} {o : List Bytes}
    (hl : Session i l d o) {w : World} {id : Nat} (hi : w.vars[i]? = some id) (hg : Good w id) :
    ∃ w1 X, writeString fails w id d = .ok w1 ∧ run fails w l = .ok (⟨w.vars, w1.reps ++ X, w1.files⟩, o) ∧
      ∀ x ∈ X, x.alive = false := by
  induction hl generalizing w id with
  | nil => exact ⟨w, [], rfl, by simp [run], by simp⟩
  | @write s l d o _ ih =>
    obtain ⟨w1, e1, e1', g1, v1, l1, -⟩ := writeString_good (fails := fails) hg s
    obtain ⟨w2, X, e2, r2, hX⟩ := ih (w := w1) (by rw [v1]; exact hi) g1
    refine ⟨w2, X, ?_, ?_, hX⟩
    · rw [writeString_append, e1', Res.ok_bind, e2]
    · rw [run]
      simp only [step, var, hi, Res.ok_bind]
      rw [e1]
      simp only [Res.ok_bind]
      rw [r2, v1]
      rfl
  | @buffer a l da d oa o _ _ iha ihl =>
    obtain ⟨r, hr, ha, hc, hf⟩ := hg
    have hilt : i < w.vars.length := (List.getElem?_eq_some_iff.1 hi).1
    -- inside of the buffer
    obtain ⟨w1, X, e1, r1, hX⟩ := iha (w := ⟨w.vars.set i w.reps.length, w.reps ++ [⟨1, .buf id [], true⟩], w.files⟩)
      (id := w.reps.length) (by simp [hilt]) ⟨⟨1, .buf id [], true⟩, by simp, rfl, Int.le_refl 1, by simp⟩
    rw [writeString_last fails _ w.reps [] w.files id [] da] at e1
    injection e1 with e1
    subst e1
    have hda : da.filter (· ≠ 0) = da := by
      have : ∀ {l : List Op} {d : Bytes} {o : List Bytes}, Session i l d o → d.filter (· ≠ 0) = d := by
        intro l d o h
        induction h with
        | nil => rfl
        | write s _ ih => rw [List.filter_append, ih, List.filter_filter]; simp
        | buffer _ _ _ ih => exact ih
      exact this ‹Session i a da oa›
    rw [List.nil_append, hda] at r1
    -- after it
    have hst : step fails ⟨w.vars.set i w.reps.length, w.reps ++ [⟨1, .buf id da, true⟩] ++ X, w.files⟩ (.unbuffer i) =
        .ok (⟨w.vars, w.reps ++ ⟨0, .buf id da, false⟩ :: X, w.files⟩, [da]) := by
      have := unbuffer_eq fails (v := w.vars.set i w.reps.length) (reps := w.reps) (X := X) (files := w.files) (i := i) (d := da)
        (by simp [hilt]) hr ha hc
      rw [List.set_set, set_self hi] at this
      rw [List.append_assoc]
      exact this
    obtain ⟨w0, e0, -, g0, v0, l0, f0⟩ := writeString_good (fails := fails) ⟨r, hr, ha, hc, hf⟩ d
    obtain ⟨w2, Y, e2, r2, hY⟩ := ihl (w := ⟨w.vars, w.reps ++ ⟨0, .buf id da, false⟩ :: X, w.files⟩) hi
      ⟨r, by simp only; rw [List.getElem?_append_left (List.getElem?_eq_some_iff.1 hr).1]; exact hr, ha, hc, hf⟩
    rw [f0] at e2
    injection e2 with e2
    subst e2
    refine ⟨w0, ⟨0, .buf id da, false⟩ :: X ++ Y, e0, ?_, ?_⟩
    · rw [run]
      simp only [step, var, hi, Res.ok_bind]
      rw [run_append, r1]
      simp only [Res.ok_bind]
      rw [run, hst]
      simp only [Res.ok_bind]
      rw [r2]
      simp
    · intro x hx
      simp only [List.cons_append, List.mem_cons, List.mem_append] at hx
      rcases hx with rfl | hx | hx
      · rfl
      · exact hX x hx
      · exact hY x hx

/-- Wherever a program has got to, a session with nested buffers on a stream returns the texts of its buffers exactly
and has otherwise the effect of writing the text outside of the buffers to the stream: the same variables, files and
stream objects (with their counts), and the objects of its buffers are destroyed. -/
theorem C58_session {n : Nat} {fails : Nat → Bytes → Bytes → Option Nat} {ops : List Op} {t : SWorld} {out : List Bytes}
    (h : srun fails n (sstart n) ops = some (t, out)) {i : Nat} (hi : i < t.vars.length) {l : List Op} {d : Bytes}
    {o : List Bytes} (hl : Session i l d o) :
    ∃ w w' X, run fails (start n) (ops ++ [.write i d]) = .ok (w, out) ∧
      run fails (start n) (ops ++ l) = .ok (w', out ++ o) ∧
      w'.vars = w.vars ∧ w'.files = w.files ∧ w'.reps = w.reps ++ X ∧ ∀ x ∈ X, x.alive = false := by
  obtain ⟨w, e, hr⟩ := run_rel (rel_start n) h
  have hi' : w.vars[i]? = some (w.vars[i]'(by rw [hr.vars]; exact hi)) := List.getElem?_eq_getElem _
  obtain ⟨r, h1, h2, -⟩ := hr.alive_var hi'
  obtain ⟨hc, hc1⟩ := hr.inv.alive _ r h1 h2
  have hg : Good w (w.vars[i]'(by rw [hr.vars]; exact hi)) := by
    refine ⟨r, h1, h2, by omega, fun k own hk => ?_⟩
    cases own with
    | true =>
      obtain ⟨-, f, h3, h4⟩ := hr.inv.mine _ r k true h1 hk
      exact ⟨f, h3, h4.trans h2⟩
    | false => exact hr.inv.first k (hr.inv.given _ r k true h1 hk)
  obtain ⟨w1, X, e1, r1, hX⟩ := session_run (fails := fails) hl hi' hg
  obtain ⟨w2, e2, -, -, v2, -, -⟩ := writeString_good (fails := fails) hg d
  rw [e1] at e2
  injection e2 with e2
  subst e2
  refine ⟨w1, ⟨w.vars, w1.reps ++ X, w1.files⟩, X, ?_, ?_, v2.symm, rfl, rfl, hX⟩
  · rw [run_append, e, Res.ok_bind]
    simp only [run, step, var, hi', Res.ok_bind]
    rw [e1]
    simp
  · rw [run_append, e, Res.ok_bind, r1]
    rfl

/-- A buffer in a buffer: "a", [ "b", [ "c" ], "d" ], "e". -/
example : Session 0 [.write 0 (b!"a"), .buffer 0, .write 0 (b!"b"), .buffer 0, .write 0 (b!"c"), .unbuffer 0, .write 0 (b!"d"),
    .unbuffer 0, .write 0 (b!"e")] (b!"ae") [b!"c", b!"bd"] :=
  .write _ (.buffer (a := [.write 0 (b!"b"), .buffer 0, .write 0 (b!"c"), .unbuffer 0, .write 0 (b!"d")])
    (.write _ (.buffer (a := [.write 0 (b!"c")]) (.write _ .nil) (.write _ .nil))) (.write _ .nil))

example : run (fun _ _ _ => none) (start 1) [.file 0, .write 0 (b!"a"), .buffer 0, .write 0 (b!"b"), .buffer 0, .write 0 (b!"c"),
    .unbuffer 0, .write 0 (b!"d"), .unbuffer 0, .write 0 (b!"e")] =
    .ok (⟨[0], [⟨1, .std (some 0) true false, true⟩, ⟨0, .buf 0 (b!"bd"), false⟩, ⟨0, .buf 1 (b!"c"), false⟩], [⟨b!"ae", true⟩]⟩,
      [b!"c", b!"bd"]) := by decide +kernel

/-- A stream with its own file, copied and buffered; the file is closed when the last handle is gone. -/
example : ∃ t, srun (fun _ _ _ => none) 0 (sstart 0) [.create true, .copy 0, .buffer 0, .write 1 (b!"x"), .drop 0, .write 0 (b!"y"),
      .drop 0] = some (t, []) ∧
    run (fun _ _ _ => none) (start 0) [.create true, .copy 0, .buffer 0, .write 1 (b!"x"), .drop 0, .write 0 (b!"y"), .drop 0] =
    .ok (⟨[], [⟨0, .std (some 0) true true, false⟩, ⟨0, .buf 0 [], false⟩], [⟨b!"xy", false⟩]⟩, []) :=
  ⟨_, rfl, by decide +kernel⟩

end Lolly.OstreamProps
