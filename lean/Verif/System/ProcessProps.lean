import Verif.System.Process
import Verif.Strings.SearchProps
import Verif.Strings.ConvertLemmas

set_option autoImplicit false

/-!
# C61, C62, C82: captured output, input and output threads, placeholders of descriptors
-/

namespace Lolly.ProcessProps

open Lolly.Process

/-! ## C61: check_output -/

/-- The process and the system answer in time: reading never fails; if reading gives nothing although there is more to
come, one of the next two waits tells that there is something, and the next read gives it. -/
structure Prompt (a : Answers) : Prop where
  noError : ∀ i, a.read i ≠ none
  ready : ∀ i j, a.read i = some 0 →
    (0 < a.wait j ∨ a.wait j = 0 ∧ 0 < a.wait (j + 1)) ∧ a.read (i + 1) ≠ some 0

theorem waitLoop_prompt {a : Answers} {j : Nat} (h : 0 < a.wait j ∨ a.wait j = 0 ∧ 0 < a.wait (j + 1)) (retry : Nat) :
    0 < (waitLoop a (retry + 2) 0 j).2 := by
  rcases h with h | ⟨h1, h2⟩
  · rw [waitLoop, if_pos rfl, waitLoop, if_neg (by omega)]; exact h
  · rw [waitLoop, if_pos rfl, waitLoop, if_pos h1]
    cases retry with
    | zero => rw [waitLoop]; exact h2
    | succ n => rw [waitLoop, if_neg (by omega)]; exact h2

theorem readLoop_spec (a : Answers) (size : Nat) : ∀ (f : Nat) (wait : Bool) (p : Pipe),
    p.data.length ≤ size → 2 * (size - p.data.length) + (if wait then 0 else 1) < f →
    ∃ p', readLoop a size f wait p = .ok p' ∧ p'.data ++ p'.rest = p.data ++ p.rest ∧ p'.data.length ≤ size ∧
      (Prompt a → (wait = true → p.rest ≠ [] → a.read p.reads ≠ some 0) → p'.data.length < size → p'.rest = []) := by
  intro f
  induction f with
  | zero => intro wait p _ hf; omega
  | succ f ih =>
    intro wait p hp hf
    rw [readLoop]
    by_cases hlt : p.data.length < size
    · rw [if_pos hlt]
      cases hr : a.read p.reads with
      | none => exact ⟨_, rfl, rfl, hp, fun hpr => absurd hr (hpr.noError _)⟩
      | some n =>
        dsimp only
        by_cases hk : 0 < min n (min (size - p.data.length) p.rest.length)
        · rw [if_pos hk]
          generalize hkk : min n (min (size - p.data.length) p.rest.length) = k at hk ⊢
          have hle : k ≤ size - p.data.length ∧ k ≤ p.rest.length := by omega
          have hlen : (p.data ++ p.rest.take k).length = p.data.length + k := by
            rw [List.length_append, List.length_take]; omega
          obtain ⟨p', e, h1, h2, h3⟩ := ih false
            { p with data := p.data ++ p.rest.take k, rest := p.rest.drop k, reads := p.reads + 1 }
            (by rw [hlen]; omega) (by rw [hlen]; simp only [Bool.false_eq_true, if_false]; split at hf <;> omega)
          refine ⟨p', e, ?_, h2, fun hpr _ => h3 hpr (by simp)⟩
          rw [h1]
          simp
        · rw [if_neg hk]
          have hz : n = 0 ∨ p.rest = [] := by
            rcases Nat.eq_zero_or_pos n with h | h
            · exact .inl h
            · refine .inr (List.length_eq_zero_iff.1 ?_)
              omega
          cases wait with
          | true =>
            simp only [Bool.not_true, Bool.false_eq_true, if_false]
            refine ⟨_, rfl, rfl, hp, fun _ hw _ => ?_⟩
            rcases hz with rfl | h
            · by_cases hne : p.rest = []
              · exact hne
              · exact absurd rfl (hw (by first | rfl | trivial) hne)
            · exact h
          | false =>
            simp only [Bool.not_false, if_true]
            by_cases hok : 0 < (waitLoop a (if 0 < p.data.length then 2 else 25) 0 p.waits).2
            · rw [if_pos hok]
              obtain ⟨p', e, h1, h2, h3⟩ := ih true
                { p with reads := p.reads + 1, waits := (waitLoop a (if 0 < p.data.length then 2 else 25) 0 p.waits).1 }
                hp (by simp only [if_true]; simp only [Bool.false_eq_true, if_false] at hf; omega)
              refine ⟨p', e, h1, h2, fun hpr _ => h3 hpr fun _ hne => ?_⟩
              rcases hz with rfl | h
              · exact (hpr.ready _ 0 hr).2
              · exact absurd h hne
            · rw [if_neg hok]
              refine ⟨_, rfl, rfl, hp, fun hpr _ _ => ?_⟩
              rcases hz with rfl | h
              · refine absurd ?_ hok
                have hw := (hpr.ready _ p.waits hr).1
                split
                · exact waitLoop_prompt hw 0
                · exact waitLoop_prompt hw 23
              · exact h
    · rw [if_neg hlt]
      exact ⟨p, rfl, rfl, hp, fun _ _ h => absurd h hlt⟩

theorem checkOutput_spec (a : Answers) (out : Bytes) : ∃ data rest, out = data ++ rest ∧ data.length ≤ 8192 ∧
    checkOutput a out = cstring 8192 data ∧ (Prompt a → data.length < 8192 → rest = []) := by
  obtain ⟨p, e, h1, h2, h3⟩ := readLoop_spec a 8192 (2 * 8192 + 2) false ⟨[], out, 0, 0⟩ (by simp) (by simp)
  refine ⟨p.data, p.rest, by simpa using h1.symm, h2, by rw [checkOutput, e, Res.ok_bind], fun hp => h3 hp (by simp)⟩

/-- Whatever the system answers, the call ends, and the result is a first part of the output. -/
theorem C61_prefix (a : Answers) (out : Bytes) :
    (∃ r, checkOutput a out = .ok r ∧ r <+: out ∧ 0 ∉ r) ∨ (checkOutput a out = .ub ∧ 8192 ≤ out.length) := by
  obtain ⟨data, rest, rfl, h2, h3, -⟩ := checkOutput_spec a out
  rw [h3, cstring]
  split
  · exact .inl ⟨_, rfl, (List.takeWhile_prefix _).trans (List.prefix_append ..), fun h => by
      have := List.all_takeWhile (l := data) (p := fun x => decide (x ≠ 0))
      rw [List.all_eq_true] at this
      have := this 0 h
      simp at this⟩
  · next h =>
    refine .inr ⟨rfl, ?_⟩
    rw [List.length_append]
    have : ¬ data.length < 8192 := fun h' => h (.inl h')
    omega

/-- The whole output is captured if it is shorter than 8192 characters, has no NUL, and the process is prompt. -/
theorem C61_partial {a : Answers} (ha : Prompt a) {out : Bytes} (hl : out.length < 8192) (h0 : 0 ∉ out) :
    checkOutput a out = .ok out := by
  obtain ⟨data, rest, rfl, h2, h3, h4⟩ := checkOutput_spec a out
  have hd : data.length < 8192 := by rw [List.length_append] at hl; omega
  have := h4 ha hd
  subst this
  rw [List.append_nil] at h0 h3 ⊢
  rw [h3, cstring, if_pos (.inl hd)]
  congr 1
  have := List.takeWhile_append_of_pos (p := fun x : UInt8 => decide (x ≠ 0)) (l₁ := data) (l₂ := []) fun x hx => by
    have : x ≠ 0 := fun e => h0 (e ▸ hx)
    simpa using this
  simpa using this

/-- Longer output: the end of the buffer is passed in search of a NUL. -/
theorem C61_long_violated {a : Answers} (ha : Prompt a) {out : Bytes} (hl : 8192 ≤ out.length) (h0 : 0 ∉ out.take 8192) :
    checkOutput a out = .ub := by
  obtain ⟨data, rest, rfl, h2, h3, h4⟩ := checkOutput_spec a out
  have hd : data.length = 8192 := by
    rcases Nat.lt_or_ge data.length 8192 with h | h
    · have := h4 ha h
      subst this
      rw [List.append_nil] at hl
      omega
    · omega
  rw [List.take_append_of_le_length (by omega), List.take_of_length_le (by omega)] at h0
  rw [h3, cstring, if_neg]
  rintro (h | h)
  · omega
  · exact h0 h

/-- Output with a NUL is cut there. -/
theorem C61_nul_violated {a : Answers} (ha : Prompt a) {x y : Bytes} (hl : (x ++ 0 :: y).length < 8192) (h0 : 0 ∉ x) :
    checkOutput a (x ++ 0 :: y) = .ok x := by
  obtain ⟨data, rest, e, h2, h3, h4⟩ := checkOutput_spec a (x ++ 0 :: y)
  have hd : data.length < 8192 := by rw [e, List.length_append] at hl; omega
  have := h4 ha hd
  subst this
  rw [List.append_nil] at e
  subst e
  rw [h3, cstring, if_pos (.inl hd)]
  congr 1
  rw [List.takeWhile_append_of_pos]
  · simp
  · intro c hc
    have : c ≠ 0 := fun e => h0 (e ▸ hc)
    simpa using this

/-- Whatever has been written first, a process that then pauses for two waits loses the rest, whatever the later calls
would answer. -/
theorem C61_pause_violated {a : Answers} {x y : Bytes} (hx : x ≠ []) (hl : x.length < 8192) (h0 : 0 ∉ x)
    (r0 : a.read 0 = some x.length) (r1 : a.read 1 = some 0) (w0 : a.wait 0 = 0) (w1 : a.wait 1 = 0) :
    checkOutput a (x ++ y) = .ok x := by
  have hp : 0 < x.length := List.length_pos_iff.2 hx
  have e : readLoop a 8192 (2 * 8192 + 2) false ⟨[], x ++ y, 0, 0⟩ = .ok ⟨x, y, 2, 2⟩ := by
    rw [readLoop, if_pos (by simp)]
    simp only [r0, List.length_nil, List.length_append]
    rw [show min x.length (min (8192 - 0) (x.length + y.length)) = x.length by omega, if_pos hp]
    rw [readLoop, if_pos (by simpa using hl)]
    simp [r1, hp, waitLoop, w0, w1]
  rw [checkOutput, e, Res.ok_bind, cstring, if_pos (.inl hl)]
  congr 1
  have := List.takeWhile_append_of_pos (p := fun x : UInt8 => decide (x ≠ 0)) (l₁ := x) (l₂ := []) fun c hc => by
    have : c ≠ 0 := fun e => h0 (e ▸ hc)
    simpa using this
  simpa using this

/-- A process that meets the hypotheses: `a`, two waits in vain, then it would go on with `b`. -/
example : ∃ a : Answers, a.read 0 = some 1 ∧ a.read 1 = some 0 ∧ a.wait 0 = 0 ∧ a.wait 1 = 0 ∧
    (∀ i, 2 ≤ i → a.read i = some 1) ∧ (∀ j, 2 ≤ j → 0 < a.wait j) :=
  ⟨⟨fun i => if i = 0 then some 1 else if i = 1 then some 0 else some 1, fun j => if j < 2 then 0 else 1⟩,
    rfl, rfl, rfl, rfl, fun i h => by simp only; rw [if_neg (by omega), if_neg (by omega)],
    fun j h => by simp only; rw [if_neg (by omega)]; decide⟩

/-- A prompt process that has to be waited for before every character. -/
example : Prompt ⟨fun i => some (i % 2), fun _ => 1⟩ :=
  ⟨fun _ => by simp, fun i j h => ⟨.inl (by simp), fun h' => by
    simp only [Option.some.injEq] at h h'; omega⟩⟩

/-! ## C62: the buffers -/

/-- The memory is as large as the buffer says and holds what is in use. -/
def Ts.Wf (t : Ts) : Prop := t.a.length = t.l ∧ t.n ≤ t.l

theorem memcpy_ok {a : Bytes} {i : Nat} {b : Bytes} (h : i + b.length ≤ a.length) :
    memcpy a i b = .ok (a.take i ++ b ++ a.drop (i + b.length)) := by rw [memcpy, if_pos h]

theorem resize_ok (junk : Nat → UInt8) {t : Ts} (ht : Ts.Wf t) {m : Nat} (hm : m < 2 ^ 30) (hn : t.n < 2 ^ 30) :
    ∃ t', t.resize junk m = .ok t' ∧ Ts.Wf t' ∧ t'.n = t.n ∧ t'.view = t.view ∧ m ≤ t'.l := by
  obtain ⟨h1, h2⟩ := ht
  rw [Ts.resize]
  by_cases h : m ≤ t.n
  · rw [if_pos h]
    exact ⟨t, rfl, ⟨h1, h2⟩, rfl, rfl, by omega⟩
  · rw [if_neg h, if_pos ⟨by omega, by omega⟩]
    dsimp only
    rw [if_pos (by omega)]
    have hl : (t.a.take t.n).length = t.n := by rw [List.length_take]; omega
    have hb : 0 + (t.a.take t.n).length ≤ ((List.range (max (2 * t.n) m)).map junk).length := by
      simp only [hl, List.length_map, List.length_range]; omega
    rw [memcpy_ok hb, Res.ok_bind]
    refine ⟨_, rfl, ⟨?_, ?_⟩, rfl, ?_, ?_⟩
    · simp only [List.take_zero, List.nil_append, List.length_append, List.length_drop, List.length_map, List.length_range, hl]
      omega
    · dsimp only; omega
    · simp only [Ts.view, List.take_zero, List.nil_append]
      rw [List.take_append_of_le_length (by omega), List.take_of_length_le (by omega)]
    · dsimp only; omega

/-- Appending to the buffer of a thread never leaves the memory, and adds the characters at the end. -/
theorem C62_append (junk : Nat → UInt8) {t : Ts} (ht : Ts.Wf t) (b : Bytes) (h : t.n + b.length < 2 ^ 30) :
    ∃ t', t.append junk b = .ok t' ∧ Ts.Wf t' ∧ t'.n = t.n + b.length ∧ t'.view = t.view ++ b := by
  obtain ⟨t1, e1, ⟨w1, w2⟩, hn, hv, hl⟩ := resize_ok junk ht (m := b.length + t.n) (by omega) (by omega)
  have hb : t1.n + b.length ≤ t1.a.length := by omega
  refine ⟨_, by rw [Ts.append, e1, Res.ok_bind, memcpy_ok hb]; rfl, ⟨?_, ?_⟩, by dsimp only; omega, ?_⟩
  · simp only [List.length_append, List.length_take, List.length_drop]; omega
  · dsimp only; omega
  · rw [← hv]
    simp only [Ts.view]
    rw [List.take_append_of_le_length (by rw [List.length_append, List.length_take]; omega),
      List.take_of_length_le (by rw [List.length_append, List.length_take]; omega)]

/-- Copying replaces the contents. -/
theorem C62_copy (junk : Nat → UInt8) {t : Ts} (ht : Ts.Wf t) (b : Bytes) (hn : t.n < 2 ^ 30) (h : b.length < 2 ^ 30) :
    ∃ t', t.copy junk b = .ok t' ∧ Ts.Wf t' ∧ t'.view = b := by
  obtain ⟨t1, e1, ⟨w1, w2⟩, -, -, hl⟩ := resize_ok junk ht (m := b.length) h hn
  have hb : 0 + b.length ≤ t1.a.length := by omega
  refine ⟨_, by rw [Ts.copy, e1, Res.ok_bind, memcpy_ok hb]; rfl, ⟨?_, hl⟩, ?_⟩
  · simp only [List.take_zero, List.nil_append, List.length_append, List.length_drop]; omega
  · simp only [Ts.view, List.take_zero, List.nil_append]
    rw [List.take_append_of_le_length (by omega), List.take_of_length_le (by omega)]

theorem wf_empty : Ts.Wf Ts.empty := ⟨rfl, Nat.le_refl 0⟩

/-! ## C62: the threads -/

theorem writeLoop_spec (write : Nat → Int) (closes : Bool) (d : Bytes) {n : Nat} (hn : n ≠ 0) :
    ∀ (f i k : Nat), d.length - k < f → k < d.length →
    ∃ t, writeLoop write closes d n f i k ⟨d.take k, 0, false⟩ = .ok t ∧ t.written <+: d ∧
      ((t.written = d ∧ t.closed = 1 ∧ t.failed = !closes) ∨
       (t.failed = true ∧ t.closed = 1 ∧ ∃ j, write j < 0) ∨
       (t.failed = false ∧ t.closed = 0 ∧ t.written ≠ d ∧ ∃ j, write j = 0)) := by
  intro f
  induction f with
  | zero => intro i k hf; omega
  | succ f ih =>
    intro i k hf hk
    rw [writeLoop]
    dsimp only
    rcases Int.lt_trichotomy (write i) 0 with hw | hw | hw
    · have ho : min (write i) ((min n (d.length - k) : Nat) : Int) < 0 := by omega
      simp only [ho, show ¬ (0 < min (write i) ((min n (d.length - k) : Nat) : Int)) by omega, if_false, if_true, false_and]
      rw [if_neg (by omega)]
      exact ⟨_, rfl, List.take_prefix _ _, .inr (.inl ⟨rfl, rfl, i, hw⟩)⟩
    · have ho : min (write i) ((min n (d.length - k) : Nat) : Int) = 0 := by omega
      simp only [ho, show ¬ ((0 : Int) < 0) by omega, if_false, false_and]
      rw [if_neg (by omega)]
      refine ⟨_, rfl, List.take_prefix _ _, .inr (.inr ⟨rfl, rfl, fun e => ?_, i, hw⟩)⟩
      have := congrArg List.length e
      rw [List.length_take] at this
      omega
    · obtain ⟨o, ho, h1, h2⟩ : ∃ o : Nat, min (write i) ((min n (d.length - k) : Nat) : Int) = o ∧ 0 < o ∧ o ≤ d.length - k :=
        ⟨(min (write i) ((min n (d.length - k) : Nat) : Int)).toNat, by omega, by omega, by omega⟩
      have hw' : d.take k ++ (d.drop k).take o = d.take (k + o) := (List.take_add).symm
      simp only [ho, show (0 : Int) < (o : Int) by omega, show ¬ ((o : Int) < 0) by omega, if_true, if_false, true_and,
        Int.toNat_natCast, hw']
      by_cases he : k + o = d.length
      · simp only [he, if_true, Nat.lt_irrefl, if_false]
        refine ⟨_, rfl, List.take_prefix _ _, .inl ⟨List.take_of_length_le (Nat.le_refl _), rfl, by simp⟩⟩
      · rw [if_neg he, if_pos (by omega)]
        exact ih (i + 1) (k + o) (by omega) (by omega)

/-- A thread that sends a string that is not empty: the string is written in order and the descriptor is closed once,
or failure is reported. This needs that `write` never answers 0. -/
theorem C62_write_partial {write : Nat → Int} (hw : ∀ i, write i ≠ 0) (closes : Bool) {d : Bytes} (hd : d ≠ []) (n : Nat) :
    ∃ t, writeTask write closes d n = .ok t ∧ t.written <+: d ∧ t.closed = (if n = 0 then 0 else 1) ∧
      (t.failed = false → t.written = d) ∧ (n ≠ 0 → (∀ i, 0 < write i) → t.failed = !closes) := by
  have hl : d.length ≠ 0 := fun e => hd (List.length_eq_zero_iff.1 e)
  by_cases hn : n = 0
  · exact ⟨⟨[], 0, true⟩, by rw [writeTask, if_neg hl, if_pos hn], List.nil_prefix, by rw [if_pos hn], nofun,
      fun h => absurd hn h⟩
  rw [if_neg hn]
  obtain ⟨t, e, h1, h2⟩ := writeLoop_spec write closes d hn (d.length + 1) 0 0 (by omega) (by omega)
  refine ⟨t, by rw [writeTask, if_neg hl, if_neg hn]; exact e, h1, ?_⟩
  rcases h2 with ⟨a, b, c⟩ | ⟨a, b, j, hj⟩ | ⟨_, _, _, j, hj⟩
  · exact ⟨b, fun _ => a, fun _ _ => c⟩
  · exact ⟨b, (fun h => by rw [a] at h; cases h), fun _ h => absurd (h j) (by omega)⟩
  · exact absurd hj (hw j)

/-- The empty string: the descriptor is not closed and no failure is reported, so that a process that waits for the end of
its input waits for ever. -/
theorem C62_empty_violated (write : Nat → Int) (closes : Bool) (n : Nat) :
    writeTask write closes [] n = .ok ⟨[], 0, false⟩ := rfl

/-- If `write` answers 0 the thread stops without an error, and without closing. -/
theorem C62_zero_violated : ∃ write : Nat → Int, writeTask write true (b!"abc") 4096 = .ok ⟨b!"a", 0, false⟩ :=
  ⟨fun i => if i = 0 then 1 else 0, by decide +kernel⟩

theorem readLoopT_spec (junk : Nat → UInt8) (read : Nat → Option Bytes) (closes : Bool) :
    ∀ (l : List Bytes) (i : Nat) (t : Ts) (f : Nat), (∀ b ∈ l, b ≠ []) → (∀ (j : Nat) (b : Bytes), l[j]? = some b → read (i + j) = some b) →
    Ts.Wf t → t.n + l.flatten.length < 2 ^ 30 → l.length < f →
    ∃ t', Ts.Wf t' ∧ t'.view = t.view ++ l.flatten ∧
      (read (i + l.length) = some [] → readLoopT junk read closes f i t = .ok (t', 1, !closes)) ∧
      (read (i + l.length) = none → readLoopT junk read closes f i t = .ok (t', 0, false)) := by
  intro l
  induction l with
  | nil =>
    intro i t f _ _ ht _ hf
    obtain ⟨f, rfl⟩ : ∃ g, f = g + 1 := ⟨f - 1, by simp at hf; omega⟩
    refine ⟨t, ht, by simp, fun h => ?_, fun h => ?_⟩
    · rw [readLoopT]
      simp only [List.length_nil, Nat.add_zero] at h
      rw [h]; rfl
    · rw [readLoopT]
      simp only [List.length_nil, Nat.add_zero] at h
      rw [h]
  | cons b l ih =>
    intro i t f hne hrd ht hlen hf
    obtain ⟨f, rfl⟩ : ∃ g, f = g + 1 := ⟨f - 1, by simp at hf; omega⟩
    simp only [List.flatten_cons, List.length_append] at hlen
    obtain ⟨t1, e1, w1, n1, v1⟩ := C62_append junk ht b (by omega)
    obtain ⟨t', w', v', a', b'⟩ := ih (i + 1) t1 f (fun x hx => hne x (by simp [hx]))
      (fun j x hx => by
        have := hrd (j + 1) x (by simpa using hx)
        rw [show i + 1 + j = i + (j + 1) by omega]
        exact this) w1 (by omega) (by simp at hf; omega)
    have h0 := hrd 0 b rfl
    rw [Nat.add_zero] at h0
    have hb : ¬ b.length = 0 := fun e => hne b (by simp) (List.length_eq_zero_iff.1 e)
    have hi : i + (b :: l).length = i + 1 + l.length := by simp only [List.length_cons]; omega
    refine ⟨t', w', by rw [v', v1]; simp, fun h => ?_, fun h => ?_⟩
    · rw [readLoopT, h0]
      dsimp only
      rw [if_neg hb, e1, Res.ok_bind]
      exact a' (by rw [← hi]; exact h)
    · rw [readLoopT, h0]
      dsimp only
      rw [if_neg hb, e1, Res.ok_bind]
      exact b' (by rw [← hi]; exact h)

/-- A thread that receives: if the reads give the pieces `l` and then the end of the file, the string is the pieces in
order, the descriptor is closed once, and failure is reported exactly if closing fails. -/
theorem C62_read_partial (junk : Nat → UInt8) {read : Nat → Option Bytes} (closes : Bool) {l : List Bytes} (hne : ∀ b ∈ l, b ≠ [])
    (hrd : ∀ (j : Nat) (b : Bytes), l[j]? = some b → read j = some b) (hend : read l.length = some [])
    (hlen : l.flatten.length < 2 ^ 30) {f : Nat} (hf : l.length < f) :
    ∃ t, readLoopT junk read closes f 0 Ts.empty = .ok (t, 1, !closes) ∧ t.view = l.flatten := by
  obtain ⟨t, -, h1, h2, -⟩ := readLoopT_spec junk read closes l 0 Ts.empty f hne (by simpa using hrd) wf_empty
    (by simpa [Ts.empty] using hlen) hf
  exact ⟨t, h2 (by simpa using hend), by simpa [Ts.view, Ts.empty] using h1⟩

/-- If reading fails after the pieces `l`, the string holds them, no failure is reported and the descriptor is not closed. -/
theorem C62_read_violated (junk : Nat → UInt8) {read : Nat → Option Bytes} (closes : Bool) {l : List Bytes} (hne : ∀ b ∈ l, b ≠ [])
    (hrd : ∀ (j : Nat) (b : Bytes), l[j]? = some b → read j = some b) (herr : read l.length = none)
    (hlen : l.flatten.length < 2 ^ 30) {f : Nat} (hf : l.length < f) :
    ∃ t, readLoopT junk read closes f 0 Ts.empty = .ok (t, 0, false) ∧ t.view = l.flatten := by
  obtain ⟨t, -, h1, -, h2⟩ := readLoopT_spec junk read closes l 0 Ts.empty f hne (by simpa using hrd) wf_empty
    (by simpa [Ts.empty] using hlen) hf
  exact ⟨t, h2 (by simpa using herr), by simpa [Ts.view, Ts.empty] using h1⟩

/-- `unix_system` returns -1 exactly if a thread has failed, or waiting for the process has, or it was killed; otherwise
the exit status of the process. -/
theorem C62_result (failed : List Bool) (waited : Bool) (exit : Option UInt8) :
    (systemResult failed waited exit = -1 ↔ true ∈ failed ∨ waited = false ∨ exit = none) ∧
    (∀ e : UInt8, true ∉ failed → waited = true → exit = some e → systemResult failed waited exit = e.toNat) := by
  have hany : failed.any id = true ↔ true ∈ failed := by simp
  constructor
  · rw [systemResult.eq_def]
    by_cases h : true ∈ failed
    · simp [h, hany.2 h]
    · have : failed.any id = false := by
        cases hx : failed.any id with
        | false => rfl
        | true => exact absurd (hany.1 hx) h
      rw [this]
      cases waited with
      | false => simp
      | true =>
        cases exit with
        | none => simp
        | some e => simp [h]
  · intro e h hw he
    have : failed.any id = false := by
      cases hx : failed.any id with
      | false => rfl
      | true => exact absurd (hany.1 hx) h
    simp [systemResult, this, hw, he]

/-- Short writes of any size: three characters at a time. -/
example : writeTask (fun _ => 3) true (b!"hello, world") 4096 = .ok ⟨b!"hello, world", 1, false⟩ := by decide +kernel

/-! ## C82: placeholders for descriptors -/

open Lolly.An Lolly.Conv Lolly.SearchProps

theorem replace_none {s what : Bytes} (hw : what ≠ []) (h : ∀ p, ¬ OccursAt what s p) (by_ : Bytes) :
    replace (s.length + 1) s what by_ = .ok s := by
  obtain ⟨ps, e, hc⟩ := C21_replace s what by_ hw (s.length + 1) (by omega)
  have := (C21_pieces hc (.last s h)).1
  subst this
  exact e

theorem replace_all {what : Bytes} (hw : what ≠ []) (by_ : Bytes) : replace (what.length + 1) what what by_ = .ok by_ := by
  obtain ⟨ps, e, hc⟩ := C21_replace what what by_ hw (what.length + 1) (by omega)
  have h : Cuts what what [[], []] := by
    have := Cuts.cut (what := what) [] [] [[]] (fun q h => by simp at h) (.last [] (fun p => by
      rintro ⟨a, b, e, -⟩
      have := congrArg List.length e
      simp only [List.length_nil, List.length_append] at this
      exact hw (List.length_eq_zero_iff.1 (by omega))))
    simpa using this
  have := (C21_pieces hc h).1
  subst this
  rw [e]
  simp [join]

theorem asString_nat (n : Nat) : asString n = natDec n := by
  rw [asString, if_neg (by omega)]; simp

theorem no_dollar (n : Nat) : c! '$' ∉ natDec n := by
  intro h
  have := List.all_eq_true.1 (natDec_spec n).1 _ h
  revert this
  decide

/-- A string without `$$` is not changed. -/
theorem substArg_other (fds : List (Int × Nat)) (i : Nat) (s : Bytes) (h : ∀ p, ¬ OccursAt (b!"$$") s p) :
    substArg fds i s = .ok s := by
  induction fds generalizing i with
  | nil => rfl
  | cons x fds ih =>
    obtain ⟨fd, p⟩ := x
    rw [substArg]
    split
    · rw [replace_none (by simp) fun q => ?_, Res.ok_bind, ih]
      rintro ⟨a, b, e, hq⟩
      exact h q ⟨a, asString i ++ b, by rw [e]; simp, hq⟩
    · exact ih (i + 1)

theorem natDec_inj {i j : Nat} (h : natDec i = natDec j) : i = j := by
  have h1 := (natDec_spec i).2.2
  rw [h, (natDec_spec j).2.2] at h1
  exact_mod_cast h1.symm

theorem dollars_of_digits (n p : Nat) : ¬ OccursAt (b!"$$") (natDec n) p := by
  rintro ⟨a, b, e, -⟩
  exact no_dollar n (by rw [e]; simp)

theorem occurs_placeholder {x : Bytes} {n p : Nat} (h : OccursAt ((b!"$$") ++ x) ((b!"$$") ++ natDec n) p) : x <+: natDec n := by
  obtain ⟨a, b, e, hp⟩ := h
  match a, e with
  | [], e => simp at e; exact ⟨b, e.symm⟩
  | [c], e =>
    simp at e
    exact absurd (by rw [e.2]; simp) (no_dollar n)
  | c :: c' :: a, e =>
    simp at e
    exact absurd (by rw [e.2.2]; simp) (no_dollar n)

theorem substArg_placeholder (fds : List (Int × Nat)) (i n : Nat)
    (hpre : ∀ (j : Nat) (fd : Int) (p : Nat), fds[j]? = some (fd, p) → fd < 0 → natDec (i + j) <+: natDec n → i + j = n) :
    substArg fds i ((b!"$$") ++ natDec n) =
      match (if n < i then none else fds[n - i]?) with
      | some (fd, p) => if fd < 0 then .ok (natDec p) else .ok ((b!"$$") ++ natDec n)
      | none => .ok ((b!"$$") ++ natDec n) := by
  induction fds generalizing i with
  | nil => simp [substArg]
  | cons x fds ih =>
    obtain ⟨fd, p⟩ := x
    have ih' := ih (i + 1) fun j fd' p' h1 h2 h3 => by
      have := hpre (j + 1) fd' p' (by simpa using h1) h2 (by rw [show i + (j + 1) = i + 1 + j by omega]; exact h3)
      omega
    rw [substArg]
    by_cases hin : i = n
    · subst hin
      simp only [Nat.lt_irrefl, if_false, Nat.sub_self, List.getElem?_cons_zero]
      split
      · rw [asString_nat, replace_all (by simp), Res.ok_bind, asString_nat]
        exact substArg_other fds _ _ (dollars_of_digits p)
      · rw [ih', if_pos (by omega)]
    · have hgo : substArg fds (i + 1) ((b!"$$") ++ natDec n) =
          match (if n < i then none else ((fd, p) :: fds)[n - i]?) with
          | some (fd, p) => if fd < 0 then .ok (natDec p) else .ok ((b!"$$") ++ natDec n)
          | none => .ok ((b!"$$") ++ natDec n) := by
        rw [ih']
        by_cases hlt : n < i
        · rw [if_pos (by omega), if_pos hlt]
        · rw [if_neg (by omega), if_neg hlt, show n - i = n - (i + 1) + 1 by omega, List.getElem?_cons_succ]
      split
      · next hfd =>
        rw [asString_nat, replace_none (by simp) fun q hq => ?_, Res.ok_bind]
        · exact hgo
        · exact hin (by simpa using hpre 0 fd p rfl hfd (by simpa using occurs_placeholder hq))
      · exact hgo

theorem natDec_mono {m n : Nat} (h : m ≤ n) : (natDec m).length ≤ (natDec n).length := by
  induction n using Nat.strongRecOn generalizing m with
  | ind n ih =>
    rw [natDec.eq_def m]
    split
    · rw [natDec.eq_def n]; split <;> simp
    · next hm =>
      rw [natDec.eq_def n, if_neg (by omega)]
      have := ih (n / 10) (by omega) (show m / 10 ≤ n / 10 by omega)
      simp only [List.length_append, List.length_singleton]
      omega

/-- The placeholder `$$n` becomes the number of the descriptor of input `n`, if no shorter index of another such input
begins it; this is so if there are at most ten inputs. Other arguments without `$$` stay. -/
theorem C82_partial (fds : List (Int × Nat)) (n : Nat) (fd : Int) (p : Nat) (hn : fds[n]? = some (fd, p)) (hfd : fd < 0)
    (hpre : fds.length ≤ 10 ∨ ∀ j, j < n → ¬ natDec j <+: natDec n) :
    substArg fds 0 ((b!"$$") ++ natDec n) = .ok (natDec p) ∧
    ∀ s, (∀ q, ¬ OccursAt (b!"$$") s q) → substArg fds 0 s = .ok s := by
  refine ⟨?_, fun s hs => substArg_other fds 0 s hs⟩
  have hnl : n < fds.length := (List.getElem?_eq_some_iff.1 hn).1
  rw [substArg_placeholder fds 0 n]
  · simp [hn, hfd]
  · intro j fd' p' h1 _ h3
    rw [Nat.zero_add] at h3 ⊢
    rcases Nat.lt_trichotomy j n with hj | hj | hj
    · rcases hpre with h | h
      · have hjn : natDec j = natDec n := by
          rw [natDec, if_pos (by omega)] at h3 ⊢
          rw [natDec, if_pos (by omega)] at h3 ⊢
          exact h3.eq_of_length (by simp)
        exact natDec_inj hjn
      · exact absurd h3 (h j hj)
    · exact hj
    · -- a larger number is not shorter
      have hlen : (natDec n).length ≤ (natDec j).length := natDec_mono (by omega)
      exact natDec_inj (h3.eq_of_length (by have := h3.length_le; omega))

theorem substArg_total (fds : List (Int × Nat)) (i : Nat) (s : Bytes) : ∃ t, substArg fds i s = .ok t := by
  induction fds generalizing i s with
  | nil => exact ⟨s, rfl⟩
  | cons x fds ih =>
    obtain ⟨fd, p⟩ := x
    rw [substArg]
    split
    · obtain ⟨ps, e, _⟩ := C21_replace s ((b!"$$") ++ asString i) (asString p) (by simp) (s.length + 1) (by omega)
      rw [e, Res.ok_bind]
      exact ih _ _
    · exact ih _ _

theorem inner_spec (fds : List (Int × Nat)) (arg j : Nat) : ∀ (k i : Nat) (hp : List (List Bytes)) (a : List Bytes) (s t : Bytes),
    i + k = fds.length → hp[arg]? = some a → a[j]? = some s → substArg (fds.drop i) i s = .ok t →
    forN (fun i (hp : List (List Bytes)) => do
      let (fd, p) ← rd fds i
      if fd < 0 then do
        let a ← rd hp arg
        let s ← rd a j
        let s ← An.replace (s.length + 1) s ((b!"$$") ++ Conv.asString i) (Conv.asString p)
        let a ← wr a j s
        wr hp arg a
      else .ok hp) k i hp = .ok (hp.set arg (a.set j t)) := by
  intro k
  induction k with
  | zero =>
    intro i hp a s t hk ha hs ht
    rw [show fds.drop i = [] from List.drop_eq_nil_of_le (by omega), substArg] at ht
    obtain rfl := Res.ok.inj ht
    obtain ⟨h1, rfl⟩ := List.getElem?_eq_some_iff.1 ha
    obtain ⟨h2, rfl⟩ := List.getElem?_eq_some_iff.1 hs
    simp [forN]
  | succ k ih =>
    intro i hp a s t hk ha hs ht
    have hi : i < fds.length := by omega
    rw [List.drop_eq_getElem_cons hi, substArg] at ht
    rw [forN, rd_eq_ok.2 (List.getElem?_eq_getElem hi)]
    obtain ⟨h1, h1'⟩ := List.getElem?_eq_some_iff.1 ha
    obtain ⟨h2, h2'⟩ := List.getElem?_eq_some_iff.1 hs
    by_cases hfd : fds[i].1 < 0
    · rw [if_pos hfd] at ht
      obtain ⟨s', e, ht⟩ := Res.bind_eq_ok.1 ht
      simp only [Res.ok_bind, hfd, if_true, rd_eq_ok.2 ha, rd_eq_ok.2 hs, e, wr_ok h2, wr_ok h1]
      have := ih (i + 1) (hp.set arg (a.set j s')) (a.set j s') s' t (by omega)
        (by rw [List.getElem?_set_self h1]) (by rw [List.getElem?_set_self h2]) ht
      simpa using this
    · rw [if_neg hfd] at ht
      simp only [Res.ok_bind, hfd, if_false]
      exact ih (i + 1) hp a s t (by omega) ha hs ht

/-- Every argument is treated by itself, no other array is touched, and nothing is read or written outside of the arrays;
but the results are in the array of the caller. -/
theorem C82_arguments (fds : List (Int × Nat)) (hp : List (List Bytes)) (arg : Nat) (l : List Bytes) (h : hp[arg]? = some l) :
    ∃ l', substArgs fds hp arg = .ok (hp.set arg l') ∧ l'.length = l.length ∧
      ∀ (j : Nat) (s : Bytes), l[j]? = some s → ∃ t, l'[j]? = some t ∧ substArg fds 0 s = .ok t := by
  obtain ⟨hlt, rfl⟩ := List.getElem?_eq_some_iff.1 h
  obtain ⟨hp', e, l', rfl, hn, h1, -⟩ := forUp_spec (lo := 0) (hi := hp[arg].length) (s := hp)
    (body := fun j hp => forUp 0 fds.length hp fun i hp => do
      let (fd, p) ← rd fds i
      if fd < 0 then do
        let a ← rd hp arg
        let s ← rd a j
        let s ← An.replace (s.length + 1) s ((b!"$$") ++ Conv.asString i) (Conv.asString p)
        let a ← wr a j s
        wr hp arg a
      else .ok hp)
    (fun n x => ∃ l' : List Bytes, x = hp.set arg l' ∧ l'.length = hp[arg].length ∧
      (∀ (j : Nat) (s : Bytes), j < n → hp[arg][j]? = some s → ∃ t, l'[j]? = some t ∧ substArg fds 0 s = .ok t) ∧
      ∀ j, n ≤ j → l'[j]? = hp[arg][j]?)
    (Nat.zero_le _) ⟨hp[arg], by simp, rfl, fun j s hj => by omega, fun _ _ => rfl⟩
    (by
      rintro n x - hlt' ⟨l', rfl, hn, h1, h2⟩
      have hs := h2 n (Nat.le_refl n)
      rw [List.getElem?_eq_getElem hlt'] at hs
      obtain ⟨t, ht⟩ := substArg_total fds 0 hp[arg][n]
      have := inner_spec fds arg n fds.length 0 (hp.set arg l') l' _ t (by omega)
        (by rw [List.getElem?_set_self hlt]) hs (by simpa using ht)
      refine ⟨hp.set arg (l'.set n t), ?_, l'.set n t, rfl, by simpa using hn, ?_, ?_⟩
      · rw [forUp, Nat.sub_zero, this]; simp
      · intro j s hj hjs
        rw [List.getElem?_set]
        split
        · next he =>
          subst he
          rw [List.getElem?_eq_getElem hlt'] at hjs
          obtain rfl := Option.some.inj hjs
          exact ⟨t, by rw [if_pos (by omega)], ht⟩
        · next he => exact h1 j s (by omega) hjs
      · intro j hj
        rw [List.getElem?_set_ne (by omega)]
        exact h2 j (by omega))
  refine ⟨l', ?_, hn, fun j s hs => h1 j s ?_ hs⟩
  · rw [substArgs, rd_eq_ok.2 h]; exact e
  · exact (List.getElem?_eq_some_iff.1 hs).1

/-- Two arguments, one of them the placeholder of input 1. -/
example : ∃ l', substArgs [(0, 3), (-1, 5)] [[b!"cat", b!"$$1"]] 0 = .ok [l'] ∧ l'[1]? = some (natDec 5) ∧
    l'[0]? = some (b!"cat") := by
  obtain ⟨l', e, -, h⟩ := C82_arguments [(0, 3), (-1, 5)] [[b!"cat", b!"$$1"]] 0 [b!"cat", b!"$$1"] rfl
  refine ⟨l', e, ?_, ?_⟩
  · obtain ⟨t, h1, h2⟩ := h 1 _ rfl
    have := (C82_partial [(0, 3), (-1, 5)] 1 (-1) 5 rfl (by decide) (.inl (by decide))).1
    rw [show natDec 1 = b!"1" by rw [natDec]; rfl, show (b!"$$") ++ (b!"1") = b!"$$1" from rfl, h2] at this
    rw [h1, Res.ok.inj this]
  · obtain ⟨t, h1, h2⟩ := h 0 _ rfl
    have := (C82_partial [(0, 3), (-1, 5)] 1 (-1) 5 rfl (by decide) (.inl (by decide))).2 (b!"cat") (by
      rintro q ⟨a, b, e, -⟩
      have : c! '$' ∈ (b!"cat") := by rw [e]; simp
      revert this
      decide)
    rw [h2] at this
    rw [h1, Res.ok.inj this]

/-- The array of the caller is changed: where it had the placeholder of an input it has the number of the descriptor. A
second call with the same array does not see the placeholder any more. -/
theorem C82_array_violated (fds : List (Int × Nat)) (hp : List (List Bytes)) (arg : Nat) (l : List Bytes) (h : hp[arg]? = some l)
    (n : Nat) (fd : Int) (p : Nat) (hn : fds[n]? = some (fd, p)) (hfd : fd < 0) (hlen : fds.length ≤ 10) (j : Nat)
    (hj : l[j]? = some ((b!"$$") ++ natDec n)) :
    ∃ hp' l', substArgs fds hp arg = .ok hp' ∧ hp'[arg]? = some l' ∧ l'[j]? = some (natDec p) ∧ l' ≠ l := by
  obtain ⟨l', e, -, h1⟩ := C82_arguments fds hp arg l h
  obtain ⟨t, h2, h3⟩ := h1 j _ hj
  rw [(C82_partial fds n fd p hn hfd (.inl hlen)).1] at h3
  obtain rfl := Res.ok.inj h3
  refine ⟨_, l', e, by rw [List.getElem?_set_self (List.getElem?_eq_some_iff.1 h).1], h2, ?_⟩
  rintro rfl
  rw [h2] at hj
  exact no_dollar p (by rw [Option.some.inj hj]; simp)

/-- If input 1 has a placeholder, `$$10` becomes its descriptor followed by a 0, and not that of input 10. -/
theorem C82_violated (fds : List (Int × Nat)) (fd : Int) (p : Nat) (h1 : fds[1]? = some (fd, p)) (hfd : fd < 0) :
    substArg fds 0 (b!"$$10") = .ok (natDec p ++ b!"0") := by
  match fds, h1 with
  | (fd0, p0) :: (fd1, p1) :: fds, h1 =>
  simp only [List.getElem?_cons_succ, List.getElem?_cons_zero, Option.some.injEq, Prod.mk.injEq] at h1
  obtain ⟨rfl, rfl⟩ := h1
  have d0 : asString (0 : Nat) = b!"0" := by rw [asString_nat, natDec]; rfl
  have d1 : asString ((0 + 1 : Nat) : Int) = b!"1" := by rw [asString_nat, natDec]; rfl
  have e0 : replace ((b!"$$10").length + 1) (b!"$$10") (b!"$$0") (asString p0) = .ok (b!"$$10") := by
    refine replace_none (by simp) (fun q => ?_) _
    rintro ⟨a, b, e, -⟩
    match a, e with
    | [], e => simp at e
    | [c], e => simp at e
    | c :: c' :: a, e =>
      simp at e
      have : c! '$' ∈ ([49, 48] : List UInt8) := by rw [e.2.2]; simp
      revert this
      decide
  have e1 : replace ((b!"$$10").length + 1) (b!"$$10") (b!"$$1") (asString p1) = .ok (natDec p1 ++ b!"0") := by
    obtain ⟨ps, e, hc⟩ := C21_replace (b!"$$10") (b!"$$1") (asString p1) (by simp) ((b!"$$10").length + 1) (by decide)
    have h : Cuts (b!"$$1") (b!"$$10") [[], b!"0"] :=
      Cuts.cut (what := b!"$$1") [] (b!"0") [b!"0"] (fun q h => by simp at h) (.last _ fun q => by
        rintro ⟨a, b, e, -⟩
        have := congrArg List.length e
        simp at this
        omega)
    have := (C21_pieces hc h).1
    subst this
    rw [e, asString_nat]
    simp [join]
  have erest : substArg fds (0 + 1 + 1) (natDec p1 ++ b!"0") = .ok (natDec p1 ++ b!"0") := by
    refine substArg_other fds _ _ fun q => ?_
    rintro ⟨a, b, e, -⟩
    have : c! '$' ∈ natDec p1 ++ b!"0" := by rw [e]; simp
    rcases List.mem_append.1 this with h | h
    · exact no_dollar p1 h
    · revert h; decide
  have estep : substArg ((fd1, p1) :: fds) (0 + 1) (b!"$$10") = .ok (natDec p1 ++ b!"0") := by
    rw [substArg, if_pos hfd, d1]
    exact (congrArg (· >>= _) e1).trans erest
  rw [substArg]
  split
  · rw [d0]
    exact (congrArg (· >>= _) e0).trans estep
  · exact estep

/-- Eleven inputs with placeholders. -/
example : ((List.range 11).map fun i => ((-1 : Int), 20 + i))[1]? = some (-1, 21) := rfl

end Lolly.ProcessProps
