import Verif.System.Stack

set_option autoImplicit false

/-!
# C141: stack traces show the innermost frames, one on a line
-/

namespace Lolly.StackProps

open Lolly.Stack

/-! ## Specification -/

/-- What stands for a frame. -/
def label : Option Bytes → Bytes
  | none => b!"null"
  | some s => s

/-- A text of lines. -/
def text (lines : List Bytes) : Bytes := lines.flatMap fun l => l ++ [10]

/-- The trace of frames. -/
def trace (names : List (Option Bytes)) : Bytes :=
  text ((b!"Backtrace of C++ stack:") ::
    (if names = [] then [b!"  <empty, possibly corrupt>"] else names.map fun n => (b!"  ") ++ label n))

/-- Names are C strings. -/
def CNames (l : List (Option Bytes)) : Prop := ∀ s, some s ∈ l → (0 : UInt8) ∉ s

/-- Names on one line that are not taken for something else. -/
def Plain (n : Option Bytes) : Prop := ∃ s, n = some s ∧ (10 : UInt8) ∉ s ∧ (0 : UInt8) ∉ s ∧ s ≠ b!"<empty, possibly corrupt>"

/-! ## Lemmas -/

theorem takeWhile_all {s : Bytes} (h : (0 : UInt8) ∉ s) : s.takeWhile (· ≠ 0) = s := by
  induction s with
  | nil => rfl
  | cons c s ih =>
    have hc : c ≠ 0 := fun e => h (by simp [e])
    rw [List.takeWhile_cons, if_pos (by simpa using hc), ih (fun e => h (by simp [e]))]

theorem text_append (a b : List Bytes) : text (a ++ b) = text a ++ text b := by simp [text]

/-- Lines can be read back. -/
theorem text_inj : ∀ {a b : List Bytes}, (∀ l ∈ a, (10 : UInt8) ∉ l) → (∀ l ∈ b, (10 : UInt8) ∉ l) → text a = text b → a = b := by
  have cut : ∀ {x y u v : Bytes}, (10 : UInt8) ∉ x → (10 : UInt8) ∉ y → x ++ 10 :: u = y ++ 10 :: v → x = y ∧ u = v := by
    intro x
    induction x with
    | nil =>
      intro y u v _ hy h
      cases y with
      | nil => simpa using h
      | cons c y =>
        simp only [List.nil_append, List.cons_append, List.cons.injEq] at h
        exact absurd (h.1 ▸ List.mem_cons_self) hy
    | cons c x ih =>
      intro y u v hx hy h
      cases y with
      | nil =>
        simp only [List.nil_append, List.cons_append, List.cons.injEq] at h
        exact absurd (h.1 ▸ List.mem_cons_self) hx
      | cons d y =>
        simp only [List.cons_append, List.cons.injEq] at h
        obtain ⟨e, k⟩ := ih (fun m => hx (by simp [m])) (fun m => hy (by simp [m])) h.2
        exact ⟨by rw [h.1, e], k⟩
  intro a
  induction a with
  | nil =>
    intro b _ _ h
    cases b with
    | nil => rfl
    | cons y b => simp [text] at h
  | cons x a ih =>
    intro b ha hb h
    cases b with
    | nil => simp [text] at h
    | cons y b =>
      simp only [text, List.flatMap_cons, List.append_assoc, List.singleton_append] at h
      obtain ⟨e, k⟩ := cut (ha x (by simp)) (hb y (by simp)) h
      rw [e, ih (fun l hl => ha l (by simp [hl])) (fun l hl => hb l (by simp [hl])) k]

theorem stack_eq {max : Nat} (hm : max + 1 < 2 ^ 32) {all : List (Option Bytes)} (hn : CNames (all.take max)) :
    getStacktrace max all = .ok (trace (all.take max)) := by
  have hs : (max + 1) % 2 ^ 32 = max + 1 := Nat.mod_eq_of_lt hm
  unfold getStacktrace frames
  dsimp only
  rw [hs, if_neg (by omega), if_pos (by rw [List.length_take]; omega)]
  show (if (all.take max).length = 0 then _ else _) = _
  generalize all.take max = l at hn ⊢
  by_cases hl : l = []
  · subst hl; rfl
  · rw [if_neg (by simpa using hl)]
    obtain ⟨r, e, h⟩ := forUp_spec (lo := 0) (hi := l.length) (s := (b!"Backtrace of C++ stack:\n"))
      (body := fun i r => do
        let curname ← rd l i
        .ok (addFrame r curname))
      (fun i r => r = text ((b!"Backtrace of C++ stack:") :: (l.take i).map fun n => (b!"  ") ++ label n))
      (Nat.zero_le _) (by simp [text]) (by
        intro i r _ hi hr
        have e : rd l i = .ok l[i] := rd_ok hi
        have t : l.take (i + 1) = l.take i ++ [l[i]] := by rw [List.take_add_one]; simp [hi]
        simp only [e, Res.ok_bind]
        have hmem : l[i] ∈ l := List.getElem_mem hi
        cases hx : l[i] with
        | none =>
          refine ⟨_, rfl, ?_⟩
          rw [t, hx, List.map_append, ← List.cons_append, text_append, ← hr]
          simp [text, label, addFrame]
        | some s =>
          refine ⟨_, rfl, ?_⟩
          rw [t, hx, List.map_append, ← List.cons_append, text_append, ← hr, addFrame, takeWhile_all (hn s (hx ▸ hmem))]
          simp [text, label])
    rw [e, h, List.take_length]
    unfold trace
    rw [if_neg hl]

/-! ## C141 -/

/-- The trace: a title, then one line for each of the innermost `max` frames in order, or a line that says that there are
none. -/
theorem C141_trace {max : Nat} (hm : max + 1 < 2 ^ 32) {all : List (Option Bytes)} (hn : CNames (all.take max)) :
    getStacktrace max all = .ok (trace (all.take max)) := stack_eq hm hn

/-- Traces that are equal show the same frames, if all frames have names of one line. -/
theorem C141_read_partial {max k : Nat} (hm : max + 1 < 2 ^ 32) (hk : k + 1 < 2 ^ 32) {a b : List (Option Bytes)}
    (ha : ∀ n ∈ a.take max, Plain n) (hb : ∀ n ∈ b.take k, Plain n)
    (h : getStacktrace max a = getStacktrace k b) : a.take max = b.take k := by
  have c : ∀ {l : List (Option Bytes)}, (∀ n ∈ l, Plain n) → CNames l := by
    intro l hl s hs
    obtain ⟨t, e, _, h0, _⟩ := hl _ hs
    cases e; exact h0
  rw [stack_eq hm (c ha), stack_eq hk (c hb)] at h
  injection h with h
  generalize a.take max = x at ha h ⊢
  generalize b.take k = y at hb h ⊢
  have lines : ∀ {l : List (Option Bytes)}, (∀ n ∈ l, Plain n) →
      ∀ z ∈ (b!"Backtrace of C++ stack:") ::
        (if l = [] then [b!"  <empty, possibly corrupt>"] else l.map fun n => (b!"  ") ++ label n), (10 : UInt8) ∉ z := by
    intro l hl z hz
    rcases List.mem_cons.1 hz with rfl | hz
    · decide
    · split at hz
      · rw [List.mem_singleton.1 hz]; decide
      · obtain ⟨n, hn, rfl⟩ := List.mem_map.1 hz
        obtain ⟨s, rfl, h1, _⟩ := hl n hn
        simp [label, h1]
  have key := text_inj (lines ha) (lines hb) h
  injection key with _ key
  have one : ∀ {l : List (Option Bytes)}, (∀ n ∈ l, Plain n) →
      (l.map fun n => (b!"  ") ++ label n) ≠ [b!"  <empty, possibly corrupt>"] := by
    intro l hl h
    cases l with
    | nil => simp at h
    | cons n l =>
      have hl' : l = [] := by
        have := congrArg List.length h
        simpa using this
      subst hl'
      obtain ⟨s, rfl, _, _, h3⟩ := hl n (by simp)
      simp only [List.map_cons, List.map_nil, List.cons.injEq, and_true] at h
      exact h3 (List.append_cancel_left (as := b!"  ") h)
  by_cases hx : x = []
  · by_cases hy : y = []
    · rw [hx, hy]
    · rw [if_pos hx, if_neg hy] at key
      exact absurd key.symm (one hb)
  · by_cases hy : y = []
    · rw [if_neg hx, if_pos hy] at key
      exact absurd key (one ha)
    · rw [if_neg hx, if_neg hy] at key
      clear hx hy one lines h c
      induction x generalizing y with
      | nil => cases y <;> simp_all
      | cons n x ih =>
        cases y with
        | nil => simp at key
        | cons m y =>
          simp only [List.map_cons, List.cons.injEq] at key
          obtain ⟨s, rfl, _⟩ := ha n (by simp)
          obtain ⟨t, rfl, _⟩ := hb m (by simp)
          have e : s = t := List.append_cancel_left (as := b!"  ") key.1
          rw [e, ih (fun k hk => ha k (by simp [hk])) y (fun k hk => hb k (by simp [hk])) key.2]

/-- A frame without a name looks like a function called `null`. -/
theorem C141_null_violated :
    ¬ ∀ (max : Nat) (a b : List (Option Bytes)), max + 1 < 2 ^ 32 → CNames a → CNames b →
      getStacktrace max a = getStacktrace max b → a.take max = b.take max := by
  intro h
  have := h 5 [none] [some (b!"null")] (by decide) (by simp [CNames]) (by simp [CNames]) (by decide +kernel)
  revert this
  decide

/-- If no frames are asked for, the stack is said to be empty, whatever it is. -/
theorem C141_none (all : List (Option Bytes)) :
    getStacktrace 0 all = .ok (b!"Backtrace of C++ stack:\n  <empty, possibly corrupt>\n") := by
  rw [stack_eq (by decide) (by simp [CNames])]
  rfl

/-- To ask for all frames with the largest `unsigned int` is undefined. -/
theorem C141_all_violated (all : List (Option Bytes)) : getStacktrace (2 ^ 32 - 1) all = .ub := rfl

/-! ### Cases -/

example : getStacktrace 2 [some (b!"f"), none, some (b!"main")] = .ok (b!"Backtrace of C++ stack:\n  f\n  null\n") := by
  decide +kernel

example : ∀ n ∈ [some (b!"f"), some (b!"main")].take 2, Plain n := by
  intro n hn
  simp only [List.take, List.mem_cons, List.not_mem_nil, or_false] at hn
  rcases hn with rfl | rfl
  · exact ⟨_, rfl, by decide, by decide, by decide⟩
  · exact ⟨_, rfl, by decide, by decide, by decide⟩

end Lolly.StackProps
