import Verif.System.Call
import Verif.Bytes

set_option autoImplicit false

/-!
# C131: running a command
-/

namespace Lolly.CallProps

open Lolly.Call

/-! ## Specification -/

/-- A character without a meaning for the shell. -/
def Plain (c : UInt8) : Prop :=
  (97 ≤ c.toNat ∧ c.toNat ≤ 122) ∨ (65 ≤ c.toNat ∧ c.toNat ≤ 90) ∨ (48 ≤ c.toNat ∧ c.toNat ≤ 57) ∨ c ∈ b!"_-./,:+@%"

instance (c : UInt8) : Decidable (Plain c) := by unfold Plain; infer_instance

/-- A blank or a tab. -/
def Blank (c : UInt8) : Prop := c = 32 ∨ c = 9

instance (c : UInt8) : Decidable (Blank c) := by unfold Blank; infer_instance

/-- A nonempty word of plain characters. -/
def Word (w : Bytes) : Prop := w ≠ [] ∧ ∀ c ∈ w, Plain c

/-- The words of a command without any character that means something for the shell. -/
inductive Fields : Bytes → List Bytes → Prop
  | nil : Fields [] []
  | blank {c : UInt8} {s : Bytes} {ws : List Bytes} : Blank c → Fields s ws → Fields (c :: s) ws
  | last {w : Bytes} : Word w → Fields w [w]
  | word {w : Bytes} {c : UInt8} {s : Bytes} {ws : List Bytes} : Word w → Blank c → Fields s ws → Fields (w ++ c :: s) (w :: ws)

/-- The rules of POSIX for `wordexp`, as far as plain commands and words go. -/
def Posix (sh : Shell) : Prop := ∀ s ws, Fields s ws → sh.wordexp s = (0, ws)

/-- Words with a blank between them. -/
def join : List Bytes → Bytes
  | [] => []
  | [w] => w
  | w :: l => w ++ 32 :: join l

/-! ## Commands without special characters -/

theorem plain_ne {c : UInt8} (h : Plain c) : c ≠ 0 ∧ ¬ Blank c := by
  revert c
  apply forall_byte
  decide +kernel

theorem fields_no_nul {s : Bytes} {ws : List Bytes} (h : Fields s ws) : s.takeWhile (· ≠ 0) = s := by
  have key : ∀ {s : Bytes}, (∀ c ∈ s, c ≠ 0) → s.takeWhile (· ≠ 0) = s := by
    intro s h
    induction s with
    | nil => rfl
    | cons a s ih =>
      rw [List.takeWhile_cons, if_pos (by simpa using h a List.mem_cons_self), ih fun c hc => h c (List.mem_cons_of_mem _ hc)]
  have bl : ∀ {c : UInt8}, Blank c → c ≠ 0 := by
    intro c h
    rcases h with rfl | rfl <;> decide
  apply key
  induction h with
  | nil => intro c hc; cases hc
  | blank hb _ ih =>
    intro c hc
    rcases List.mem_cons.1 hc with rfl | hc
    · exact bl hb
    · exact ih c hc
  | last hw => exact fun c hc => (plain_ne (hw.2 c hc)).1
  | word hw hb _ ih =>
    intro c hc
    rcases List.mem_append.1 hc with hc | hc
    · exact (plain_ne (hw.2 c hc)).1
    · rcases List.mem_cons.1 hc with rfl | hc
      · exact bl hb
      · exact ih c hc

/-- C131: a command without special characters runs the program once, named by its first word, with its words as
arguments; the result is the status of the program, and nothing is left allocated. A blank command runs nothing, and the
result is not 0. Missing: that the result tells whether the program was run, see `C131_violated`. -/
theorem C131_plain_partial {sh : Shell} (hs : Posix sh) {cmd : Bytes} {ws : List Bytes} (h : Fields cmd ws) :
    (ws ≠ [] → -2 ^ 31 ≤ sh.run ws → sh.run ws < 2 ^ 31 → call sh cmd = ⟨sh.run ws, [ws], []⟩) ∧
    (ws = [] → (call sh cmd).ret ≠ 0 ∧ (call sh cmd).ran = [] ∧ (call sh cmd).kept = []) := by
  unfold call
  rw [fields_no_nul h, hs _ _ h]
  constructor
  · intro hw h1 h2
    have : toInt (sh.run ws) = sh.run ws := by unfold toInt; omega
    have hl : ws.length ≠ 0 := fun e => hw (List.length_eq_zero_iff.1 e)
    simp [hl, this]
  · rintro rfl
    simp

theorem fields_join {ws : List Bytes} (h : ∀ w ∈ ws, Word w) : Fields (join ws) ws := by
  induction ws with
  | nil => exact .nil
  | cons w l ih =>
    have hw := h w List.mem_cons_self
    have hl := ih fun x hx => h x (List.mem_cons_of_mem _ hx)
    cases l with
    | nil => exact .last hw
    | cons x l => exact .word hw (.inl rfl) hl

/-- C131: words put together with blanks arrive in the program as they are. -/
theorem C131_words {sh : Shell} (hs : Posix sh) {w : Bytes} {ws : List Bytes} (h : ∀ x ∈ w :: ws, Word x) :
    (call sh (join (w :: ws))).ran = [w :: ws] := by
  unfold call
  have hf := fields_join h
  rw [fields_no_nul hf, hs _ _ hf]
  simp

/-! ## Every command -/

/-- C131: whatever the system calls give, at most one program is run, with the words that the command was expanded to, and
only if that worked and gave a word. The result is 0 only if a program was run and its status is 0.
Missing: that the result tells whether the program was run, see `C131_violated`. -/
theorem C131_once_partial (sh : Shell) (cmd : Bytes) (hr : ∀ ws, -2 ^ 31 ≤ sh.run ws ∧ sh.run ws < 2 ^ 31) :
    ((call sh cmd).ran = [] ∧ (call sh cmd).ret ≠ 0) ∨
    (∃ w ws, sh.wordexp (cmd.takeWhile (· ≠ 0)) = (0, w :: ws) ∧ (call sh cmd).ran = [w :: ws] ∧
      (call sh cmd).ret = sh.run (w :: ws)) := by
  unfold call
  obtain ⟨r, ws⟩ := sh.wordexp (cmd.takeWhile (· ≠ 0))
  dsimp only
  by_cases h : r ≠ 0
  · rw [if_pos h]; exact .inl ⟨rfl, h⟩
  · rw [if_neg h]
    cases ws with
    | nil => exact .inl ⟨rfl, by simp⟩
    | cons w ws =>
      refine .inr ⟨w, ws, ?_, ?_, ?_⟩
      · rw [Classical.not_not.1 h]
      · simp
      · have := hr (w :: ws)
        simp only [List.length_cons, Nat.add_one_ne_zero, if_false]
        unfold toInt
        omega

/-! ## A shell -/

/-- The words between blanks. -/
def split : Bytes → Bytes → List Bytes
  | acc, [] => if acc = [] then [] else [acc]
  | acc, c :: s => if Blank c then (if acc = [] then split [] s else acc :: split [] s) else split (acc ++ [c]) s

theorem split_word {w : Bytes} (h : ∀ c ∈ w, Plain c) (acc s : Bytes) : split acc (w ++ s) = split (acc ++ w) s := by
  induction w generalizing acc with
  | nil => simp
  | cons c w ih =>
    rw [List.cons_append, split, if_neg (plain_ne (h c List.mem_cons_self)).2, ih fun x hx => h x (List.mem_cons_of_mem _ hx)]
    simp

theorem split_fields {s : Bytes} {ws : List Bytes} (h : Fields s ws) : split [] s = ws := by
  induction h with
  | nil => rfl
  | blank hb _ ih => rw [split, if_pos hb, if_pos rfl, ih]
  | @last w hw =>
    have := split_word hw.2 [] []
    rw [List.append_nil, List.nil_append] at this
    rw [this, split, if_neg hw.1]
  | word hw hb _ ih =>
    rw [split_word hw.2, split, if_pos hb, List.nil_append, if_neg hw.1, ih]

/-- A shell for which all programs end with the status `st`. It refuses commands with `|` (`WRDE_BADCHAR` is 2). -/
def shell (st : Int) : Shell := ⟨fun s => if c! '|' ∈ s then (2, []) else (0, split [] s), fun _ => st⟩

theorem shell_posix (st : Int) : Posix (shell st) := by
  intro s ws h
  have : c! '|' ∉ s := by
    induction h with
    | nil => exact List.not_mem_nil
    | blank hb _ ih =>
      intro hc
      rcases List.mem_cons.1 hc with rfl | hc
      · revert hb; decide
      · exact ih hc
    | last hw => exact fun hc => absurd (hw.2 _ hc) (by decide)
    | word hw hb _ ih =>
      intro hc
      rcases List.mem_append.1 hc with hc | hc
      · exact absurd (hw.2 _ hc) (by decide)
      · rcases List.mem_cons.1 hc with rfl | hc
        · revert hb; decide
        · exact ih hc
  show (if _ then _ else _) = _
  rw [if_neg this, split_fields h]

example : Posix (shell 3) ∧ Fields (b!" gcc  -o x.o\tx.c") [b!"gcc", b!"-o", b!"x.o", b!"x.c"] ∧
    call (shell 3) (b!" gcc  -o x.o\tx.c") = ⟨3, [[b!"gcc", b!"-o", b!"x.o", b!"x.c"]], []⟩ := by
  refine ⟨shell_posix 3, .blank (.inl rfl) ?_, by decide⟩
  refine .word (w := b!"gcc") (by unfold Word; decide) (.inl rfl) (.blank (.inl rfl) ?_)
  refine .word (w := b!"-o") (by unfold Word; decide) (.inl rfl) ?_
  exact .word (w := b!"x.o") (by unfold Word; decide) (.inr rfl) (.last (by unfold Word; decide))

/-- C131 is violated: the result does not tell whether a program was run. A program that ends with status 22 or 2 gives
what a blank command or one that cannot be expanded gives. A command is cut at a NUL, and the rest is ignored. If the
memory for the words runs out, what `wordexp` has allocated so far is not given back. -/
theorem C131_violated :
    (∃ sh, Posix sh ∧ (call sh (b!"x")).ret = (call sh (b!" ")).ret ∧ (call sh (b!"x")).ran ≠ [] ∧ (call sh (b!" ")).ran = []) ∧
    (∃ sh, Posix sh ∧ (call sh (b!"x")).ret = (call sh (b!"a|b")).ret ∧ (call sh (b!"x")).ran ≠ [] ∧ (call sh (b!"a|b")).ran = []) ∧
    (∀ (sh : Shell) (a b : Bytes), call sh (a ++ 0 :: b) = call sh a) ∧
    (∀ (sh : Shell) (a : Bytes) (r : Int) (ws : List Bytes), r ≠ 0 → sh.wordexp (a.takeWhile (· ≠ 0)) = (r, ws) →
      (call sh a).kept = ws) := by
  refine ⟨⟨shell 22, shell_posix 22, by decide, by decide, by decide⟩, ⟨shell 2, shell_posix 2, by decide, by decide, by decide⟩,
    fun sh a b => ?_, fun sh a r ws h e => ?_⟩
  · have : (a ++ 0 :: b).takeWhile (· ≠ 0) = a.takeWhile (· ≠ 0) := by
      induction a with
      | nil => simp
      | cons c a ih => rw [List.cons_append, List.takeWhile_cons, List.takeWhile_cons, ih]
    unfold call
    rw [this]
  · unfold call
    rw [e]
    simp [h]

end Lolly.CallProps
