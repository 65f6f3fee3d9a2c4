import Verif.Strings.CharsLemmas
import Verif.Bytes

/-!
# C18, C19, C28, C64, C65, C73, C74, C75: quoting, case, character sets, encodings

The small specifications come first; none of them mentions the model.
-/

set_option autoImplicit false

namespace Lolly.CharsProps

open Lolly.An

/-! ## Specifications -/

/-- How a receiver reads a stream in which ESC (27) makes the next byte literal and the bytes 2
(begin of data) and 5 (end of data) are delimiters: `none` if a delimiter or a dangling ESC is met. -/
def readEsc : Bytes → Option Bytes
  | [] => some []
  | [c] => if c = 27 ∨ c = 2 ∨ c = 5 then none else some [c]
  | c :: d :: r =>
    if c = 27 then (readEsc r).map (d :: ·)
    else if c = 2 ∨ c = 5 then none
    else (readEsc (d :: r)).map (c :: ·)

/-- The characters that POSIX (Shell Command Language, 2.2 Quoting) says must be quoted to represent
themselves, and those that may need it: `| & ; < > ( ) $ ` \ " '` space tab newline, `* ? [ # ~ = %`. -/
def mustQuote : Bytes := b!"|&;<>()$`\\\"' \t\n"
def mayQuote : Bytes := b!"*?[#~=%"

/-- How the shell reads an unquoted word: a backslash followed by a newline disappears, a backslash
makes any other byte literal; `none` if a special character is met unprotected. -/
def shellBytes : Bytes → Option Bytes
  | [] => some []
  | [c] => if c ∈ mustQuote ∨ c ∈ mayQuote then none else some [c]
  | c :: d :: r =>
    if c = 92 then
      if d = 10 then shellBytes r else (shellBytes r).map (d :: ·)
    else if c ∈ mustQuote ∨ c ∈ mayQuote then none
    else (shellBytes (d :: r)).map (c :: ·)

/-- An empty piece of text is not a word. -/
def shellWord (s : Bytes) : Option Bytes := if s = [] then none else shellBytes s

/-- The lower-case and upper-case letters of the encoding (Cork). -/
def Lower (c : UInt8) : Prop :=
  (97 ≤ c.toNat ∧ c.toNat ≤ 122) ∨ (160 ≤ c.toNat ∧ c.toNat ≤ 188) ∨ 224 ≤ c.toNat
def Upper (c : UInt8) : Prop :=
  (65 ≤ c.toNat ∧ c.toNat ≤ 90) ∨ (128 ≤ c.toNat ∧ c.toNat ≤ 158) ∨ (192 ≤ c.toNat ∧ c.toNat ≤ 223)
instance (c : UInt8) : Decidable (Lower c) := by unfold Lower; infer_instance
instance (c : UInt8) : Decidable (Upper c) := by unfold Upper; infer_instance

/-- The bytes of the accented letters of the Spanish encoding. -/
def accented : Bytes := [193, 201, 205, 209, 211, 218, 221, 225, 233, 237, 241, 243, 250, 253]

/-- `k` copies of `s`. -/
def copies (k : Nat) (s : Bytes) : Bytes := (List.replicate k s).flatten

/-- A hexadecimal digit of value `v`. -/
def Hex (c : UInt8) (v : Nat) : Prop :=
  (48 ≤ c.toNat ∧ c.toNat ≤ 57 ∧ v = c.toNat - 48) ∨
  (65 ≤ c.toNat ∧ c.toNat ≤ 70 ∧ v = c.toNat - 55) ∨
  (97 ≤ c.toNat ∧ c.toNat ≤ 102 ∧ v = c.toNat - 87)

/-- The Guile text `t` stands for `s`: `\xHH` is a byte, `\\` is kept doubled once more, any other
backslash and any other byte stand for themselves. -/
inductive Guile : Bytes → Bytes → Prop
  | nil : Guile [] []
  | plain {c t s} : c ≠ 92 → Guile t s → Guile (c :: t) (c :: s)
  | double {t s} : Guile t s → Guile (92 :: 92 :: t) (92 :: 92 :: 92 :: 92 :: s)
  | hex {d e v w t s} : Hex d v → Hex e w → Guile t s →
      Guile (92 :: 120 :: d :: e :: t) (UInt8.ofNat (16 * v + w) :: s)
  | lone {t s} : t.head? ≠ some 92 →
      (∀ d e r v w, t = 120 :: d :: e :: r → ¬ (Hex d v ∧ Hex e w)) → Guile t s →
      Guile (92 :: t) (92 :: s)

/-! ## C18: quoting -/

theorem C18_raw (s : Bytes) :
    rawUnquote (rawQuote s) = .ok s ∧ isQuoted (rawQuote s) = .ok true := by
  obtain ⟨b, h, hb⟩ := isQuoted_eq (rawQuote s)
  have : b = true := hb.2 ⟨s, rfl⟩
  subst this
  refine ⟨?_, h⟩
  unfold rawUnquote
  rw [h]
  simp only [Res.ok_bind, if_true]
  congr 1
  have e : ((rawQuote s).length : Int) - 1 = ((s.length + 1 : Nat) : Int) := by simp [rawQuote]
  rw [e]
  refine (sub_nat _ 1 (s.length + 1)).trans ?_
  simp [rawQuote]

/-- `is_quoted` never reads outside of the string and holds exactly for the results of `raw_quote`;
`raw_unquote` leaves every other string alone. -/
theorem C18_unquote (s : Bytes) :
    (isQuoted s = .ok true ∧ ∃ r, s = [34] ++ r ++ [34] ∧ rawUnquote s = .ok r) ∨
    (isQuoted s = .ok false ∧ (¬ ∃ r, s = [34] ++ r ++ [34]) ∧ rawUnquote s = .ok s) := by
  obtain ⟨b, h, hb⟩ := isQuoted_eq s
  cases b with
  | true =>
    obtain ⟨r, rfl⟩ := hb.1 rfl
    exact .inl ⟨h, r, rfl, (C18_raw r).1⟩
  | false =>
    refine .inr ⟨h, fun ⟨r, hr⟩ => by simpa using hb.2 ⟨r, hr⟩, ?_⟩
    unfold rawUnquote
    rw [h]; rfl

example : rawQuote [34] = [34, 34, 34] ∧ isQuoted [34] = .ok false := by decide

theorem C18_generic (s : Bytes) : ∃ t, escapeGeneric s = .ok t ∧ readEsc t = some s := by
  refine ⟨_, eachByte_eq _ s, ?_⟩
  induction s with
  | nil => rfl
  | cons c s ih =>
    rw [List.flatMap_cons]
    by_cases h : c = 2 ∨ c = 5 ∨ c = 27
    · rw [if_pos h]
      simp only [List.cons_append, List.nil_append, readEsc]
      rw [if_pos trivial, ih]; rfl
    · rw [if_neg h]
      have h1 : c ≠ 27 := fun e => h (by simp [e])
      have h2 : ¬ (c = 2 ∨ c = 5) := by
        rintro (e | e) <;> exact h (by simp [e])
      rw [List.singleton_append]
      generalize s.flatMap _ = t at ih ⊢
      cases t with
      | nil =>
        simp only [readEsc] at ih ⊢
        rw [if_neg (fun e => e.elim h1 h2)]
        simp at ih; simp [ih]
      | cons d r =>
        rw [readEsc, if_neg h1, if_neg h2, ih]; rfl

example : escapeGeneric [97, 2, 27, 5] = .ok [97, 27, 2, 27, 27, 27, 5] := by decide

/-- In the result of `escape_spaces` every space follows a backslash, and different strings have
different results. -/
theorem C18_spaces (s : Bytes) : ∃ t : List UInt8, escapeSpaces s = .ok t ∧
    (∀ i : Nat, t[i]? = some 32 → ∃ j, i = j + 1 ∧ t[j]? = some 92) ∧
    ∀ s', escapeSpaces s' = .ok t → s' = s := by
  refine ⟨_, eachByte_eq _ s, ?_, ?_⟩
  · induction s with
    | nil => simp
    | cons c s ih =>
      intro i hi
      rw [List.flatMap_cons] at hi ⊢
      by_cases h : c = c! ' '
      · simp only [if_pos h, List.cons_append, List.nil_append] at hi ⊢
        match i with
        | 0 => simp at hi
        | 1 => exact ⟨0, rfl, rfl⟩
        | i + 2 =>
          obtain ⟨j, hj, hj'⟩ := ih i (by simpa using hi)
          exact ⟨j + 2, by omega, by simpa using hj'⟩
      · simp only [if_neg h, List.cons_append, List.nil_append] at hi ⊢
        match i with
        | 0 => exact absurd (by simpa using hi) h
        | i + 1 =>
          obtain ⟨j, hj, hj'⟩ := ih i (by simpa using hi)
          exact ⟨j + 1, by omega, by simpa using hj'⟩
  · intro s' hs'
    rw [escapeSpaces, eachByte_eq] at hs'
    have hs := Res.ok.inj hs'
    clear hs'
    have key : ∀ s : Bytes, (s.flatMap fun c : UInt8 => if c = c! ' ' then [92, c] else [c]).head? ≠ some 32 := by
      intro s
      cases s with
      | nil => simp
      | cons c s =>
        rw [List.flatMap_cons]
        by_cases h : c = c! ' '
        · simp [if_pos h]
        · simp only [if_neg h, List.singleton_append, List.head?_cons]
          intro e; exact h (Option.some.inj e)
    induction s generalizing s' with
    | nil =>
      cases s' with
      | nil => rfl
      | cons c s' =>
        rw [List.flatMap_cons] at hs
        by_cases h : c = c! ' '
        · simp [if_pos h] at hs
        · simp [if_neg h] at hs
    | cons d s ih =>
      cases s' with
      | nil =>
        rw [List.flatMap_cons] at hs
        by_cases h : d = c! ' '
        · simp [if_pos h] at hs
        · simp [if_neg h] at hs
      | cons c s' =>
        simp only [List.flatMap_cons] at hs
        by_cases h : c = c! ' ' <;> by_cases h' : d = c! ' '
        · simp only [if_pos h, if_pos h', List.cons_append, List.nil_append, List.cons.injEq] at hs
          rw [h, h', ih s' hs.2.2]
        · simp only [if_pos h, if_neg h', List.cons_append, List.nil_append, List.cons.injEq] at hs
          exact absurd (by rw [← hs.2, h]; rfl) (key s)
        · simp only [if_neg h, if_pos h', List.cons_append, List.nil_append, List.cons.injEq] at hs
          exact absurd (by rw [hs.2, h']; rfl) (key s')
        · simp only [if_neg h, if_neg h', List.cons_append, List.nil_append, List.cons.injEq] at hs
          rw [hs.1, ih s' hs.2]

/-! ## C19: the shell -/

/-- Bytes that `escape_sh` should protect and does not. -/
def unprotected : Bytes := b!";|'\t\n*[#~=%"

theorem shellBytes_cons (c : UInt8) (t : Bytes) (h92 : c ≠ 92) :
    shellBytes (c :: t) = if c ∈ mustQuote ∨ c ∈ mayQuote then none
      else (shellBytes t).map (c :: ·) := by
  cases t with
  | nil => rfl
  | cons d r => rw [shellBytes, if_neg h92]

/-- The shell reads `escape_sh (s)` as `s` if `s` is nonempty and has no byte among
`; | ' * [ # ~ = %`, tab and newline. Missing: these bytes, which the code does not protect. -/
theorem C19_partial (s : Bytes) (h : s ≠ []) (hs : ∀ c ∈ s, c ∉ unprotected) :
    ∃ t, escapeSh s = .ok t ∧ shellWord t = some s := by
  refine ⟨_, eachByte_eq _ s, ?_⟩
  have main : ∀ s : Bytes, (∀ c ∈ s, c ∉ unprotected) → shellBytes (s.flatMap escapeShC) = some s := by
    intro s hs
    induction s with
    | nil => rfl
    | cons c s ih =>
      have ih := ih fun d hd => hs d (List.mem_cons_of_mem _ hd)
      rw [List.flatMap_cons]
      have hc : escapeShC c = [92, c] ∧ c ≠ 10 ∨
          escapeShC c = [c] ∧ c ≠ 92 ∧ ¬ (c ∈ mustQuote ∨ c ∈ mayQuote) :=
        forall_byte (P := fun c => c ∉ unprotected → escapeShC c = [92, c] ∧ c ≠ 10 ∨
          escapeShC c = [c] ∧ c ≠ 92 ∧ ¬ (c ∈ mustQuote ∨ c ∈ mayQuote)) (by decide +kernel) c
          (hs c (List.mem_cons_self))
      rcases hc with ⟨e, h10⟩ | ⟨e, h92, hq⟩
      · rw [e]
        simp only [List.cons_append, List.nil_append, shellBytes]
        rw [if_pos trivial, if_neg h10, ih]; rfl
      · rw [e, List.singleton_append, shellBytes_cons _ _ h92, if_neg hq, ih]; rfl
  unfold shellWord
  rw [main s hs, if_neg]
  cases s with
  | nil => exact absurd rfl h
  | cons c s =>
    rw [List.flatMap_cons]
    intro e
    have := forall_byte (P := fun c => escapeShC c ≠ []) (by decide +kernel) c
    exact this (List.append_eq_nil_iff.1 e).1

example : ∃ s : Bytes, s.length = 6 ∧ s ≠ [] ∧ (∀ c ∈ s, c ∉ unprotected) ∧
    escapeSh s = .ok (b!"a\\ \\$b\\\\\\\"") := ⟨b!"a $b\\\"", by decide, by decide, by decide, by decide⟩

/-- Every string that contains `;`, `|`, `'`, a tab or a newline is misread, and so is the empty one. -/
theorem C19_violated (s : Bytes)
    (h : s = [] ∨ ∃ c ∈ s, c = c! ';' ∨ c = c! '|' ∨ c = 39 ∨ c = 9 ∨ c = 10) :
    ∃ t, escapeSh s = .ok t ∧ shellWord t ≠ some s := by
  refine ⟨_, eachByte_eq _ s, ?_⟩
  rcases h with rfl | ⟨c, hc, h⟩
  · decide
  · have main : ∀ s : Bytes, ∀ v, shellBytes (s.flatMap escapeShC) = some v →
        v = s.map (fun b => if b = 10 then c! 'n' else b) ∧
        ∀ b ∈ s, b ≠ c! ';' ∧ b ≠ c! '|' ∧ b ≠ 39 ∧ b ≠ 9 := by
      intro s
      induction s with
      | nil => intro v hv; simp [shellBytes] at hv; subst hv; simp
      | cons b s ih =>
        intro v hv
        rw [List.flatMap_cons] at hv
        have hb : (∃ x, escapeShC b = [92, x] ∧ x ≠ 10 ∧ x = (if b = 10 then c! 'n' else b)) ∧
              (b ≠ c! ';' ∧ b ≠ c! '|' ∧ b ≠ 39 ∧ b ≠ 9) ∨
            escapeShC b = [b] ∧ b ≠ 92 ∧ b ≠ 10 ∧
              ((b = c! ';' ∨ b = c! '|' ∨ b = 39 ∨ b = 9) → b ∈ mustQuote ∨ b ∈ mayQuote) := by
          by_cases h10 : b = 10
          · subst h10; exact .inl ⟨⟨_, rfl, by decide, by decide⟩, by decide⟩
          · simp only [if_neg h10]
            refine Or.imp (fun h => ⟨⟨b, h.1, h10, rfl⟩, h.2⟩) (fun h => ⟨h.1, h.2.1, h10, h.2.2⟩)
              (forall_byte (P := fun b => b ≠ 10 → (escapeShC b = [92, b] ∧
                b ≠ c! ';' ∧ b ≠ c! '|' ∧ b ≠ 39 ∧ b ≠ 9 ∨
                escapeShC b = [b] ∧ b ≠ 92 ∧
                ((b = c! ';' ∨ b = c! '|' ∨ b = 39 ∨ b = 9) → b ∈ mustQuote ∨ b ∈ mayQuote)))
                (by decide +kernel) b h10)
        rcases hb with ⟨⟨x, e, hx, ex⟩, hb⟩ | ⟨e, h92, h10, hb⟩
        · rw [e] at hv
          simp only [List.cons_append, List.nil_append, shellBytes] at hv
          rw [if_pos trivial, if_neg hx, Option.map_eq_some_iff] at hv
          obtain ⟨v', hv', rfl⟩ := hv
          obtain ⟨h1, h2⟩ := ih v' hv'
          refine ⟨by rw [List.map_cons, ← ex, h1], fun d hd => ?_⟩
          rcases List.mem_cons.1 hd with rfl | hd
          · exact hb
          · exact h2 d hd
        · rw [e, List.singleton_append, shellBytes_cons _ _ h92] at hv
          by_cases hq : b ∈ mustQuote ∨ b ∈ mayQuote
          · rw [if_pos hq] at hv; cases hv
          · rw [if_neg hq, Option.map_eq_some_iff] at hv
            obtain ⟨v', hv', rfl⟩ := hv
            obtain ⟨h1, h2⟩ := ih v' hv'
            refine ⟨by rw [List.map_cons, if_neg h10, h1], fun d hd => ?_⟩
            rcases List.mem_cons.1 hd with rfl | hd
            · refine ⟨?_, ?_, ?_, ?_⟩ <;> intro e <;> exact hq (hb (by simp [e]))
            · exact h2 d hd
    intro e
    unfold shellWord at e
    split at e
    · cases e
    · obtain ⟨h1, h2⟩ := main s s e
      obtain ⟨ha, hb, hc', hd⟩ := h2 c hc
      rcases h with h | h | h | h | h
      · exact ha h
      · exact hb h
      · exact hc' h
      · exact hd h
      · subst h
        have : (10 : UInt8) ∈ s.map (fun b => if b = 10 then c! 'n' else b) := h1 ▸ hc
        obtain ⟨b, _, hb⟩ := List.mem_map.1 this
        by_cases h10 : b = 10
        · rw [if_pos h10] at hb; exact absurd hb (by decide)
        · rw [if_neg h10] at hb; exact h10 hb

/-! ## C28: case conversion -/

theorem C28_upcase (c : UInt8) :
    (Lower c → (upcase c).toNat = c.toNat - 32) ∧ (¬ Lower c → upcase c = c) ∧
    upcase (upcase c) = upcase c ∧ (Lower c → locase (upcase c) = c) := by
  exact forall_byte (P := fun c => (Lower c → (upcase c).toNat = c.toNat - 32) ∧
    (¬ Lower c → upcase c = c) ∧
    upcase (upcase c) = upcase c ∧ (Lower c → locase (upcase c) = c)) (by decide +kernel) c

/-- Lower-casing an upper-case letter can be undone, except for the bytes 157 and 158, whose images
are not lower-case letters. -/
theorem C28_locase (c : UInt8) :
    (Upper c → (locase c).toNat = c.toNat + 32) ∧ (¬ Upper c → locase c = c) ∧
    locase (locase c) = locase c ∧
    (Upper c → (upcase (locase c) = c ↔ c.toNat ≠ 157 ∧ c.toNat ≠ 158)) := by
  exact forall_byte (P := fun c => (Upper c → (locase c).toNat = c.toNat + 32) ∧
    (¬ Upper c → locase c = c) ∧ locase (locase c) = locase c ∧
    (Upper c → (upcase (locase c) = c ↔ c.toNat ≠ 157 ∧ c.toNat ≠ 158))) (by decide +kernel) c

example : Lower (c! 'q') ∧ ¬ Lower (c! 'Q') ∧ Upper 200 ∧ ¬ Upper 191 := by decide

/-- `upcase_all` and `locase_all` act byte by byte, keep the length and are idempotent. -/
theorem C28_all (s : Bytes) : ∃ u l, upcaseAll s = .ok u ∧ locaseAll s = .ok l ∧
    u.length = s.length ∧ l.length = s.length ∧
    (∀ i (h : i < s.length), u[i]? = some (upcase s[i]) ∧ l[i]? = some (locase s[i])) ∧
    upcaseAll u = .ok u ∧ locaseAll l = .ok l := by
  refine ⟨s.map upcase, s.map locase, mapBytes_eq _ _, mapBytes_eq _ _, by simp, by simp, ?_, ?_, ?_⟩
  · intro i h; simp [List.getElem?_eq_getElem h]
  · refine (mapBytes_eq _ _).trans (congrArg Res.ok ?_)
    rw [List.map_map]
    exact List.map_congr_left fun c _ => (C28_upcase c).2.2.1
  · refine (mapBytes_eq _ _).trans (congrArg Res.ok ?_)
    rw [List.map_map]
    exact List.map_congr_left fun c _ => (C28_locase c).2.2.1

/-- `locase_all (upcase_all (s))` is `s` if all letters of `s` are lower case. -/
theorem C28_round_trip (s : Bytes) (h : ∀ c ∈ s, ¬ Upper c) :
    ∃ u, upcaseAll s = .ok u ∧ locaseAll u = .ok s := by
  refine ⟨s.map upcase, mapBytes_eq _ _, (mapBytes_eq _ _).trans (congrArg Res.ok ?_)⟩
  rw [List.map_map]
  refine (List.map_congr_left fun c hc => ?_).trans (List.map_id s)
  show locase (upcase c) = c
  by_cases hl : Lower c
  · exact (C28_upcase c).2.2.2 hl
  · rw [(C28_upcase c).2.1 hl]; exact (C28_locase c).2.1 (h c hc)

example : ∀ c ∈ (b!"a-z 09" : List UInt8), ¬ Upper c := by decide

/-- `upcase_first` and `locase_first` convert the first byte only. -/
theorem C28_first (c : UInt8) (s : Bytes) :
    upcaseFirst (c :: s) = .ok (upcase c :: s) ∧ locaseFirst (c :: s) = .ok (locase c :: s) ∧
    upcaseFirst [] = .ok [] ∧ locaseFirst [] = .ok [] := by
  refine ⟨?_, ?_, rfl, rfl⟩
  · unfold upcaseFirst upcase
    rw [if_neg (by simp), rd_ok (by simp)]
    simp only [Res.ok_bind, List.getElem_cons_zero]
    split
    · congr 1
      rw [show (1 : Int) = ((1 : Nat) : Int) from rfl]
      simp [sub]
    · rfl
  · unfold locaseFirst locase
    rw [if_neg (by simp), rd_ok (by simp)]
    simp only [Res.ok_bind, List.getElem_cons_zero]
    split
    · congr 1
      rw [show (1 : Int) = ((1 : Nat) : Int) from rfl]
      simp [sub]
    · rfl

/-! ## C64: strings as sets of characters -/

theorem C64_minus (s1 s2 : Bytes) : ∃ r, stringMinus s1 s2 = .ok r ∧
    (∀ c, c ∈ r ↔ c ∈ s1 ∧ c ∉ s2) ∧ r.Sublist s1 ∧
    ∀ c, c ∉ s2 → r.count c = s1.count c := by
  refine ⟨_, stringMinus_eq s1 s2, fun c => by simp, List.filter_sublist, fun c hc => ?_⟩
  exact List.count_filter (by simpa using hc)

/-- The characters of the union are those of either string; characters of `s2` come last and exactly
as in `s2`, so that the union of strings without repetitions has no repetition. -/
theorem C64_union (s1 s2 : Bytes) : ∃ r m, stringUnion s1 s2 = .ok r ∧ stringMinus s1 s2 = .ok m ∧
    r = m ++ s2 ∧ (∀ c, c ∈ r ↔ c ∈ s1 ∨ c ∈ s2) ∧ (s1.Nodup → s2.Nodup → r.Nodup) := by
  refine ⟨_, _, by unfold stringUnion; rw [stringMinus_eq]; rfl, stringMinus_eq s1 s2, rfl, ?_, ?_⟩
  · intro c
    by_cases h : c ∈ s2 <;> simp [h]
  · intro h1 h2
    refine List.nodup_append.2 ⟨h1.filter _, h2, ?_⟩
    intro a ha b hb e
    subst e
    simp [hb] at ha

example : stringMinus (b!"hello") (b!"le") = .ok (b!"ho") := by decide
example : (b!"abc" : List UInt8).Nodup ∧ (b!"cd" : List UInt8).Nodup := by decide

/-! ## C65: legacy encodings -/

theorem letter_plain (c : UInt8) (h : c ∉ accented) : spanishLetter c = [c] :=
  forall_byte (P := fun c => c ∉ accented → spanishLetter c = [c]) (by decide +kernel) c h

theorem letter_code (d x : UInt8) (h : spanishCode d = some x) : spanishLetter x = [39, d] := by
  have := forall_byte (P := fun d => ∀ x ∈ spanishCode d, spanishLetter x = [39, d])
    (by decide +kernel) d
  exact this x h

/-- `spanish_to_ispanish` inverts `ispanish_to_spanish` on strings without accented bytes. -/
theorem C65_ispanish (s : Bytes) (h : ∀ c ∈ s, c ∉ accented) :
    ∃ t, ispanishToSpanish s = .ok t ∧ spanishToIspanish t = .ok s := by
  refine ⟨ispanL s, by unfold ispanishToSpanish; rw [fromIspanish_eq]; rfl,
    (eachByte_eq _ _).trans (congrArg Res.ok ?_)⟩
  fun_induction ispanL s with
  | case1 => rfl
  | case2 c => simp [letter_plain c (h c (by simp))]
  | case3 d r x hx ih =>
    rw [List.flatMap_cons, letter_code d x hx, ih fun c hc => h c (by simp [hc])]; rfl
  | case4 d r hx ih =>
    rw [List.flatMap_cons, List.flatMap_cons, letter_plain 39 (by decide),
      letter_plain d (h d (by simp)), ih fun c hc => h c (by simp [hc])]; rfl
  | case5 c d r hc ih =>
    rw [List.flatMap_cons, letter_plain c (h c (by simp)), ih fun e he => h e (by simp at he; simp [he])]
    rfl

/-- `ispanish_to_spanish` inverts `spanish_to_ispanish` on strings without apostrophe. -/
theorem C65_spanish (s : Bytes) (h : ∀ c ∈ s, c ≠ 39) :
    ∃ t, spanishToIspanish s = .ok t ∧ ispanishToSpanish t = .ok s := by
  refine ⟨_, eachByte_eq _ s, ?_⟩
  unfold ispanishToSpanish
  rw [fromIspanish_eq, List.drop_zero, List.nil_append]
  congr 1
  induction s with
  | nil => rfl
  | cons c s ih =>
    have ih := ih fun d hd => h d (List.mem_cons_of_mem _ hd)
    rw [List.flatMap_cons]
    have hc : spanishLetter c = [c] ∨ ∃ d, spanishLetter c = [39, d] ∧ spanishCode d = some c := by
      by_cases ha : c ∈ accented
      · right
        have := forall_byte (P := fun c => c ∈ accented →
          spanishLetter c = [39, (spanishLetter c).getD 1 0] ∧
          spanishCode ((spanishLetter c).getD 1 0) = some c) (by decide +kernel) c ha
        exact ⟨_, this⟩
      · exact .inl (letter_plain c ha)
    rcases hc with e | ⟨d, e, hd⟩
    · rw [e, List.singleton_append]
      generalize s.flatMap _ = t at ih ⊢
      cases t with
      | nil => simp only [ispanL] at ih ⊢; rw [← ih]
      | cons d r => rw [ispanL, if_neg (h c (by simp)), ih]
    · rw [e]
      simp only [List.cons_append, List.nil_append, ispanL]
      rw [if_pos trivial, hd]
      dsimp only
      rw [ih]

example : spanishToIspanish ([193, 66, 241] : List UInt8) = .ok (b!"'AB'n") := by decide

theorem C65_german (s : Bytes) :
    ((∀ c ∈ s, c ≠ 255) → ∃ t, igermanToGerman s = .ok t ∧ germanToIgerman t = .ok s) ∧
    ((∀ c ∈ s, c ≠ 223) → ∃ t, germanToIgerman s = .ok t ∧ igermanToGerman t = .ok s) := by
  constructor <;> intro h <;>
    refine ⟨_, eachByte_eq _ s, (eachByte_eq _ _).trans (congrArg Res.ok ?_)⟩ <;>
    induction s with
    | nil => rfl
    | cons c s ih =>
      have hc := h c (by simp)
      rw [List.flatMap_cons, List.flatMap_append, ih fun d hd => h d (by simp [hd])]
      split
      · rename_i e; rw [e]; rfl
      · simp [hc]

/-- The tables are never read outside, the length is kept, and ASCII is left alone. -/
theorem C65_il2_total (s : Bytes) : ∃ t u, il2ToCork s = .ok t ∧ corkToIl2 s = .ok u ∧
    t.length = s.length ∧ u.length = s.length ∧
    ((∀ c ∈ s, c.toNat < 128) → t = s ∧ u = s) := by
  let g : UInt8 → UInt8 := fun c => match il2ToCorkC c with | .ok d => d | _ => 0
  let k : UInt8 → UInt8 := fun c => match corkToIl2C c with | .ok d => d | _ => 0
  have hg : ∀ c, il2ToCorkC c = .ok (g c) ∧ corkToIl2C c = .ok (k c) :=
    forall_byte (by decide +kernel)
  refine ⟨s.map g, s.map k, convertBytes_eq _ g s fun c _ => (hg c).1,
    convertBytes_eq _ k s fun c _ => (hg c).2, by simp, by simp, fun h => ⟨?_, ?_⟩⟩
  · refine (List.map_congr_left fun c hc => ?_).trans (List.map_id s)
    have := (hg c).1
    rw [il2ToCorkC, if_pos (h c hc)] at this
    exact (Res.ok.inj this).symm
  · refine (List.map_congr_left fun c hc => ?_).trans (List.map_id s)
    have := (hg c).2
    rw [corkToIl2C, if_pos (h c hc)] at this
    exact (Res.ok.inj this).symm

/-- The exact set of strings on which `cork_to_il2` inverts `il2_to_cork`. Missing: all other letters
of ISO Latin 2, because the table of `il2_to_cork` is a UTF-8 literal in which several entries take
two or three bytes. -/
theorem C65_il2_partial (s : Bytes) : ∃ t u, il2ToCork s = .ok t ∧ corkToIl2 t = .ok u ∧
    (u = s ↔ ∀ c ∈ s, c.toNat < 128 ∨ (169 ≤ c.toNat ∧ c.toNat ≤ 172)) := by
  let g : UInt8 → UInt8 := fun c => match il2ToCorkC c with | .ok d => d | _ => 0
  let k : UInt8 → UInt8 := fun c => match corkToIl2C c with | .ok d => d | _ => 0
  have hg : ∀ c, il2ToCorkC c = .ok (g c) ∧ corkToIl2C c = .ok (k c) ∧
      (k (g c) = c ↔ c.toNat < 128 ∨ (169 ≤ c.toNat ∧ c.toNat ≤ 172)) :=
    forall_byte (by decide +kernel)
  refine ⟨s.map g, (s.map g).map k, convertBytes_eq _ g s fun c _ => (hg c).1,
    convertBytes_eq _ k _ fun c _ => (hg c).2.1, ?_⟩
  rw [List.map_map]
  constructor
  · intro h c hc
    obtain ⟨i, hi, rfl⟩ := List.mem_iff_getElem.1 hc
    refine (hg s[i]).2.2.1 ?_
    have : (s.map (k ∘ g))[i]'(by simpa using hi) = s[i] := by simp only [h]
    simpa using this
  · intro h
    exact (List.map_congr_left fun c hc => (hg c).2.2.2 (h c hc)).trans (List.map_id s)

/-- `Ą` (161 in ISO Latin 2) becomes a control character and does not come back. -/
theorem C65_il2_violated :
    il2ToCork [161] = .ok [16] ∧ corkToIl2 [16] = .ok [16] := by decide

/-! ## C73: footnote symbols -/

theorem copiesLoop (k : Nat) (x : Bytes) :
    forUp 0 k ([] : Bytes) (fun _ r => .ok (r ++ x)) = .ok (copies k x) := by
  obtain ⟨r, e, h⟩ := forUp_spec (lo := 0) (hi := k) (s := ([] : Bytes))
    (body := fun _ r => .ok (r ++ x)) (fun i r => r = copies i x) (by omega) (by simp [copies])
    (fun i r _ _ h => ⟨_, rfl, by
      rw [h]; unfold copies; rw [List.replicate_succ']; simp⟩)
  rw [e, h]

/-- The six symbols. -/
def symbols : List Bytes := [b!"<asterisk>", b!"<dag>", b!"<ddag>", b!"<paragraph>", b!"<endofline>", b!"||"]

/-- The symbol number `n >= 1` is one of six symbols in turn, repeated once more after each turn. -/
theorem C73_symbol (n : Nat) (hn : 1 ≤ n) (hm : n < 2 ^ 31) :
    fnsymbolNr n = .ok (copies ((n - 1) / 6 + 1) (symbols.getD ((n - 1) % 6) [])) ∧
    fnsymbolNr (-(n : Int)) = fnsymbolNr n ∧ fnsymbolNr 0 = .ok [] := by
  have h1 : ∀ m : Nat, m < 6 → fnSymbol (m : Int) = symbols.getD m [] := by
    intro m hm
    match m, hm with
    | 0, _ => rfl
    | 1, _ => rfl
    | 2, _ => rfl
    | 3, _ => rfl
    | 4, _ => rfl
    | 5, _ => rfl
  have e1 : ((n : Int) - 1) = ((n - 1 : Nat) : Int) := by omega
  refine ⟨?_, ?_, by decide⟩
  · unfold fnsymbolNr
    rw [if_neg (by omega), if_neg (by omega)]
    dsimp only
    rw [e1, show (((n - 1 : Nat) : Int)).tmod 6 = ((n - 1) % 6 : Nat) from rfl,
      show (((n - 1 : Nat) : Int)).tdiv 6 = ((n - 1) / 6 : Nat) from rfl, h1 _ (by omega), copiesLoop]
    rfl
  · have a1 : ¬ -(n : Int) ≤ -2 ^ 31 := by omega
    have a2 : ¬ (n : Int) ≤ -2 ^ 31 := by omega
    have a3 : -(n : Int) < 0 := by omega
    have a4 : ¬ (n : Int) < 0 := by omega
    unfold fnsymbolNr
    simp only [if_neg a1, if_neg a2, if_pos a3, if_neg a4, Int.neg_neg]

/-- Different numbers have different symbols. -/
theorem C73_injective (m n : Nat) (hm : 1 ≤ m) (hn : 1 ≤ n) (hm' : m < 2 ^ 31) (hn' : n < 2 ^ 31)
    (h : fnsymbolNr m = fnsymbolNr n) : m = n := by
  rw [(C73_symbol m hm hm').1, (C73_symbol n hn hn').1] at h
  have h := Res.ok.inj h
  have ex : ∀ i : Nat, i < 6 → ∀ j : Nat, j < 6 → i ≠ j →
      (symbols.getD i []).take 2 ≠ (symbols.getD j []).take 2 ∨
      ((symbols.getD i [])[2]?.isSome ∧ (symbols.getD j [])[2]?.isSome ∧
        (symbols.getD i [])[2]? ≠ (symbols.getD j [])[2]?) := by decide +kernel
  have pre : ∀ k (x : Bytes), copies (k + 1) x = x ++ copies k x := by
    intro k x; unfold copies; rw [List.replicate_succ]; simp
  have len : ∀ k (x : Bytes), (copies k x).length = k * x.length := by
    intro k x; unfold copies; simp
  have pos : ∀ i : Nat, i < 6 → 2 ≤ (symbols.getD i []).length := by decide +kernel
  have hi : (m - 1) % 6 = (n - 1) % 6 := by
    refine Classical.byContradiction fun hne => ?_
    have pi := pos ((m - 1) % 6) (by omega)
    have pj := pos ((n - 1) % 6) (by omega)
    have := ex ((m - 1) % 6) (by omega) ((n - 1) % 6) (by omega) hne
    rw [pre, pre] at h
    generalize symbols.getD ((m - 1) % 6) [] = x at *
    generalize symbols.getD ((n - 1) % 6) [] = y at *
    rcases this with h' | ⟨hx, hy, h'⟩
    · have h2 := congrArg (List.take 2) h
      rw [List.take_append_of_le_length pi, List.take_append_of_le_length pj] at h2
      exact h' h2
    · have h2 : (x ++ copies ((m - 1) / 6) x)[2]? = (y ++ copies ((n - 1) / 6) y)[2]? := by rw [h]
      have lx : 2 < List.length x := by
        refine Classical.byContradiction fun hn => ?_
        rw [List.getElem?_eq_none (by omega)] at hx; cases hx
      have ly : 2 < List.length y := by
        refine Classical.byContradiction fun hn => ?_
        rw [List.getElem?_eq_none (by omega)] at hy; cases hy
      rw [List.getElem?_append_left lx, List.getElem?_append_left ly] at h2
      exact h' h2
  have hl := congrArg List.length h
  rw [hi, len, len] at hl
  have := Nat.eq_of_mul_eq_mul_right (by have := pos ((n - 1) % 6) (by omega); omega) hl
  omega

example : fnsymbolNr 8 = .ok (b!"<dag><dag>") := by decide

/-! ## C74: cleaning and unescaping text -/

/-- `escape_verbatim` turns tabs and newlines into spaces and drops the other control characters. -/
theorem C74_verbatim (s : Bytes) : ∃ t, escapeVerbatim s = .ok t ∧ (∀ c ∈ t, 32 ≤ c.toNat) ∧
    t = (s.filter fun c => decide (32 ≤ c.toNat) || c == 9 || c == 10).map
      (fun c => if c = 9 ∨ c = 10 then 32 else c) := by
  refine ⟨_, eachByte_eq _ s, ?_, ?_⟩
  · intro c hc
    obtain ⟨d, _, hd⟩ := List.mem_flatMap.1 hc
    by_cases h : d = 10 ∨ d = 9
    · rw [if_pos h] at hd; simp at hd; subst hd; decide
    · rw [if_neg h] at hd
      by_cases h' : d.toNat ≥ 32
      · rw [if_pos h'] at hd; simp at hd; subst hd; exact h'
      · rw [if_neg h'] at hd; simp at hd
  · induction s with
    | nil => rfl
    | cons c s ih =>
      rw [List.flatMap_cons, ih]
      have := forall_byte (P := fun c =>
        (if c = 10 ∨ c = 9 then [c! ' '] else if c.toNat ≥ 32 then [c] else []) =
        ([c].filter fun c => decide (32 ≤ c.toNat) || c == 9 || c == 10).map
          (fun c => if c = 9 ∨ c = 10 then 32 else c)) (by decide +kernel) c
      rw [this, ← List.map_append, ← List.filter_append]; rfl

theorem C74_dos (s : Bytes) : dosToBetter s = .ok (s.filter fun c => c != 13) := by
  refine (eachByte_eq _ s).trans (congrArg Res.ok ?_)
  induction s with
  | nil => rfl
  | cons c s ih =>
    rw [List.flatMap_cons, ih, List.filter_cons]
    by_cases h : c = 13
    · rw [if_pos h, h]; rfl
    · rw [if_neg h, if_pos (by simpa using h)]; rfl

theorem hex_iff (c : UInt8) : isHexDigit c = true ↔ Hex c (hexVal c) := by
  unfold Hex
  exact forall_byte (P := fun c => isHexDigit c = true ↔
    ((48 ≤ c.toNat ∧ c.toNat ≤ 57 ∧ hexVal c = c.toNat - 48) ∨
    (65 ≤ c.toNat ∧ c.toNat ≤ 70 ∧ hexVal c = c.toNat - 55) ∨
    (97 ≤ c.toNat ∧ c.toNat ≤ 102 ∧ hexVal c = c.toNat - 87))) (by decide +kernel) c

theorem hex_val {c : UInt8} {v : Nat} (h : Hex c v) : isHexDigit c = true ∧ hexVal c = v := by
  have e : ∀ w, Hex c w → w = v := by
    intro w hw; unfold Hex at h hw; omega
  have hx : isHexDigit c = true := by
    refine forall_byte (P := fun c => ((48 ≤ c.toNat ∧ c.toNat ≤ 57) ∨ (65 ≤ c.toNat ∧ c.toNat ≤ 70) ∨
      (97 ≤ c.toNat ∧ c.toNat ≤ 102)) → isHexDigit c = true) (by decide +kernel) c ?_
    unfold Hex at h; omega
  exact ⟨hx, e _ ((hex_iff c).1 hx)⟩

theorem guileLoop_spec {t s : Bytes} (h : Guile t s) :
    ∀ (w : Bytes) (i : Nat) (r : Bytes), w.drop i = t → guileLoop w i r = .ok (r ++ s) := by
  have bound : ∀ {w : Bytes} {i : Nat} {c : UInt8} {t : Bytes}, w.drop i = c :: t →
      ∃ hi : i < w.length, w[i] = c ∧ w.drop (i + 1) = t := by
    intro w i c t h
    have hi : i < w.length := by
      refine Classical.byContradiction fun hn => ?_
      rw [List.drop_of_length_le (by omega)] at h; cases h
    rw [List.drop_eq_getElem_cons hi] at h
    exact ⟨hi, (List.cons.inj h).1, (List.cons.inj h).2⟩
  induction h with
  | nil =>
    intro w i r h
    have : ¬ i < w.length := by
      intro hi; rw [List.drop_eq_getElem_cons hi] at h; cases h
    rw [guileLoop, if_neg this, List.append_nil]
  | @plain c t s hc _ ih =>
    intro w i r h
    obtain ⟨hi, e, hd⟩ := bound h
    rw [guileLoop, if_pos hi, rd_ok hi]
    simp only [Res.ok_bind]
    rw [e, if_neg hc, ih w (i + 1) _ hd]; simp
  | @double t s _ ih =>
    intro w i r h
    obtain ⟨hi, e, hd⟩ := bound h
    obtain ⟨hi', e', hd'⟩ := bound hd
    rw [guileLoop, if_pos hi, rd_ok hi]
    simp only [Res.ok_bind, peek_eq]
    rw [if_pos e, List.getElem?_eq_getElem hi', if_pos (by rw [e']), ih w (i + 2) _ hd']; simp
  | @hex d e v x t s hd he _ ih =>
    intro w i r h
    obtain ⟨hi, e0, h1⟩ := bound h
    obtain ⟨hi1, e1, h2⟩ := bound h1
    obtain ⟨hi2, e2, h3⟩ := bound h2
    obtain ⟨hi3, e3, h4⟩ := bound h3
    have hi2' : i + 2 < w.length := hi2
    have hi3' : i + 3 < w.length := hi3
    have e2' : w[i + 2] = d := e2
    have e3' : w[i + 3] = e := e3
    rw [guileLoop, if_pos hi, rd_ok hi]
    simp only [Res.ok_bind, peek_eq]
    rw [if_pos e0, List.getElem?_eq_getElem hi1, e1, if_neg (by decide), if_pos ⟨hi3', rfl⟩,
      rd_ok hi2', rd_ok hi3']
    simp only [Res.ok_bind]
    rw [e2', e3', if_pos ⟨(hex_val hd).1, (hex_val he).1⟩, (hex_val hd).2, (hex_val he).2,
      ih w (i + 4) _ h4, Nat.mul_comm]
    simp
  | @lone t s h92 hx _ ih =>
    intro w i r h
    obtain ⟨hi, e0, h1⟩ := bound h
    rw [guileLoop, if_pos hi, rd_ok hi]
    simp only [Res.ok_bind, peek_eq]
    have hh : w[i + 1]? = t.head? := by rw [← h1]; simp
    have key := ih w (i + 1) (r ++ [w[i]]) h1
    have fin : guileLoop w (i + 1) (r ++ [w[i]]) = .ok (r ++ 92 :: s) := by rw [key, e0]; simp
    rw [if_pos e0, hh, if_neg h92]
    split
    · rename_i hc
      rw [rd_ok (show i + 2 < w.length by omega), rd_ok hc.1]
      simp only [Res.ok_bind]
      rw [if_neg, fin]
      rintro ⟨ha, hb⟩
      have et : t = 120 :: w[i + 2] :: w[i + 3] :: w.drop (i + 4) := by
        have : i + 1 < w.length := by omega
        rw [List.getElem?_eq_getElem this] at hh
        have e120 : w[i + 1] = 120 := Option.some.inj (hh.trans hc.2)
        refine h1.symm.trans ?_
        rw [List.drop_eq_getElem_cons this, e120,
          List.drop_eq_getElem_cons (show i + 1 + 1 < w.length by omega),
          List.drop_eq_getElem_cons (show i + 1 + 1 + 1 < w.length by omega)]
      exact hx _ _ _ _ _ et ⟨(hex_iff _).1 ha, (hex_iff _).1 hb⟩
    · exact fin

/-- `unescape_guile` computes the string that a Guile text stands for; every text stands for one. -/
theorem C74_guile (t : Bytes) : ∃ s, Guile t s ∧ unescapeGuile t = .ok s ∧ ∀ s', Guile t s' → s' = s := by
  have ex : ∀ k (t : Bytes), t.length ≤ k → ∃ s, Guile t s := by
    intro k
    induction k with
    | zero =>
      intro t ht
      obtain rfl : t = [] := by simpa using ht
      exact ⟨[], .nil⟩
    | succ k ih =>
      intro t ht
      cases t with
      | nil => exact ⟨[], .nil⟩
      | cons c t =>
        simp only [List.length_cons] at ht
        by_cases hc : c = 92
        · subst hc
          by_cases h92 : t.head? = some 92
          · cases t with
            | nil => cases h92
            | cons d t =>
              simp at h92; subst h92
              simp only [List.length_cons] at ht
              obtain ⟨s, hs⟩ := ih t (by omega)
              exact ⟨_, .double hs⟩
          · by_cases hx : ∃ d e r v w, t = 120 :: d :: e :: r ∧ Hex d v ∧ Hex e w
            · obtain ⟨d, e, r, v, w, rfl, h1, h2⟩ := hx
              simp only [List.length_cons] at ht
              obtain ⟨s, hs⟩ := ih r (by omega)
              exact ⟨_, .hex h1 h2 hs⟩
            · obtain ⟨s, hs⟩ := ih t (by omega)
              exact ⟨_, .lone h92 (fun d e r v w et hh => hx ⟨d, e, r, v, w, et, hh.1, hh.2⟩) hs⟩
        · obtain ⟨s, hs⟩ := ih t (by omega)
          exact ⟨_, .plain hc hs⟩
  obtain ⟨s, hs⟩ := ex t.length t (Nat.le_refl _)
  have run : ∀ s', Guile t s' → unescapeGuile t = .ok s' := by
    intro s' h
    have := guileLoop_spec h t 0 [] rfl
    simpa [unescapeGuile] using this
  refine ⟨s, hs, run s hs, fun s' h => ?_⟩
  exact Res.ok.inj ((run s' h).symm.trans (run s hs))

example : Guile (b!"a\\x4f\\n") (b!"aO\\n") :=
  .plain (by decide) (.hex (v := 4) (w := 15) (by unfold Hex; decide) (by unfold Hex; decide)
    (.lone (by decide) (by rintro d e r v w h; exact absurd (List.cons.inj h).1 (by decide))
      (.plain (by decide) .nil)))

/-! ## C75: character classes of strings -/

theorem C75_classes (s : Bytes) :
    allBytes isNumeric s = .ok (decide (s ≠ [] ∧ ∀ c ∈ s, (48 ≤ c.toNat ∧ c.toNat ≤ 57) ∨ c = c! '.')) ∧
    allBytes isLocase s = .ok (decide (s ≠ [] ∧ ∀ c ∈ s, 97 ≤ c.toNat ∧ c.toNat ≤ 122)) ∧
    allBytes isAlpha s = .ok (decide (s ≠ [] ∧ ∀ c ∈ s, (97 ≤ c.toNat ∧ c.toNat ≤ 122) ∨
      (65 ≤ c.toNat ∧ c.toNat ≤ 90))) ∧
    allBytes isIsoAlpha s = .ok (decide (s ≠ [] ∧ ∀ c ∈ s, (97 ≤ c.toNat ∧ c.toNat ≤ 122) ∨
      (65 ≤ c.toNat ∧ c.toNat ≤ 90) ∨ (128 ≤ c.toNat ∧ c.toNat ∉ [159, 189, 190, 191]))) ∧
    allBytes (fun c => isAlpha c || isDigit c) s = .ok (decide (s ≠ [] ∧ ∀ c ∈ s, (97 ≤ c.toNat ∧ c.toNat ≤ 122) ∨
      (65 ≤ c.toNat ∧ c.toNat ≤ 90) ∨ (48 ≤ c.toNat ∧ c.toNat ≤ 57))) ∧
    isWhitespace s = .ok (decide (∀ c ∈ s, c = 32 ∨ c = 9 ∨ c = 10)) := by
  have gen : ∀ (f : UInt8 → Bool) (P : UInt8 → Prop) [DecidablePred P], (∀ c, f c = decide (P c)) →
      allBytes f s = .ok (decide (s ≠ [] ∧ ∀ c ∈ s, P c)) := by
    intro f P _ h
    rw [allBytes_eq]
    congr 1
    rw [Bool.eq_iff_iff]
    cases s with
    | nil => simp
    | cons c s => simp [h]
  refine ⟨gen _ _ ?_, gen _ _ ?_, gen _ _ ?_, gen _ _ ?_, gen _ _ ?_, ?_⟩
  · exact forall_byte (by decide +kernel)
  · exact forall_byte (by decide +kernel)
  · exact forall_byte (by decide +kernel)
  · exact forall_byte (by decide +kernel)
  · exact forall_byte (by decide +kernel)
  · rw [isWhitespace_eq]
    congr 1
    rw [Bool.eq_iff_iff]
    simp [or_assoc]

/-- The letters of the Cork encoding: each is either a small or a capital letter. -/
theorem C75_letters (c : UInt8) :
    (isIsoAlpha c = true ↔ isIsoLocase c = true ∨ isIsoUpcase c = true) ∧
    ¬ (isIsoLocase c = true ∧ isIsoUpcase c = true) ∧
    (isIsoLocase c = true ↔ (97 ≤ c.toNat ∧ c.toNat ≤ 122) ∨ (160 ≤ c.toNat ∧ c.toNat ≤ 188) ∨ 224 ≤ c.toNat) ∧
    (isIsoUpcase c = true ↔ (65 ≤ c.toNat ∧ c.toNat ≤ 90) ∨ (128 ≤ c.toNat ∧ c.toNat ≤ 158) ∨
      (192 ≤ c.toNat ∧ c.toNat ≤ 223)) ∧
    (isHexDigit c = true ↔ (48 ≤ c.toNat ∧ c.toNat ≤ 57) ∨ (65 ≤ c.toNat ∧ c.toNat ≤ 70) ∨
      (97 ≤ c.toNat ∧ c.toNat ≤ 102)) := by
  revert c
  exact forall_byte (by decide +kernel)

theorem C75_closing (c : UInt8) :
    closingDelimiter (c! '(') = c! ')' ∧ closingDelimiter (c! '[') = c! ']' ∧
    closingDelimiter (c! '{') = c! '}' ∧
    (c ≠ c! '(' → c ≠ c! '[' → c ≠ c! '{' → closingDelimiter c = c) := by
  refine ⟨rfl, rfl, rfl, fun h1 h2 h3 => ?_⟩
  unfold closingDelimiter
  rw [if_neg h3, if_neg h1, if_neg h2]

end Lolly.CharsProps
