import Verif.System.UrlSpec

set_option autoImplicit false

/-!
# Specification and lemmas for C135: the text of an url as a list of marks
-/

namespace Lolly.Url

/-- A text without the characters that have a meaning in the text of an url. -/
structure Plain (s : Bytes) : Prop where
  nonempty : s ≠ []
  slash : c! '/' ∉ s
  colon : c! ':' ∉ s
  opening : c! '{' ∉ s
  closing : c! '}' ∉ s

/-- Urls as documented (url.hpp:107-118) whose names have none of these characters; wildcards have a `*` and names do
not. The root `blank` does not stand alone, and there is no ramdisc. -/
def Clear : Url → Prop
  | .atom s => Plain s ∧ c! '*' ∉ s
  | .wild1 s => Plain s ∧ c! '*' ∈ s ∧ s ≠ b!"**"
  | .wild0 => True
  | .none => True
  | .root p => Plain p ∧ p ≠ b!"blank"
  | .root3 _ _ => False
  | .or a b => Clear a ∧ Clear b
  | .concat a b => ((∃ p, a = .root p ∧ Plain p) ∨ (Clear a ∧ isConcat a = false ∧ isRoot a = false)) ∧
    Clear b ∧ topRoot b = false

inductive Mark
  | word (s : Bytes)
  | braced (s : Bytes)
  | slash
  | colon
  deriving DecidableEq

def flat1 : Mark → Bytes
  | .word s => s
  | .braced s => c! '{' :: (s ++ [c! '}'])
  | .slash => [c! '/']
  | .colon => [c! ':']

def flat : List Mark → Bytes
  | [] => []
  | m :: l => flat1 m ++ flat l

theorem flat_append (l m : List Mark) : flat (l ++ m) = flat l ++ flat m := by
  induction l with
  | nil => rfl
  | cons x l ih => simp [flat, ih]

/-! ## Braces -/

/-- Read up to the brace that closes. -/
def cut : Nat → Bytes → Option (Bytes × Bytes)
  | _, [] => none
  | n, c :: r =>
    if c = c! '{' then (cut (n + 1) r).map fun x => (c :: x.1, x.2)
    else if c = c! '}' then
      if n = 0 then some ([], r) else (cut (n - 1) r).map fun x => (c :: x.1, x.2)
    else (cut n r).map fun x => (c :: x.1, x.2)

/-- The braces in a text match. -/
def depth : Nat → Bytes → Option Nat
  | n, [] => some n
  | n, c :: r =>
    if c = c! '{' then depth (n + 1) r
    else if c = c! '}' then
      if n = 0 then none else depth (n - 1) r
    else depth n r

def Bal (s : Bytes) : Prop := ∀ n, depth n s = some n

theorem depth_append (s t : Bytes) : ∀ n, depth n (s ++ t) = (depth n s).bind fun m => depth m t := by
  induction s with
  | nil => intro n; rfl
  | cons c s ih =>
    intro n
    simp only [List.cons_append, depth]
    split
    · exact ih _
    · split
      · split
        · rfl
        · exact ih _
      · exact ih n

theorem Bal.append {s t : Bytes} (h1 : Bal s) (h2 : Bal t) : Bal (s ++ t) := by
  intro n
  rw [depth_append, h1 n]
  exact h2 n

theorem bal_plain {s : Bytes} (h1 : c! '{' ∉ s) (h2 : c! '}' ∉ s) : Bal s := by
  induction s with
  | nil => intro n; rfl
  | cons c s ih =>
    intro n
    simp only [List.mem_cons, not_or] at h1 h2
    rw [depth, if_neg (Ne.symm h1.1), if_neg (Ne.symm h2.1)]
    exact ih h1.2 h2.2 n

theorem bal_braced {s : Bytes} (h : Bal s) : Bal (c! '{' :: (s ++ [c! '}'])) := by
  intro n
  rw [depth, if_pos rfl, depth_append, h (n + 1)]
  rfl

theorem cut_depth (t : Bytes) : ∀ (s : Bytes) (n m : Nat), depth n s = some m →
    cut n (s ++ t) = (cut m t).map fun x => (s ++ x.1, x.2) := by
  intro s
  induction s with
  | nil =>
    intro n m h
    injection h with h
    subst h
    simp
  | cons c s ih =>
    intro n m h
    rw [depth] at h
    rw [List.cons_append, cut]
    split at h
    · rename_i hc
      rw [if_pos hc, ih _ _ h, Option.map_map]
      rfl
    · rename_i hc
      rw [if_neg hc]
      split at h
      · rename_i hd
        rw [if_pos hd]
        split at h
        · cases h
        · rename_i hn
          rw [if_neg hn, ih _ _ h, Option.map_map]
          rfl
      · rename_i hd
        rw [if_neg hd, ih _ _ h, Option.map_map]
        rfl

theorem braced_inj {s t x y : Bytes} (hs : Bal s) (ht : Bal t) (h : s ++ c! '}' :: x = t ++ c! '}' :: y) :
    s = t ∧ x = y := by
  have h1 := cut_depth (c! '}' :: x) s 0 0 (hs 0)
  have h2 := cut_depth (c! '}' :: y) t 0 0 (ht 0)
  rw [h, h2] at h1
  have e : ∀ z : Bytes, cut 0 (c! '}' :: z) = some ([], z) := by
    intro z
    rw [cut, if_neg (by decide), if_pos rfl, if_pos rfl]
  rw [e, e] at h1
  simp only [Option.map_some, List.append_nil, Option.some.injEq, Prod.mk.injEq] at h1
  exact ⟨h1.1.symm, h1.2.symm⟩

/-! ## Lists of marks -/

def Ok1 : Mark → Prop
  | .word s => Plain s
  | .braced s => Bal s
  | _ => True

/-- No two words beside each other. -/
def OkMarks : List Mark → Prop
  | [] => True
  | .word s :: l => Plain s ∧ (∀ t r, l ≠ .word t :: r) ∧ OkMarks l
  | m :: l => Ok1 m ∧ OkMarks l

theorem word_split {s t x y : Bytes} (hs : ∀ c ∈ s, c ∉ [c! '/', c! ':', c! '{']) (ht : ∀ c ∈ t, c ∉ [c! '/', c! ':', c! '{'])
    (hx : ∀ c, x.head? = some c → c ∈ [c! '/', c! ':', c! '{']) (hy : ∀ c, y.head? = some c → c ∈ [c! '/', c! ':', c! '{'])
    (h : s ++ x = t ++ y) : s = t ∧ x = y := by
  induction s generalizing t with
  | nil =>
    cases t with
    | nil => exact ⟨rfl, h⟩
    | cons d t =>
      exact absurd (hx d (by rw [show x = d :: (t ++ y) from h]; rfl)) (ht d List.mem_cons_self)
  | cons c s ih =>
    cases t with
    | nil => exact absurd (hy c (by rw [show y = c :: (s ++ x) from h.symm]; rfl)) (hs c List.mem_cons_self)
    | cons d t =>
      simp only [List.cons_append, List.cons.injEq] at h
      obtain ⟨e1, e2⟩ := ih (fun c hc => hs c (List.mem_cons_of_mem _ hc)) (t := t)
        (fun c hc => ht c (List.mem_cons_of_mem _ hc)) h.2
      exact ⟨by rw [h.1, e1], e2⟩

theorem Plain.stop {s : Bytes} (h : Plain s) : ∀ c ∈ s, c ∉ [c! '/', c! ':', c! '{'] := by
  intro c hc hm
  simp only [List.mem_cons, List.not_mem_nil, or_false] at hm
  rcases hm with rfl | rfl | rfl
  · exact h.slash hc
  · exact h.colon hc
  · exact h.opening hc

theorem Plain.head {s : Bytes} (h : Plain s) (l : Bytes) : ∃ c r, s ++ l = c :: r ∧ c ∉ [c! '/', c! ':', c! '{'] := by
  cases s with
  | nil => exact absurd rfl h.nonempty
  | cons c r => exact ⟨c, r ++ l, rfl, h.stop c List.mem_cons_self⟩

theorem flat_head {l : List Mark} (h : ∀ t r, l ≠ .word t :: r) (c : UInt8) (hc : (flat l).head? = some c) :
    c ∈ [c! '/', c! ':', c! '{'] := by
  cases l with
  | nil => cases hc
  | cons m l =>
    cases m with
    | word s => exact absurd rfl (h s l)
    | braced s =>
      injection hc with hc
      rw [← hc]
      decide
    | slash =>
      injection hc with hc
      rw [← hc]
      decide
    | colon =>
      injection hc with hc
      rw [← hc]
      decide

/-- The text determines the marks. -/
theorem flat_inj : ∀ {l m : List Mark}, OkMarks l → OkMarks m → flat l = flat m → l = m := by
  intro l
  induction l with
  | nil =>
    intro m _ hm h
    cases m with
    | nil => rfl
    | cons x m =>
      exfalso
      cases x with
      | word s =>
        obtain ⟨c, r, e, -⟩ := hm.1.head (flat m)
        rw [flat, flat, flat1, e] at h
        cases h
      | braced s => cases h
      | slash => cases h
      | colon => cases h
  | cons x l ih =>
    intro m hl hm h
    cases m with
    | nil =>
      exfalso
      cases x with
      | word s =>
        obtain ⟨c, r, e, -⟩ := hl.1.head (flat l)
        rw [flat, flat, flat1, e] at h
        cases h
      | braced s => cases h
      | slash => cases h
      | colon => cases h
    | cons y m =>
      cases x with
      | word s =>
        cases y with
        | word t =>
          rw [flat, flat, flat1, flat1] at h
          obtain ⟨e1, e2⟩ := word_split hl.1.stop hm.1.stop (flat_head hl.2.1) (flat_head hm.2.1) h
          rw [e1, ih hl.2.2 hm.2.2 e2]
        | _ =>
          exfalso
          obtain ⟨c, r, e, hc⟩ := hl.1.head (flat l)
          rw [flat, flat1, e] at h
          injection h with h _
          rw [h] at hc
          exact hc (by decide)
      | braced s =>
        cases y with
        | word t =>
          exfalso
          obtain ⟨c, r, e, hc⟩ := hm.1.head (flat m)
          rw [flat, flat, flat1, flat1, e] at h
          injection h with h _
          rw [← h] at hc
          exact hc (by decide)
        | braced t =>
          rw [flat, flat, flat1, flat1] at h
          simp only [List.cons_append, List.append_assoc, List.nil_append, List.cons.injEq, true_and] at h
          obtain ⟨e1, e2⟩ := braced_inj hl.1 hm.1 h
          rw [e1, ih hl.2 hm.2 e2]
        | slash =>
          injection h with h _
          exact absurd h (by decide)
        | colon =>
          injection h with h _
          exact absurd h (by decide)
      | slash =>
        cases y with
        | word t =>
          exfalso
          obtain ⟨c, r, e, hc⟩ := hm.1.head (flat m)
          rw [flat, flat, flat1, flat1, e] at h
          injection h with h _
          rw [← h] at hc
          exact hc (by decide)
        | braced t =>
          injection h with h _
          exact absurd h (by decide)
        | slash =>
          injection h with _ h
          rw [ih hl.2 hm.2 h]
        | colon =>
          injection h with h _
          exact absurd h (by decide)
      | colon =>
        cases y with
        | word t =>
          exfalso
          obtain ⟨c, r, e, hc⟩ := hm.1.head (flat m)
          rw [flat, flat, flat1, flat1, e] at h
          injection h with h _
          rw [← h] at hc
          exact hc (by decide)
        | braced t =>
          injection h with h _
          exact absurd h (by decide)
        | slash =>
          injection h with h _
          exact absurd h (by decide)
        | colon =>
          injection h with _ h
          rw [ih hl.2 hm.2 h]

/-! ## The marks of an url -/

/-- The text of a root. -/
def rootMarks (p : Bytes) : List Mark :=
  if p = b!"default" then [.slash]
  else if p = b!"blank" then [.slash]
  else if p = b!"file" then [.word p, .colon, .slash, .slash]
  else [.word p, .colon, .slash]

/-- The left part of a concatenation. -/
def leftMarks : Url → List Mark
  | .root p => if p = b!"default" then [] else rootMarks p
  | .atom s => [.word s]
  | a => [.braced (asString a)]

def marks : Url → List Mark
  | .none => [.braced []]
  | .atom s => [.word s]
  | .wild1 s => [.word s]
  | .wild0 => [.word (b!"**")]
  | .root p => rootMarks p
  | .root3 p _ => rootMarks p
  | .concat a b => leftMarks a ++ .slash ::
    (if isConcat b || isAtomic b || isWild1 b then marks b else [.braced (asString b)])
  | .or a b => (if isNameInPath a then marks a else [.braced (asString a)]) ++ .colon ::
    (if isOr b || isNameInPath b then marks b else [.braced (asString b)])

/-- The right part of a concatenation. -/
def rightMarks (b : Url) : List Mark :=
  if isConcat b || isAtomic b || isWild1 b then marks b else [.braced (asString b)]

/-- An alternative. -/
def altMarks (a : Url) : List Mark := if isNameInPath a then marks a else [.braced (asString a)]

/-- The alternatives that follow. -/
def restMarks (b : Url) : List Mark := if isOr b || isNameInPath b then marks b else [.braced (asString b)]

theorem marks_concat (a b : Url) : marks (.concat a b) = leftMarks a ++ .slash :: rightMarks b := by
  rw [marks, rightMarks]

theorem marks_or (a b : Url) : marks (.or a b) = altMarks a ++ .colon :: restMarks b := by
  rw [marks, altMarks, restMarks]

theorem flat_braced (s : Bytes) : flat [.braced s] = (b!"{") ++ s ++ (b!"}") := by
  simp [flat, flat1]

theorem flat_root (p : Bytes) : flat (rootMarks p) = asString (.root p) := by
  unfold rootMarks asString
  split
  · rfl
  · split
    · rfl
    · split
      · simp only [flat, flat1, List.append_nil]; rfl
      · simp only [flat, flat1, List.append_nil]; rfl

/-- The marks make up the text. -/
theorem flat_marks : ∀ u : Url, Clear u → flat (marks u) = asString u := by
  intro u
  induction u with
  | none => intro _; rfl
  | atom s => intro _; simp [marks, flat, flat1, asString]
  | wild0 => intro _; rfl
  | wild1 s => intro _; simp [marks, flat, flat1, asString]
  | root p => intro _; exact flat_root p
  | root3 p c => intro h; exact h.elim
  | concat a b iha ihb =>
    intro h
    obtain ⟨h1, h2, h3⟩ := h
    have hr : flat (rightMarks b) = braceRight b (asString b) := by
      unfold rightMarks braceRight
      by_cases hb : (isConcat b || isAtomic b || isWild1 b) = true
      · rw [if_pos hb, ihb h2, if_neg]
        simp only [Bool.or_eq_true] at hb
        rcases hb with (hb | hb) | hb <;> simp [hb]
      · rw [if_neg hb, flat_braced, if_pos]
        simp only [Bool.or_eq_true, not_or] at hb
        simp [hb]
    have hl : flat (leftMarks a) = braceLeft a (if isRootS a (b!"default") then [] else asString a) := by
      rcases h1 with ⟨p, rfl, hp⟩ | ⟨h1, h4, h5⟩
      · unfold leftMarks braceLeft
        dsimp only
        rw [if_neg (c := (!isName (.root p) && !isRoot (.root p)) = true) (by rw [isRoot]; simp)]
        by_cases e : p = b!"default"
        · rw [if_pos e, if_pos (by simp [isRootS, e])]; rfl
        · rw [if_neg e, if_neg (by simp [isRootS, e]), flat_root]
      · have hd : isRootS a (b!"default") = false := by
          cases a <;> first | rfl | cases h5
        rw [hd, if_neg (by decide)]
        unfold braceLeft
        cases a with
        | root p => cases h5
        | root3 p c => cases h5
        | concat x y => cases h4
        | atom s => simp [leftMarks, flat, flat1, asString, isName]
        | none => simp only [leftMarks]; rw [flat_braced, if_pos (by decide)]
        | wild0 => simp only [leftMarks]; rw [flat_braced, if_pos (by decide)]
        | wild1 s => simp only [leftMarks]; rw [flat_braced, if_pos (by simp [isName, isRoot])]
        | or x y => simp only [leftMarks]; rw [flat_braced, if_pos (by simp [isName, isRoot])]
    rw [marks_concat, flat_append, hl]
    show _ ++ ((c! '/') :: flat (rightMarks b)) = _
    rw [hr]
    simp only [asString, List.append_assoc]
    rfl
  | or a b iha ihb =>
    intro h
    have e1 : flat (altMarks a) = if !isNameInPath a then (b!"{") ++ asString a ++ (b!"}") else asString a := by
      unfold altMarks
      by_cases ha : isNameInPath a = true
      · rw [if_pos ha, iha h.1, if_neg (by simp [ha])]
      · rw [if_neg ha, flat_braced, if_pos (by simpa using ha)]
    have e2 : flat (restMarks b) = if !isOr b && !isNameInPath b then (b!"{") ++ asString b ++ (b!"}") else asString b := by
      unfold restMarks
      by_cases hb : (isOr b || isNameInPath b) = true
      · rw [if_pos hb, ihb h.2, if_neg]
        simp only [Bool.or_eq_true] at hb
        rcases hb with hb | hb <;> simp [hb]
      · rw [if_neg hb, flat_braced, if_pos]
        simp only [Bool.or_eq_true, not_or] at hb
        simp [hb]
    rw [marks_or, flat_append, e1]
    show _ ++ ((c! ':') :: flat (restMarks b)) = _
    rw [e2]
    simp only [asString, List.append_assoc]
    rfl

/-! ## They are in order -/

theorem ok_append {l m : List Mark} {x : Mark} (hx : x = .slash ∨ x = .colon) (hl : OkMarks l) (hm : OkMarks m) :
    OkMarks (l ++ x :: m) := by
  induction l with
  | nil => rcases hx with rfl | rfl <;> exact ⟨trivial, hm⟩
  | cons y l ih =>
    cases y with
    | word s =>
      refine ⟨hl.1, ?_, ih hl.2.2⟩
      intro t r e
      cases l with
      | nil => rcases hx with rfl | rfl <;> cases e
      | cons z l =>
        injection e with e1 e2
        exact hl.2.1 t l (by rw [e1])
    | braced s => exact ⟨hl.1, ih hl.2⟩
    | slash => exact ⟨hl.1, ih hl.2⟩
    | colon => exact ⟨hl.1, ih hl.2⟩

theorem ok_word {s : Bytes} (h : Plain s) : OkMarks [.word s] := ⟨h, (by intro t r e; cases e), trivial⟩

theorem ok_root {p : Bytes} (h : Plain p) : OkMarks (rootMarks p) := by
  unfold rootMarks
  split
  · exact ⟨trivial, trivial⟩
  · split
    · exact ⟨trivial, trivial⟩
    · split
      · exact ⟨h, (by intro t r e; cases e), trivial, trivial, trivial, trivial⟩
      · exact ⟨h, (by intro t r e; cases e), trivial, trivial, trivial⟩

theorem bal_flat {l : List Mark} (h : OkMarks l) : Bal (flat l) := by
  induction l with
  | nil => intro n; rfl
  | cons x l ih =>
    cases x with
    | word s => exact (bal_plain h.1.opening h.1.closing).append (ih h.2.2)
    | braced s => exact (bal_braced h.1).append (ih h.2)
    | slash => exact (bal_plain (by decide) (by decide)).append (ih h.2)
    | colon => exact (bal_plain (by decide) (by decide)).append (ih h.2)

theorem ok_braced {u : Url} (hc : Clear u) (h : OkMarks (marks u)) : OkMarks [.braced (asString u)] := by
  refine ⟨?_, trivial⟩
  have := bal_flat h
  rwa [flat_marks u hc] at this

theorem ok_marks : ∀ u : Url, Clear u → OkMarks (marks u) := by
  intro u
  induction u with
  | none => intro _; exact ⟨fun n => rfl, trivial⟩
  | atom s => intro h; exact ok_word h.1
  | wild0 => intro _; exact ok_word ⟨by decide, by decide, by decide, by decide, by decide⟩
  | wild1 s => intro h; exact ok_word h.1
  | root p => intro h; exact ok_root h.1
  | root3 p c => intro h; exact h.elim
  | concat a b iha ihb =>
    intro h
    obtain ⟨h1, h2, h3⟩ := h
    rw [marks_concat]
    refine ok_append (.inl rfl) ?_ ?_
    · rcases h1 with ⟨p, rfl, hp⟩ | ⟨h1, h4, h5⟩
      · unfold leftMarks
        dsimp only
        split
        · trivial
        · exact ok_root hp
      · cases a with
        | root p => cases h5
        | root3 p c => cases h5
        | concat x y => cases h4
        | atom s => exact ok_word h1.1
        | none => exact ok_braced h1 (iha h1)
        | wild0 => exact ok_braced h1 (iha h1)
        | wild1 s => exact ok_braced h1 (iha h1)
        | or x y => exact ok_braced h1 (iha h1)
    · unfold rightMarks
      split
      · exact ihb h2
      · exact ok_braced h2 (ihb h2)
  | or a b iha ihb =>
    intro h
    rw [marks_or]
    refine ok_append (.inr rfl) ?_ ?_
    · unfold altMarks
      split
      · exact iha h.1
      · exact ok_braced h.1 (iha h.1)
    · unfold restMarks
      split
      · exact ihb h.2
      · exact ok_braced h.2 (ihb h.2)

theorem marks_of_text {u v : Url} (hu : Clear u) (hv : Clear v) (h : asString u = asString v) : marks u = marks v :=
  flat_inj (ok_marks u hu) (ok_marks v hv) (by rw [flat_marks u hu, flat_marks v hv, h])

end Lolly.Url
