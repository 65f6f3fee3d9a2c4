import Verif.System.WinSubst
import Verif.System.ProcessProps

/-!
# C82, C127: placeholders inside of arguments
-/

set_option autoImplicit false

namespace Lolly.PlaceholderProps
open Lolly.An Lolly.Conv Lolly.ProcessProps Lolly.SearchProps

/-! ## Specification: arguments with placeholders -/

/-- The pieces of an argument: a character, a `$` with a character that does not
belong to a placeholder, `$$` or `$%` with such a character, and the placeholders
`$$i` and `$%i`. -/
inductive Piece where
  | char (c : UInt8)
  | dollar (c : UInt8)
  | pair (percent : Bool) (c : UInt8)
  | hole (percent : Bool) (i : Nat)
  deriving DecidableEq

/-- `$` or `%`. -/
def sign (percent : Bool) : UInt8 := if percent then c! '%' else c! '$'

/-- The text of a piece. -/
def Piece.text : Piece → Bytes
  | .char c => [c]
  | .dollar c => [c! '$', c]
  | .pair b c => [c! '$', sign b, c]
  | .hole b i => [c! '$', sign b, UInt8.ofNat (48 + i)]

/-- What the pieces may be. -/
def Piece.Ok : Piece → Prop
  | .char c => c ≠ c! '$'
  | .dollar c => c ≠ c! '$' ∧ c ≠ c! '%'
  | .pair _ c => c ≠ c! '$' ∧ c ≠ c! '%' ∧ ∀ i < 10, c ≠ UInt8.ofNat (48 + i)
  | .hole _ i => i < 10

/-- The argument. -/
def render (l : List Piece) : Bytes := l.flatMap Piece.text

/-- The argument with what `f` gives for the placeholders. -/
def fill (f : Bool → Nat → Option Bytes) (l : List Piece) : Bytes :=
  l.flatMap fun
    | .hole b i => (f b i).getD (Piece.hole b i).text
    | p => p.text

/-! ## Lemmas -/

theorem occ3 {x y z : UInt8} {s : Bytes} {q : Nat} (h : OccursAt [x, y, z] s q) :
    s[q]? = some x ∧ s[q + 1]? = some y ∧ s[q + 2]? = some z := by
  obtain ⟨a, b, rfl, rfl⟩ := h
  simp

theorem sign_inj {a b : Bool} (h : sign a = sign b) : a = b := by
  revert h; cases a <;> cases b <;> decide

theorem digit_inj {i j : Nat} (hi : i < 10) (hj : j < 10) (h : UInt8.ofNat (48 + i) = UInt8.ofNat (48 + j)) : i = j := by
  have := congrArg UInt8.toNat h
  simp only [UInt8.toNat_ofNat'] at this
  omega

theorem digit_sign {i : Nat} (hi : i < 10) (b : Bool) : UInt8.ofNat (48 + i) ≠ sign b := by
  intro h
  have := congrArg UInt8.toNat h
  simp only [UInt8.toNat_ofNat'] at this
  have : (sign b).toNat = 36 ∨ (sign b).toNat = 37 := by cases b <;> decide
  omega

theorem dollar_sign : (c! '$' : UInt8) = sign false := rfl

/-- A placeholder does not begin in another piece. -/
theorem no_occ {p : Piece} (hp : p.Ok) {b : Bool} {i : Nat} (hi : i < 10) (hne : p ≠ .hole b i) (s : Bytes) :
    ∀ q < p.text.length, ¬ OccursAt (Piece.hole b i).text (p.text ++ s) q := by
  intro q hq h
  have ho := occ3 h
  cases p with
  | char c =>
    simp only [Piece.text, List.length_singleton] at hq ho
    obtain rfl : q = 0 := by omega
    simp only [List.cons_append, List.getElem?_cons_zero, Option.some.injEq] at ho
    exact hp ho.1
  | dollar c =>
    simp only [Piece.text, List.length_cons, List.length_nil] at hq ho
    rcases (by omega : q = 0 ∨ q = 1) with rfl | rfl
    · simp only [List.cons_append, List.getElem?_cons_zero, Option.some.injEq, Nat.zero_add, List.getElem?_cons_succ] at ho
      obtain ⟨-, h1, -⟩ := ho
      cases b
      · exact hp.1 h1
      · exact hp.2 h1
    · simp only [List.cons_append, List.getElem?_cons_zero, Option.some.injEq, List.getElem?_cons_succ] at ho
      exact hp.1 ho.1
  | pair b' c =>
    obtain ⟨h36, h37, hd⟩ := hp
    simp only [Piece.text, List.length_cons, List.length_nil] at hq ho
    rcases (by omega : q = 0 ∨ q = 1 ∨ q = 2) with rfl | rfl | rfl
    · simp only [List.cons_append, List.getElem?_cons_zero, Option.some.injEq, Nat.zero_add, List.getElem?_cons_succ] at ho
      exact hd i hi ho.2.2
    · simp only [List.cons_append, List.getElem?_cons_zero, Option.some.injEq, List.getElem?_cons_succ] at ho
      obtain ⟨-, h1, -⟩ := ho
      cases b
      · exact h36 h1
      · exact h37 h1
    · simp only [List.cons_append, List.getElem?_cons_zero, Option.some.injEq, List.getElem?_cons_succ] at ho
      exact h36 ho.1
  | hole b' i' =>
    change i' < 10 at hp
    simp only [Piece.text, List.length_cons, List.length_nil] at hq ho
    rcases (by omega : q = 0 ∨ q = 1 ∨ q = 2) with rfl | rfl | rfl
    · simp only [List.cons_append, List.getElem?_cons_zero, Option.some.injEq, Nat.zero_add, List.getElem?_cons_succ] at ho
      obtain ⟨-, h1, h2⟩ := ho
      exact hne (by rw [sign_inj h1, digit_inj hp hi h2])
    · simp only [List.cons_append, List.getElem?_cons_zero, Option.some.injEq, List.getElem?_cons_succ] at ho
      obtain ⟨-, h1, -⟩ := ho
      exact digit_sign hp b h1
    · simp only [List.cons_append, List.getElem?_cons_zero, Option.some.injEq, List.getElem?_cons_succ] at ho
      exact digit_sign hp false ho.1

theorem cuts_prepend {what w s : Bytes} {ps : List Bytes} (hc : Cuts what s ps)
    (h : ∀ q < w.length, ¬ OccursAt what (w ++ s) q) (by_ : Bytes) :
    ∃ ps', Cuts what (w ++ s) ps' ∧ join by_ ps' = w ++ join by_ ps ∧ ps' ≠ [] := by
  have shift : ∀ q t, w.length ≤ q → OccursAt what (w ++ t) q → OccursAt what t (q - w.length) := by
    rintro q t hq ⟨a, b, e, rfl⟩
    have hw : w <+: a := by
      refine List.prefix_of_prefix_length_le (l₃ := w ++ t) ⟨t, rfl⟩ ?_ hq
      exact ⟨what ++ b, by rw [e, List.append_assoc]⟩
    obtain ⟨a', rfl⟩ := hw
    refine ⟨a', b, ?_, by simp⟩
    rw [List.append_assoc, List.append_assoc, List.append_cancel_left_eq] at e
    rw [e, List.append_assoc]
  cases hc with
  | last _ hs =>
    refine ⟨[w ++ s], .last _ (fun q hq => ?_), rfl, by simp⟩
    by_cases hl : q < w.length
    · exact h q hl hq
    · exact hs _ (shift q s (by omega) hq)
  | cut p rest qs hp hr =>
    refine ⟨(w ++ p) :: qs, ?_, ?_, by simp⟩
    · have e : w ++ (p ++ what ++ rest) = (w ++ p) ++ what ++ rest := by simp
      rw [e]
      refine .cut _ _ _ (fun q hq ho => ?_) hr
      by_cases hl : q < w.length
      · exact h q hl (by rw [e]; exact ho)
      · refine hp (q - w.length) ?_ (shift q _ (by omega) (by rw [e]; exact ho))
        rw [List.length_append] at hq
        omega
    · cases qs with
      | nil => exact absurd rfl (cuts_ne_nil hr)
      | cons x xs => simp [join]

/-- Put `x` for the placeholder. -/
def put (b : Bool) (i : Nat) (x : Bytes) (l : List Piece) : List Piece :=
  l.flatMap fun p => if p = .hole b i then x.map .char else [p]

theorem put_ok {b : Bool} {i : Nat} {x : Bytes} (hx : c! '$' ∉ x) {l : List Piece} (hl : ∀ p ∈ l, p.Ok) :
    ∀ p ∈ put b i x l, p.Ok := by
  intro p hp
  obtain ⟨q, hq, hp⟩ := List.mem_flatMap.1 hp
  split at hp
  · obtain ⟨c, hc, rfl⟩ := List.mem_map.1 hp
    intro e
    exact hx (e ▸ hc)
  · simp only [List.mem_singleton] at hp
    subst hp
    exact hl _ hq

theorem render_chars (x : Bytes) : render (x.map .char) = x := by
  induction x with
  | nil => rfl
  | cons c x ih =>
    rw [List.map_cons]
    show [c] ++ render _ = _
    rw [ih]; rfl

theorem render_append (a b : List Piece) : render (a ++ b) = render a ++ render b := by
  unfold render; rw [List.flatMap_append]

theorem cuts_put {b : Bool} {i : Nat} (hi : i < 10) (x : Bytes) (l : List Piece) (hl : ∀ p ∈ l, p.Ok) :
    ∃ ps, Cuts (Piece.hole b i).text (render l) ps ∧ join x ps = render (put b i x l) ∧ ps ≠ [] := by
  induction l with
  | nil =>
    refine ⟨[[]], .last _ ?_, rfl, by simp⟩
    intro q h
    have := occ3 h
    simp [render] at this
  | cons p l ih =>
    obtain ⟨ps, hc, hj, hne⟩ := ih (fun q hq => hl q (List.mem_cons_of_mem _ hq))
    by_cases hp : p = .hole b i
    · subst hp
      refine ⟨[] :: ps, ?_, ?_, by simp⟩
      · have := Cuts.cut (what := (Piece.hole b i).text) [] (render l) ps (fun q hq => by simp at hq) hc
        simpa [render] using this
      · have e : put b i x (.hole b i :: l) = x.map .char ++ put b i x l := by
          unfold put; rw [List.flatMap_cons, if_pos rfl]
        rw [e, render_append, render_chars, ← hj]
        cases ps with
        | nil => exact absurd rfl hne
        | cons y ys => simp [join]
    · obtain ⟨ps', h1, h2, h3⟩ := cuts_prepend hc (no_occ (hl p List.mem_cons_self) hi hp (render l)) x
      refine ⟨ps', h1, ?_, h3⟩
      have e : put b i x (p :: l) = [p] ++ put b i x l := by
        unfold put; rw [List.flatMap_cons, if_neg hp]
      rw [h2, hj, e, render_append]
      simp [render]

theorem replace_put {b : Bool} {i : Nat} (hi : i < 10) (x : Bytes) (l : List Piece) (hl : ∀ p ∈ l, p.Ok) :
    replace ((render l).length + 1) (render l) (Piece.hole b i).text x = .ok (render (put b i x l)) := by
  obtain ⟨ps, hc, hj, -⟩ := cuts_put (b := b) hi x l hl
  obtain ⟨qs, e, hc'⟩ := C21_replace (render l) (Piece.hole b i).text x (by simp [Piece.text]) _ (Nat.lt_succ_self _)
  rw [e, cuts_unique hc' hc, hj]

theorem hole_text (b : Bool) {i : Nat} (hi : i < 10) : (Piece.hole b i).text = c! '$' :: sign b :: asString i := by
  rw [asString_nat, natDec, if_pos hi]; rfl

theorem no_dollar_int (n : Int) : c! '$' ∉ asString n := by
  unfold asString
  split
  · intro h
    rcases List.mem_cons.1 h with h | h
    · revert h; decide
    · exact no_dollar _ h
  · exact no_dollar _

/-! ## C82: inside of arguments, on Unix -/

/-- What `unix_system` puts for the placeholders: the descriptor of the pipe of an
input with number -1. -/
def unixValue (fds : List (Int × Nat)) (percent : Bool) (i : Nat) : Option Bytes :=
  if percent then none
  else match fds[i]? with
    | some (fd, p) => if fd < 0 then some (natDec p) else none
    | none => none

theorem fill_put (f g : Bool → Nat → Option Bytes) (b : Bool) (i : Nat) (x : Bytes) (l : List Piece)
    (hg : g b i = some x) (hf : ∀ b' i', (b', i') ≠ (b, i) → g b' i' = f b' i') :
    fill f (put b i x l) = fill g l := by
  induction l with
  | nil => rfl
  | cons p l ih =>
    have happ : ∀ a c : List Piece, fill f (a ++ c) = fill f a ++ fill f c := by
      intro a c; unfold fill; rw [List.flatMap_append]
    have hcons : fill g (p :: l) = fill g [p] ++ fill g l := by
      unfold fill; simp
    have e : put b i x (p :: l) = (if p = .hole b i then x.map .char else [p]) ++ put b i x l := by
      unfold put; rw [List.flatMap_cons]
    rw [e, happ, ih, hcons]
    congr 1
    by_cases hp : p = .hole b i
    · rw [if_pos hp, hp]
      have h1 : fill f (x.map .char) = x := by
        clear hg ih e
        induction x with
        | nil => rfl
        | cons c x ih2 =>
          show [c] ++ fill f (x.map .char) = c :: x
          rw [ih2]; rfl
      rw [h1]
      show x = (g b i).getD _ ++ []
      rw [hg]; simp
    · rw [if_neg hp]
      cases p with
      | char c => rfl
      | dollar c => rfl
      | pair b' c => rfl
      | hole b' i' =>
        show (f b' i').getD _ ++ [] = (g b' i').getD _ ++ []
        rw [hf b' i' (by rintro h; cases h; exact hp rfl)]

theorem fill_none (f : Bool → Nat → Option Bytes) (hf : ∀ b i, f b i = none) (l : List Piece) : fill f l = render l := by
  unfold fill render
  congr 1
  funext p
  cases p with
  | hole b i => show (f b i).getD _ = _; rw [hf]; rfl
  | _ => rfl

/-- The values of the inputs from number `i` on. -/
def unixFrom (fds : List (Int × Nat)) (i : Nat) (percent : Bool) (n : Nat) : Option Bytes :=
  if n < i then none else unixValue fds percent (n - i)

theorem unix_pieces (fds : List (Int × Nat)) (i : Nat) (l : List Piece) (hl : ∀ p ∈ l, p.Ok) (h10 : i + fds.length ≤ 10) :
    Process.substArg fds i (render l) = .ok (fill (unixFrom fds i) l) := by
  induction fds generalizing i l with
  | nil =>
    rw [fill_none]
    · rfl
    · intro b n; unfold unixFrom unixValue; cases b <;> simp
  | cons x fds ih =>
    obtain ⟨fd, p⟩ := x
    simp only [List.length_cons] at h10
    have hnext : ∀ b' i', (b', i') ≠ (false, i) → unixFrom ((fd, p) :: fds) i b' i' = unixFrom fds (i + 1) b' i' := by
      intro b' i' hne
      unfold unixFrom
      by_cases h1 : i' < i
      · rw [if_pos h1, if_pos (by omega)]
      · rw [if_neg h1]
        by_cases h2 : i' = i
        · subst h2
          cases b'
          · exact absurd rfl hne
          · rw [if_pos (by omega)]; rfl
        · rw [if_neg (by omega), show i' - i = (i' - (i + 1)) + 1 by omega]
          unfold unixValue
          rw [List.getElem?_cons_succ]
    rw [Process.substArg]
    by_cases hfd : fd < 0
    · rw [if_pos hfd]
      have e := replace_put (b := false) (i := i) (by omega) (asString p) l hl
      rw [hole_text false (by omega)] at e
      show (replace _ _ _ _).bind _ = _
      rw [show (b!"$$") ++ asString i = c! '$' :: sign false :: asString i from rfl, e]
      show Process.substArg fds (i + 1) _ = _
      rw [ih (i + 1) _ (put_ok (no_dollar_int _) hl) (by omega)]
      congr 1
      refine fill_put _ _ false i _ l ?_ hnext
      unfold unixFrom unixValue
      rw [if_neg (by omega), Nat.sub_self]
      simp only [List.getElem?_cons_zero, hfd, if_true, asString_nat]
      rfl
    · rw [if_neg hfd, ih (i + 1) l hl (by omega)]
      congr 2
      funext b' i'
      by_cases hne : (b', i') = (false, i)
      · cases hne
        unfold unixFrom unixValue
        rw [if_pos (by omega), if_neg (by omega), Nat.sub_self]
        simp [hfd]
      · exact (hnext b' i' hne).symm

/-- With at most ten inputs all placeholders in an argument, and nothing else, are
replaced, wherever they are. -/
theorem C82_inside_partial (fds : List (Int × Nat)) (h10 : fds.length ≤ 10) (l : List Piece) (hl : ∀ p ∈ l, p.Ok) :
    Process.substArg fds 0 (render l) = .ok (fill (unixValue fds) l) := by
  rw [unix_pieces fds 0 l hl (by omega)]
  rfl

/-- `/dev/fd/$$1:$HOME:$$x`. -/
example : render [.char (c! '/'), .hole false 1, .dollar (c! 'H'), .pair false (c! 'x')] = b!"/$$1$H$$x" ∧
    (∀ p ∈ [Piece.char (c! '/'), .hole false 1, .dollar (c! 'H'), .pair false (c! 'x')], p.Ok) ∧
    fill (unixValue [(0, 3), (-1, 5)]) [.char (c! '/'), .hole false 1, .dollar (c! 'H'), .pair false (c! 'x')] =
      (b!"/") ++ natDec 5 ++ b!"$H$$x" := by
  refine ⟨by decide, ?_, by simp [fill, unixValue, Piece.text]; rfl⟩
  intro p hp
  simp only [List.mem_cons, List.not_mem_nil, or_false] at hp
  rcases hp with rfl | rfl | rfl | rfl
  · show _ ≠ _; decide
  · show 1 < 10; decide
  · exact ⟨by decide, by decide⟩
  · exact ⟨by decide, by decide, by decide⟩

/-! ## C127: on Windows -/

/-- What `win_system` puts for the placeholders of an input with number -1: for
`$%i` the handle and for `$$i` the descriptor of its pipe. -/
def winValue (ins : List WinSubst.Input) (percent : Bool) (i : Nat) : Option Bytes :=
  match ins[i]? with
  | some x => if x.fd < 0 then some (asString (if percent then x.handle else x.pipe)) else none
  | none => none

/-- The values of the inputs from number `i` on. -/
def winFrom (ins : List WinSubst.Input) (i : Nat) (percent : Bool) (n : Nat) : Option Bytes :=
  if n < i then none else winValue ins percent (n - i)

theorem win_pieces (ins : List WinSubst.Input) (i : Nat) (l : List Piece) (hl : ∀ p ∈ l, p.Ok) (h10 : i + ins.length ≤ 10) :
    WinSubst.substArg ins i (render l) = .ok (fill (winFrom ins i) l) := by
  induction ins generalizing i l with
  | nil =>
    rw [fill_none]
    · rfl
    · intro b n; unfold winFrom winValue; simp
  | cons x ins ih =>
    simp only [List.length_cons] at h10
    have hnext : ∀ b' i', i' ≠ i → winFrom (x :: ins) i b' i' = winFrom ins (i + 1) b' i' := by
      intro b' i' hne
      unfold winFrom
      by_cases h1 : i' < i
      · rw [if_pos h1, if_pos (by omega)]
      · rw [if_neg h1, if_neg (by omega), show i' - i = (i' - (i + 1)) + 1 by omega]
        unfold winValue
        rw [List.getElem?_cons_succ]
    have hlow : ∀ b', winFrom ins (i + 1) b' i = none := by
      intro b'; unfold winFrom; rw [if_pos (by omega)]
    rw [WinSubst.substArg]
    by_cases hfd : x.fd < 0
    · rw [if_pos hfd]
      have hown : ∀ b', winFrom (x :: ins) i b' i = some (asString (if b' then x.handle else x.pipe)) := by
        intro b'
        unfold winFrom winValue
        rw [if_neg (by omega), Nat.sub_self]
        simp only [List.getElem?_cons_zero, hfd, if_true]
      have hl1 := put_ok (b := true) (i := i) (no_dollar_int x.handle) hl
      have e1 := replace_put (b := true) (i := i) (by omega) (asString x.handle) l hl
      have e2 := replace_put (b := false) (i := i) (by omega) (asString x.pipe) _ hl1
      rw [hole_text _ (by omega)] at e1 e2
      have er : WinSubst.replaceOne i x (render l) =
          .ok (render (put false i (asString x.pipe) (put true i (asString x.handle) l))) := by
        unfold WinSubst.replaceOne
        show (replace _ _ _ _).bind _ = _
        rw [show (b!"$%") ++ asString i = c! '$' :: sign true :: asString i from rfl, e1]
        exact e2
      rw [er]
      show WinSubst.substArg ins (i + 1) _ = _
      rw [ih (i + 1) _ (put_ok (no_dollar_int _) hl1) (by omega)]
      congr 1
      -- first the descriptor is filled in, then the handle
      rw [fill_put _ (fun b' i' => if b' = false ∧ i' = i then some (asString x.pipe) else winFrom ins (i + 1) b' i')
        false i _ _ (by simp) (fun b' i' hne => by
          rw [if_neg]; rintro ⟨rfl, rfl⟩; exact hne rfl)]
      refine fill_put _ _ true i _ l (hown true) (fun b' i' hne => ?_)
      by_cases hi : i' = i
      · subst hi
        cases b'
        · rw [hown]; simp
        · exact absurd rfl hne
      · rw [hnext _ _ hi, if_neg (fun h => hi h.2)]
    · rw [if_neg hfd, ih (i + 1) l hl (by omega)]
      congr 2
      funext b' i'
      by_cases hi : i' = i
      · subst hi
        rw [hlow]
        unfold winFrom winValue
        rw [if_neg (by omega), Nat.sub_self]
        simp [hfd]
      · exact (hnext b' i' hi).symm

/-- With at most ten inputs all placeholders in an argument, and nothing else, are
replaced: `$$i` by the descriptor and `$%i` by the handle of the pipe of input `i`.
Missing: more inputs (`C127_eleven_violated`). -/
theorem C127_inside_partial (ins : List WinSubst.Input) (h10 : ins.length ≤ 10) (l : List Piece) (hl : ∀ p ∈ l, p.Ok) :
    WinSubst.substArg ins 0 (render l) = .ok (fill (winValue ins) l) := by
  rw [win_pieces ins 0 l hl (by omega)]
  rfl

/-- `$%0-$$0`, with descriptor 4 and handle 88. -/
example : (∀ p ∈ [Piece.hole true 0, .char (c! '-'), .hole false 0], p.Ok) ∧
    render [.hole true 0, .char (c! '-'), .hole false 0] = b!"$%0-$$0" ∧
    fill (winValue [⟨-1, 4, 88⟩]) [.hole true 0, .char (c! '-'), .hole false 0] = asString 88 ++ (b!"-") ++ asString 4 := by
  refine ⟨?_, by decide, by simp [fill, winValue, Piece.text]⟩
  intro p hp
  simp only [List.mem_cons, List.not_mem_nil, or_false] at hp
  rcases hp with rfl | rfl | rfl
  · show 0 < 10; decide
  · show _ ≠ _; decide
  · show 0 < 10; decide

theorem win_total (ins : List WinSubst.Input) (i : Nat) (s : Bytes) : ∃ t, WinSubst.substArg ins i s = .ok t := by
  induction ins generalizing i s with
  | nil => exact ⟨s, rfl⟩
  | cons x ins ih =>
    rw [WinSubst.substArg]
    split
    · obtain ⟨ps, e, _⟩ := C21_replace s ((b!"$%") ++ asString i) (asString x.handle) (by simp) (s.length + 1) (by omega)
      obtain ⟨qs, e', _⟩ := C21_replace (join (asString x.handle) ps) ((b!"$$") ++ asString i) (asString x.pipe) (by simp)
        ((join (asString x.handle) ps).length + 1) (by omega)
      have er : WinSubst.replaceOne i x s = .ok (join (asString x.pipe) qs) := by
        unfold WinSubst.replaceOne
        show (replace _ _ _ _).bind _ = _
        rw [e]
        exact e'
      rw [er]
      exact ih _ _
    · exact ih _ _

theorem win_inner (ins : List WinSubst.Input) (arg j : Nat) : ∀ (k i : Nat) (hp : List (List Bytes)) (a : List Bytes) (s t : Bytes),
    i + k = ins.length → hp[arg]? = some a → a[j]? = some s → WinSubst.substArg (ins.drop i) i s = .ok t →
    forN (fun i (hp : List (List Bytes)) => do
      let x ← rd ins i
      if x.fd < 0 then do
        let a ← rd hp arg
        let s ← rd a j
        let s ← WinSubst.replaceOne i x s
        let a ← wr a j s
        wr hp arg a
      else .ok hp) k i hp = .ok (hp.set arg (a.set j t)) := by
  intro k
  induction k with
  | zero =>
    intro i hp a s t hk ha hs ht
    rw [show ins.drop i = [] from List.drop_eq_nil_of_le (by omega), WinSubst.substArg] at ht
    obtain rfl := Res.ok.inj ht
    obtain ⟨h1, rfl⟩ := List.getElem?_eq_some_iff.1 ha
    obtain ⟨h2, rfl⟩ := List.getElem?_eq_some_iff.1 hs
    simp [forN]
  | succ k ih =>
    intro i hp a s t hk ha hs ht
    have hi : i < ins.length := by omega
    rw [List.drop_eq_getElem_cons hi, WinSubst.substArg] at ht
    rw [forN, rd_eq_ok.2 (List.getElem?_eq_getElem hi)]
    obtain ⟨h1, h1'⟩ := List.getElem?_eq_some_iff.1 ha
    obtain ⟨h2, h2'⟩ := List.getElem?_eq_some_iff.1 hs
    by_cases hfd : ins[i].fd < 0
    · rw [if_pos hfd] at ht
      obtain ⟨s', e, ht⟩ := Res.bind_eq_ok.1 ht
      simp only [Res.ok_bind, hfd, if_true, rd_eq_ok.2 ha, rd_eq_ok.2 hs, e, wr_ok h2, wr_ok h1]
      have := ih (i + 1) (hp.set arg (a.set j s')) (a.set j s') s' t (by omega)
        (by rw [List.getElem?_set_self h1]) (by rw [List.getElem?_set_self h2]) ht
      simpa using this
    · rw [if_neg hfd] at ht
      simp only [Res.ok_bind, hfd, if_false]
      exact ih (i + 1) hp a s t (by omega) ha hs ht

/-- Every argument is treated by itself, no other array is touched, and nothing is
read or written outside of the arrays; but the results are in the array of the
caller. -/
theorem C127_arguments (ins : List WinSubst.Input) (hp : List (List Bytes)) (arg : Nat) (l : List Bytes) (h : hp[arg]? = some l) :
    ∃ l', WinSubst.substArgs ins hp arg = .ok (hp.set arg l') ∧ l'.length = l.length ∧
      ∀ (j : Nat) (s : Bytes), l[j]? = some s → ∃ t, l'[j]? = some t ∧ WinSubst.substArg ins 0 s = .ok t := by
  obtain ⟨hlt, rfl⟩ := List.getElem?_eq_some_iff.1 h
  obtain ⟨hp', e, l', rfl, hn, h1, -⟩ := forUp_spec (lo := 0) (hi := hp[arg].length) (s := hp)
    (body := fun j hp => forUp 0 ins.length hp fun i hp => do
      let x ← rd ins i
      if x.fd < 0 then do
        let a ← rd hp arg
        let s ← rd a j
        let s ← WinSubst.replaceOne i x s
        let a ← wr a j s
        wr hp arg a
      else .ok hp)
    (fun n x => ∃ l' : List Bytes, x = hp.set arg l' ∧ l'.length = hp[arg].length ∧
      (∀ (j : Nat) (s : Bytes), j < n → hp[arg][j]? = some s → ∃ t, l'[j]? = some t ∧ WinSubst.substArg ins 0 s = .ok t) ∧
      ∀ j, n ≤ j → l'[j]? = hp[arg][j]?)
    (Nat.zero_le _) ⟨hp[arg], by simp, rfl, fun j s hj => by omega, fun _ _ => rfl⟩
    (by
      rintro n x - hlt' ⟨l', rfl, hn, h1, h2⟩
      have hs := h2 n (Nat.le_refl n)
      rw [List.getElem?_eq_getElem hlt'] at hs
      obtain ⟨t, ht⟩ := win_total ins 0 hp[arg][n]
      have := win_inner ins arg n ins.length 0 (hp.set arg l') l' _ t (by omega)
        (by rw [List.getElem?_set_self hlt]) hs (by simpa using ht)
      refine ⟨hp.set arg (l'.set n t), ?_, l'.set n t, rfl, by simpa using hn, ?_, ?_⟩
      · rw [forUp, Nat.sub_zero, this]; simp
      · intro j s hj hjs
        rw [List.getElem?_set]
        split
        · next he =>
          subst he
          rw [List.getElem?_eq_getElem hlt'] at hjs
          obtain rfl := Option.some.inj hjs
          exact ⟨t, by rw [if_pos (by omega)], ht⟩
        · next he => exact h1 j s (by omega) hjs
      · intro j hj
        rw [List.getElem?_set_ne (by omega)]
        exact h2 j (by omega))
  refine ⟨l', ?_, hn, fun j s hs => h1 j s ?_ hs⟩
  · rw [WinSubst.substArgs, rd_eq_ok.2 h]; exact e
  · exact (List.getElem?_eq_some_iff.1 hs).1

example : ([[b!"cat", b!"$$0"]] : List (List Bytes))[0]? = some [b!"cat", b!"$$0"] := rfl

/-- The array of the caller is changed: where it had a placeholder it has a number. -/
theorem C127_array_violated (x : WinSubst.Input) (hx : x.fd < 0) :
    ∃ l', WinSubst.substArgs [x] [[b!"cat", b!"$$0"]] 0 = .ok [l'] ∧ l'[1]? = some (asString x.pipe) ∧
      l' ≠ [b!"cat", b!"$$0"] := by
  obtain ⟨l', e, -, h⟩ := C127_arguments [x] [[b!"cat", b!"$$0"]] 0 _ rfl
  obtain ⟨t, h1, h2⟩ := h 1 _ rfl
  have h3 := C127_inside_partial [x] (by simp) [.hole false 0] (by
    intro p hp; simp only [List.mem_singleton] at hp; subst hp; show 0 < 10; decide)
  have e3 : render [.hole false 0] = b!"$$0" := rfl
  have e4 : fill (winValue [x]) [.hole false 0] = asString x.pipe := by simp [fill, winValue, hx]
  rw [e3, e4, h2] at h3
  obtain rfl := Res.ok.inj h3
  refine ⟨l', e, h1, ?_⟩
  rintro rfl
  have : asString x.pipe = b!"$$0" := (Option.some.inj h1).symm
  exact no_dollar_int x.pipe (by rw [this]; decide)

/-- The placeholders of input 10 are taken for those of input 1 followed by a 0. -/
theorem C127_eleven_violated (ins : List WinSubst.Input) (x0 x1 : WinSubst.Input) (h0 : 0 ≤ x0.fd) (h1 : x1.fd < 0) (b : Bool) :
    WinSubst.substArg (x0 :: x1 :: ins) 0 (c! '$' :: sign b :: b!"10") =
      .ok (asString (if b then x1.handle else x1.pipe) ++ b!"0") := by
  have hskip : ∀ (ins : List WinSubst.Input) (i : Nat) (s : Bytes), c! '$' ∉ s → WinSubst.substArg ins i s = .ok s := by
    intro ins
    induction ins with
    | nil => intros; rfl
    | cons y ys ih =>
      intro i s hs
      have hno : ∀ (b : Bool) (q : Nat), ¬ OccursAt (c! '$' :: sign b :: asString i) s q := by
        rintro b q ⟨u, v, e, -⟩
        exact hs (by rw [e]; simp)
      have er : WinSubst.replaceOne i y s = .ok s := by
        unfold WinSubst.replaceOne
        show (replace _ _ _ _).bind _ = _
        rw [show (b!"$%") ++ asString i = c! '$' :: sign true :: asString i from rfl, replace_none (by simp) (hno true)]
        exact replace_none (by simp) (hno false) _
      rw [WinSubst.substArg, er]
      split
      · exact ih _ _ hs
      · exact ih _ _ hs
  have key := win_pieces [x1] 1 [.hole b 1, .char (c! '0')] (by
    intro p hp
    simp only [List.mem_cons, List.not_mem_nil, or_false] at hp
    rcases hp with rfl | rfl
    · show 1 < 10; decide
    · show _ ≠ _; decide) (by simp)
  have e1 : render [.hole b 1, .char (c! '0')] = c! '$' :: sign b :: b!"10" := rfl
  have e2 : fill (winFrom [x1] 1) [.hole b 1, .char (c! '0')] = asString (if b then x1.handle else x1.pipe) ++ b!"0" := by
    simp [fill, winFrom, winValue, h1, Piece.text]
  rw [e1, e2] at key
  rw [WinSubst.substArg, if_neg (by omega)]
  rw [WinSubst.substArg, if_pos h1] at key ⊢
  obtain ⟨s', e, h⟩ := Res.bind_eq_ok.1 key
  simp only [WinSubst.substArg] at h
  obtain rfl := Res.ok.inj h
  show (WinSubst.replaceOne _ _ _).bind _ = _
  rw [e]
  refine hskip _ _ _ ?_
  rw [List.mem_append]
  rintro (h | h)
  · exact no_dollar_int _ h
  · revert h; decide

end Lolly.PlaceholderProps
