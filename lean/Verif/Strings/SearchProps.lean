import Verif.Strings.SearchLemmas
import Verif.Strings.StrProps

/-!
# Properties C20-C25, C27: searching, replacing, splitting, wildcards, trimming, tabs, prefixes

The specification is in SearchSpec.lean.
-/

set_option autoImplicit false

namespace Lolly.SearchProps

open Lolly.An

/-! ## C20 -/

/-- `search_forwards (s, pos, in)` gives the least position from `pos` on where `s` occurs, or -1.
(The empty string is looked for inside of the string.) -/
theorem C20_forwards (s inn : Bytes) (pos : Nat) (h : s ≠ [] ∨ pos ≤ inn.length) :
    (∃ p : Nat, forwards s pos inn = .ok p ∧ pos ≤ p ∧ OccursAt s inn p ∧
      ∀ q, pos ≤ q → OccursAt s inn q → p ≤ q) ∨
    (forwards s pos inn = .ok (-1) ∧ ∀ q, pos ≤ q → ¬ OccursAt s inn q) :=
  forwards_spec s inn pos h

example : forwards (b!"ab") 1 (b!"abcabab") = .ok 3 ∧ forwards (b!"ab") 6 (b!"abcabab") = .ok (-1) := by
  simp [forwards, forwardsLoop, testHead, test, rd]

/-- Outside of that: the empty string is always found at the given position, and a negative position is
read unless the pattern cannot fit at all. -/
theorem C20_forwards_outside (s inn : Bytes) (pos : Int) :
    (s = [] → forwards s pos inn = .ok pos) ∧
    (s ≠ [] → pos < 0 → forwards s pos inn = if pos + s.length ≤ inn.length then .ub else .ok (-1)) := by
  constructor
  · rintro rfl; simp [forwards]
  · intro h hp
    unfold forwards
    rw [if_neg (by simpa using h), rd_ok (List.length_pos_iff.2 h)]
    simp only [Res.ok_bind]
    rw [if_pos hp]

/-- `occurs`/`contains` decide whether there is an occurrence. -/
theorem C20_occurs (what inn : Bytes) :
    ∃ b, occurs what inn = .ok b ∧ (b = true ↔ ∃ p, OccursAt what inn p) := by
  unfold occurs
  rcases forwards_spec what inn 0 (.inr (by omega)) with ⟨p, e, _, h, _⟩ | ⟨e, h⟩
  · rw [show ((0 : Nat) : Int) = 0 from rfl] at e
    rw [e]
    exact ⟨_, rfl, by simp only [decide_eq_true_eq]; exact ⟨fun _ => ⟨p, h⟩, fun _ => by omega⟩⟩
  · rw [show ((0 : Nat) : Int) = 0 from rfl] at e
    rw [e]
    refine ⟨_, rfl, ?_⟩
    simp only [decide_eq_true_eq]
    exact ⟨fun h => by omega, fun ⟨p, hp⟩ => absurd hp (h p (by omega))⟩

/-- `search_backwards (s, pos, in)` gives the greatest position up to `pos` where `s` occurs, or -1. -/
theorem C20_backwards (s inn : Bytes) (pos : Int) (h : s ≠ [] ∨ pos ≤ inn.length) :
    (∃ p : Nat, backwards s pos inn = .ok p ∧ p ≤ pos ∧ OccursAt s inn p ∧
      ∀ q : Nat, q ≤ pos → OccursAt s inn q → q ≤ p) ∨
    (backwards s pos inn = .ok (-1) ∧ ∀ q : Nat, q ≤ pos → ¬ OccursAt s inn q) := by
  unfold backwards
  rcases backwardsLoop_spec s inn (pos + 1).toNat (h.imp id (by omega)) with
    ⟨p, e, h1, h2, h3⟩ | ⟨e, h1⟩
  · exact .inl ⟨p, e, by omega, h2, fun q a b => h3 q (by omega) b⟩
  · exact .inr ⟨e, fun q a => h1 q (by omega)⟩

/-- `search_backwards (s, in)` gives the last occurrence. -/
theorem C20_backwards_end (s inn : Bytes) :
    (∃ p : Nat, backwardsEnd s inn = .ok p ∧ OccursAt s inn p ∧ ∀ q, OccursAt s inn q → q ≤ p) ∨
    (backwardsEnd s inn = .ok (-1) ∧ ∀ q, ¬ OccursAt s inn q) := by
  unfold backwardsEnd
  rcases C20_backwards s inn (inn.length - s.length) (.inr (by omega)) with ⟨p, e, h1, h2, h3⟩ | ⟨e, h1⟩
  · exact .inl ⟨p, e, h2, fun q hq => h3 q (by have := occursAt_bound hq; omega) hq⟩
  · exact .inr ⟨e, fun q hq => h1 q (by have := occursAt_bound hq; omega) hq⟩

example : backwardsEnd (b!"ab") (b!"abcabx") = .ok 3 ∧ backwardsEnd (b!"abcd") (b!"ab") = .ok (-1) := by
  decide

/-- `count_occurrences` counts the positions (below the length) where the pattern occurs, overlapping
ones included; `N (in) + 1` rounds of its loop suffice. -/
theorem C20_count (s inn : Bytes) (fuel : Nat) (hf : inn.length < fuel) :
    countOccurrences fuel s inn =
      .ok ((List.range inn.length).countP fun p => decide (OccursAt s inn p)) := by
  unfold countOccurrences
  have := countLoop_spec s inn fuel 0 0 (by omega) (by omega)
  rw [show ((0 : Nat) : Int) = 0 from rfl] at this
  rw [this, Nat.zero_add, Nat.sub_zero, List.range_eq_range']

/-- The list form gives the least position where some nonempty pattern occurs. If there is none it
returns -1 when no pattern is nonempty, and reads past the end of the string otherwise.
Missing for the full statement: that last case, see `C20_list_violated`. -/
theorem C20_list_partial (a : List Bytes) (inn : Bytes) (pos : Nat) :
    (pos ≤ inn.length →
      (∃ p, forwardsAny (rd inn) a pos inn = .ok (p : Nat) ∧ pos ≤ p ∧ AnyAt a inn p ∧
        ∀ q, pos ≤ q → AnyAt a inn q → p ≤ q) ∨
      (forwardsAny (rd inn) a pos inn = (if ∀ x ∈ a, x = [] then .ok (-1) else .ub) ∧
        ∀ q, pos ≤ q → ¬ AnyAt a inn q)) ∧
    (inn.length < pos → forwardsAny (rd inn) a pos inn = .ok (-1)) := by
  constructor
  · intro h
    rcases forwardsAny_spec a inn pos h with h | ⟨h1, h2⟩
    · exact .inl h
    · refine .inr ⟨?_, h2⟩
      rw [h1]
      by_cases he : a.all List.isEmpty = true
      · rw [if_pos he, if_pos (by simpa [List.all_eq_true] using he)]
      · rw [if_neg he, if_neg (by simpa [List.all_eq_true] using he)]
  · intro h
    rw [forwardsAny, if_neg (by omega)]

/-- Looking for "x" in the four bytes "abcd" reads the byte after the allocated block. -/
theorem C20_list_violated :
    (∃ s, Str.ofBytes (b!"abcd") = .ok s ∧ s.blk.map List.length = some 4 ∧
      forwardsAny (Str.get s) [b!"x"] 0 (b!"abcd") = .ub) ∧
    forwardsAny (rd (b!"abc")) [b!"x"] 0 (b!"abc") = .ub ∧
    ∀ q, ¬ AnyAt [b!"x"] (b!"abcd") q := by
  refine ⟨⟨_, rfl, by decide, ?_⟩, ?_, ?_⟩
  · simp [forwardsAny, anyAt, testHead, Str.get, rd, Str.new, Str.roundLength]
  · simp [forwardsAny, anyAt, testHead, rd]
  · rintro q ⟨x, hx, _, h⟩
    simp only [List.mem_cons, List.not_mem_nil, or_false] at hx
    subst hx
    have hb := occursAt_bound h
    simp only [List.length_cons, List.length_nil] at hb
    have : q = 0 ∨ q = 1 ∨ q = 2 ∨ q = 3 := by omega
    rcases this with rfl | rfl | rfl | rfl <;> revert h <;> decide

/-- `index_of` gives the first position of a byte or -1, and `contains (s, c)` decides whether it
occurs. -/
theorem C20_index_of (s : Bytes) (c : UInt8) :
    ((∃ p : Nat, indexOf s c = .ok p ∧ s[p]? = some c ∧ ∀ q, s[q]? = some c → p ≤ q) ∨
      (indexOf s c = .ok (-1) ∧ c ∉ s)) ∧
    containsC s c = .ok (decide (c ∈ s)) := by
  constructor
  · unfold indexOf
    rcases forRet_spec (lo := 0) (hi := s.length) (body := fun i => do
        let d ← rd s i
        .ok (if d = c then some (i : Int) else none))
        (f := fun i => if s[i]? = some c then some (i : Int) else none)
        (fun i _ hi => by rw [rd_ok hi]; simp [hi]) with ⟨e, h⟩ | ⟨i, r, _, hi, h1, h2, e⟩
    · right
      rw [e]
      refine ⟨rfl, fun hm => ?_⟩
      obtain ⟨k, hk, hke⟩ := List.mem_iff_getElem.1 hm
      have := h k (by omega) hk
      simp [hk, hke] at this
    · left
      rw [e]
      by_cases hs : s[i]? = some c
      · rw [if_pos hs] at h1
        simp only [Option.some.injEq] at h1
        refine ⟨i, by rw [← h1]; rfl, hs, fun q hq => ?_⟩
        refine Nat.le_of_not_lt fun hlt => ?_
        have := h2 q (by omega) hlt
        rw [if_pos hq] at this; simp at this
      · rw [if_neg hs] at h1; simp at h1
  · unfold containsC
    rcases forRet_spec (lo := 0) (hi := s.length) (body := fun i => do
        let d ← rd s i
        .ok (if d = c then some true else none))
        (f := fun i => if s[i]? = some c then some true else none)
        (fun i _ hi => by rw [rd_ok hi]; simp [hi]) with ⟨e, h⟩ | ⟨i, r, _, hi, h1, h2, e⟩
    · rw [e]
      have : c ∉ s := fun hm => by
        obtain ⟨k, hk, hke⟩ := List.mem_iff_getElem.1 hm
        have := h k (by omega) hk
        simp [hk, hke] at this
      simp [this]
    · rw [e]
      by_cases hs : s[i]? = some c
      · rw [if_pos hs] at h1
        simp only [Option.some.injEq] at h1
        have : c ∈ s := List.mem_of_getElem? hs
        simp [← h1, this]
      · rw [if_neg hs] at h1; simp at h1

/-! ## C21 and C22 -/

/-- C21: for a nonempty pattern `replace` ends after at most `N (s) + 1` rounds; its result joins the
pieces between the leftmost non-overlapping occurrences with the replacement. -/
theorem C21_replace (s what by_ : Bytes) (hw : what ≠ []) (fuel : Nat) (hf : s.length < fuel) :
    ∃ ps, replace fuel s what by_ = .ok (join by_ ps) ∧ Cuts what s ps := by
  have := replaceLoop_spec (by_ := by_) hw fuel 0 0 [] (by omega) (by omega) (by omega)
    (fun q _ h => by omega)
  simpa [replace] using this

/-- The pieces are determined by `s` and the pattern, and joined with the pattern they give `s`. -/
theorem C21_pieces {what s : Bytes} {ps qs : List Bytes} (h : Cuts what s ps) (h' : Cuts what s qs) :
    ps = qs ∧ join what ps = s := ⟨cuts_unique h h', cuts_join h⟩

/-- Replacing a string by itself changes nothing. -/
theorem C21_same (s what : Bytes) (hw : what ≠ []) (fuel : Nat) (hf : s.length < fuel) :
    replace fuel s what what = .ok s := by
  obtain ⟨ps, e, h⟩ := C21_replace s what what hw fuel hf
  rw [e, cuts_join h]

/-- An empty pattern makes `replace` run forever (unless `s` is empty). -/
theorem C21_empty_pattern (s by_ : Bytes) (hs : s ≠ []) (fuel : Nat) :
    replace fuel s [] by_ = .hang := by
  have : ∀ f i r, i < s.length → replaceLoop s [] by_ f i r = .hang := by
    intro f
    induction f with
    | zero => intro i r _; rfl
    | succ f ih =>
      intro i r hi
      rw [replaceLoop, if_pos hi, test]
      simpa using ih i (r ++ by_) hi
  exact this fuel 0 [] (List.length_pos_iff.2 hs)

example : replace 8 (b!"aaabaa") (b!"aa") (b!"X") = .ok (b!"XabX") := by decide

/-- C22: for a nonempty separator `tokenize` ends after at most `N (s) + 1` rounds and gives the pieces
between the leftmost non-overlapping occurrences; there is at least one, and `recompose` puts them
back together. -/
theorem C22_tokenize (s sep : Bytes) (hw : sep ≠ []) (fuel : Nat) (hf : s.length < fuel) :
    ∃ ps, tokenize fuel s sep = .ok ps ∧ ps ≠ [] ∧ Cuts sep s ps ∧ recompose ps sep = .ok s := by
  obtain ⟨ps, e, h⟩ := tokenLoop_spec hw fuel 0 0 [] (by omega) (by omega) (by omega)
    (fun q _ h => by omega)
  rw [List.drop_zero] at h
  exact ⟨ps, by simpa [tokenize] using e, cuts_ne_nil h, h, by rw [recompose_eq, cuts_join h]⟩

/-- No token contains the separator. -/
theorem C22_no_separator {s sep : Bytes} {ps : List Bytes} (hc : Cuts sep s ps) (p : Bytes) (hp : p ∈ ps)
    (hw : sep ≠ []) (q : Nat) : ¬ OccursAt sep p q := by
  induction hc with
  | last s h =>
    simp only [List.mem_cons, List.not_mem_nil, or_false] at hp
    subst hp; exact h q
  | cut x rest ps h _ ih =>
    rcases List.mem_cons.1 hp with rfl | hp
    · rintro ⟨a, b, e, rfl⟩
      have := List.length_pos_iff.2 hw
      have hl := congrArg List.length e
      simp only [List.length_append] at hl
      exact h a.length (by omega) ⟨a, b ++ sep ++ rest, by rw [e]; simp, rfl⟩
    · exact ih hp

/-- Splitting what `recompose` joined gives the tokens back, if no token creates an earlier occurrence
of the separator. -/
theorem C22_recompose (ps : List Bytes) (last sep : Bytes) (hw : sep ≠ [])
    (h : ∀ p ∈ ps, ∀ q, q < p.length → ¬ OccursAt sep (p ++ sep) q)
    (hl : ∀ q, ¬ OccursAt sep last q) (fuel : Nat) :
    ∃ s, recompose (ps ++ [last]) sep = .ok s ∧
      (s.length < fuel → tokenize fuel s sep = .ok (ps ++ [last])) := by
  refine ⟨_, recompose_eq _ _, fun hf => ?_⟩
  obtain ⟨qs, e, _, hc, _⟩ := C22_tokenize _ sep hw fuel hf
  rw [e, cuts_unique hc (cuts_of_pieces ps last h hl)]

/-- An empty separator makes `tokenize` run forever (unless `s` is empty). -/
theorem C22_empty_separator (s : Bytes) (hs : s ≠ []) (fuel : Nat) : tokenize fuel s [] = .hang := by
  have : ∀ f i st a, i < s.length → tokenLoop s [] f i st a = .hang := by
    intro f
    induction f with
    | zero => intros; rfl
    | succ f ih =>
      intro i st a hi
      rw [tokenLoop, if_pos hi, test]
      simpa using ih i i _ hi
  exact this fuel 0 0 [] (List.length_pos_iff.2 hs)

/-- `replace` is `tokenize` followed by `recompose` with the replacement. -/
theorem C22_replace (s what by_ : Bytes) (hw : what ≠ []) (fuel : Nat) (hf : s.length < fuel) :
    ∃ ps, tokenize fuel s what = .ok ps ∧ recompose ps by_ = replace fuel s what by_ := by
  obtain ⟨ps, e, _, h, _⟩ := C22_tokenize s what hw fuel hf
  obtain ⟨qs, e', h'⟩ := C21_replace s what by_ hw fuel hf
  exact ⟨ps, e, by rw [recompose_eq, e', cuts_unique h h']⟩

example : tokenize 9 (b!"a::b:::c") (b!"::") = .ok [b!"a", b!"b", b!":c"] ∧
    recompose [b!"a", b!"b", b!":c"] (b!"::") = .ok (b!"a::b:::c") := by decide

/-! ## C23 -/

/-- C23: `match_wildcard (s, w)` holds exactly when `s` is `w` with every '*' replaced by some string;
the recursion depth is at most `N (w) + 1`, and no byte outside of the strings is read. -/
theorem C23_match_wildcard (s w : Bytes) (fuel : Nat) (hf : w.length < fuel) :
    ∃ b, matchWildcard fuel s w = .ok b ∧ (b = true ↔ Wild s w) := by
  simpa [matchWildcard] using matchWild_spec s w fuel 0 0 (by omega) (by omega) (by omega)

example : Wild (b!"main.cpp") (b!"m*.c*") := by
  refine .char _ _ _ (by decide) (.star (b!"ain") (b!".cpp") _ (.char _ _ _ (by decide)
    (.char _ _ _ (by decide) (.star (b!"pp") [] _ .nil))))

example : ¬ Wild (b!"ab") (b!"a") := by
  intro h
  obtain ⟨b, e, hb⟩ := C23_match_wildcard (b!"ab") (b!"a") 2 (by decide)
  rw [hb.2 h] at e
  exact absurd e (by decide)

/-! ## C24 -/

theorem dropWhile_space (s : Bytes) : ∃ p, s = p ++ s.dropWhile isSpace ∧ (∀ c ∈ p, Space c) ∧
    ∀ c r, s.dropWhile isSpace = c :: r → ¬ Space c := by
  induction s with
  | nil => exact ⟨[], rfl, fun _ h => by simp at h, fun _ _ h => by simp at h⟩
  | cons c s ih =>
    rw [List.dropWhile_cons]
    cases hc : isSpace c with
    | true =>
      obtain ⟨p, h1, h2, h3⟩ := ih
      refine ⟨c :: p, by simpa using h1, fun d hd => ?_, by simpa using h3⟩
      rcases List.mem_cons.1 hd with rfl | hd
      · exact isSpace_iff.1 hc
      · exact h2 d hd
    | false =>
      refine ⟨[], by simp, fun _ h => by simp at h, fun d r h => ?_⟩
      simp at h
      rw [← h.1]
      intro hs; rw [isSpace_iff.2 hs] at hc; simp at hc

/-- `trim_spaces_left` removes the longest prefix of white space. -/
theorem C24_left (s : Bytes) : ∃ p r, trimLeft s = .ok r ∧ s = p ++ r ∧ (∀ c ∈ p, Space c) ∧
    ∀ c r', r = c :: r' → ¬ Space c := by
  obtain ⟨p, h1, h2, h3⟩ := dropWhile_space s
  exact ⟨p, _, trimLeft_eq s, h1, h2, h3⟩

/-- `trim_spaces_right` removes the longest suffix of white space. -/
theorem C24_right (s : Bytes) : ∃ r p, trimRight s = .ok r ∧ s = r ++ p ∧ (∀ c ∈ p, Space c) ∧
    ∀ c r', r = r' ++ [c] → ¬ Space c := by
  obtain ⟨j, e, h1, h2, h3⟩ := spaceStart_spec s s.length (Nat.le_refl _)
  refine ⟨s.take j, s.drop j, ?_, (List.take_append_drop j s).symm, ?_, ?_⟩
  · unfold trimRight; rw [e]; simp only [Res.ok_bind]; rw [sub_from_zero]
  · intro c hc
    obtain ⟨k, hk, rfl⟩ := List.mem_iff_getElem.1 hc
    rw [List.length_drop] at hk
    rw [List.getElem_drop]
    exact isSpace_iff.1 (h2 (j + k) (by omega) (by omega) (by omega))
  · intro c r' hr hs
    have hl := congrArg List.length hr
    simp only [List.length_take, List.length_append, List.length_cons, List.length_nil] at hl
    have := h3 (by omega) (by omega)
    have e2 : s[j - 1]'(by omega) = c := by
      have : (s.take j)[j - 1]'(by rw [List.length_take]; omega) = c := by
        simp only [hr]
        rw [List.getElem_append_right (by omega)]; simp
      rw [← this, List.getElem_take]
    rw [e2, isSpace_iff.2 hs] at this; simp at this

theorem trim_unique_left {s p r q t : Bytes} (h1 : s = p ++ r) (h2 : ∀ c ∈ p, Space c)
    (h3 : ∀ c r', r = c :: r' → ¬ Space c) (h4 : s = q ++ t) (h5 : ∀ c ∈ q, Space c)
    (h6 : ∀ c r', t = c :: r' → ¬ Space c) : r = t := by
  subst h1
  induction p generalizing q with
  | nil =>
    cases q with
    | nil => simpa using h4
    | cons d q =>
      exfalso
      exact h3 d (q ++ t) (by simpa using h4) (h5 d (by simp))
  | cons c p ih =>
    cases q with
    | nil =>
      exfalso
      exact h6 c (p ++ r) (by simpa using h4.symm) (h2 c (by simp))
    | cons d q =>
      simp only [List.cons_append, List.cons.injEq] at h4
      exact ih (q := q) (fun x hx => h2 x (by simp [hx])) (fun x hx => h5 x (by simp [hx])) h4.2

/-- A string splits as white space, trimmed part, white space. -/
def Trimmed (s r : Bytes) : Prop :=
  ∃ p q, s = p ++ r ++ q ∧ (∀ c ∈ p, Space c) ∧ (∀ c ∈ q, Space c) ∧
    (∀ c r', r = c :: r' → ¬ Space c) ∧ (∀ c r', r = r' ++ [c] → ¬ Space c)

/-- The trimmed part is determined by the string. -/
theorem C24_unique {s r t : Bytes} (h : Trimmed s r) (h' : Trimmed s t) : r = t := by
  obtain ⟨p, q, e, hp, hq, h1, h2⟩ := h
  obtain ⟨p', q', e', hp', hq', h1', h2'⟩ := h'
  have rev : ∀ {x y : Bytes}, (∀ c ∈ x, Space c) → (∀ c ∈ x.reverse, Space c) := by
    intro x y h c hc; exact h c (by simpa using hc)
  have headNotSpace : ∀ {r q : Bytes}, (∀ c ∈ q, Space c) → (∀ c r', r = c :: r' → ¬ Space c) →
      r ≠ [] → ∀ c r', r ++ q = c :: r' → ¬ Space c := by
    intro r q _ h hne c r' hc
    cases r with
    | nil => exact absurd rfl hne
    | cons d r => simp only [List.cons_append, List.cons.injEq] at hc; rw [← hc.1]; exact h d r rfl
  have allSpace : ∀ {r p q p' r' q' : Bytes}, r = [] → p ++ r ++ q = p' ++ r' ++ q' →
      (∀ c ∈ p, Space c) → (∀ c ∈ q, Space c) → (∀ c s, r' = c :: s → ¬ Space c) → r' = [] := by
    intro r p q p' r' q' hr hs hp hq h
    cases r' with
    | nil => rfl
    | cons c r' =>
      exfalso
      refine h c r' rfl ?_
      have : c ∈ p ++ q := by
        subst hr; rw [List.append_nil] at hs; rw [hs]; simp
      rcases List.mem_append.1 this with h | h
      · exact hp c h
      · exact hq c h
  by_cases hr : r = []
  · rw [hr, allSpace hr (e.symm.trans e') hp hq h1']
  · by_cases ht : t = []
    · exact absurd (allSpace ht (e'.symm.trans e) hp' hq' h1) hr
    · have e1 : r ++ q = t ++ q' := trim_unique_left (s := s) (by rw [e]; simp) hp
        (headNotSpace hq h1 hr) (by rw [e']; simp) hp' (headNotSpace hq' h1' ht)
      have e2 : r.reverse = t.reverse := by
        refine trim_unique_left (s := (r ++ q).reverse) (p := q.reverse) (q := q'.reverse) (by simp)
          (rev (y := []) hq) (fun c r' h => ?_) (by rw [e1]; simp) (rev (y := []) hq') (fun c r' h => ?_)
        · exact h2 c r'.reverse (by rw [← List.reverse_reverse r, h]; simp)
        · exact h2' c r'.reverse (by rw [← List.reverse_reverse t, h]; simp)
      simpa using e2

/-- `trim_spaces` removes the white space at both ends, in either order, and trimming again changes
nothing. -/
theorem C24_trim (s : Bytes) : ∃ r, trim s = .ok r ∧ Trimmed s r ∧ trim r = .ok r ∧
    (∃ l, trimLeft s = .ok l ∧ trimRight l = .ok r) := by
  have main : ∀ s, ∃ r, trim s = .ok r ∧ Trimmed s r := by
    intro s
    obtain ⟨r, q, e1, h1, h2, h3⟩ := C24_right s
    obtain ⟨p, t, e2, h4, h5, h6⟩ := C24_left r
    refine ⟨t, by unfold trim; rw [e1]; exact e2, p, q, by rw [h1, h4], h5, h2, h6, ?_⟩
    rintro c r' rfl
    exact h3 c (p ++ r') (by rw [h4]; simp)
  obtain ⟨r, e, h⟩ := main s
  refine ⟨r, e, h, ?_, ?_⟩
  · obtain ⟨r', e', h'⟩ := main r
    rw [e']
    obtain ⟨p, q, _, _, _, h1, h2⟩ := h
    rw [C24_unique h' ⟨[], [], by simp, fun _ h => by simp at h, fun _ h => by simp at h, h1, h2⟩]
  · obtain ⟨p, l, e1, h1, h2, h3⟩ := C24_left s
    obtain ⟨t, q, e2, h4, h5, h6⟩ := C24_right l
    refine ⟨l, e1, ?_⟩
    rw [e2]
    refine congrArg Res.ok (C24_unique ⟨p, q, by rw [h1, h4]; simp, h2, h5, ?_, h6⟩ h)
    rintro c r' rfl
    exact h3 c (r' ++ q) (by rw [h4]; simp)

/-- `trim_spaces` on an array trims every entry. -/
theorem C24_array (a : List Bytes) : ∃ b, trimAll a = .ok b ∧ b.length = a.length ∧
    ∀ i (h : i < a.length) (h' : i < b.length), Trimmed a[i] b[i] := by
  obtain ⟨b, e, hl, hb⟩ := forUp_spec (lo := 0) (hi := a.length)
    (s := List.replicate a.length ([] : Bytes))
    (body := fun i b => do
      let x ← rd a i
      let y ← trim x
      wr b i y)
    (fun i b => b.length = a.length ∧ ∀ j (h : j < a.length) (h' : j < b.length), j < i →
      Trimmed a[j] b[j]) (by omega) ⟨by simp, fun _ _ _ h => by omega⟩
    (fun i b _ hi ⟨hl, hb⟩ => by
      obtain ⟨r, er, hr, _⟩ := C24_trim a[i]
      rw [rd_ok hi]
      simp only [Res.ok_bind, er]
      rw [wr_ok (by omega)]
      refine ⟨_, rfl, by simpa using hl, fun j h h' hj => ?_⟩
      by_cases hij : i = j
      · subst hij; simpa using hr
      · rw [List.getElem_set_ne hij]
        exact hb j h (by simpa using h') (by omega))
  exact ⟨b, e, hl, fun i h h' => hb i h h' h⟩

example : trim (b!" \t a b \r\n") = .ok (b!"a b") ∧ trim (b!"  ") = .ok [] := by
  simp only [trim, trimLeft_eq]
  decide

/-! ## C25 -/

theorem expand_mod (w : Nat) (s : Bytes) (a b : Nat) (h : a % w = b % w) :
    expand w a s = expand w b s := by
  induction s generalizing a b with
  | nil => rfl
  | cons c s ih =>
    rw [expand, expand, h]
    have e1 := ih (a + (w - b % w)) (b + (w - b % w)) (by rw [Nat.add_mod, h, ← Nat.add_mod])
    have e2 := ih (a + 1) (b + 1) (mod_step h)
    rw [e1, e2]

/-- C25: for a positive tab width, `convert_tabs_to_spaces` moves every byte to the column given by tab
stops at the multiples of the width. -/
theorem C25_expand (s : Bytes) (w : Nat) (hw : 0 < w) : tabsToSpaces s w = .ok (expand w 0 s) := by
  obtain ⟨⟨ts, r⟩, e, hts, h⟩ := forUp_spec (lo := 0) (hi := s.length) (s := ((0 : Nat), ([] : Bytes)))
    (body := fun i (ts, r) => do
      let c ← rd s i
      if c = 9 then
        if (w : Int) ≤ 0 then .ub
        else .ok (i + 1, r ++ List.replicate ((w : Int) - ((i - ts : Nat) : Int).tmod w).toNat (c! ' '))
      else if c = 10 then .ok (i + 1, r ++ [c])
      else .ok (ts, r ++ [c]))
    (fun i (st : Nat × Bytes) => st.1 ≤ i ∧ st.2 ++ expand w (i - st.1) (s.drop i) = expand w 0 s)
    (by omega) ⟨by simp, by simp⟩
    (fun i ⟨ts, r⟩ _ hi ⟨hts, h⟩ => by
      rw [rd_ok hi]
      simp only [Res.ok_bind]
      simp only [List.drop_eq_getElem_cons hi, expand] at h
      by_cases h9 : s[i] = 9
      · rw [if_pos h9, if_neg (by omega)]
        refine ⟨_, rfl, Nat.le_refl _, ?_⟩
        rw [if_pos h9] at h
        rw [← h, ← List.append_assoc]
        have e1 : ((w : Int) - ((i - ts : Nat) : Int).tmod w).toNat = w - (i - ts) % w := by
          rw [show ((i - ts : Nat) : Int).tmod w = ((i - ts) % w : Nat) from rfl]; omega
        rw [e1, show i + 1 - (i + 1) = 0 by omega,
          expand_mod w _ 0 (i - ts + (w - (i - ts) % w)) (by rw [tab_col hw, Nat.zero_mod])]
      · rw [if_neg h9] at h ⊢
        by_cases h10 : s[i] = 10
        · rw [if_pos h10] at h ⊢
          refine ⟨_, rfl, Nat.le_refl _, ?_⟩
          rw [← h, show i + 1 - (i + 1) = 0 by omega]; simp
        · rw [if_neg h10] at h ⊢
          refine ⟨_, rfl, by dsimp only at hts ⊢; omega, ?_⟩
          dsimp only at hts ⊢
          rw [← h, show i + 1 - ts = i - ts + 1 by omega]; simp)
  rw [List.drop_length, expand, List.append_nil] at h
  unfold tabsToSpaces
  refine (congrArg (· >>= fun (p : Nat × Bytes) => Res.ok p.2) e).trans ?_
  simp only [Res.ok_bind]
  exact congrArg Res.ok h

/-- The result has no tab, its newlines are those of the string, and without its blanks it is the
string without blanks and tabs. -/
theorem C25_shape (s : Bytes) (w : Nat) (col : Nat) :
    (9 : UInt8) ∉ expand w col s ∧
    (expand w col s).filter (· == 10) = s.filter (· == 10) ∧
    (expand w col s).filter (· != 32) = s.filter (fun c => c != 32 && c != 9) := by
  induction s generalizing col with
  | nil => simp [expand]
  | cons c s ih =>
    rw [expand]
    by_cases h9 : c = 9
    · subst h9
      obtain ⟨i1, i2, i3⟩ := ih (col + (w - col % w))
      simp [i1, i2, i3, List.filter_append]
    · rw [if_neg h9]
      by_cases h10 : c = 10
      · subst h10
        obtain ⟨i1, i2, i3⟩ := ih 0
        simp [i1, i2, i3]
      · rw [if_neg h10]
        obtain ⟨i1, i2, i3⟩ := ih (col + 1)
        refine ⟨by simp [i1, Ne.symm h9], ?_, ?_⟩
        · simp [h10, i2]
        · by_cases h32 : c = 32
          · subst h32; simp [i3]
          · simp [h32, h9, i3]

/-- A tab width that is not positive is undefined as soon as there is a tab. -/
theorem C25_width (s : Bytes) (w : Int) (hw : w ≤ 0) (h : (9 : UInt8) ∈ s) : tabsToSpaces s w = .ub := by
  unfold tabsToSpaces
  suffices ∀ k i st, i + k = s.length → (9 : UInt8) ∈ s.drop i →
      forN (fun i (st : Nat × Bytes) => match st with
        | (ts, r) => do
          let c ← rd s i
          if c = 9 then
            if w ≤ 0 then .ub
            else .ok (i + 1, r ++ List.replicate (w - ((i - ts : Nat) : Int).tmod w).toNat (c! ' '))
          else if c = 10 then .ok (i + 1, r ++ [c])
          else .ok (ts, r ++ [c])) k i st = .ub by
    have := this s.length 0 (0, []) (by omega) (by simpa using h)
    unfold forUp
    rw [Nat.sub_zero]
    exact congrArg (· >>= fun (p : Nat × Bytes) => Res.ok p.2) this
  intro k
  induction k with
  | zero => intro i st hi hm; rw [List.drop_of_length_le (by omega)] at hm; simp at hm
  | succ k ih =>
    rintro i ⟨ts, r⟩ hi hm
    have hi' : i < s.length := by omega
    rw [forN]
    simp only [rd_ok hi', Res.ok_bind]
    rw [List.drop_eq_getElem_cons hi'] at hm
    by_cases h9 : s[i] = 9
    · rw [if_pos h9, if_pos hw]; rfl
    · rw [if_neg h9]
      have hm' : (9 : UInt8) ∈ s.drop (i + 1) := by
        rcases List.mem_cons.1 hm with h | h
        · exact absurd h.symm h9
        · exact h
      by_cases h10 : s[i] = 10
      · rw [if_pos h10]; exact ih _ _ (by omega) hm'
      · rw [if_neg h10]; exact ih _ _ (by omega) hm'

example : tabsToSpaces (b!"ab\tc\td\n\te") 4 = .ok (b!"ab  c   d\n    e") := by decide

/-! ## C27 -/

/-- `overlapping` is the length of the longest string that is a suffix of the first argument and a
prefix of the second one. -/
theorem C27_overlapping (s1 s2 : Bytes) :
    (∃ x, x <:+ s1 ∧ x <+: s2 ∧ x.length = overlapping s1 s2) ∧
    ∀ x, x <:+ s1 → x <+: s2 → x.length ≤ overlapping s1 s2 := by
  have sub1 : ∀ i, i ≤ s1.length → sub s1 (s1.length - (i : Nat)) s1.length = s1.drop (s1.length - i) := by
    intro i hi
    rw [show ((s1.length : Int) - (i : Nat)) = ((s1.length - i : Nat) : Int) by omega, sub_to_end]
  have main : ∀ k, k ≤ min s1.length s2.length →
      (∃ x, x <:+ s1 ∧ x <+: s2 ∧ x.length = overlapLoop s1 s2 k) ∧
      ∀ x, x <:+ s1 → x <+: s2 → x.length ≤ k → x.length ≤ overlapLoop s1 s2 k := by
    intro k
    induction k with
    | zero => intro _; exact ⟨⟨[], List.nil_suffix, List.nil_prefix, rfl⟩, fun x _ _ h => h⟩
    | succ k ih =>
      intro hk
      obtain ⟨i1, i2⟩ := ih (by omega)
      rw [overlapLoop, sub1 (k + 1) (by omega), sub_from_zero]
      by_cases h : s1.drop (s1.length - (k + 1)) = s2.take (k + 1)
      · rw [if_pos (by simpa using h)]
        refine ⟨⟨s2.take (k + 1), ?_, List.take_prefix _ _, by rw [List.length_take]; omega⟩,
          fun x _ _ h => h⟩
        rw [← h]; exact List.drop_suffix _ _
      · rw [if_neg (by simpa using h)]
        refine ⟨i1, fun x h1 h2 h3 => ?_⟩
        by_cases hx : x.length ≤ k
        · exact i2 x h1 h2 hx
        · exfalso
          have hl : x.length = k + 1 := by omega
          refine h ?_
          rw [← hl, ← List.suffix_iff_eq_drop.1 h1, ← List.prefix_iff_eq_take.1 h2]
  obtain ⟨m1, m2⟩ := main _ (Nat.le_refl _)
  refine ⟨m1, fun x h1 h2 => m2 x h1 h2 ?_⟩
  have := h1.length_le
  have := h2.length_le
  omega

/-- `starts` and `ends` decide prefix and suffix. -/
theorem C27_starts_ends (s x : Bytes) :
    (∃ b, starts s x = .ok b ∧ (b = true ↔ x <+: s)) ∧ (ends s x = true ↔ x <:+ s) := by
  constructor
  · exact ⟨_, test_eq s x 0, by rw [List.drop_zero, List.isPrefixOf_iff_prefix]⟩
  · unfold ends
    by_cases h : x.length > s.length
    · rw [if_pos h]
      exact ⟨fun h => by simp at h, fun h' => by have := h'.length_le; omega⟩
    · rw [if_neg h, show ((s.length : Int) - x.length) = ((s.length - x.length : Nat) : Int) by omega,
        sub_to_end, beq_iff_eq, List.suffix_iff_eq_drop]
      exact eq_comm

/-- `test (s, i, x)` decides whether `x` stands at position `i` of `s`. -/
theorem C27_test (s x : Bytes) (i : Nat) (h : x ≠ [] ∨ i ≤ s.length) :
    ∃ b, test s i x = .ok b ∧ (b = true ↔ OccursAt x s i) :=
  ⟨_, test_eq s x i, prefix_iff h⟩

/-- `remove_prefix` and `remove_suffix` remove the given part if it is there, and change nothing
otherwise. -/
theorem C27_remove (s x : Bytes) :
    (∀ r, s = x ++ r → removePrefix s x = .ok r) ∧ (¬ x <+: s → removePrefix s x = .ok s) ∧
    (∀ r, s = r ++ x → removeSuffix s x = r) ∧ (¬ x <:+ s → removeSuffix s x = s) := by
  obtain ⟨⟨b, eb, hb⟩, he⟩ := C27_starts_ends s x
  refine ⟨fun r hr => ?_, fun hn => ?_, fun r hr => ?_, fun hn => ?_⟩
  · unfold removePrefix
    by_cases h : s.length = 0 ∨ x.length = 0
    · rw [if_pos h]
      rcases h with h | h
      · have : s = [] := by simpa using h
        rw [this] at hr
        have := List.append_eq_nil_iff.1 hr.symm
        rw [‹s = []›, this.2]
      · have : x = [] := by simpa using h
        rw [hr, this]; rfl
    · have hbt : b = true := hb.2 ⟨r, hr.symm⟩
      rw [if_neg h, eb, hbt]
      simp only [Res.ok_bind, if_true]
      rw [sub_to_end, hr, List.drop_left]
  · unfold removePrefix
    by_cases h : s.length = 0 ∨ x.length = 0
    · rw [if_pos h]
    · rw [if_neg h, eb]
      have : b = false := by
        cases b with
        | false => rfl
        | true => exact absurd (hb.1 rfl) hn
      rw [this]; rfl
  · unfold removeSuffix
    by_cases h : s.length = 0 ∨ x.length = 0
    · rw [if_pos h]
      rcases h with h | h
      · have h' : s = [] := by simpa using h
        rw [h'] at hr
        have := List.append_eq_nil_iff.1 hr.symm
        rw [h', this.1]
      · have : x = [] := by simpa using h
        rw [hr, this]; simp
    · have hbt : ends s x = true := he.2 ⟨r, hr.symm⟩
      rw [if_neg h, if_pos hbt, hr]
      rw [show (((r ++ x).length : Int) - x.length) = (r.length : Nat) by simp,
        sub_from_zero, List.take_left]
  · unfold removeSuffix
    by_cases h : s.length = 0 ∨ x.length = 0
    · rw [if_pos h]
    · rw [if_neg h, if_neg (fun h' => hn (he.1 h'))]

example : overlapping (b!"xabab") (b!"ababy") = 4 ∧ removeSuffix (b!"a.tm") (b!".tm") = b!"a" := by decide

end Lolly.SearchProps
