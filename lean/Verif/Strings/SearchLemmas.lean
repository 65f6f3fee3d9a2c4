import Verif.Strings.Search
import Verif.Strings.SearchSpec

/-!
# Lemmas on searching, replacing and splitting
-/

set_option autoImplicit false

namespace Lolly.An

theorem sub_nat (s : Bytes) (b e : Nat) : sub s b e = (s.take e).drop b := by simp [sub]

theorem sub_to_end (s : Bytes) (b : Nat) : sub s b s.length = s.drop b := by
  rw [sub_nat, List.take_length]

theorem sub_from_zero (s : Bytes) (e : Nat) : sub s 0 e = s.take e := by
  simp [sub]

theorem test_eq (s t : Bytes) (i : Nat) : test s i t = .ok (t.isPrefixOf (s.drop i)) := by
  induction t generalizing i with
  | nil => simp [test]
  | cons c t ih =>
    rw [test]
    by_cases h : i ≥ s.length
    · rw [if_pos h, List.drop_of_length_le h]; rfl
    · have h' : i < s.length := by omega
      rw [if_neg h, rd_ok h', List.drop_eq_getElem_cons h']
      simp only [Res.ok_bind, List.isPrefixOf]
      by_cases hc : s[i] = c
      · rw [if_neg (by simpa using hc), ih]; simp [hc]
      · rw [if_pos hc]
        have : (c == s[i]) = false := by simpa using fun e => hc e.symm
        rw [this]; rfl

theorem occursAt_iff {what s : Bytes} {p : Nat} :
    OccursAt what s p ↔ p ≤ s.length ∧ what <+: s.drop p := by
  constructor
  · rintro ⟨a, b, rfl, rfl⟩
    refine ⟨by simp, b, ?_⟩
    simp
  · rintro ⟨h, b, hb⟩
    exact ⟨s.take p, b, by rw [List.append_assoc, hb, List.take_append_drop], by simp; omega⟩

theorem occursAt_bound {what s : Bytes} {p : Nat} (h : OccursAt what s p) :
    p + what.length ≤ s.length := by
  obtain ⟨a, b, rfl, rfl⟩ := h; simp

theorem prefix_iff {what s : Bytes} {p : Nat} (h : what ≠ [] ∨ p ≤ s.length) :
    what.isPrefixOf (s.drop p) = true ↔ OccursAt what s p := by
  rw [List.isPrefixOf_iff_prefix, occursAt_iff]
  constructor
  · intro hp
    refine ⟨?_, hp⟩
    rcases h with h | h
    · refine Classical.byContradiction fun hn => ?_
      rw [List.drop_of_length_le (by omega)] at hp
      exact h (List.prefix_nil.1 hp)
    · exact h
  · exact fun h => h.2

instance (what s : Bytes) (p : Nat) : Decidable (OccursAt what s p) :=
  decidable_of_iff (p ≤ s.length ∧ what.isPrefixOf (s.drop p) = true) (by
    rw [occursAt_iff, List.isPrefixOf_iff_prefix])

theorem occursAt_drop {what s : Bytes} {i p : Nat} (hi : i ≤ s.length) :
    OccursAt what (s.drop i) p ↔ OccursAt what s (i + p) := by
  rw [occursAt_iff, occursAt_iff, List.drop_drop, List.length_drop]
  constructor
  · rintro ⟨h1, h2⟩; exact ⟨by omega, h2⟩
  · rintro ⟨h1, h2⟩; exact ⟨by omega, h2⟩

/-! ## Forward search -/

theorem head_test {s inn : Bytes} {c : UInt8} {t : Bytes} (hs : s = c :: t) {pos : Nat}
    (h : pos < inn.length) :
    testHead (rd inn) inn pos c s = .ok (s.isPrefixOf (inn.drop pos)) := by
  rw [testHead, rd_ok h]
  simp only [Res.ok_bind]
  by_cases hd : inn[pos] = c
  · rw [if_pos hd, test_eq]
  · rw [if_neg hd, List.drop_eq_getElem_cons h, hs, List.isPrefixOf]
    have : (c == inn[pos]) = false := by simpa using fun e => hd e.symm
    rw [this]; rfl

theorem forwardsLoop_spec {s : Bytes} {c : UInt8} {t : Bytes} (hs : s = c :: t) (inn : Bytes) (pos : Nat) :
    (∃ p, forwardsLoop s c inn pos = .ok (p : Nat) ∧ pos ≤ p ∧ OccursAt s inn p ∧
      ∀ q, pos ≤ q → OccursAt s inn q → p ≤ q) ∨
    (forwardsLoop s c inn pos = .ok (-1) ∧ ∀ q, pos ≤ q → ¬ OccursAt s inn q) := by
  induction hk : inn.length + 1 - pos generalizing pos with
  | zero =>
    right
    rw [forwardsLoop, if_neg (by omega)]
    exact ⟨rfl, fun q h1 h2 => by have := occursAt_bound h2; omega⟩
  | succ k ih =>
    rw [forwardsLoop]
    by_cases h : pos + s.length ≤ inn.length
    · rw [if_pos h]
      have hlen : s.length = t.length + 1 := by rw [hs]; rfl
      have hp : pos < inn.length := by omega
      rw [head_test hs hp]
      simp only [Res.ok_bind]
      cases hb : s.isPrefixOf (inn.drop pos) with
      | true =>
        left
        exact ⟨pos, rfl, Nat.le_refl _, (prefix_iff (.inr (by omega))).1 hb, fun q h _ => h⟩
      | false =>
        have hno : ¬ OccursAt s inn pos := fun ho => by
          rw [(prefix_iff (.inr (by omega))).2 ho] at hb; exact absurd hb (by simp)
        have step : ∀ q, pos ≤ q → OccursAt s inn q → pos + 1 ≤ q := by
          intro q h1 h2
          rcases Nat.lt_or_eq_of_le h1 with h3 | h3
          · exact h3
          · subst h3; exact absurd h2 hno
        rcases ih (pos + 1) (by omega) with ⟨p, e1, h1, h2, h3⟩ | ⟨e1, h1⟩
        · left; exact ⟨p, by simpa using e1, by omega, h2, fun q a b => h3 q (step q a b) b⟩
        · right; exact ⟨by simpa using e1, fun q a b => h1 q (step q a b) b⟩
    · rw [if_neg h]
      right
      exact ⟨rfl, fun q h1 h2 => by have := occursAt_bound h2; omega⟩

theorem forwards_spec (s inn : Bytes) (pos : Nat) (h : s ≠ [] ∨ pos ≤ inn.length) :
    (∃ p : Nat, forwards s pos inn = .ok p ∧ pos ≤ p ∧ OccursAt s inn p ∧
      ∀ q, pos ≤ q → OccursAt s inn q → p ≤ q) ∨
    (forwards s pos inn = .ok (-1) ∧ ∀ q, pos ≤ q → ¬ OccursAt s inn q) := by
  unfold forwards
  cases s with
  | nil =>
    left
    refine ⟨pos, by simp, Nat.le_refl _, ?_, fun q h _ => h⟩
    rw [occursAt_iff]
    exact ⟨by simpa using h, by simp⟩
  | cons c t =>
    rw [if_neg (by simp), rd_ok (by simp)]
    simp only [Res.ok_bind, List.getElem_cons_zero]
    rw [if_neg (by omega)]
    simpa using forwardsLoop_spec (s := c :: t) rfl inn pos

/-! ## Several patterns -/

theorem anyAt_spec {inn : Bytes} {pos : Nat} (h : pos < inn.length) (a : List Bytes) :
    anyAt (rd inn) inn pos a = .ok (a.any fun p => !p.isEmpty && p.isPrefixOf (inn.drop pos)) := by
  induction a with
  | nil => rfl
  | cons p a ih =>
    cases p with
    | nil => rw [anyAt, ih]; simp
    | cons c t =>
      rw [anyAt, head_test (s := c :: t) rfl h]
      simp only [Res.ok_bind]
      cases hb : (c :: t).isPrefixOf (inn.drop pos) with
      | true => simp [hb]
      | false => simp only [Bool.false_eq_true, if_false, ih]; simp [hb]

theorem anyAt_end {inn : Bytes} (a : List Bytes) :
    anyAt (rd inn) inn inn.length a = if a.all List.isEmpty then .ok false else .ub := by
  induction a with
  | nil => rfl
  | cons p a ih =>
    cases p with
    | nil => rw [anyAt, ih]; simp
    | cons c t => rw [anyAt, testHead, rd_ub (by omega)]; simp

theorem anyAt_iff {a : List Bytes} {inn : Bytes} {p : Nat} :
    (a.any fun x => !x.isEmpty && x.isPrefixOf (inn.drop p)) = true ↔ AnyAt a inn p := by
  simp only [List.any_eq_true, Bool.and_eq_true, Bool.not_eq_true', List.isEmpty_eq_false_iff, AnyAt]
  constructor
  · rintro ⟨x, h1, h2, h3⟩; exact ⟨x, h1, h2, (prefix_iff (.inl h2)).1 h3⟩
  · rintro ⟨x, h1, h2, h3⟩; exact ⟨x, h1, h2, (prefix_iff (.inl h2)).2 h3⟩

theorem anyAt_bound {a : List Bytes} {inn : Bytes} {p : Nat} (h : AnyAt a inn p) : p < inn.length := by
  obtain ⟨x, _, h1, h2⟩ := h
  have := occursAt_bound h2
  have := List.length_pos_iff.2 h1
  omega

theorem forwardsAny_spec (a : List Bytes) (inn : Bytes) (pos : Nat) (hp : pos ≤ inn.length) :
    (∃ p, forwardsAny (rd inn) a pos inn = .ok (p : Nat) ∧ pos ≤ p ∧ AnyAt a inn p ∧
      ∀ q, pos ≤ q → AnyAt a inn q → p ≤ q) ∨
    (forwardsAny (rd inn) a pos inn = (if a.all List.isEmpty then .ok (-1) else .ub) ∧
      ∀ q, pos ≤ q → ¬ AnyAt a inn q) := by
  induction hk : inn.length - pos generalizing pos with
  | zero =>
    obtain rfl : pos = inn.length := by omega
    right
    rw [forwardsAny, if_pos hp, anyAt_end]
    refine ⟨?_, fun q h1 h2 => by have := anyAt_bound h2; omega⟩
    by_cases he : a.all List.isEmpty = true
    · rw [if_pos he, if_pos he]
      simp only [Res.ok_bind, Bool.false_eq_true, if_false]
      rw [forwardsAny, if_neg (by omega)]
    · rw [if_neg he, if_neg he]; rfl
  | succ k ih =>
    rw [forwardsAny, if_pos hp, anyAt_spec (by omega)]
    simp only [Res.ok_bind]
    cases hb : a.any fun x => !x.isEmpty && x.isPrefixOf (inn.drop pos) with
    | true => left; exact ⟨pos, rfl, Nat.le_refl _, anyAt_iff.1 hb, fun q h _ => h⟩
    | false =>
      have hno : ¬ AnyAt a inn pos := fun ho => by
        rw [anyAt_iff.2 ho] at hb; exact absurd hb (by simp)
      have step : ∀ q, pos ≤ q → AnyAt a inn q → pos + 1 ≤ q := by
        intro q h1 h2
        rcases Nat.lt_or_eq_of_le h1 with h3 | h3
        · exact h3
        · subst h3; exact absurd h2 hno
      rcases ih (pos + 1) (by omega) (by omega) with ⟨p, e1, h1, h2, h3⟩ | ⟨e1, h1⟩
      · left; exact ⟨p, by simpa using e1, by omega, h2, fun q a b => h3 q (step q a b) b⟩
      · right; exact ⟨by simpa using e1, fun q a b => h1 q (step q a b) b⟩

/-! ## Backward search -/

theorem backwardsLoop_spec (s inn : Bytes) (k : Nat) (h : s ≠ [] ∨ k ≤ inn.length + 1) :
    (∃ p, backwardsLoop s inn k = .ok (p : Nat) ∧ p < k ∧ OccursAt s inn p ∧
      ∀ q, q < k → OccursAt s inn q → q ≤ p) ∨
    (backwardsLoop s inn k = .ok (-1) ∧ ∀ q, q < k → ¬ OccursAt s inn q) := by
  induction k with
  | zero => right; exact ⟨rfl, fun q h => by omega⟩
  | succ k ih =>
    rw [backwardsLoop, test_eq]
    simp only [Res.ok_bind]
    have hk : s ≠ [] ∨ k ≤ inn.length := h.imp id (by omega)
    cases hb : s.isPrefixOf (inn.drop k) with
    | true => left; exact ⟨k, rfl, by omega, (prefix_iff hk).1 hb, fun q h _ => by omega⟩
    | false =>
      have hno : ¬ OccursAt s inn k := fun ho => by
        rw [(prefix_iff hk).2 ho] at hb; exact absurd hb (by simp)
      have step : ∀ q, q < k + 1 → OccursAt s inn q → q < k := by
        intro q h1 h2
        rcases Nat.lt_or_eq_of_le (Nat.le_of_lt_succ h1) with h3 | h3
        · exact h3
        · subst h3; exact absurd h2 hno
      rcases ih (h.imp id (by omega)) with ⟨p, e1, h1, h2, h3⟩ | ⟨e1, h1⟩
      · left; exact ⟨p, by simpa using e1, by omega, h2, fun q a b => h3 q (step q a b) b⟩
      · right; exact ⟨by simpa using e1, fun q a b => h1 q (step q a b) b⟩

/-! ## Counting -/

theorem countP_range_split {P : Nat → Bool} {n i p : Nat} (hip : i ≤ p) (hpn : p < n)
    (hP : P p = true) (hmin : ∀ q, i ≤ q → q < p → P q = false) :
    (List.range' i (n - i)).countP P = 1 + (List.range' (p + 1) (n - (p + 1))).countP P := by
  have e1 : n - i = (p - i) + (1 + (n - (p + 1))) := by omega
  rw [e1, ← List.range'_append, ← List.range'_append, List.countP_append, List.countP_append]
  have z : (List.range' i (p - i)).countP P = 0 := by
    rw [List.countP_eq_zero]
    intro q hq
    rw [List.mem_range'_1] at hq
    rw [hmin q (by omega) (by omega)]; simp
  have e2 : i + 1 * (p - i) = p := by omega
  rw [z, e2]
  simp [hP]

theorem countLoop_spec (s inn : Bytes) (f i c : Nat) (hf : inn.length < f + i) (hi : i ≤ inn.length) :
    countLoop s inn f i c =
      .ok (c + (List.range' i (inn.length - i)).countP fun p => decide (OccursAt s inn p)) := by
  induction f generalizing i c with
  | zero => omega
  | succ f ih =>
    rw [countLoop]
    by_cases h : i < inn.length
    · rw [if_pos (by omega)]
      rcases forwards_spec s inn i (.inr hi) with ⟨p, e, h1, h2, h3⟩ | ⟨e, h1⟩
      · rw [e]
        simp only [Res.ok_bind]
        rw [if_neg (by omega)]
        have hb := occursAt_bound h2
        by_cases hp : p < inn.length
        · have := ih (p + 1) (c + 1) (by omega) (by omega)
          rw [show ((p : Int) + 1) = ((p + 1 : Nat) : Int) by omega, this,
            countP_range_split (i := i) (p := p) h1 hp (by simpa using h2)
              (fun q a b => by
                simp only [decide_eq_false_iff_not]
                intro ho; have := h3 q a ho; omega)]
          congr 1; omega
        · exfalso
          have hs : s = [] := by
            have : s.length = 0 := by omega
            simpa using this
          subst hs
          have : OccursAt [] inn i := by rw [occursAt_iff]; simp; omega
          have := h3 i (Nat.le_refl _) this
          omega
      · rw [e]
        simp only [Res.ok_bind, if_true]
        congr 1
        have : (List.range' i (inn.length - i)).countP (fun p => decide (OccursAt s inn p)) = 0 := by
          rw [List.countP_eq_zero]
          intro q hq
          rw [List.mem_range'_1] at hq
          simpa using h1 q (by omega)
        omega
    · rw [if_neg (by omega)]
      have : inn.length - i = 0 := by omega
      rw [this]; rfl

/-! ## Cutting -/

theorem cuts_ne_nil {what s : Bytes} {ps : List Bytes} (h : Cuts what s ps) : ps ≠ [] := by
  cases h <;> simp

theorem join_cons {sep p : Bytes} {ps : List Bytes} (h : ps ≠ []) :
    join sep (p :: ps) = p ++ sep ++ join sep ps := by
  cases ps with
  | nil => exact absurd rfl h
  | cons q ps => rfl

theorem join_snoc (sep : Bytes) (l : List Bytes) (x : Bytes) :
    join sep (l ++ [x]) = if l = [] then x else join sep l ++ sep ++ x := by
  induction l with
  | nil => rfl
  | cons p l ih =>
    rw [List.cons_append, join_cons (by simp), ih]
    cases l with
    | nil => simp [join]
    | cons q l => 
      rw [if_neg (by simp), if_neg (by simp), join_cons (p := p) (ps := q :: l) (by simp)]
      simp only [List.append_assoc]

theorem recompose_eq (a : List Bytes) (sep : Bytes) : recompose a sep = .ok (join sep a) := by
  obtain ⟨r, e, h⟩ := forUp_spec (lo := 0) (hi := a.length) (s := ([] : Bytes))
    (body := fun i r => do
      let x ← rd a i
      .ok ((if i ≠ 0 then r ++ sep else r) ++ x))
    (fun i r => r = join sep (a.take i)) (by omega) (by simp [join])
    (fun i r _ hi h => by
      refine ⟨_, by rw [rd_ok hi]; rfl, ?_⟩
      rw [List.take_add_one, List.getElem?_eq_getElem hi, Option.toList_some, join_snoc]
      by_cases h0 : i = 0
      · subst h0; simp [h, join]
      · have : a.take i ≠ [] := by
          intro e
          have := congrArg List.length e
          simp at this; rcases this with h | h
          · exact h0 h
          · subst h; simp at hi
        rw [if_pos h0, if_neg this, h])
  rw [List.take_length] at h
  unfold recompose
  rw [e, h]

theorem drop_split {s : Bytes} {a b : Nat} (h : a ≤ b) :
    s.drop a = (s.take b).drop a ++ s.drop b := by
  conv => lhs; rw [← List.take_append_drop b s]
  rw [List.drop_append]
  congr 1
  by_cases hb : b ≤ s.length
  · rw [List.length_take, Nat.min_eq_left hb, Nat.sub_eq_zero_of_le h, List.drop_zero]
  · rw [List.drop_of_length_le (show s.length ≤ b by omega)]; simp

theorem drop_take_length {s : Bytes} {a b : Nat} (h : b ≤ s.length) :
    ((s.take b).drop a).length = b - a := by
  rw [List.length_drop, List.length_take, Nat.min_eq_left h]

/-- The last step of a cut: no occurrence from `start` on. -/
theorem cuts_last {what s : Bytes} {start : Nat} (hw : what ≠ []) (hs : start ≤ s.length)
    (h : ∀ q, start ≤ q → q < s.length → ¬ OccursAt what s q) : Cuts what (s.drop start) [s.drop start] := by
  refine .last _ fun p hp => ?_
  rw [occursAt_drop hs] at hp
  have := occursAt_bound hp
  have := List.length_pos_iff.2 hw
  exact h _ (by omega) (by omega) hp

/-- An inner step of a cut: the first occurrence from `start` on is at `i`. -/
theorem cuts_cut {what s : Bytes} {start i : Nat} {ps : List Bytes} (hsi : start ≤ i)
    (ho : OccursAt what s i) (h : ∀ q, start ≤ q → q < i → ¬ OccursAt what s q)
    (hr : Cuts what (s.drop (i + what.length)) ps) :
    Cuts what (s.drop start) ((s.take i).drop start :: ps) := by
  have hb := occursAt_bound ho
  have e : s.drop start = (s.take i).drop start ++ what ++ s.drop (i + what.length) := by
    rw [List.append_assoc, drop_split hsi]
    congr 1
    obtain ⟨b, hb⟩ := (occursAt_iff.1 ho).2
    rw [← List.drop_drop, ← hb, List.drop_left]
  have key := Cuts.cut ((s.take i).drop start) (s.drop (i + what.length)) ps (fun q hq hoq => by
    rw [← e, occursAt_drop (by omega)] at hoq
    rw [drop_take_length (by omega)] at hq
    exact h _ (by omega) (by omega) hoq) hr
  rw [← e] at key
  exact key

theorem tokenLoop_spec {s sep : Bytes} (hw : sep ≠ []) (f i start : Nat) (a : List Bytes)
    (hf : s.length < f + i) (hi : i ≤ s.length) (hsi : start ≤ i)
    (h : ∀ q, start ≤ q → q < i → ¬ OccursAt sep s q) :
    ∃ ps, tokenLoop s sep f i start a = .ok (a ++ ps) ∧ Cuts sep (s.drop start) ps := by
  have hpos := List.length_pos_iff.2 hw
  induction f generalizing i start a with
  | zero => omega
  | succ f ih =>
    rw [tokenLoop]
    by_cases hi' : i < s.length
    · rw [if_pos hi', test_eq]
      simp only [Res.ok_bind]
      cases hb : sep.isPrefixOf (s.drop i) with
      | true =>
        have ho := (prefix_iff (.inl hw)).1 hb
        have hbd := occursAt_bound ho
        obtain ⟨ps, e, hc⟩ := ih (i + sep.length) (i + sep.length) (a ++ [sub s start i]) (by omega)
          (by omega) (by omega) (fun q a b => by omega)
        refine ⟨sub s start i :: ps, by simpa using e, ?_⟩
        rw [sub_nat]
        exact cuts_cut hsi ho h hc
      | false =>
        obtain ⟨ps, e, hc⟩ := ih (i + 1) start a (by omega) (by omega) (by omega) (fun q a b => by
          by_cases hq : q < i
          · exact h q a hq
          · obtain rfl : q = i := by omega
            intro ho; rw [(prefix_iff (.inl hw)).2 ho] at hb; exact absurd hb (by simp))
        exact ⟨ps, by simpa using e, hc⟩
    · rw [if_neg hi']
      obtain rfl : i = s.length := by omega
      exact ⟨[s.drop start], by rw [sub_to_end], cuts_last hw hsi h⟩

theorem replaceLoop_spec {s what by_ : Bytes} (hw : what ≠ []) (f i start : Nat) (r : Bytes)
    (hf : s.length < f + i) (hi : i ≤ s.length) (hsi : start ≤ i)
    (h : ∀ q, start ≤ q → q < i → ¬ OccursAt what s q) :
    ∃ ps, replaceLoop s what by_ f i (r ++ (s.take i).drop start) = .ok (r ++ join by_ ps) ∧
      Cuts what (s.drop start) ps := by
  have hpos := List.length_pos_iff.2 hw
  induction f generalizing i start r with
  | zero => omega
  | succ f ih =>
    rw [replaceLoop]
    by_cases hi' : i < s.length
    · rw [if_pos hi', test_eq]
      simp only [Res.ok_bind]
      cases hb : what.isPrefixOf (s.drop i) with
      | true =>
        have ho := (prefix_iff (.inl hw)).1 hb
        have hbd := occursAt_bound ho
        obtain ⟨ps, e, hc⟩ := ih (i + what.length) (i + what.length)
          (r ++ (s.take i).drop start ++ by_) (by omega) (by omega) (by omega) (fun q a b => by omega)
        refine ⟨(s.take i).drop start :: ps, ?_, cuts_cut hsi ho h hc⟩
        rw [join_cons (cuts_ne_nil hc)]
        have z : (s.take (i + what.length)).drop (i + what.length) = [] :=
          List.drop_of_length_le (by rw [List.length_take]; omega)
        rw [z, List.append_nil] at e
        simpa using e
      | false =>
        obtain ⟨ps, e, hc⟩ := ih (i + 1) start r (by omega) (by omega) (by omega) (fun q a b => by
          by_cases hq : q < i
          · exact h q a hq
          · obtain rfl : q = i := by omega
            intro ho; rw [(prefix_iff (.inl hw)).2 ho] at hb; exact absurd hb (by simp))
        refine ⟨ps, ?_, hc⟩
        rw [rd_ok hi']
        have z : (s.take (i + 1)).drop start = (s.take i).drop start ++ [s[i]] := by
          rw [List.take_add_one, List.getElem?_eq_getElem hi', Option.toList_some,
            List.drop_append_of_le_length (by rw [List.length_take]; omega)]
        rw [z] at e
        simpa using e
    · rw [if_neg hi']
      obtain rfl : i = s.length := by omega
      exact ⟨[s.drop start], by rw [List.take_length]; rfl, cuts_last hw hsi h⟩

theorem cuts_join {what s : Bytes} {ps : List Bytes} (h : Cuts what s ps) : join what ps = s := by
  induction h with
  | last => rfl
  | cut p rest ps _ hr ih => rw [join_cons (cuts_ne_nil hr), ih]

theorem cuts_unique {what s : Bytes} {ps qs : List Bytes} (h : Cuts what s ps) (h' : Cuts what s qs) :
    ps = qs := by
  induction h generalizing qs with
  | last s hs =>
    cases h' with
    | last => rfl
    | cut p rest qs _ _ => exact absurd ⟨p, rest, rfl, rfl⟩ (hs p.length)
  | cut p rest ps hp _ ih =>
    generalize hs : p ++ what ++ rest = s at h'
    cases h' with
    | last _ hn => exact absurd ⟨p, rest, hs.symm, rfl⟩ (hn p.length)
    | cut q rest' qs hq hr =>
      have e : p.length = q.length := by
        rcases Nat.lt_trichotomy p.length q.length with h | h | h
        · exact absurd ⟨p, rest, hs.symm, rfl⟩ (hq p.length h)
        · exact h
        · exact absurd ⟨q, rest', hs, rfl⟩ (hp q.length h)
      rw [List.append_assoc, List.append_assoc] at hs
      obtain ⟨rfl, e2⟩ := List.append_inj hs e
      have e3 := List.append_cancel_left e2
      subst e3
      rw [ih hr]

/-- Pieces that do not create an earlier occurrence are the cut of their join. -/
theorem cuts_of_pieces {what : Bytes} (ps : List Bytes) (last : Bytes)
    (h : ∀ p ∈ ps, ∀ q, q < p.length → ¬ OccursAt what (p ++ what) q)
    (hl : ∀ q, ¬ OccursAt what last q) : Cuts what (join what (ps ++ [last])) (ps ++ [last]) := by
  induction ps with
  | nil => exact .last _ hl
  | cons p ps ih =>
    rw [List.cons_append, join_cons (by simp)]
    refine .cut p _ _ (fun q hq ho => ?_) (ih (fun x hx => h x (by simp [hx])))
    refine h p (by simp) q hq ?_
    rw [occursAt_iff] at ho ⊢
    refine ⟨by simp; omega, ?_⟩
    have h2 := ho.2
    rw [List.drop_append_of_le_length (by simp; omega)] at h2
    have hlen : what.length ≤ ((p ++ what).drop q).length := by simp; omega
    exact List.prefix_of_prefix_length_le h2 (List.prefix_append _ _) hlen

/-! ## Wildcards -/

theorem skipStars_spec (w : Bytes) (i : Nat) (hi : i ≤ w.length) :
    ∃ j, skipStars w i = .ok j ∧ i ≤ j ∧ j ≤ w.length ∧
      w.drop i = List.replicate (j - i) (c! '*') ++ w.drop j := by
  induction hk : w.length - i generalizing i with
  | zero =>
    rw [skipStars, if_neg (by omega)]
    exact ⟨i, rfl, Nat.le_refl _, hi, by simp⟩
  | succ k ih =>
    rw [skipStars, if_pos (by omega), rd_ok (show i < w.length by omega)]
    simp only [Res.ok_bind]
    by_cases hc : w[i]'(by omega) = c! '*'
    · rw [if_pos hc]
      obtain ⟨j, e, h1, h2, h3⟩ := ih (i + 1) (by omega) (by omega)
      refine ⟨j, e, by omega, h2, ?_⟩
      rw [List.drop_eq_getElem_cons (show i < w.length by omega), hc, h3,
        show j - i = (j - (i + 1)) + 1 by omega, List.replicate_succ]
      rfl
    · rw [if_neg hc]
      exact ⟨i, rfl, Nat.le_refl _, hi, by simp⟩

theorem starLoop_spec (n : Nat) (rec : Nat → Res Bool) (P : Nat → Prop) (i : Nat)
    (h : ∀ j, i ≤ j → j ≤ n → ∃ b, rec j = .ok b ∧ (b = true ↔ P j)) :
    ∃ b, starLoop n rec i = .ok b ∧ (b = true ↔ ∃ j, i ≤ j ∧ j ≤ n ∧ P j) := by
  induction hk : n + 1 - i generalizing i with
  | zero =>
    rw [starLoop, if_neg (by omega)]
    exact ⟨false, rfl, by simp; intro j h1 h2; omega⟩
  | succ k ih =>
    rw [starLoop, if_pos (by omega)]
    obtain ⟨b, e, hb⟩ := h i (Nat.le_refl _) (by omega)
    rw [e]
    simp only [Res.ok_bind]
    cases b with
    | true => exact ⟨true, rfl, by simp only [true_iff]; exact ⟨i, Nat.le_refl _, by omega, hb.1 rfl⟩⟩
    | false =>
      obtain ⟨b', e', hb'⟩ := ih (i + 1) (fun j h1 h2 => h j (by omega) h2) (by omega)
      refine ⟨b', by simpa using e', hb'.trans ⟨?_, ?_⟩⟩
      · rintro ⟨j, h1, h2, h3⟩; exact ⟨j, by omega, h2, h3⟩
      · rintro ⟨j, h1, h2, h3⟩
        rcases Nat.lt_or_eq_of_le h1 with h4 | h4
        · exact ⟨j, h4, h2, h3⟩
        · subst h4; exact absurd (hb.2 h3) (by simp)

theorem wild_stars {s w : Bytes} (k : Nat) :
    Wild s (List.replicate (k + 1) (c! '*') ++ w) ↔ ∃ x s', s = x ++ s' ∧ Wild s' w := by
  constructor
  · induction k generalizing s with
    | zero =>
      intro h
      rw [show List.replicate (0 + 1) (c! '*') ++ w = c! '*' :: w from rfl] at h
      cases h with
      | char _ _ _ hc _ => exact absurd rfl hc
      | star x s' _ h => exact ⟨x, s', rfl, h⟩
    | succ k ih =>
      intro h
      rw [List.replicate_succ, List.cons_append] at h
      cases h with
      | char _ _ _ hc _ => exact absurd rfl hc
      | star x s' _ h =>
        obtain ⟨y, s'', rfl, h'⟩ := ih h
        exact ⟨x ++ y, s'', by simp, h'⟩
  · rintro ⟨x, s', rfl, h⟩
    have : ∀ k, Wild s' (List.replicate k (c! '*') ++ w) := by
      intro k
      induction k with
      | zero => exact h
      | succ k ih => rw [List.replicate_succ, List.cons_append]; exact Wild.star [] s' _ ih
    rw [List.replicate_succ, List.cons_append]
    exact Wild.star x s' _ (this k)

theorem matchWild_spec (s w : Bytes) (f spos wpos : Nat) (hf : w.length < f + wpos)
    (hs : spos ≤ s.length) (hw : wpos ≤ w.length) :
    ∃ b, matchWild s w f spos wpos = .ok b ∧ (b = true ↔ Wild (s.drop spos) (w.drop wpos)) := by
  induction f generalizing spos wpos with
  | zero => omega
  | succ f ih =>
    rw [matchWild]
    by_cases hend : wpos = w.length
    · rw [if_pos hend]
      refine ⟨_, rfl, ?_⟩
      rw [decide_eq_true_iff, List.drop_of_length_le (show w.length ≤ wpos by omega)]
      constructor
      · intro h; rw [List.drop_of_length_le (by omega)]; exact .nil
      · intro h
        generalize hd : s.drop spos = d at h
        cases h
        rw [List.drop_eq_nil_iff] at hd; omega
    · rw [if_neg hend]
      have hw' : wpos < w.length := by omega
      rw [rd_ok hw', List.drop_eq_getElem_cons hw']
      simp only [Res.ok_bind]
      by_cases hc : w[wpos] = c! '*'
      · rw [if_neg (by simpa using hc)]
        obtain ⟨j, e, h1, h2, h3⟩ := skipStars_spec w wpos hw
        have hj : wpos < j := by
          rcases Nat.lt_or_eq_of_le h1 with h | h
          · exact h
          · exfalso
            subst h
            rw [skipStars, if_pos hw', rd_ok hw'] at e
            simp only [Res.ok_bind, hc, if_true] at e
            obtain ⟨j', e', h1', _⟩ := skipStars_spec w (wpos + 1) (by omega)
            rw [e'] at e
            simp only [Res.ok.injEq] at e; omega
        rw [e]
        simp only [Res.ok_bind]
        obtain ⟨b, eb, hb⟩ := starLoop_spec s.length (fun spos => matchWild s w f spos j)
          (fun sp => Wild (s.drop sp) (w.drop j)) spos
          (fun sp _ h => ih sp j (by omega) h h2)
        refine ⟨b, eb, hb.trans ?_⟩
        rw [← List.drop_eq_getElem_cons hw', h3, show j - wpos = (j - wpos - 1) + 1 by omega, wild_stars]
        constructor
        · rintro ⟨sp, a1, a2, a3⟩
          exact ⟨(s.take sp).drop spos, s.drop sp, drop_split a1, a3⟩
        · rintro ⟨x, s', e1, e2⟩
          have hlen := congrArg List.length e1
          simp only [List.length_drop, List.length_append] at hlen
          refine ⟨spos + x.length, by omega, by omega, ?_⟩
          rw [← List.drop_drop, e1, List.drop_left]; exact e2
      · rw [if_pos (by simpa using hc)]
        by_cases hsp : spos < s.length
        · rw [if_pos hsp, rd_ok hsp, List.drop_eq_getElem_cons hsp]
          simp only [Res.ok_bind]
          by_cases hd : s[spos] = w[wpos]
          · rw [if_pos hd]
            obtain ⟨b, e, hb⟩ := ih (spos + 1) (wpos + 1) (by omega) (by omega) (by omega)
            refine ⟨b, e, hb.trans ⟨fun h => ?_, fun h => ?_⟩⟩
            · rw [hd]; exact .char _ _ _ hc h
            · generalize hx : s[spos] :: s.drop (spos + 1) = x at h
              generalize hy : w[wpos] :: w.drop (wpos + 1) = y at h
              cases h with
              | nil => exact absurd hx (List.cons_ne_nil _ _)
              | char c s' w' _ h =>
                simp only [List.cons.injEq] at hx hy
                rw [hx.2, hy.2]; exact h
              | star => simp only [List.cons.injEq] at hy; exact absurd hy.1 hc
          · rw [if_neg hd]
            refine ⟨false, rfl, fun h => by simp at h, fun h => ?_⟩
            generalize hx : s[spos] :: s.drop (spos + 1) = x at h
            generalize hy : w[wpos] :: w.drop (wpos + 1) = y at h
            cases h with
            | nil => exact absurd hx (List.cons_ne_nil _ _)
            | char c s' w' _ h =>
              simp only [List.cons.injEq] at hx hy
              exact absurd (hx.1.trans hy.1.symm) hd
            | star => simp only [List.cons.injEq] at hy; exact absurd hy.1 hc
        · rw [if_neg hsp, List.drop_of_length_le (show s.length ≤ spos by omega)]
          refine ⟨false, rfl, fun h => by simp at h, fun h => ?_⟩
          generalize hx : ([] : Bytes) = x at h
          generalize hy : w[wpos] :: w.drop (wpos + 1) = y at h
          cases h with
          | nil => exact absurd hy (List.cons_ne_nil _ _)
          | char => simp at hx
          | star => simp only [List.cons.injEq] at hy; exact absurd hy.1 hc

/-! ## Trimming -/

theorem isSpace_iff {c : UInt8} : isSpace c = true ↔ Space c := by
  simp [isSpace, Space, or_assoc]

theorem spaceEnd_spec (s : Bytes) (i : Nat) (hi : i ≤ s.length) :
    ∃ j, spaceEnd s i = .ok j ∧ i ≤ j ∧ j ≤ s.length ∧ s.drop j = (s.drop i).dropWhile isSpace := by
  induction hk : s.length - i generalizing i with
  | zero =>
    rw [spaceEnd, if_neg (by omega)]
    exact ⟨i, rfl, Nat.le_refl _, hi, by rw [List.drop_of_length_le (by omega)]; rfl⟩
  | succ k ih =>
    have hi' : i < s.length := by omega
    rw [spaceEnd, if_pos hi', rd_ok hi', List.drop_eq_getElem_cons hi', List.dropWhile_cons]
    simp only [Res.ok_bind]
    cases hc : isSpace s[i] with
    | true =>
      obtain ⟨j, e, h1, h2, h3⟩ := ih (i + 1) (by omega) (by omega)
      exact ⟨j, by simpa using e, by omega, h2, by simpa using h3⟩
    | false =>
      refine ⟨i, by simp, Nat.le_refl _, hi, ?_⟩
      rw [List.drop_eq_getElem_cons hi']; rfl

theorem trimLeft_eq (s : Bytes) : trimLeft s = .ok (s.dropWhile isSpace) := by
  obtain ⟨j, e, _, h2, h3⟩ := spaceEnd_spec s 0 (by omega)
  unfold trimLeft
  rw [e]
  simp only [Res.ok_bind]
  rw [sub_to_end, h3, List.drop_zero]

theorem spaceStart_spec (s : Bytes) (k : Nat) (hk : k ≤ s.length) :
    ∃ j, spaceStart s k = .ok j ∧ j ≤ k ∧ (∀ q (h : q < s.length), j ≤ q → q < k → isSpace s[q] = true) ∧
      (∀ (h : j - 1 < s.length), 0 < j → isSpace s[j - 1] = false) := by
  induction k with
  | zero => exact ⟨0, rfl, Nat.le_refl _, fun q _ _ h => by omega, fun _ h => by omega⟩
  | succ k ih =>
    have hk' : k < s.length := by omega
    rw [spaceStart, rd_ok hk']
    simp only [Res.ok_bind]
    cases hc : isSpace s[k] with
    | true =>
      obtain ⟨j, e, h1, h2, h3⟩ := ih (by omega)
      refine ⟨j, by simpa using e, by omega, fun q h a b => ?_, h3⟩
      by_cases hq : q < k
      · exact h2 q h a hq
      · obtain rfl : q = k := by omega
        exact hc
    | false =>
      refine ⟨k + 1, by simp, Nat.le_refl _, fun q _ a b => by omega, fun h _ => ?_⟩
      simpa using hc

/-! ## Tabs -/

theorem mod_step {w a b : Nat} (h : a % w = b % w) : (a + 1) % w = (b + 1) % w := by
  rw [Nat.add_mod, h, ← Nat.add_mod]

theorem tab_col {w col : Nat} (hw : 0 < w) : (col + (w - col % w)) % w = 0 := by
  have h1 := Nat.mod_lt col hw
  have h2 := Nat.div_add_mod col w
  have h3 : col + (w - col % w) = w * (col / w) + w := by omega
  rw [h3, ← Nat.mul_succ]; exact Nat.mul_mod_right _ _

end Lolly.An
