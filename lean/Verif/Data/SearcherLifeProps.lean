import Verif.Data.SearcherLife
import Verif.Data.FastSearchProps

/-!
# C168: searchers whose text is changed
-/

set_option autoImplicit false

namespace Lolly.SearcherLifeProps

open Lolly.SearcherLife
open Lolly.FastSearch (Index posOf mem_posOf fastHash build levelOf byteCode)
open Lolly.An (OccursAt)

/-! ## Searching with a table that was made for another text -/

/-- The length of the block by which the table is consulted: the largest power of two that is at most `n`. -/
def block (n : Nat) : Nat := (levelOf n n 1 0).1

theorem block_spec (n : Nat) (h : 1 ≤ n) : block n ≤ n ∧ n < 2 * block n := by
  obtain ⟨_, h2, h3⟩ := FastSearch.levelOf_spec n n 1 0 rfl h (by omega)
  exact ⟨h2, h3⟩

/-- The candidates depend on the text for which the table was made. -/
theorem sub_old (t cur what : Bytes) (S : FastSearch.Searcher) (hS : build t = .ok S) (hne : what ≠ [])
    (hl : block what.length ≤ t.length) :
    FastSearch.searchSub ⟨cur, S.a⟩ what = .ok (posOf (fun i => fastHash ((t.drop i).take (block what.length)))
      (t.length + 1 - block what.length) (fastHash (what.take (block what.length)))) := by
  obtain ⟨S', e, hs, hlev, hlen⟩ := FastSearch.build_spec t
  obtain rfl : S' = S := by rw [hS] at e; exact (Res.ok.inj e).symm
  have h0 : ¬ what.length = 0 := fun e => hne (List.length_eq_zero_iff.1 e)
  unfold FastSearch.searchSub
  rw [if_neg h0]
  unfold block at hl ⊢
  obtain ⟨h1, h2, h3⟩ := FastSearch.levelOf_spec what.length what.length 1 0 rfl (by omega) (by omega)
  generalize levelOf what.length what.length 1 0 = kl at *
  obtain ⟨k, l⟩ := kl
  simp only at h1 h2 h3 hl ⊢
  subst h1
  have hla := (hlen l).2 hl
  have hL := hlev l S'.a[l] (List.getElem?_eq_getElem hla)
  rw [rd_ok hla, Res.ok_bind, FastSearch.Holds.contains hL, Res.ok_bind]
  have hsub : An.sub what 0 (2 ^ l : Nat) = what.take (2 ^ l) := by unfold An.sub; rw [Int.toNat_natCast]; rfl
  rw [hsub]
  split
  · rw [FastSearch.Holds.get hL]
  · rename_i hn
    have hn : posOf (fun i => fastHash ((t.drop i).take (2 ^ l))) (t.length + 1 - 2 ^ l)
      (fastHash (what.take (2 ^ l))) = [] := by simpa using hn
    rw [hn]

/-- No level for the pattern. -/
theorem sub_ub (t cur what : Bytes) (S : FastSearch.Searcher) (hS : build t = .ok S)
    (hl : t.length < block what.length) (hne : what ≠ []) : FastSearch.searchSub ⟨cur, S.a⟩ what = .ub := by
  obtain ⟨S', e, hs, hlev, hlen⟩ := FastSearch.build_spec t
  obtain rfl : S' = S := by rw [hS] at e; exact (Res.ok.inj e).symm
  have h0 : ¬ what.length = 0 := fun e => hne (List.length_eq_zero_iff.1 e)
  unfold FastSearch.searchSub
  rw [if_neg h0]
  unfold block at hl
  obtain ⟨h1, h2, h3⟩ := FastSearch.levelOf_spec what.length what.length 1 0 rfl (by omega) (by omega)
  generalize levelOf what.length what.length 1 0 = kl at *
  obtain ⟨k, l⟩ := kl
  simp only at h1 h2 h3 hl ⊢
  subst h1
  have hn : ¬ l < S'.a.length := by rw [hlen]; omega
  rw [rd_ub (by omega)]; rfl

theorem occurs_iff (what s : Bytes) (p : Nat) (hne : what ≠ []) : OccursAt what s p ↔ what <+: s.drop p := by
  rw [FastSearch.occursAt_iff]
  refine ⟨fun h => h.2, fun h => ⟨?_, h⟩⟩
  have := h.length_le
  rw [List.length_drop] at this
  have : what.length ≠ 0 := fun e => hne (List.length_eq_zero_iff.1 e)
  omega

theorem all_any (s what : Bytes) (ps : List Nat) :
    FastSearch.allLoop s what ps = .ok (ps.filter fun p => what.isPrefixOf (s.drop p)) := by
  induction ps with
  | nil => rfl
  | cons p ps ih =>
    rw [FastSearch.allLoop, An.test_eq, Res.ok_bind, ih, Res.ok_bind, List.filter_cons]

/-- The first of some positions that is at least `pos`, and -1 if there is none. -/
def firstFrom (pos : Int) : List Nat → Int
  | [] => -1
  | p :: ps => if pos ≤ p then p else firstFrom pos ps

theorem next_any (s what : Bytes) (pos : Int) (ps : List Nat) :
    FastSearch.nextLoop s what pos ps = .ok (firstFrom pos (ps.filter fun p => what.isPrefixOf (s.drop p))) := by
  induction ps with
  | nil => rfl
  | cons p ps ih =>
    rw [FastSearch.nextLoop, List.filter_cons]
    by_cases h : (p : Int) ≥ pos
    · rw [if_pos h, An.test_eq, Res.ok_bind, ih]
      by_cases ht : what.isPrefixOf (s.drop p) = true
      · rw [if_pos ht, if_pos ht, firstFrom, if_pos h]
      · rw [if_neg ht, if_neg ht]
    · rw [if_neg h, ih]
      split
      · rw [firstFrom, if_neg h]
      · rfl

/-- The answers for a text `cur` with the table that was made for `t`. -/
theorem stale_all (t cur what : Bytes) (S : FastSearch.Searcher) (hS : build t = .ok S) (hne : what ≠ [])
    (hl : block what.length ≤ t.length) :
    ∃ ps, FastSearch.searchAll ⟨cur, S.a⟩ what = .ok ps ∧
      (∀ pos, FastSearch.searchNext ⟨cur, S.a⟩ what pos = .ok (firstFrom pos ps)) ∧ ps.Pairwise (· < ·) ∧
      ∀ p, p ∈ ps ↔ OccursAt what cur p ∧ p + block what.length ≤ t.length ∧
        fastHash ((t.drop p).take (block what.length)) = fastHash (what.take (block what.length)) := by
  have e := sub_old t cur what S hS hne hl
  refine ⟨(posOf (fun i => fastHash ((t.drop i).take (block what.length)))
      (t.length + 1 - block what.length) (fastHash (what.take (block what.length)))).filter
      fun p => what.isPrefixOf (cur.drop p), ?_, fun pos => ?_, ?_, fun p => ?_⟩
  · unfold FastSearch.searchAll; rw [e, Res.ok_bind, all_any]
  · unfold FastSearch.searchNext; rw [e, Res.ok_bind, next_any]
  · exact (List.pairwise_lt_range.sublist List.filter_sublist).sublist List.filter_sublist
  · rw [List.mem_filter, mem_posOf, List.isPrefixOf_iff_prefix, occurs_iff what cur p hne]
    constructor
    · rintro ⟨⟨h1, h2⟩, h3⟩; exact ⟨h3, by omega, h2⟩
    · rintro ⟨h3, h1, h2⟩; exact ⟨⟨by omega, h2⟩, h3⟩

theorem stale_empty (cur : Bytes) (a : List Index) :
    FastSearch.searchAll ⟨cur, a⟩ [] = .ok (List.range (cur.length + 1)) ∧
    ∀ pos, FastSearch.searchNext ⟨cur, a⟩ [] pos = .ok (firstFrom pos (List.range (cur.length + 1))) := by
  have e : FastSearch.searchSub ⟨cur, a⟩ [] = .ok (List.range (cur.length + 1)) := rfl
  have f : (List.range (cur.length + 1)).filter (fun p => ([] : Bytes).isPrefixOf (cur.drop p)) = List.range (cur.length + 1) := by
    rw [List.filter_eq_self]; intro p _; rfl
  constructor
  · unfold FastSearch.searchAll; rw [e, Res.ok_bind, all_any, f]
  · intro pos; unfold FastSearch.searchNext; rw [e, Res.ok_bind, next_any, f]

theorem hash_of_both (t what : Bytes) (p : Nat) (hne : what ≠ []) (h : OccursAt what t p) :
    p + block what.length ≤ t.length ∧
      fastHash ((t.drop p).take (block what.length)) = fastHash (what.take (block what.length)) := by
  have h0 : what.length ≠ 0 := fun e => hne (List.length_eq_zero_iff.1 e)
  have hb := block_spec what.length (by omega)
  have hp := (occurs_iff what t p hne).1 h
  have hlen := hp.length_le
  rw [List.length_drop] at hlen
  obtain ⟨x, hx⟩ := hp
  exact ⟨by omega, by rw [← hx, List.take_append_of_le_length hb.1]⟩

/-! ## What programs do to a searcher -/

theorem change_inv {st st' : State} {v : Nat} {f : Bytes → Res Bytes} (h : change st v f = .ok st') :
    ∃ i l, st.vars[v]? = some i ∧ i < st.mem.length ∧ st' = { st with mem := st.mem.set i l } := by
  unfold change at h
  obtain ⟨i, h1, h⟩ := Res.bind_eq_ok.1 h
  obtain ⟨l, h2, h⟩ := Res.bind_eq_ok.1 h
  obtain ⟨l', h3, h⟩ := Res.bind_eq_ok.1 h
  cases h
  rw [rd_eq_ok] at h1 h2
  exact ⟨i, l', h1, (List.getElem?_eq_some_iff.1 h2).1, rfl⟩

/-- Effects of a step: searchers stay, strings stay, new handles come from old ones. -/
structure Eff (st st' : State) (k : Nat) (own : Bool) : Prop where
  srch : ∃ l, st'.srch = st.srch ++ l ∧ ∀ r ∈ l, r.s ∈ st.vars ∨ r.s = st.mem.length
  len : st.mem.length ≤ st'.mem.length
  new : ∀ r ∈ st'.srch, r ∈ st.srch ∨ r.s < st'.mem.length
  vars : ∀ i ∈ st'.vars, i ∈ st.vars ∨ i = st.mem.length ∨ ∃ j r, st.srch[j]? = some r ∧ r.s = i ∧ (own = true → j ≠ k)
  mem : ∀ i, i < st.mem.length → i ∉ st.vars → st'.mem[i]? = st.mem[i]?

theorem attach_inv {st st' : State} {h : Nat} (e : attach st h = .ok st') :
    ∃ l S, st.mem[h]? = some l ∧ build l = .ok S ∧ st' = { st with srch := st.srch ++ [⟨h, S.a⟩] } := by
  unfold attach at e
  obtain ⟨l, h1, e⟩ := Res.bind_eq_ok.1 e
  obtain ⟨S, h2, e⟩ := Res.bind_eq_ok.1 e
  cases e
  exact ⟨l, S, rd_eq_ok.1 h1, h2, rfl⟩

theorem eff_make (st : State) (l : Bytes) (k : Nat) (own : Bool) : Eff st (make st l) k own where
  srch := ⟨[], by simp [make], by simp⟩
  len := by simp [make]
  new := fun r hr => .inl hr
  vars := by
    intro i hi
    rcases List.mem_append.1 (show i ∈ st.vars ++ [st.mem.length] from hi) with h | h
    · exact .inl h
    · exact .inr (.inl (by simpa using h))
  mem := fun i hi _ => by simp only [make]; rw [List.getElem?_append_left hi]

theorem eff_change {st st' : State} {v : Nat} {f : Bytes → Res Bytes} (h : change st v f = .ok st') (k : Nat) (own : Bool) :
    Eff st st' k own := by
  obtain ⟨i, l, h1, h2, rfl⟩ := change_inv h
  refine ⟨⟨[], by simp, by simp⟩, by simp, fun r hr => .inl hr, fun j hj => .inl hj, fun j hj hn => ?_⟩
  have : i ≠ j := fun e => hn (e ▸ List.mem_of_getElem? h1)
  exact List.getElem?_set_ne this

theorem eff_step {st st' : State} {op : Op} (h : step st op = .ok st') (k : Nat) (own : Bool)
    (ho : own = true → op ≠ .text k) : Eff st st' k own := by
  cases op with
  | make l => cases h; exact eff_make st l k own
  | share v =>
    obtain ⟨i, h1, e⟩ := Res.bind_eq_ok.1 (show (rd st.vars v).bind _ = _ from h)
    cases e
    have hm := List.mem_of_getElem? (rd_eq_ok.1 h1)
    refine ⟨⟨[], by simp, by simp⟩, Nat.le_refl _, fun r hr => .inl hr, fun j hj => ?_, fun _ _ _ => rfl⟩
    rcases List.mem_append.1 hj with hj | hj
    · exact .inl hj
    · rw [List.mem_singleton] at hj; subst hj; exact .inl hm
  | copy v =>
    obtain ⟨l, _, e⟩ := Res.bind_eq_ok.1 (show (value st v).bind _ = _ from h)
    cases e
    exact eff_make st l k own
  | push v x => exact eff_change h k own
  | put v i x => exact eff_change h k own
  | cut v m => exact eff_change h k own
  | index v =>
    obtain ⟨i, h1, e⟩ := Res.bind_eq_ok.1 (show (rd st.vars v).bind _ = _ from h)
    obtain ⟨l, S, h2, _, rfl⟩ := attach_inv e
    have hm := List.mem_of_getElem? (rd_eq_ok.1 h1)
    refine ⟨⟨_, rfl, fun r hr => ?_⟩, Nat.le_refl _, fun r hr => ?_, fun j hj => .inl hj, fun _ _ _ => rfl⟩
    · rw [List.mem_singleton] at hr; subst hr; exact .inl hm
    · rcases List.mem_append.1 hr with hr | hr
      · exact .inl hr
      · rw [List.mem_singleton] at hr; subst hr; exact .inr (List.getElem?_eq_some_iff.1 h2).1
  | indexCopy v =>
    obtain ⟨l, _, e⟩ := Res.bind_eq_ok.1 (show (value st v).bind _ = _ from h)
    obtain ⟨l', S, h2, _, rfl⟩ := attach_inv e
    refine ⟨⟨_, rfl, fun r hr => ?_⟩, by simp, fun r hr => ?_, fun j hj => .inl hj, fun j hj _ => ?_⟩
    · rw [List.mem_singleton] at hr; subst hr; exact .inr rfl
    · rcases List.mem_append.1 hr with hr | hr
      · exact .inl hr
      · rw [List.mem_singleton] at hr; subst hr; exact .inr (List.getElem?_eq_some_iff.1 h2).1
    · exact List.getElem?_append_left hj
  | text j =>
    obtain ⟨r, h1, e⟩ := Res.bind_eq_ok.1 (show (rd st.srch j).bind _ = _ from h)
    cases e
    refine ⟨⟨[], by simp, by simp⟩, Nat.le_refl _, fun r hr => .inl hr, fun i hi => ?_, fun _ _ _ => rfl⟩
    rcases List.mem_append.1 hi with hi | hi
    · exact .inl hi
    · rw [List.mem_singleton] at hi
      exact .inr (.inr ⟨j, r, rd_eq_ok.1 h1, hi.symm, fun hown e => ho hown (by rw [e])⟩)

/-- Searcher `k` has the table for `t`. -/
def Made (st : State) (k : Nat) (t : Bytes) : Prop :=
  ∃ h S, st.srch[k]? = some ⟨h, S.a⟩ ∧ h < st.mem.length ∧ build t = .ok S

theorem made_step {st st' : State} {op : Op} {k : Nat} {t : Bytes} (hm : Made st k t) (h : step st op = .ok st') :
    Made st' k t := by
  obtain ⟨i, S, h1, h2, h3⟩ := hm
  have E := eff_step h k false (by intro h; cases h)
  obtain ⟨l, hl, _⟩ := E.srch
  refine ⟨i, S, ?_, Nat.lt_of_lt_of_le h2 E.len, h3⟩
  rw [hl, List.getElem?_append_left (List.getElem?_eq_some_iff.1 h1).1, h1]

theorem run_append (st : State) (a b : List Op) : run st (a ++ b) = (run st a).bind fun st => run st b := by
  induction a generalizing st with
  | nil => rfl
  | cons op a ih =>
    show (step st op).bind _ = ((step st op).bind _).bind _
    cases step st op with
    | ok st' => exact ih st'
    | _ => rfl

theorem made_run {st st' : State} {ops : List Op} {k : Nat} {t : Bytes} (hm : Made st k t) (h : run st ops = .ok st') :
    Made st' k t := by
  induction ops generalizing st with
  | nil => cases h; exact hm
  | cons op ops ih =>
    obtain ⟨st1, h1, h2⟩ := Res.bind_eq_ok.1 (show (step st op).bind _ = _ from h)
    exact ih (made_step hm h1) h2

theorem made_index {st st' : State} {v : Nat} {t : Bytes} (ht : value st v = .ok t) (h : index st v = .ok st') :
    Made st' st.srch.length t := by
  obtain ⟨i, h1, e⟩ := Res.bind_eq_ok.1 (show (rd st.vars v).bind _ = _ from h)
  obtain ⟨l, S, h2, h3, rfl⟩ := attach_inv e
  obtain ⟨j, g1, g2⟩ := Res.bind_eq_ok.1 (show (rd st.vars v).bind _ = _ from ht)
  rw [h1] at g1; cases g1
  rw [rd_eq_ok, h2] at g2; cases g2
  exact ⟨i, S, by simp, (List.getElem?_eq_some_iff.1 h2).1, h3⟩

theorem made_now {st : State} {k : Nat} {t : Bytes} (hm : Made st k t) :
    ∃ cur S, now st k = .ok ⟨cur, S.a⟩ ∧ shown st k = .ok cur ∧ build t = .ok S := by
  obtain ⟨i, S, h1, h2, h3⟩ := hm
  have e : now st k = .ok ⟨st.mem[i], S.a⟩ := by
    unfold now
    rw [rd_eq_ok.2 h1, Res.ok_bind]
    dsimp only
    rw [rd_ok h2, Res.ok_bind]
  exact ⟨_, S, e, by unfold shown; rw [e, Res.ok_bind], h3⟩

/-! ## The theorems -/

/-- A program in which a searcher is made from the variable `v`, when it has the characters `t`, and what it does afterwards.
The searcher has the number `k`. -/
def Program (pre : List Op) (v : Nat) (t : Bytes) (post : List Op) (k : Nat) (st : State) : Prop :=
  ∃ st0, run init pre = .ok st0 ∧ value st0 v = .ok t ∧ k = st0.srch.length ∧ run init (pre ++ .index v :: post) = .ok st

theorem program_made {pre post : List Op} {v k : Nat} {t : Bytes} {st : State} (h : Program pre v t post k st) :
    Made st k t := by
  obtain ⟨st0, h1, h2, rfl, h3⟩ := h
  rw [run_append, h1] at h3
  obtain ⟨st1, g1, g2⟩ := Res.bind_eq_ok.1 (show (index st0 v).bind _ = _ from h3)
  exact made_run (made_index h2 g1) g2

/-- Whatever a program does to its strings after it has made a searcher: for patterns that are not longer than the text was,
`search_all` works; it gives only places at which the pattern is in the text now, in increasing order, and all places at
which it was then and is now. `search_next` gives the first of these places from `pos` on. -/
theorem C168_answers_partial {pre post : List Op} {v k : Nat} {t : Bytes} {st : State} (h : Program pre v t post k st)
    (what : Bytes) (hl : what.length ≤ t.length) :
    ∃ cur ps, shown st k = .ok cur ∧ searchAll st k what = .ok ps ∧
      (∀ pos, searchNext st k what pos = .ok (firstFrom pos ps)) ∧ ps.Pairwise (· < ·) ∧
      (∀ p ∈ ps, OccursAt what cur p) ∧ ∀ p, OccursAt what t p → OccursAt what cur p → p ∈ ps := by
  obtain ⟨cur, S, h1, h2, h3⟩ := made_now (program_made h)
  by_cases hne : what = []
  · subst hne
    obtain ⟨e1, e2⟩ := stale_empty cur S.a
    refine ⟨cur, _, h2, by unfold searchAll; rw [h1, Res.ok_bind]; exact e1,
      fun pos => by unfold searchNext; rw [h1, Res.ok_bind]; exact e2 pos, List.pairwise_lt_range, fun p hp => ?_, fun p _ hp => ?_⟩
    · rw [FastSearch.occursAt_iff]
      rw [List.mem_range] at hp
      exact ⟨by omega, List.nil_prefix⟩
    · rw [FastSearch.occursAt_iff] at hp
      rw [List.mem_range]; omega
  · have h0 : what.length ≠ 0 := fun e => hne (List.length_eq_zero_iff.1 e)
    have hb := block_spec what.length (by omega)
    obtain ⟨ps, e1, e2, e3, e4⟩ := stale_all t cur what S h3 hne (by omega)
    refine ⟨cur, ps, h2, by unfold searchAll; rw [h1, Res.ok_bind]; exact e1,
      fun pos => by unfold searchNext; rw [h1, Res.ok_bind]; exact e2 pos, e3, fun p hp => ((e4 p).1 hp).1, fun p ht hc => ?_⟩
    exact (e4 p).2 ⟨hc, hash_of_both t what p hne ht⟩

/-- As long as the text shows the characters that it had, and also when it shows them again, the answers are those of C41. -/
theorem C168_unchanged_partial {pre post : List Op} {v k : Nat} {t : Bytes} {st : State} (h : Program pre v t post k st)
    (hs : shown st k = .ok t) (what : Bytes) (hl : what.length ≤ t.length) :
    ∃ ps, searchAll st k what = .ok ps ∧ (∀ pos, searchNext st k what pos = .ok (firstFrom pos ps)) ∧
      ps.Pairwise (· < ·) ∧ ∀ p, p ∈ ps ↔ OccursAt what t p := by
  obtain ⟨cur, ps, h1, h2, h3, h4, h5, h6⟩ := C168_answers_partial h what hl
  rw [hs] at h1; cases h1
  exact ⟨ps, h2, h3, h4, fun p => ⟨h5 p, fun hp => h6 p hp hp⟩⟩

/-- For a single character the answer is exact: the places at which the text had it then and has it now. -/
theorem C168_single_partial {pre post : List Op} {v k : Nat} {t : Bytes} {st : State} (h : Program pre v t post k st)
    (c : UInt8) (hl : t ≠ []) :
    ∃ cur ps, shown st k = .ok cur ∧ searchAll st k [c] = .ok ps ∧
      ∀ p, p ∈ ps ↔ t[p]? = some c ∧ cur[p]? = some c := by
  obtain ⟨cur, S, h1, h2, h3⟩ := made_now (program_made h)
  have h0 : t.length ≠ 0 := fun e => hl (List.length_eq_zero_iff.1 e)
  have hb : block [c].length = 1 := rfl
  obtain ⟨ps, e1, -, -, e4⟩ := stale_all t cur [c] S h3 (by simp) (by rw [hb]; omega)
  refine ⟨cur, ps, h2, by unfold searchAll; rw [h1, Res.ok_bind]; exact e1, fun p => ?_⟩
  rw [e4, hb]
  have key : ∀ s : Bytes, OccursAt [c] s p ↔ s[p]? = some c := by
    intro s
    rw [occurs_iff _ _ _ (by simp)]
    by_cases hp : p < s.length
    · rw [List.drop_eq_getElem_cons hp, List.getElem?_eq_getElem hp]
      rw [List.cons_prefix_cons, Option.some.injEq]
      exact ⟨fun g => g.1.symm, fun g => ⟨g.symm, List.nil_prefix⟩⟩
    · rw [List.drop_eq_nil_of_le (by omega), List.getElem?_eq_none (by omega)]
      simp
  rw [key]
  constructor
  · rintro ⟨g1, g2, g3⟩
    have hp : p < t.length := by omega
    rw [List.drop_eq_getElem_cons hp] at g3
    simp only [List.take_succ_cons, List.take_zero, FastSearch.fastHash_single] at g3
    refine ⟨?_, g1⟩
    rw [List.getElem?_eq_getElem hp]
    congr 1
    unfold byteCode at g3
    have := congrArg BitVec.toNat g3
    simp only [BitVec.toNat_setWidth] at this
    have a1 := t[p].toBitVec.isLt
    have a2 := c.toBitVec.isLt
    rw [Nat.mod_eq_of_lt (by omega), Nat.mod_eq_of_lt (by omega)] at this
    exact UInt8.toBitVec_inj.1 (BitVec.eq_of_toNat_eq this)
  · rintro ⟨g1, g2⟩
    obtain ⟨hp, e⟩ := List.getElem?_eq_some_iff.1 g1
    refine ⟨g2, by omega, ?_⟩
    rw [List.drop_eq_getElem_cons hp, e]
    simp

/-! ### Texts that nobody else can change -/

/-- Nobody but searcher `k` has its text, and this is `t`. -/
def Alone (st : State) (k : Nat) (t : Bytes) : Prop :=
  ∃ h, (∃ a, st.srch[k]? = some ⟨h, a⟩) ∧ h ∉ st.vars ∧ st.mem[h]? = some t ∧ ∀ j r, st.srch[j]? = some r → r.s = h → j = k

theorem alone_step {st st' : State} {op : Op} {k : Nat} {t : Bytes} (ha : Alone st k t) (hn : op ≠ .text k)
    (h : step st op = .ok st') : Alone st' k t := by
  obtain ⟨i, ⟨a, h1⟩, h2, h3, h4⟩ := ha
  have E := eff_step h k true (fun _ => hn)
  obtain ⟨l, hl, hl'⟩ := E.srch
  have hk := (List.getElem?_eq_some_iff.1 h1).1
  have hi := (List.getElem?_eq_some_iff.1 h3).1
  refine ⟨i, ⟨a, ?_⟩, fun hm => ?_, ?_, fun j r hj hr => ?_⟩
  · rw [hl, List.getElem?_append_left hk, h1]
  · rcases E.vars i hm with g | g | ⟨j, r, g1, g2, g3⟩
    · exact h2 g
    · omega
    · exact g3 rfl (h4 j r g1 g2)
  · rw [E.mem i hi h2, h3]
  · rw [hl] at hj
    by_cases hlt : j < st.srch.length
    · rw [List.getElem?_append_left hlt] at hj
      exact h4 j r hj hr
    · rw [List.getElem?_append_right (by omega)] at hj
      rcases hl' r (List.mem_of_getElem? hj) with g | g
      · exact absurd (hr ▸ g) h2
      · omega

theorem alone_run {st st' : State} {ops : List Op} {k : Nat} {t : Bytes} (ha : Alone st k t)
    (hn : Op.text k ∉ ops) (h : run st ops = .ok st') : Alone st' k t := by
  induction ops generalizing st with
  | nil => cases h; exact ha
  | cons op ops ih =>
    obtain ⟨st1, h1, h2⟩ := Res.bind_eq_ok.1 (show (step st op).bind _ = _ from h)
    rw [List.mem_cons, not_or] at hn
    exact ih (alone_step ha (fun e => hn.1 e.symm) h1) hn.2 h2

/-- All searchers and variables have strings that exist. -/
def Valid (st : State) : Prop := (∀ i ∈ st.vars, i < st.mem.length) ∧ ∀ r ∈ st.srch, r.s < st.mem.length

theorem valid_step {st st' : State} {op : Op} (hv : Valid st) (h : step st op = .ok st') : Valid st' := by
  have E := eff_step h 0 false (by intro h; cases h)
  have len := E.len
  constructor
  · intro i hi
    rcases E.vars i hi with g | g | ⟨j, r, g1, g2, _⟩
    · have := hv.1 i g; omega
    · cases op with
      | make l => cases h; simp [make, g]
      | copy v =>
        obtain ⟨l, _, e⟩ := Res.bind_eq_ok.1 (show (value st v).bind _ = _ from h)
        cases e; simp [make, g]
      | share v =>
        obtain ⟨x, h1, e⟩ := Res.bind_eq_ok.1 (show (rd st.vars v).bind _ = _ from h)
        cases e
        rcases List.mem_append.1 hi with hi | hi
        · exact hv.1 i hi
        · rw [List.mem_singleton] at hi; subst hi; exact hv.1 _ (List.mem_of_getElem? (rd_eq_ok.1 h1))
      | push v x =>
        obtain ⟨j, l, _, _, rfl⟩ := change_inv h
        have := hv.1 i hi; omega
      | put v i x =>
        obtain ⟨j, l, _, _, rfl⟩ := change_inv h
        have := hv.1 _ hi; omega
      | cut v m =>
        obtain ⟨j, l, _, _, rfl⟩ := change_inv h
        have := hv.1 i hi; omega
      | index v =>
        obtain ⟨x, h1, e⟩ := Res.bind_eq_ok.1 (show (rd st.vars v).bind _ = _ from h)
        obtain ⟨l, S, h2, _, rfl⟩ := attach_inv e
        exact hv.1 i hi
      | indexCopy v =>
        obtain ⟨l, _, e⟩ := Res.bind_eq_ok.1 (show (value st v).bind _ = _ from h)
        obtain ⟨l', S, h2, _, rfl⟩ := attach_inv e
        have := hv.1 i hi; omega
      | text j =>
        obtain ⟨r, h1, e⟩ := Res.bind_eq_ok.1 (show (rd st.srch j).bind _ = _ from h)
        cases e
        rcases List.mem_append.1 hi with hi | hi
        · exact hv.1 i hi
        · rw [List.mem_singleton] at hi; subst hi; exact hv.2 _ (List.mem_of_getElem? (rd_eq_ok.1 h1))
    · have := hv.2 r (List.mem_of_getElem? g1); omega
  · intro r hr
    rcases E.new r hr with g | g
    · have := hv.2 r g; omega
    · exact g

theorem valid_run {st st' : State} {ops : List Op} (hv : Valid st) (h : run st ops = .ok st') : Valid st' := by
  induction ops generalizing st with
  | nil => cases h; exact hv
  | cons op ops ih =>
    obtain ⟨st1, h1, h2⟩ := Res.bind_eq_ok.1 (show (step st op).bind _ = _ from h)
    exact ih (valid_step hv h1) h2

/-- A searcher that was made from a copy, and whose text nobody asks for, gives the answers of C41 for the text that it was made
for, whatever else happens. -/
theorem C168_copy {pre post : List Op} {v : Nat} {t : Bytes} {st0 st : State} (h0 : run init pre = .ok st0)
    (ht : value st0 v = .ok t) (h : run init (pre ++ .indexCopy v :: post) = .ok st)
    (hn : Op.text st0.srch.length ∉ post) (what : Bytes) (hl : what.length ≤ t.length) :
    shown st st0.srch.length = .ok t ∧
    ∃ ps, searchAll st st0.srch.length what = .ok ps ∧
      (∀ pos, searchNext st st0.srch.length what pos = .ok (firstFrom pos ps)) ∧
      ps.Pairwise (· < ·) ∧ ∀ p, p ∈ ps ↔ OccursAt what t p := by
  rw [run_append, h0] at h
  obtain ⟨st1, g1, g2⟩ := Res.bind_eq_ok.1 (show (indexCopy st0 v).bind _ = _ from h)
  have hv := valid_run (st := init) ⟨fun i hi => (by cases hi), fun r hr => (by cases hr)⟩ h0
  obtain ⟨l, e, g3⟩ := Res.bind_eq_ok.1 (show (value st0 v).bind _ = _ from g1)
  rw [ht] at e; cases e
  obtain ⟨l', S, h2, h3, rfl⟩ := attach_inv g3
  have el : l' = t := by simpa using h2.symm
  subst el
  have ha : Alone { mem := st0.mem ++ [l'], vars := st0.vars, srch := st0.srch ++ [⟨st0.mem.length, S.a⟩] } st0.srch.length l' := by
    refine ⟨st0.mem.length, ⟨S.a, by simp⟩, fun hm => ?_, h2, fun j r hj hr => ?_⟩
    · have := hv.1 _ hm; omega
    · dsimp only at hj
      by_cases hlt : j < st0.srch.length
      · rw [List.getElem?_append_left hlt] at hj
        have := hv.2 r (List.mem_of_getElem? hj); omega
      · have := (List.getElem?_eq_some_iff.1 hj).1
        simp at this; omega
  have hm : Made { mem := st0.mem ++ [l'], vars := st0.vars, srch := st0.srch ++ [⟨st0.mem.length, S.a⟩] } st0.srch.length l' :=
    ⟨st0.mem.length, S, by simp, by simp, h3⟩
  have ha' := alone_run ha hn g2
  obtain ⟨cur, S', e1, e2, e3⟩ := made_now (made_run hm g2)
  have hs : shown st st0.srch.length = .ok l' := by
    obtain ⟨i, ⟨a, f1⟩, _, f3, _⟩ := ha'
    unfold shown now
    rw [rd_eq_ok.2 f1, Res.ok_bind]
    dsimp only
    rw [rd_eq_ok.2 f3]; rfl
  refine ⟨hs, ?_⟩
  rw [hs] at e2; cases e2
  obtain ⟨T, hT, hTs, _⟩ := FastSearch.build_spec l'
  rw [e3] at hT; cases hT
  have hS : (⟨l', S'.a⟩ : FastSearch.Searcher) = S' := by cases S'; cases hTs; rfl
  rw [hS] at e1
  obtain ⟨ps, q1, q2, q3⟩ := FastSearchProps.C41_all l' what S' e3 hl
  refine ⟨ps, by unfold searchAll; rw [e1, Res.ok_bind]; exact q1, fun pos => ?_, q2, q3⟩
  unfold searchNext
  rw [e1, Res.ok_bind]
  unfold FastSearch.searchAll at q1
  obtain ⟨cs, c1, c2⟩ := Res.bind_eq_ok.1 q1
  rw [all_any] at c2; cases c2
  unfold FastSearch.searchNext
  rw [c1, Res.ok_bind, next_any]

/-! ### Violations -/

/-- Occurrences that begin so late that their first characters, as many as the largest power of two in the length of the pattern,
are not all in the old text, are never found. -/
theorem C168_appended_violated {pre post : List Op} {v k : Nat} {t : Bytes} {st : State} (h : Program pre v t post k st)
    (what : Bytes) (hne : what ≠ []) (j : Nat) (h1 : 2 ^ j ≤ what.length) (h2 : what.length < 2 ^ (j + 1)) (h3 : 2 ^ j ≤ t.length) :
    ∃ ps, searchAll st k what = .ok ps ∧ ∀ p ∈ ps, p + 2 ^ j ≤ t.length := by
  obtain ⟨cur, S, e1, e2, e3⟩ := made_now (program_made h)
  have h0 : what.length ≠ 0 := fun e => hne (List.length_eq_zero_iff.1 e)
  have hb : block what.length = 2 ^ j := by
    unfold block
    obtain ⟨g1, g2, g3⟩ := FastSearch.levelOf_spec what.length what.length 1 0 rfl (by omega) (by omega)
    generalize levelOf what.length what.length 1 0 = kl at *
    obtain ⟨k, l⟩ := kl
    simp only at g1 g2 g3 ⊢
    subst g1
    have a1 : 2 ^ j < 2 ^ (l + 1) := by rw [Nat.pow_succ]; omega
    have a2 : 2 ^ l < 2 ^ (j + 1) := by omega
    have := (Nat.pow_lt_pow_iff_right (a := 2) (by decide)).1 a1
    have := (Nat.pow_lt_pow_iff_right (a := 2) (by decide)).1 a2
    rw [show l = j by omega]
  obtain ⟨ps, q1, -, -, q4⟩ := stale_all t cur what S e3 hne (by omega)
  exact ⟨ps, by unfold searchAll; rw [e1, Res.ok_bind]; exact q1, fun p hp => by have := ((q4 p).1 hp).2.1; omega⟩

/-- If there is a power of two between the length that the text had and that of the pattern, then searching is undefined, even if the
text has become long enough and contains the pattern. -/
theorem C168_long_violated {pre post : List Op} {v k : Nat} {t : Bytes} {st : State} (h : Program pre v t post k st)
    (what : Bytes) (j : Nat) (h1 : t.length < 2 ^ j) (h2 : 2 ^ j ≤ what.length) :
    searchAll st k what = .ub ∧ ∀ pos, searchNext st k what pos = .ub := by
  obtain ⟨cur, S, e1, e2, e3⟩ := made_now (program_made h)
  have hp : 1 ≤ 2 ^ j := Nat.one_le_two_pow
  have hne : what ≠ [] := by intro e; subst e; simp at h2
  have hb : t.length < block what.length := by
    unfold block
    obtain ⟨g1, g2, g3⟩ := FastSearch.levelOf_spec what.length what.length 1 0 rfl (by omega) (by omega)
    generalize levelOf what.length what.length 1 0 = kl at *
    obtain ⟨k, l⟩ := kl
    simp only at g1 g2 g3 ⊢
    subst g1
    have a1 : 2 ^ j < 2 ^ (l + 1) := by rw [Nat.pow_succ]; omega
    have := (Nat.pow_lt_pow_iff_right (a := 2) (by decide)).1 a1
    have := Nat.pow_le_pow_right (n := 2) (by decide) (show j ≤ l by omega)
    omega
  have e := sub_ub t cur what S e3 hb hne
  constructor
  · unfold searchAll FastSearch.searchAll; rw [e1, Res.ok_bind, e]; rfl
  · intro pos; unfold searchNext FastSearch.searchNext; rw [e1, Res.ok_bind, e]; rfl

/-- A program that makes a text and a searcher, and replaces a character; and one that appends; and one that changes what `get_string`
returned. -/
def replaced : List Op := [.put 0 1 (c! 'x')]
def appended : List Op := [.push 0 (c! 'c'), .push 0 (c! 'd')]
def returned : List Op := [.text 0, .cut 1 1]

theorem prog_of (l : Bytes) (post : List Op) (st : State) (h : run init ([.make l] ++ .index 0 :: post) = .ok st) :
    Program [.make l] 0 l post 0 st := ⟨⟨[l], [0], []⟩, rfl, rfl, rfl, h⟩

/-- After `s[1]= 'x'` in `"abc"` the searcher finds neither `x`, which is there, nor `b`, which was there; after appending
`"cd"` to `"abab"` it finds neither `c` nor `cd`; and if the string that `get_string` returned is made shorter then the
searcher no longer finds what was behind the new end. -/
theorem C168_violated :
    ((run init ([.make (b!"abc")] ++ .index 0 :: replaced)).bind fun st =>
      (shown st 0).bind fun s => (searchAll st 0 (b!"x")).bind fun x => (searchAll st 0 (b!"b")).bind fun y =>
        .ok (s, x, y)) = .ok (b!"axc", [], []) ∧
    ((run init ([.make (b!"abab")] ++ .index 0 :: appended)).bind fun st =>
      (shown st 0).bind fun s => (searchAll st 0 (b!"c")).bind fun x => (searchAll st 0 (b!"cd")).bind fun y =>
        .ok (s, x, y)) = .ok (b!"ababcd", [], []) ∧
    ((run init ([.make (b!"abc")] ++ .index 0 :: returned)).bind fun st =>
      (shown st 0).bind fun s => (searchAll st 0 (b!"a")).bind fun x => (searchAll st 0 (b!"c")).bind fun y =>
        .ok (s, x, y)) = .ok (b!"a", [0], []) := by
  decide +kernel

/-- After appending to `"a"`, searching `"ab"` in `"ab"` is undefined. -/
example : ((run init ([.make (b!"a")] ++ .index 0 :: [.push 0 (c! 'b')])).bind fun st =>
    (shown st 0).bind fun s => .ok (s, searchAll st 0 (b!"ab") == .ub)) = .ok (b!"ab", true) := by
  decide +kernel

/-- The programs meet the hypotheses. -/
example : ∃ st, Program [.make (b!"abc")] 0 (b!"abc") replaced 0 st ∧ shown st 0 = .ok (b!"axc") := by
  refine ⟨_, prog_of _ _ _ rfl, rfl⟩

/-- A searcher made from a copy is not concerned. -/
example : ((run init ([.make (b!"abc")] ++ .indexCopy 0 :: replaced)).bind fun st =>
    (searchAll st 0 (b!"b")).bind fun x => (value st 0).bind fun s => .ok (s, x)) = .ok (b!"axc", [1]) := by
  decide +kernel

end Lolly.SearcherLifeProps
