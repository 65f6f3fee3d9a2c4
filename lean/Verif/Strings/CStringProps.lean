import Verif.Strings.CString

/-!
# C170: C strings with automatic memory management
-/

set_option autoImplicit false

namespace Lolly.CStringProps

open CStr

/-! ## Helper lemmas -/

/-- The representation with number `r`, if it exists. -/
def rep (st : State) (r : Nat) : Option Rep := (st.reps[r]?).join

/-- Its count, zero if it does not exist. -/
def cnt (st : State) (r : Nat) : Nat := ((rep st r).map (·.count)).getD 0

theorem getRep_eq (st : State) (r : Nat) : getRep st r = match rep st r with
    | some c => .ok c
    | none => .ub := by
  unfold getRep rep
  cases st.reps[r]? with
  | none => rfl
  | some o => cases o <;> rfl

theorem rep_lt {st : State} {r : Nat} {c : Rep} (h : rep st r = some c) : r < st.reps.length := by
  unfold rep at h
  by_cases hr : r < st.reps.length
  · exact hr
  · rw [List.getElem?_eq_none (by omega)] at h; cases h

theorem rep_set {st : State} {r : Nat} (hr : r < st.reps.length) (o : Option Rep) (vs : List (Option Nat))
    (ps : List (Option Nat)) (q : Nat) :
    rep ⟨st.reps.set r o, vs, ps⟩ q = if q = r then o else rep st q := by
  unfold rep
  dsimp only
  rw [List.getElem?_set]
  by_cases h : q = r
  · subst h; rw [if_pos rfl, if_pos hr, if_pos rfl]; rfl
  · rw [if_neg (fun h' => h h'.symm), if_neg h]

/-- The invariant, with `x` further references to each representation. -/
structure Inv (st : State) (x : Nat → Nat) : Prop where
  count : ∀ r, cnt st r = st.vars.count (some r) + x r
  pos : ∀ r c, rep st r = some c → 0 < c.count
  ptrs : ∀ p r : Nat, st.ptrs[p]? = some (some r) → r < st.reps.length ∧ ∀ c, rep st r = some c → c.value.isSome = true

theorem cnt_of {st : State} {r : Nat} {c : Rep} (h : rep st r = some c) : cnt st r = c.count := by
  unfold cnt; rw [h]; rfl

theorem cnt_none {st : State} {r : Nat} (h : rep st r = none) : cnt st r = 0 := by
  unfold cnt; rw [h]; rfl

theorem Inv.alive {st : State} {x : Nat → Nat} (hi : Inv st x) {r : Nat} (h : 0 < st.vars.count (some r) + x r) :
    ∃ c, rep st r = some c := by
  cases hc : rep st r with
  | some c => exact ⟨c, rfl⟩
  | none => have := hi.count r; rw [cnt_none hc] at this; omega

/-- The effect of a step on representations: what exists afterwards existed before and has the same value. -/
structure Less (st st' : State) : Prop where
  len : st'.reps.length = st.reps.length
  ptrs : st'.ptrs = st.ptrs
  rep : ∀ r c', rep st' r = some c' → ∃ c, rep st r = some c ∧ c'.value = c.value

theorem Less.trans {a b c : State} (h1 : Less a b) (h2 : Less b c) : Less a c :=
  ⟨h2.len.trans h1.len, h2.ptrs.trans h1.ptrs, fun r d hd => by
    obtain ⟨d1, h3, h4⟩ := h2.rep r d hd
    obtain ⟨d2, h5, h6⟩ := h1.rep r d1 h3
    exact ⟨d2, h5, h4.trans h6⟩⟩

theorem Less.of_vars (st : State) (vs : List (Option Nat)) : Less st { st with vars := vs } :=
  ⟨rfl, rfl, fun _ c h => ⟨c, h, rfl⟩⟩

theorem inc_spec {st : State} {x : Nat → Nat} (hi : Inv st x) {r : Nat} {c : Rep} (hr : rep st r = some c) :
    ∃ st', inc st r = .ok st' ∧ st'.vars = st.vars ∧ Less st st' ∧
      Inv st' (fun q => if q = r then x q + 1 else x q) := by
  have hlt := rep_lt hr
  have hrep := rep_set hlt (some { c with count := c.count + 1 }) st.vars st.ptrs
  refine ⟨⟨st.reps.set r (some { c with count := c.count + 1 }), st.vars, st.ptrs⟩, ?_, rfl,
    ⟨List.length_set, rfl, ?_⟩, ?_, ?_, ?_⟩
  · rw [inc, getRep_eq, hr]; rfl
  · intro q c' hq
    rw [hrep] at hq
    split at hq
    · rename_i h; subst h; exact ⟨c, hr, by rw [← Option.some.inj hq]⟩
    · exact ⟨c', hq, rfl⟩
  · intro q
    have h1 := hi.count q
    by_cases hq : q = r
    · subst hq
      rw [cnt_of ((hrep q).trans (if_pos rfl))]
      rw [cnt_of hr] at h1
      rw [if_pos rfl]; dsimp only; omega
    · rw [if_neg hq]
      have : cnt ⟨st.reps.set r (some { c with count := c.count + 1 }), st.vars, st.ptrs⟩ q = cnt st q := by
        unfold cnt; rw [hrep, if_neg hq]
      rw [this]; exact h1
  · intro q c' hq
    rw [hrep] at hq
    split at hq
    · rw [← Option.some.inj hq]; exact Nat.succ_pos _
    · exact hi.pos q c' hq
  · intro p q hp
    obtain ⟨h1, h2⟩ := hi.ptrs p q hp
    refine ⟨by simpa using h1, fun c' hq => ?_⟩
    rw [hrep] at hq
    split at hq
    · rename_i h; subst h; rw [← Option.some.inj hq]; exact h2 c hr
    · exact h2 c' hq

theorem dec_spec {st : State} {x : Nat → Nat} (hi : Inv st x) {r : Nat} (hx : 0 < x r) :
    ∃ st', dec st r = .ok st' ∧ st'.vars = st.vars ∧ Less st st' ∧
      Inv st' (fun q => if q = r then x q - 1 else x q) := by
  obtain ⟨c, hr⟩ := hi.alive (r := r) (by omega)
  have hlt := rep_lt hr
  have hc := hi.count r
  rw [cnt_of hr] at hc
  generalize ho : (if c.count - 1 = 0 then none else some { c with count := c.count - 1 } : Option Rep) = o
  have hrep := rep_set hlt o st.vars st.ptrs
  have hcnt : (o.map (·.count)).getD 0 = c.count - 1 := by
    rw [← ho]
    split
    · rename_i h; rw [h]; rfl
    · rfl
  refine ⟨⟨st.reps.set r o, st.vars, st.ptrs⟩, ?_, rfl, ⟨List.length_set, rfl, ?_⟩, ?_, ?_, ?_⟩
  · rw [dec, getRep_eq, hr, ← ho]
    show (if _ then _ else _ : Res State) = _
    split <;> rfl
  · intro q c' hq
    rw [hrep] at hq
    split at hq
    · rename_i h
      subst h
      rw [← ho] at hq
      split at hq
      · cases hq
      · exact ⟨c, hr, by rw [← Option.some.inj hq]⟩
    · exact ⟨c', hq, rfl⟩
  · intro q
    have h1 := hi.count q
    by_cases hq : q = r
    · subst hq
      rw [if_pos rfl]
      unfold cnt
      rw [hrep, if_pos rfl, hcnt]
      dsimp only
      omega
    · rw [if_neg hq]
      have : cnt ⟨st.reps.set r o, st.vars, st.ptrs⟩ q = cnt st q := by
        unfold cnt; rw [hrep, if_neg hq]
      rw [this]; exact h1
  · intro q c' hq
    rw [hrep] at hq
    split at hq
    · rw [← ho] at hq
      split at hq
      · cases hq
      · rw [← Option.some.inj hq]; dsimp only; omega
    · exact hi.pos q c' hq
  · intro p q hp
    obtain ⟨h1, h2⟩ := hi.ptrs p q hp
    refine ⟨by simpa using h1, fun c' hq => ?_⟩
    rw [hrep] at hq
    split at hq
    · rename_i h
      subst h
      rw [← ho] at hq
      split at hq
      · cases hq
      · rw [← Option.some.inj hq]; exact h2 c hr
    · exact h2 c' hq

/-- `dec` does not look at the handles. -/
theorem dec_vars (st : State) (vs : List (Option Nat)) (r : Nat) :
    (dec st r).bind (fun st => .ok { st with vars := vs }) = dec { st with vars := vs } r := by
  unfold dec
  rw [getRep_eq, getRep_eq]
  show Res.bind _ _ = _
  have : rep { st with vars := vs } r = rep st r := rfl
  rw [this]
  cases rep st r with
  | none => rfl
  | some c =>
    show Res.bind (if _ then _ else _) _ = (if _ then _ else _)
    split <;> rfl

theorem dec_frame {st st' : State} {r : Nat} (h : dec st r = .ok st') : st'.vars = st.vars := by
  unfold dec at h
  obtain ⟨c, -, h⟩ := Res.bind_eq_ok.1 h
  split at h <;> (rw [← Res.ok.inj h])

/-- Removing a reference and changing a handle can be done in either order. -/
theorem dec_then {st st' : State} {vs : List (Option Nat)} {r : Nat} (h : dec { st with vars := vs } r = .ok st') :
    ∃ s1, dec st r = .ok s1 ∧ s1.vars = st.vars ∧ { s1 with vars := vs } = st' := by
  rw [← dec_vars] at h
  obtain ⟨s1, h1, h2⟩ := Res.bind_eq_ok.1 h
  exact ⟨s1, h1, dec_frame h1, Res.ok.inj h2⟩

theorem handle_ok {st : State} {v r : Nat} (h : handle st v = .ok r) : st.vars[v]? = some (some r) := by
  unfold handle at h
  split at h
  · rename_i e; rw [e, Res.ok.inj h]
  · cases h

theorem handle_of {st : State} {v r : Nat} (h : st.vars[v]? = some (some r)) : handle st v = .ok r := by
  unfold handle; rw [h]

theorem count_pos {st : State} {v r : Nat} (h : st.vars[v]? = some (some r)) : 0 < st.vars.count (some r) :=
  List.count_pos_iff.2 (List.mem_of_getElem? h)

theorem count_set {l : List (Option Nat)} {v : Nat} {a : Option Nat} (h : l[v]? = some a) (b x : Option Nat) :
    (l.set v b).count x + (if a = x then 1 else 0) = l.count x + (if b = x then 1 else 0) := by
  obtain ⟨hv, ha⟩ := List.getElem?_eq_some_iff.1 h
  have hle : (if a = x then 1 else 0) ≤ l.count x := by
    split
    · rename_i e; rw [← e]; exact List.count_pos_iff.2 (List.mem_of_getElem? h)
    · exact Nat.zero_le _
  rw [List.count_set hv, ha]
  simp only [beq_iff_eq]
  omega

theorem Inv.congr {st : State} {x y : Nat → Nat} (hi : Inv st x) (h : ∀ r, x r = y r) : Inv st y :=
  ⟨fun r => by rw [← h]; exact hi.count r, hi.pos, hi.ptrs⟩

/-- A handle is changed, and the counts of references are changed to fit. -/
theorem Inv.set {st : State} {x y : Nat → Nat} (hi : Inv st x) {v : Nat} {a : Option Nat} (h : st.vars[v]? = some a)
    (b : Option Nat) (hxy : ∀ r, x r + (if a = some r then 1 else 0) = y r + (if b = some r then 1 else 0)) :
    Inv { st with vars := st.vars.set v b } y :=
  ⟨fun r => by
    have h1 := hi.count r
    have h2 := count_set h b (some r)
    have h3 := hxy r
    show cnt st r = (st.vars.set v b).count (some r) + y r
    omega, hi.pos, hi.ptrs⟩

/-! ## The steps -/

theorem new_spec {st : State} (hi : Inv st fun _ => 0) (value : Option Bytes) :
    Inv (new st value) (fun _ => 0) ∧ ∀ r, rep (new st value) r =
      if r = st.reps.length then some ⟨1, value⟩ else rep st r := by
  have hrep : ∀ r, rep (new st value) r = if r = st.reps.length then some ⟨1, value⟩ else rep st r := by
    intro r
    unfold rep new
    dsimp only
    by_cases h1 : r < st.reps.length
    · rw [List.getElem?_append_left h1, if_neg (by omega)]
    · rw [List.getElem?_append_right (by omega)]
      by_cases h2 : r = st.reps.length
      · rw [if_pos h2, h2, Nat.sub_self]; rfl
      · rw [if_neg h2, List.getElem?_eq_none (by simp; omega), List.getElem?_eq_none (by omega)]
  refine ⟨⟨fun r => ?_, fun r c hr => ?_, fun p r hp => ?_⟩, hrep⟩
  · have h1 := hi.count r
    show cnt (new st value) r = (st.vars ++ [some st.reps.length]).count (some r) + 0
    rw [List.count_append, List.count_singleton]
    by_cases h : r = st.reps.length
    · rw [cnt_of ((hrep r).trans (if_pos h)), ← h]
      have : rep st r = none := by
        cases hc : rep st r with
        | none => rfl
        | some c => have := rep_lt hc; omega
      rw [cnt_none this] at h1
      simp only [beq_self_eq_true, if_true]
      omega
    · have : cnt (new st value) r = cnt st r := by unfold cnt; rw [hrep, if_neg h]
      rw [this, h1, if_neg]
      simp only [beq_iff_eq, Option.some.injEq]
      omega
  · rw [hrep] at hr
    split at hr
    · rw [← Option.some.inj hr]; exact Nat.one_pos
    · exact hi.pos r c hr
  · obtain ⟨h1, h2⟩ := hi.ptrs p r hp
    refine ⟨by show r < (st.reps ++ _).length; rw [List.length_append]; omega, fun c hr => ?_⟩
    rw [hrep, if_neg (by omega)] at hr
    exact h2 c hr

theorem copy_spec {st : State} (hi : Inv st fun _ => 0) {v r : Nat} (h : st.vars[v]? = some (some r)) :
    ∃ st', copy st v = .ok st' ∧ st'.vars = st.vars ++ [some r] ∧ Less st st' ∧ Inv st' fun _ => 0 := by
  obtain ⟨c, hc⟩ := hi.alive (r := r) (by have := count_pos h; omega)
  obtain ⟨st1, e1, v1, l1, i1⟩ := inc_spec hi hc
  refine ⟨{ st1 with vars := st1.vars ++ [some r] }, ?_, by rw [v1], l1.trans (.of_vars _ _), ?_, i1.pos, i1.ptrs⟩
  · rw [copy, handle_of h, Res.ok_bind, e1]; rfl
  · intro q
    have := i1.count q
    show cnt st1 q = (st1.vars ++ [some r]).count (some q) + 0
    rw [List.count_append, List.count_singleton, this]
    by_cases hq : q = r
    · simp [hq]
    · have : ¬ r = q := fun h => hq h.symm
      simp [hq, this]

theorem drop_spec {st : State} (hi : Inv st fun _ => 0) {v r : Nat} (h : st.vars[v]? = some (some r)) :
    ∃ st', drop st v = .ok st' ∧ st'.vars = st.vars.set v none ∧ Less st st' ∧ Inv st' fun _ => 0 := by
  have i1 : Inv { st with vars := st.vars.set v none } (fun q => if q = r then 1 else 0) :=
    hi.set h none fun q => by
      by_cases hq : q = r
      · subst hq; simp
      · have : ¬ r = q := fun h => hq h.symm
        simp [hq, this]
  obtain ⟨st', e2, v2, l2, i2⟩ := dec_spec i1 (r := r) (by simp)
  refine ⟨st', ?_, v2, (Less.of_vars _ _).trans l2, i2.congr fun q => ?_⟩
  · obtain ⟨s1, h1, h2, h3⟩ := dec_then e2
    rw [drop, handle_of h, Res.ok_bind, h1, Res.ok_bind, h2, h3]
  · by_cases hq : q = r <;> simp [hq]

theorem assign_spec {st : State} (hi : Inv st fun _ => 0) {v w r x : Nat} (hv : st.vars[v]? = some (some r))
    (hw : st.vars[w]? = some (some x)) :
    ∃ st', assign st v w = .ok st' ∧ st'.vars = st.vars.set v (some x) ∧ Less st st' ∧ Inv st' fun _ => 0 := by
  obtain ⟨c, hc⟩ := hi.alive (r := x) (by have := count_pos hw; omega)
  obtain ⟨st1, e1, v1, l1, i1⟩ := inc_spec hi hc
  obtain ⟨c1, hc1⟩ := i1.alive (r := x) (by rw [if_pos rfl]; omega)
  obtain ⟨st2, e2, v2, l2, i2⟩ := inc_spec i1 hc1
  have hv2 : st2.vars[v]? = some (some r) := by rw [v2, v1]; exact hv
  have i3 : Inv { st2 with vars := st2.vars.set v (some x) }
      (fun q => (if q = r then 1 else 0) + (if q = x then 1 else 0)) :=
    i2.set hv2 (some x) fun q => by
      have h1 : ∀ y, (if some y = some q then 1 else 0 : Nat) = if q = y then 1 else 0 := fun y => by
        by_cases h : q = y
        · rw [if_pos h, if_pos (by rw [h])]
        · rw [if_neg h, if_neg fun h' => h (Option.some.inj h').symm]
      rw [h1, h1]
      repeat' split
      all_goals omega
  obtain ⟨st4, e4, v4, l4, i4⟩ := dec_spec i3 (r := r) (by rw [if_pos rfl]; omega)
  obtain ⟨st', e5, v5, l5, i5⟩ := dec_spec i4 (r := x) (by
    rw [if_pos (rfl : x = x)]
    split <;> omega)
  refine ⟨st', ?_, ?_, ((l1.trans l2).trans (.of_vars _ _)).trans (l4.trans l5), i5.congr fun q => ?_⟩
  · obtain ⟨s1, h1, h2, h3⟩ := dec_then e4
    rw [assign, handle_of hw, Res.ok_bind, e1, Res.ok_bind, e2, Res.ok_bind, handle_of hv2, Res.ok_bind, h1,
      Res.ok_bind, h2, h3]
    exact e5
  · rw [v5, v4, v2, v1]
  · repeat' split
    all_goals omega

theorem ptr_spec {st : State} (hi : Inv st fun _ => 0) {v r : Nat} (hv : st.vars[v]? = some (some r)) :
    ∃ c, rep st r = some c ∧ ptr st v = .ok { st with ptrs := st.ptrs ++ [c.value.map fun _ => r] } ∧
      Inv { st with ptrs := st.ptrs ++ [c.value.map fun _ => r] } fun _ => 0 := by
  obtain ⟨c, hc⟩ := hi.alive (r := r) (by have := count_pos hv; omega)
  refine ⟨c, hc, ?_, hi.count, hi.pos, fun p q hp => ?_⟩
  · rw [ptr, handle_of hv, Res.ok_bind, getRep_eq, hc]; rfl
  · dsimp only at hp
    by_cases h1 : p < st.ptrs.length
    · rw [List.getElem?_append_left h1] at hp
      exact hi.ptrs p q hp
    · rw [List.getElem?_append_right (by omega)] at hp
      by_cases h2 : p - st.ptrs.length = 0
      · rw [h2] at hp
        have hp' : (c.value.map fun _ => r) = some q := Option.some.inj hp
        cases hval : c.value with
        | none => rw [hval] at hp'; cases hp'
        | some b =>
          rw [hval] at hp'
          have hq : r = q := Option.some.inj hp'
          subst hq
          refine ⟨rep_lt hc, fun c' hc' => ?_⟩
          have : rep st r = some c' := hc'
          rw [hc] at this
          rw [← Option.some.inj this, hval]; rfl
      · rw [List.getElem?_eq_none (by simp; omega)] at hp; cases hp

theorem buffer_eq {st : State} {p r : Nat} (hp : st.ptrs[p]? = some (some r)) :
    buffer st p = match rep st r with
      | some c => match c.value with
        | some b => .ok (r, c, b)
        | none => .ub
      | none => .ub := by
  unfold buffer
  have hr : rd st.ptrs p = .ok (some r) := by
    obtain ⟨h1, h2⟩ := List.getElem?_eq_some_iff.1 hp
    rw [rd_ok h1, h2]
  rw [hr, Res.ok_bind]
  dsimp only
  rw [getRep_eq]
  cases rep st r with
  | none => rfl
  | some c =>
    rw [Res.ok_bind]
    cases hv : c.value <;> simp [hv]

theorem buffer_ok {st : State} {p r : Nat} {c : Rep} {b : Bytes} (h : buffer st p = .ok (r, c, b)) :
    st.ptrs[p]? = some (some r) ∧ rep st r = some c ∧ c.value = some b := by
  have h0 := h
  unfold buffer at h
  obtain ⟨o, h1, h2⟩ := Res.bind_eq_ok.1 h
  cases o with
  | none => cases h2
  | some q =>
    obtain ⟨c', h3, h4⟩ := Res.bind_eq_ok.1 h2
    have hq : st.ptrs[p]? = some (some q) := by
      exact rd_eq_ok.1 h1
    rw [buffer_eq hq] at h0
    cases hr : rep st q with
    | none => rw [hr] at h0; cases h0
    | some d =>
      rw [hr] at h0
      dsimp only at h0
      cases hv : d.value with
      | none => rw [hv] at h0; cases h0
      | some e =>
        rw [hv] at h0
        cases h0
        exact ⟨hq, hr, hv⟩

theorem put_spec {st st' : State} (hi : Inv st fun _ => 0) {p i : Nat} {x : UInt8} (h : put st p i x = .ok st') :
    ∃ r c b, st.ptrs[p]? = some (some r) ∧ rep st r = some c ∧ c.value = some b ∧ i < b.length ∧
      (∀ q, rep st' q = if q = r then some { c with value := some (b.set i x) } else rep st q) ∧
      st'.vars = st.vars ∧ st'.ptrs = st.ptrs ∧ st'.reps.length = st.reps.length ∧ Inv st' fun _ => 0 := by
  unfold put at h
  obtain ⟨⟨r, c, b⟩, h1, h2⟩ := Res.bind_eq_ok.1 h
  obtain ⟨h3, h4, h5⟩ := buffer_ok h1
  obtain ⟨b', h6, h7⟩ := Res.bind_eq_ok.1 h2
  unfold wr at h6
  split at h6 <;> cases h6
  rename_i hlt
  have hrep := rep_set (rep_lt h4) (some { c with value := some (b.set i x) }) st.vars st.ptrs
  cases h7
  refine ⟨r, c, b, h3, h4, h5, hlt, hrep, rfl, rfl, List.length_set, fun q => ?_, fun q c' hq => ?_, fun p' q hp' => ?_⟩
  · have h8 := hi.count q
    have : cnt ⟨st.reps.set r (some { c with value := some (b.set i x) }), st.vars, st.ptrs⟩ q = cnt st q := by
      unfold cnt
      rw [hrep]
      split
      · rename_i e; rw [e, h4]; rfl
      · rfl
    rw [this]; exact h8
  · rw [hrep] at hq
    split at hq
    · rw [← Option.some.inj hq]; exact hi.pos r c h4
    · exact hi.pos q c' hq
  · obtain ⟨h8, h9⟩ := hi.ptrs p' q hp'
    refine ⟨by simpa using h8, fun c' hq => ?_⟩
    rw [hrep] at hq
    split at hq
    · rw [← Option.some.inj hq]; rfl
    · exact h9 c' hq

/-- Every step keeps the invariant. -/
theorem step_inv {st st' : State} (hi : Inv st fun _ => 0) {o : Op} (h : step st o = .ok st') : Inv st' fun _ => 0 := by
  cases o with
  | null => cases h; exact (new_spec hi _).1
  | room len => cases h; exact (new_spec hi _).1
  | make s => cases h; exact (new_spec hi _).1
  | copy v =>
    obtain ⟨r, h1, -⟩ := Res.bind_eq_ok.1 (show (handle st v).bind _ = _ from h)
    obtain ⟨s1, e1, -, -, i1⟩ := copy_spec hi (handle_ok h1)
    rw [show step st (.copy v) = copy st v from rfl, e1] at h
    cases h; exact i1
  | assign v w =>
    obtain ⟨x, h1, h2⟩ := Res.bind_eq_ok.1 (show (handle st w).bind _ = _ from h)
    have hx := handle_ok h1
    obtain ⟨c, hc⟩ := hi.alive (r := x) (by have := count_pos hx; omega)
    obtain ⟨st1, e1, v1, l1, i1⟩ := inc_spec hi hc
    obtain ⟨c1, hc1⟩ := i1.alive (r := x) (by rw [if_pos rfl]; omega)
    obtain ⟨st2, e2, v2, l2, i2⟩ := inc_spec i1 hc1
    rw [e1] at h2
    obtain ⟨s2, h3, h4⟩ := Res.bind_eq_ok.1 (show (inc st1 x).bind _ = _ from h2)
    rw [e2] at h3
    cases h3
    obtain ⟨r, h5, -⟩ := Res.bind_eq_ok.1 (show (handle st2 v).bind _ = _ from h4)
    have hv := handle_ok h5
    rw [v2, v1] at hv
    obtain ⟨s1, e1, -, -, i1⟩ := assign_spec hi hv hx
    rw [show step st (.assign v w) = assign st v w from rfl, e1] at h
    cases h; exact i1
  | drop v =>
    obtain ⟨r, h1, -⟩ := Res.bind_eq_ok.1 (show (handle st v).bind _ = _ from h)
    obtain ⟨s1, e1, -, -, i1⟩ := drop_spec hi (handle_ok h1)
    rw [show step st (.drop v) = drop st v from rfl, e1] at h
    cases h; exact i1
  | ptr v =>
    obtain ⟨r, h1, -⟩ := Res.bind_eq_ok.1 (show (handle st v).bind _ = _ from h)
    obtain ⟨c, -, e1, i1⟩ := ptr_spec hi (handle_ok h1)
    rw [show step st (.ptr v) = ptr st v from rfl, e1] at h
    cases h; exact i1
  | put p i x =>
    obtain ⟨r, c, b, -, -, -, -, -, -, -, -, i1⟩ := put_spec hi h
    exact i1

theorem run_inv {st st' : State} (hi : Inv st fun _ => 0) {os : List Op} (h : run st os = .ok st') :
    Inv st' fun _ => 0 := by
  induction os generalizing st with
  | nil => cases h; exact hi
  | cons o os ih =>
    obtain ⟨s1, h1, h2⟩ := Res.bind_eq_ok.1 h
    exact ih (step_inv hi h1) h2

/-- The states that programs can reach. -/
def Reached (st : State) : Prop := ∃ os, run init os = .ok st

theorem Reached.inv {st : State} (h : Reached st) : Inv st fun _ => 0 := by
  obtain ⟨os, h⟩ := h
  refine run_inv ⟨fun r => ?_, fun r c hr => ?_, fun p r hp => ?_⟩ h
  · rfl
  · cases hr
  · cases hp

/-! ## C170 -/

/-- A step does not write through pointers to the buffer `r`. -/
def Spares (r : Nat) : State → List Op → Prop
  | _, [] => True
  | st, o :: os => (∀ p i x, o = .put p i x → st.ptrs[p]? ≠ some (some r)) ∧
      ∀ st1, step st o = .ok st1 → Spares r st1 os

/-- A step changes no value except that of the buffer written to, and makes nothing that was destroyed. -/
theorem step_keeps {st st' : State} (hi : Inv st fun _ => 0) {o : Op} (h : step st o = .ok st') {r : Nat}
    (hr : r < st.reps.length) (hs : ∀ p i x, o = .put p i x → st.ptrs[p]? ≠ some (some r)) :
    r < st'.reps.length ∧ (∀ p q : Nat, st.ptrs[p]? = some q → st'.ptrs[p]? = some q) ∧
      ∀ c', rep st' r = some c' → ∃ c, rep st r = some c ∧ c'.value = c.value := by
  have less : ∀ {s1 : State}, Less st s1 → r < s1.reps.length ∧
      (∀ p q : Nat, st.ptrs[p]? = some q → s1.ptrs[p]? = some q) ∧
      ∀ c', rep s1 r = some c' → ∃ c, rep st r = some c ∧ c'.value = c.value := fun {s1} l =>
    ⟨by rw [l.len]; exact hr, fun p q hp => by rw [l.ptrs]; exact hp, fun c' hc' => l.rep r c' hc'⟩
  have made : ∀ value, r < (new st value).reps.length ∧
      (∀ p q : Nat, st.ptrs[p]? = some q → (new st value).ptrs[p]? = some q) ∧
      ∀ c', rep (new st value) r = some c' → ∃ c, rep st r = some c ∧ c'.value = c.value := fun value =>
    ⟨by show r < (st.reps ++ _).length; rw [List.length_append]; omega, fun p q hp => hp, fun c' hc' => by
      rw [(new_spec hi value).2, if_neg (by omega)] at hc'
      exact ⟨c', hc', rfl⟩⟩
  cases o with
  | null => cases h; exact made _
  | room len => cases h; exact made _
  | make s => cases h; exact made _
  | copy v =>
    obtain ⟨x, h1, -⟩ := Res.bind_eq_ok.1 (show (handle st v).bind _ = _ from h)
    obtain ⟨s1, e1, -, l1, -⟩ := copy_spec hi (handle_ok h1)
    rw [show step st (.copy v) = copy st v from rfl, e1] at h
    cases h; exact less l1
  | assign v w =>
    obtain ⟨x, h1, h2⟩ := Res.bind_eq_ok.1 (show (handle st w).bind _ = _ from h)
    have hx := handle_ok h1
    obtain ⟨c, hc⟩ := hi.alive (r := x) (by have := count_pos hx; omega)
    obtain ⟨st1, e1, v1, l1, i1⟩ := inc_spec hi hc
    obtain ⟨c1, hc1⟩ := i1.alive (r := x) (by rw [if_pos rfl]; omega)
    obtain ⟨st2, e2, v2, l2, i2⟩ := inc_spec i1 hc1
    rw [e1] at h2
    obtain ⟨s2, h3, h4⟩ := Res.bind_eq_ok.1 (show (inc st1 x).bind _ = _ from h2)
    rw [e2] at h3
    cases h3
    obtain ⟨y, h5, -⟩ := Res.bind_eq_ok.1 (show (handle st2 v).bind _ = _ from h4)
    have hv := handle_ok h5
    rw [v2, v1] at hv
    obtain ⟨s1, e1, -, l1, -⟩ := assign_spec hi hv hx
    rw [show step st (.assign v w) = assign st v w from rfl, e1] at h
    cases h; exact less l1
  | drop v =>
    obtain ⟨x, h1, -⟩ := Res.bind_eq_ok.1 (show (handle st v).bind _ = _ from h)
    obtain ⟨s1, e1, -, l1, -⟩ := drop_spec hi (handle_ok h1)
    rw [show step st (.drop v) = drop st v from rfl, e1] at h
    cases h; exact less l1
  | ptr v =>
    obtain ⟨x, h1, -⟩ := Res.bind_eq_ok.1 (show (handle st v).bind _ = _ from h)
    obtain ⟨c, -, e1, -⟩ := ptr_spec hi (handle_ok h1)
    rw [show step st (.ptr v) = ptr st v from rfl, e1] at h
    cases h
    refine ⟨hr, fun p q hp => ?_, fun c' hc' => ⟨c', hc', rfl⟩⟩
    dsimp only
    rw [List.getElem?_append_left (List.getElem?_eq_some_iff.1 hp).1]; exact hp
  | put p i x =>
    obtain ⟨y, c, b, h1, -, -, -, h2, -, h3, h4, -⟩ := put_spec hi h
    refine ⟨by rw [h4]; exact hr, fun p q hp => by rw [h3]; exact hp, fun c' hc' => ?_⟩
    rw [h2] at hc'
    split at hc'
    · rename_i e; subst e; exact absurd h1 (hs p i x rfl)
    · exact ⟨c', hc', rfl⟩

/-- C170: a buffer exists as long as some handle refers to it, and no longer: it is freed with the last handle. -/
theorem C170_alive {st : State} (h : Reached st) (r : Nat) :
    (∃ c, st.reps[r]? = some (some c)) ↔ some r ∈ st.vars := by
  have hi := h.inv
  have hc := hi.count r
  have he : (∃ c, st.reps[r]? = some (some c)) ↔ ∃ c, rep st r = some c := by
    unfold rep
    cases st.reps[r]? with
    | none => simp
    | some o => cases o <;> simp
  rw [he]
  constructor
  · rintro ⟨c, hr⟩
    have := hi.pos r c hr
    rw [cnt_of hr] at hc
    exact List.count_pos_iff.1 (by omega)
  · intro hm
    have := List.count_pos_iff.2 hm
    exact hi.alive (by omega)

/-- C170: when all handles are destroyed, nothing is left in memory. -/
theorem C170_freed {st : State} (h : Reached st) (hv : ∀ o ∈ st.vars, o = none) : ∀ o ∈ st.reps, o = none := by
  intro o ho
  cases o with
  | none => rfl
  | some c =>
    obtain ⟨r, hr⟩ := List.getElem?_of_mem ho
    have := hv _ ((C170_alive h r).1 ⟨c, hr⟩)
    cases this

/-- C170: copying, assigning (also to itself), destroying and converting handles that exist always succeeds, in particular
nothing is destroyed twice. A copy refers to the same buffer, an assigned handle to that of the other one, and no other
handle is changed. -/
theorem C170_handles {st : State} (h : Reached st) {v r : Nat} (hv : st.vars[v]? = some (some r)) :
    (∃ st', step st (.copy v) = .ok st' ∧ st'.vars = st.vars ++ [some r]) ∧
    (∃ st', step st (.drop v) = .ok st' ∧ st'.vars = st.vars.set v none) ∧
    (∃ st', step st (.ptr v) = .ok st' ∧ st'.vars = st.vars) ∧
    ∀ w x, st.vars[w]? = some (some x) → ∃ st', step st (.assign v w) = .ok st' ∧ st'.vars = st.vars.set v (some x) := by
  have hi := h.inv
  refine ⟨?_, ?_, ?_, fun w x hw => ?_⟩
  · obtain ⟨s, e, hs, -⟩ := copy_spec hi hv; exact ⟨s, e, hs⟩
  · obtain ⟨s, e, hs, -⟩ := drop_spec hi hv; exact ⟨s, e, hs⟩
  · obtain ⟨c, -, e, -⟩ := ptr_spec hi hv; exact ⟨_, e, rfl⟩
  · obtain ⟨s, e, hs, -⟩ := assign_spec hi hv hw; exact ⟨s, e, hs⟩

theorem load_eq {st : State} {p r : Nat} {c : Rep} {b : Bytes} (hp : st.ptrs[p]? = some (some r))
    (hr : rep st r = some c) (hb : c.value = some b) (i : Nat) : load st p i = rd b i := by
  rw [load, buffer_eq hp, hr]
  dsimp only
  rw [hb]; rfl

/-- C170: a pointer made from a handle may be used, within the buffer, as long as some handle refers to the buffer, and
not afterwards. -/
theorem C170_usable {st : State} (h : Reached st) {p r : Nat} (hp : st.ptrs[p]? = some (some r)) :
    (some r ∈ st.vars → ∃ b : Bytes, (∀ i, load st p i = rd b i) ∧
      ∀ i x, i < b.length → ∃ st', step st (.put p i x) = .ok st') ∧
    (some r ∉ st.vars → ∀ i, load st p i = .ub) := by
  have hi := h.inv
  constructor
  · intro hm
    obtain ⟨c, hc⟩ := hi.alive (r := r) (by have := List.count_pos_iff.2 hm; omega)
    obtain ⟨b, hb⟩ := Option.isSome_iff_exists.1 ((hi.ptrs p r hp).2 c hc)
    refine ⟨b, load_eq hp hc hb, fun i x hlt => ⟨⟨st.reps.set r (some { c with value := some (b.set i x) }), st.vars,
      st.ptrs⟩, ?_⟩⟩
    show put st p i x = _
    rw [put, buffer_eq hp, hc]
    dsimp only
    rw [hb]
    show (wr b i x).bind _ = _
    rw [wr_ok hlt]; rfl
  · intro hm i
    have : rep st r = none := by
      cases hc : rep st r with
      | none => rfl
      | some c =>
        have h1 := hi.pos r c hc
        have h2 := hi.count r
        rw [cnt_of hc] at h2
        exact absurd (List.count_pos_iff.1 (by omega)) hm
    rw [load, buffer_eq hp, this]; rfl

theorem text_eq {st : State} {p : Nat} (l : Bytes) (i fuel : Nat) (b : Bytes) (hb : ∀ j, load st p j = rd b j)
    (hl : b.drop i = l ++ [0]) (hf : l.length < fuel) : text st p fuel i = .ok (l.takeWhile (· ≠ 0)) := by
  induction l generalizing i fuel with
  | nil =>
    cases fuel with
    | zero => cases hf
    | succ fuel =>
      have h0 : b[i]? = some 0 := by
        have := congrArg (fun l => l[0]?) hl
        simpa using this
      rw [text, hb, rd_eq_ok.2 h0]; rfl
  | cons x l ih =>
    cases fuel with
    | zero => cases hf
    | succ fuel =>
      have h0 : b[i]? = some x := by
        have := congrArg (fun l => l[0]?) hl
        simpa using this
      have hd : b.drop (i + 1) = l ++ [0] := by
        have := congrArg (List.drop 1) hl
        simpa using this
      rw [text, hb, rd_eq_ok.2 h0, Res.ok_bind]
      by_cases hx : x = 0
      · rw [if_pos hx, List.takeWhile_cons, hx]; rfl
      · rw [if_neg hx, ih (i + 1) fuel hd (by simpa using hf), List.takeWhile_cons]
        simp [hx]

/-- C170: `c_string c (s)` holds all characters of `s` and a NUL behind them, and functions of C read from it the
characters of `s` up to the first NUL. -/
theorem C170_made {st : State} (h : Reached st) (s : Bytes) :
    ∃ st', run st [.make s, .ptr st.vars.length] = .ok st' ∧
      st'.ptrs = st.ptrs ++ [some st.reps.length] ∧
      (∀ i, load st' st.ptrs.length i = rd (s ++ [0]) i) ∧
      text st' st.ptrs.length (s.length + 1) 0 = .ok (s.takeWhile (· ≠ 0)) := by
  obtain ⟨i1, hrep⟩ := new_spec h.inv (some (asCharp s))
  have hv : (new st (some (asCharp s))).vars[st.vars.length]? = some (some st.reps.length) := by
    show (st.vars ++ [some st.reps.length])[st.vars.length]? = _
    rw [List.getElem?_append_right (Nat.le_refl _), Nat.sub_self]; rfl
  obtain ⟨c, hc, e, -⟩ := ptr_spec i1 hv
  have hc' := hc
  rw [hrep, if_pos rfl] at hc
  obtain rfl := Option.some.inj hc
  have hp : (st.ptrs ++ [some st.reps.length])[st.ptrs.length]? = some (some st.reps.length) := by
    rw [List.getElem?_append_right (Nat.le_refl _), Nat.sub_self]; rfl
  have hload : ∀ i, load { new st (some (asCharp s)) with ptrs := st.ptrs ++ [some st.reps.length] } st.ptrs.length i =
      rd (s ++ [0]) i := fun i => load_eq (st := { new st (some (asCharp s)) with
        ptrs := st.ptrs ++ [some st.reps.length] }) hp hc' rfl i
  refine ⟨{ new st (some (asCharp s)) with ptrs := st.ptrs ++ [some st.reps.length] }, ?_, rfl, hload, ?_⟩
  · show (ptr (new st (some (asCharp s))) st.vars.length).bind _ = _
    rw [e]; rfl
  · exact text_eq s 0 (s.length + 1) (s ++ [0]) hload rfl (Nat.lt_succ_self _)

/-- C170: `c_string c (n)` has room for exactly `n` characters, the terminating NUL included, all of them NUL at first. -/
theorem C170_room {st : State} (h : Reached st) (n : Nat) :
    ∃ st', run st [.room n, .ptr st.vars.length] = .ok st' ∧
      st'.ptrs = st.ptrs ++ [some st.reps.length] ∧
      ∀ i, (i < n → load st' st.ptrs.length i = .ok 0 ∧ ∀ x, ∃ st'', step st' (.put st.ptrs.length i x) = .ok st'') ∧
        (n ≤ i → load st' st.ptrs.length i = .ub ∧ ∀ x, step st' (.put st.ptrs.length i x) = .ub) := by
  obtain ⟨i1, hrep⟩ := new_spec h.inv (some (List.replicate n (0 : UInt8)))
  have hv : (new st (some (List.replicate n (0 : UInt8)))).vars[st.vars.length]? = some (some st.reps.length) := by
    show (st.vars ++ [some st.reps.length])[st.vars.length]? = _
    rw [List.getElem?_append_right (Nat.le_refl _), Nat.sub_self]; rfl
  obtain ⟨c, hc, e, -⟩ := ptr_spec i1 hv
  have hc' := hc
  rw [hrep, if_pos rfl] at hc
  obtain rfl := Option.some.inj hc
  have hp : (st.ptrs ++ [some st.reps.length])[st.ptrs.length]? = some (some st.reps.length) := by
    rw [List.getElem?_append_right (Nat.le_refl _), Nat.sub_self]; rfl
  have hg : getRep { new st (some (List.replicate n (0 : UInt8))) with ptrs := st.ptrs ++ [some st.reps.length] } st.reps.length =
      .ok ⟨1, some (List.replicate n 0)⟩ := by
    unfold getRep
    show (match (st.reps ++ [some ⟨1, some (List.replicate n 0)⟩])[st.reps.length]? with | some (some c) => Res.ok c | _ => .ub) = _
    rw [List.getElem?_append_right (Nat.le_refl _), Nat.sub_self]; rfl
  have hb : buffer { new st (some (List.replicate n (0 : UInt8))) with ptrs := st.ptrs ++ [some st.reps.length] } st.ptrs.length =
      .ok (st.reps.length, ⟨1, some (List.replicate n 0)⟩, List.replicate n 0) := by
    unfold buffer
    rw [rd_eq_ok.2 hp, Res.ok_bind]
    dsimp only
    rw [hg]; rfl
  refine ⟨{ new st (some (List.replicate n 0)) with ptrs := st.ptrs ++ [some st.reps.length] }, ?_, rfl, fun i => ⟨fun hi => ?_, fun hi => ?_⟩⟩
  · show (ptr (new st (some (List.replicate n 0))) st.vars.length).bind _ = _
    rw [e]; rfl
  · refine ⟨?_, fun x => ?_⟩
    · rw [load, hb, Res.ok_bind]
      dsimp only
      rw [rd_ok (by rw [List.length_replicate]; exact hi), List.getElem_replicate]
    · show ∃ st'', put _ st.ptrs.length i x = .ok st''
      rw [put, hb, Res.ok_bind]
      dsimp only
      rw [wr_ok (by rw [List.length_replicate]; exact hi), Res.ok_bind]
      exact ⟨_, rfl⟩
  · have hn : ¬ i < (List.replicate n (0 : UInt8)).length := by rw [List.length_replicate]; omega
    refine ⟨?_, fun x => ?_⟩
    · rw [load, hb, Res.ok_bind]
      dsimp only
      exact rd_ub (by omega)
    · show put _ st.ptrs.length i x = _
      rw [put, hb, Res.ok_bind]
      dsimp only
      unfold wr
      rw [if_neg hn]; rfl

example : Reached (CStr.new init none) := ⟨[.null], rfl⟩

/-- C170: whatever a program does otherwise, with copies of the handle, other C strings and their pointers, what is read
through a pointer stays the same as long as some handle refers to the buffer and nothing is written to it. -/
theorem C170_keeps {st st' : State} (h : Reached st) {p r : Nat} (hp : st.ptrs[p]? = some (some r)) {os : List Op}
    (he : run st os = .ok st') (hs : Spares r st os) (hm : some r ∈ st'.vars) (i : Nat) :
    load st' p i = load st p i := by
  have key : ∀ (os : List Op) (st : State), Inv st (fun _ => 0) → r < st.reps.length → run st os = .ok st' →
      Spares r st os → (∀ p q : Nat, st.ptrs[p]? = some q → st'.ptrs[p]? = some q) ∧
      ∀ c', rep st' r = some c' → ∃ c, rep st r = some c ∧ c'.value = c.value := by
    intro os
    induction os with
    | nil => intro st _ _ he _; cases he; exact ⟨fun p q hp => hp, fun c' hc' => ⟨c', hc', rfl⟩⟩
    | cons o os ih =>
      intro st hi hr he hs
      obtain ⟨s1, h1, h2⟩ := Res.bind_eq_ok.1 he
      obtain ⟨k1, k2, k3⟩ := step_keeps hi h1 hr hs.1
      obtain ⟨k4, k5⟩ := ih s1 (step_inv hi h1) k1 h2 (hs.2 s1 h1)
      refine ⟨fun p q hp => k4 p q (k2 p q hp), fun c' hc' => ?_⟩
      obtain ⟨c1, h3, h4⟩ := k5 c' hc'
      obtain ⟨c, h5, h6⟩ := k3 c1 h3
      exact ⟨c, h5, h4.trans h6⟩
  have hi := h.inv
  obtain ⟨hlt, hval⟩ := hi.ptrs p r hp
  obtain ⟨k1, k2⟩ := key os st hi hlt he hs
  obtain ⟨c', hc'⟩ := (run_inv hi he).alive (r := r) (by have := List.count_pos_iff.2 hm; omega)
  obtain ⟨c, hc, hv⟩ := k2 c' hc'
  obtain ⟨b, hb⟩ := Option.isSome_iff_exists.1 (hval c hc)
  rw [load_eq hp hc hb, load_eq (k1 p _ hp) hc' (hv.trans hb)]

/-- C170: a character that is written through a pointer is read through all pointers to the buffer, whatever handle they
were made from, and no other character of any buffer changes. -/
theorem C170_shared {st st' : State} (h : Reached st) {p i : Nat} {x : UInt8} (he : step st (.put p i x) = .ok st')
    {q r : Nat} (hq : st.ptrs[q]? = some (some r)) (j : Nat) :
    load st' q j = if st.ptrs[p]? = some (some r) ∧ j = i then .ok x else load st q j := by
  obtain ⟨y, c, b, h1, h2, h3, h4, h5, -, h6, -, -⟩ := put_spec h.inv he
  have hq' : st'.ptrs[q]? = some (some r) := by rw [h6]; exact hq
  rw [h1]
  by_cases hy : y = r
  · subst hy
    have hr : rep st' y = some { c with value := some (b.set i x) } := by rw [h5, if_pos rfl]
    rw [load_eq hq' hr rfl, load_eq hq h2 h3]
    by_cases hj : j = i
    · subst hj
      rw [if_pos ⟨rfl, rfl⟩]
      exact rd_eq_ok.2 (by rw [List.getElem?_set_self h4])
    · rw [if_neg fun hc => hj hc.2]
      by_cases hl : j < b.length
      · rw [rd_ok hl, rd_ok (by simpa using hl), List.getElem_set_ne (fun e => hj e.symm)]
      · rw [show rd (b.set i x) j = .ub from rd_ub (by simpa using hl), show rd b j = .ub from rd_ub (by omega)]
  · rw [if_neg fun hc => hy (Option.some.inj (Option.some.inj hc.1))]
    have hr : rep st' r = rep st r := by rw [h5, if_neg fun e => hy e.symm]
    rw [load, load, buffer_eq hq', buffer_eq hq, hr]

/-- C170: the pointer of a temporary, `char* p= c_string (s);`, is unusable at once. -/
theorem C170_temporary_violated : ∃ st, run init [.make (b!"a"), .ptr 0, .drop 0] = .ok st ∧ ∀ i, load st 0 i = .ub :=
  ⟨_, rfl, fun _ => rfl⟩

/-- C170: `c_string ()` is not the empty text but the pointer NULL, which functions of C must not read. -/
theorem C170_null_violated : ∃ st, run init [.null, .ptr 0] = .ok st ∧ st.ptrs = [none] ∧ ∀ i, load st 0 i = .ub :=
  ⟨_, rfl, rfl, fun _ => rfl⟩

/-- C170: functions of C do not see the characters after a NUL. -/
theorem C170_nul_violated : ∃ s : Bytes, ∃ st, run init [.make s, .ptr 0] = .ok st ∧ text st 0 (s.length + 1) 0 = .ok (b!"a") ∧
    s.length = 3 :=
  ⟨[97, 0, 98], _, rfl, rfl, rfl⟩

/-- C170: nor does the buffer follow the handle: after `c= d` a pointer made from `c` before is unusable if `c` was the
only handle. -/
theorem C170_assigned_violated : ∃ st, run init [.make (b!"a"), .make (b!"b"), .ptr 0, .assign 0 1] = .ok st ∧
    st.vars[0]? = some (some 1) ∧ ∀ i, load st 0 i = .ub :=
  ⟨_, rfl, rfl, fun _ => rfl⟩

/-- A program with copies: the pointer made from a handle that is gone is usable, since a copy is left. -/
example : ∃ st, run init [.make (b!"ab"), .ptr 0, .copy 0, .drop 0, .put 0 0 99] = .ok st ∧ some 0 ∈ st.vars ∧
    text st 0 3 0 = .ok (b!"cb") := ⟨_, rfl, by decide, rfl⟩

/-- The hypotheses of `C170_keeps` are met. -/
example : ∃ st st', Reached st ∧ st.ptrs[0]? = some (some 0) ∧
    run st [.copy 0, .assign 0 1, .put 1 0 99] = .ok st' ∧ Spares 0 st [.copy 0, .assign 0 1, .put 1 0 99] ∧
    some 0 ∈ st'.vars ∧ text st' 0 3 0 = .ok (b!"ab") := by
  refine ⟨_, _, ⟨[.make (b!"ab"), .make (b!"x"), .ptr 0, .ptr 1], rfl⟩, rfl, rfl, ?_, by decide, rfl⟩
  refine ⟨fun p i x h => (by cases h), fun s1 h1 => ⟨fun p i x h => (by cases h), fun s2 h2 => ⟨fun p i x h => ?_, fun s3 h3 => trivial⟩⟩⟩
  cases h; cases h1; cases h2
  decide

end Lolly.CStringProps
