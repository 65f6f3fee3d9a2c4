import Verif.System.Results
import Verif.System.UrlNameProps

set_option autoImplicit false

/-!
# C155: changing strings that functions return

After `v= f (...)` the variable `v` can be changed by `v << x` without effect on other strings and on urls, and the other way
round, if the result is a new string. `C155_text_partial`: so it is for functions of strings if the result differs from the
argument. `C155_url_partial`: so it is for `suffix`, for `as_string` unless the url is a single name or wildcard, for `protocol` if the
url does not begin with a root, for `basename` if something is cut off. `C155_text_violated`, `C155_name_violated`,
`C155_protocol_violated`, `C155_basename_violated`: otherwise `v << x` changes the argument, or the url.
-/

namespace Lolly.ResultsProps

open Results

/-! ## Specification -/

/-- What a string variable shows. -/
def shows (st : State) (v : Nat) : Option Bytes := (st.strs v).bind (st.mem[·]?)

/-- The url that a variable shows. -/
def showsUrl (st : State) (u : Nat) : Option Url.Url := (st.urls u).map fun t => val st.mem (t.map .old)

/-- The string variables that are given to a function. -/
def fnReads : Fn → List Nat
  | .make _ => []
  | .same v => [v]
  | .upcaseFirst v => [v]
  | .locaseFirst v => [v]
  | .removePrefix v p => [v, p]
  | .removeSuffix v p => [v, p]
  | .rawUnquote v => [v]
  | .asString _ => []
  | .protocol _ => []
  | .suffix _ _ => []
  | .basenameS _ p => [p]
  | .basename _ => []

/-- The statement does not use the string variable `v`. -/
def AvoidsOne (v : Nat) : Stmt → Prop
  | .call w f => w ≠ v ∧ v ∉ fnReads f
  | .append w _ => w ≠ v
  | .url _ t => ∀ w, Ref.str w ∈ t.labels → w ≠ v

/-- The program does not use the string variable `v`. -/
def Avoids (v : Nat) (l : List Stmt) : Prop := ∀ s ∈ l, AvoidsOne v s

/-- The result `v` of a call has nothing in common with anything else: whatever is appended to it, other strings and all urls show what
they did before the call, and whatever is done without it, it shows what it did after the call. -/
def Independent (st st1 : State) (v : Nat) : Prop :=
  (∀ (x : Bytes) st2, run st1 (x.map (.append v)) = .ok st2 →
    (∀ w, w ≠ v → shows st2 w = shows st w) ∧ ∀ u, showsUrl st2 u = showsUrl st u) ∧
  ∀ p st2, Avoids v p → run st1 p = .ok st2 → shows st2 v = shows st1 v

/-! ## Memory -/

theorem lt_of {α : Type} {l : List α} {i : Nat} {x : α} (h : l[i]? = some x) : i < l.length := (List.getElem?_eq_some_iff.1 h).1

theorem ofOption_ok {α : Type} {o : Option α} {x : α} (h : Res.ofOption o = .ok x) : o = some x := by
  cases o with
  | none => cases h
  | some y => cases h; rfl

theorem labels_map {L L' : Type} (f : L → L') : ∀ t : HUrl L, (t.map f).labels = t.labels.map f
  | .atom _ => rfl
  | .none => rfl
  | .root _ => rfl
  | .root3 _ _ => rfl
  | .concat a b => by simp only [HUrl.map, HUrl.labels, labels_map f a, labels_map f b, List.map_append]
  | .or a b => by simp only [HUrl.map, HUrl.labels, labels_map f a, labels_map f b, List.map_append]
  | .wild0 => rfl
  | .wild1 _ => rfl

/-- The url depends only on the strings of its labels. -/
theorem val_congr {m m' : Mem} : ∀ t : HUrl Lab, (∀ l ∈ t.labels, cont m l = cont m' l) → val m t = val m' t
  | .atom l, h => by simp only [val, h l List.mem_cons_self]
  | .none, _ => rfl
  | .root l, h => by simp only [val, h l List.mem_cons_self]
  | .root3 p c, h => by simp only [val, h p (by simp [HUrl.labels]), h c (by simp [HUrl.labels])]
  | .concat a b, h => by
    simp only [val, val_congr a fun l hl => h l (List.mem_append_left _ hl), val_congr b fun l hl => h l (List.mem_append_right _ hl)]
  | .or a b, h => by
    simp only [val, val_congr a fun l hl => h l (List.mem_append_left _ hl), val_congr b fun l hl => h l (List.mem_append_right _ hl)]
  | .wild0, _ => rfl
  | .wild1 l, h => by simp only [val, h l List.mem_cons_self]

/-- No handle dangles. -/
structure WF (st : State) : Prop where
  str : ∀ v h, st.strs v = some h → h < st.mem.length
  url : ∀ u t, st.urls u = some t → ∀ h ∈ t.labels, h < st.mem.length

/-- The memory has grown to `m'`, only by new strings that `P` allows as handles. -/
theorem intern_ext (m : Mem) (l : Lab) : ∃ e, (intern m l).1 = m ++ e := by
  cases l with
  | old h => exact ⟨[], by simp [intern]⟩
  | new s => exact ⟨[s], rfl⟩

theorem intern_le (m : Mem) (l : Lab) : m.length ≤ (intern m l).1.length := by
  obtain ⟨e, h⟩ := intern_ext m l
  rw [h, List.length_append]
  omega

/-- Old labels that satisfy `P`, or new ones. -/
def LabIn (P : Nat → Prop) : Lab → Prop
  | .old h => P h
  | .new _ => True

theorem intern_in {P : Nat → Prop} {m : Mem} {l : Lab} (h : LabIn P l) :
    P (intern m l).2 ∨ m.length ≤ (intern m l).2 ∧ (intern m l).2 < (intern m l).1.length := by
  cases l with
  | old h' => exact .inl h
  | new s => exact .inr ⟨Nat.le_refl _, by simp [intern]⟩

/-- What `build` makes: the memory is extended, and the labels are allowed ones or new. -/
theorem build_spec {P : Nat → Prop} {st : State} : ∀ (t : HUrl Ref) {m m' : Mem} {t' : HUrl Nat},
    (∀ r ∈ t.labels, ∀ l, st.ref r = .ok l → LabIn P l) → st.build m t = .ok (m', t') →
    (∃ e, m' = m ++ e) ∧ ∀ h ∈ t'.labels, P h ∨ m.length ≤ h ∧ h < m'.length := by
  intro t
  induction t with
  | atom r =>
    intro m m' t' hP e
    obtain ⟨l, h1, e⟩ := Res.bind_eq_ok.1 e
    cases e
    refine ⟨intern_ext m l, fun h hh => ?_⟩
    rw [List.mem_singleton.1 hh]
    exact intern_in (hP r List.mem_cons_self l h1)
  | none => intro m m' t' _ e; cases e; exact ⟨⟨[], by simp⟩, fun h hh => by cases hh⟩
  | root r =>
    intro m m' t' hP e
    obtain ⟨l, h1, e⟩ := Res.bind_eq_ok.1 e
    cases e
    refine ⟨intern_ext m l, fun h hh => ?_⟩
    rw [List.mem_singleton.1 hh]
    exact intern_in (hP r List.mem_cons_self l h1)
  | root3 r c =>
    intro m m' t' hP e
    obtain ⟨l, h1, e⟩ := Res.bind_eq_ok.1 e
    obtain ⟨k, h2, e⟩ := Res.bind_eq_ok.1 e
    cases e
    obtain ⟨e1, he1⟩ := intern_ext m l
    obtain ⟨e2, he2⟩ := intern_ext (intern m l).1 k
    refine ⟨⟨e1 ++ e2, by rw [he2, he1, List.append_assoc]⟩, fun h hh => ?_⟩
    have l1 := intern_le m l
    have l2 := intern_le (intern m l).1 k
    simp only [HUrl.labels, List.mem_cons, List.not_mem_nil, or_false] at hh
    rcases hh with rfl | rfl
    · exact (intern_in (m := m) (hP r (by simp [HUrl.labels]) l h1)).imp_right fun q => ⟨q.1, by omega⟩
    · exact (intern_in (m := (intern m l).1) (hP c (by simp [HUrl.labels]) k h2)).imp_right fun q => ⟨by omega, q.2⟩
  | concat a b iha ihb =>
    intro m m' t' hP e
    obtain ⟨⟨m1, a'⟩, h1, e⟩ := Res.bind_eq_ok.1 e
    obtain ⟨⟨m2, b'⟩, h2, e⟩ := Res.bind_eq_ok.1 e
    cases e
    obtain ⟨⟨e1, rfl⟩, q1⟩ := iha (fun r hr => hP r (List.mem_append_left _ hr)) h1
    obtain ⟨⟨e2, rfl⟩, q2⟩ := ihb (fun r hr => hP r (List.mem_append_right _ hr)) h2
    refine ⟨⟨e1 ++ e2, List.append_assoc ..⟩, fun h hh => ?_⟩
    simp only [List.length_append] at *
    rcases List.mem_append.1 hh with hh | hh
    · exact (q1 h hh).imp_right fun q => ⟨q.1, by omega⟩
    · exact (q2 h hh).imp_right fun q => ⟨by omega, q.2⟩
  | or a b iha ihb =>
    intro m m' t' hP e
    obtain ⟨⟨m1, a'⟩, h1, e⟩ := Res.bind_eq_ok.1 e
    obtain ⟨⟨m2, b'⟩, h2, e⟩ := Res.bind_eq_ok.1 e
    cases e
    obtain ⟨⟨e1, rfl⟩, q1⟩ := iha (fun r hr => hP r (List.mem_append_left _ hr)) h1
    obtain ⟨⟨e2, rfl⟩, q2⟩ := ihb (fun r hr => hP r (List.mem_append_right _ hr)) h2
    refine ⟨⟨e1 ++ e2, List.append_assoc ..⟩, fun h hh => ?_⟩
    simp only [List.length_append] at *
    rcases List.mem_append.1 hh with hh | hh
    · exact (q1 h hh).imp_right fun q => ⟨q.1, by omega⟩
    · exact (q2 h hh).imp_right fun q => ⟨by omega, q.2⟩
  | wild0 => intro m m' t' _ e; cases e; exact ⟨⟨[], by simp⟩, fun h hh => by cases hh⟩
  | wild1 r =>
    intro m m' t' hP e
    obtain ⟨l, h1, e⟩ := Res.bind_eq_ok.1 e
    cases e
    refine ⟨intern_ext m l, fun h hh => ?_⟩
    rw [List.mem_singleton.1 hh]
    exact intern_in (hP r List.mem_cons_self l h1)

/-! ## What functions return is an argument, a label of the url, or new -/

theorem upcaseFirst_cases {m : Mem} {s l : Lab} (h : upcaseFirst m s = .ok l) : l = s ∨ ∃ t, l = .new t := by
  unfold upcaseFirst at h
  dsimp only at h
  split at h
  · cases h; exact .inl rfl
  · obtain ⟨c, _, h⟩ := Res.bind_eq_ok.1 h
    split at h <;> cases h
    · exact .inr ⟨_, rfl⟩
    · exact .inl rfl

theorem locaseFirst_cases {m : Mem} {s l : Lab} (h : locaseFirst m s = .ok l) : l = s ∨ ∃ t, l = .new t := by
  unfold locaseFirst at h
  dsimp only at h
  split at h
  · cases h; exact .inl rfl
  · obtain ⟨c, _, h⟩ := Res.bind_eq_ok.1 h
    split at h <;> cases h
    · exact .inr ⟨_, rfl⟩
    · exact .inl rfl

theorem removePrefix_cases {m : Mem} {s p l : Lab} (h : removePrefix m s p = .ok l) : l = s ∨ ∃ t, l = .new t := by
  unfold removePrefix at h
  dsimp only at h
  split at h
  · cases h; exact .inl rfl
  · obtain ⟨c, _, h⟩ := Res.bind_eq_ok.1 h
    cases h
    split
    · exact .inr ⟨_, rfl⟩
    · exact .inl rfl

theorem removeSuffix_cases (m : Mem) (s p : Lab) : removeSuffix m s p = s ∨ ∃ t, removeSuffix m s p = .new t := by
  unfold removeSuffix
  dsimp only
  split
  · exact .inl rfl
  · split
    · exact .inr ⟨_, rfl⟩
    · exact .inl rfl

theorem rawUnquote_cases {m : Mem} {s l : Lab} (h : rawUnquote m s = .ok l) : l = s ∨ ∃ t, l = .new t := by
  obtain ⟨c, _, h⟩ := Res.bind_eq_ok.1 h
  cases h
  split
  · exact .inr ⟨_, rfl⟩
  · exact .inl rfl

theorem alt_labels {P : Lab → Prop} (m : Mem) : ∀ (u1 u2 : HUrl Lab), (∀ l ∈ u1.labels, P l) → (∀ l ∈ u2.labels, P l) →
    ∀ l ∈ (alt m u1 u2).labels, P l := by
  intro u1 u2
  fun_induction alt m u1 u2 with
  | case1 u2 => intro _ h; exact h
  | case2 u1 _ => intro h _; exact h
  | case3 u2 h2 a b h1 iha ihb =>
    intro q1 q2
    exact ihb (fun l hl => q1 l (List.mem_append_left _ hl)) (iha (fun l hl => q1 l (List.mem_append_right _ hl)) q2)
  | _ =>
    intro q1 q2
    have q3 : ∀ l ∈ (HUrl.or _ _).labels, P l := fun l hl => (List.mem_append.1 hl).elim (q1 l) (q2 l)
    repeat (first | exact q2 | exact q3 | split)

theorem tail_labels {P : Nat → Prop} (m : Mem) : ∀ u : HUrl Lab, (∀ l ∈ u.labels, LabIn P l) → ∀ l ∈ (tail m u).labels, LabIn P l
  | .atom _, h => h
  | .none, h => h
  | .root _, _ => fun l hl => by rw [List.mem_singleton.1 hl]; trivial
  | .root3 _ _, _ => fun l hl => by rw [List.mem_singleton.1 hl]; trivial
  | .concat a b, h => by
    rw [tail]
    split
    · intro l hl
      rw [List.mem_singleton.1 hl]
      trivial
    · exact tail_labels m b fun l hl => h l (List.mem_append_right _ hl)
  | .or a b, h => by
    rw [tail]
    exact alt_labels m _ _ (tail_labels m a fun l hl => h l (List.mem_append_left _ hl))
      (tail_labels m b fun l hl => h l (List.mem_append_right _ hl))
  | .wild0, h => h
  | .wild1 _, h => h

theorem asString_in {P : Nat → Prop} (m : Mem) (u : HUrl Lab) (h : ∀ l ∈ u.labels, LabIn P l) : LabIn P (asString m u) := by
  cases u with
  | atom l => exact h l List.mem_cons_self
  | wild1 l => exact h l List.mem_cons_self
  | _ => trivial

theorem protocol_in {P : Nat → Prop} (m : Mem) : ∀ u : HUrl Lab, (∀ l ∈ u.labels, LabIn P l) → LabIn P (protocol m u)
  | .atom _, _ => trivial
  | .none, _ => trivial
  | .root _, h => h _ List.mem_cons_self
  | .root3 _ _, h => h _ List.mem_cons_self
  | .concat a b, h => protocol_in m a fun l hl => h l (List.mem_append_left _ hl)
  | .or a b, h => by
    rw [protocol]
    split
    · trivial
    · split
      · exact protocol_in m a fun l hl => h l (List.mem_append_left _ hl)
      · trivial
  | .wild0, _ => trivial
  | .wild1 _, _ => trivial

theorem in_of_cases {P : Nat → Prop} {s l : Lab} (h : LabIn P s) (c : l = s ∨ ∃ t, l = .new t) : LabIn P l := by
  rcases c with rfl | ⟨t, rfl⟩
  · exact h
  · trivial

theorem basenameS_in {P : Nat → Prop} {m : Mem} {u : HUrl Lab} {p l : Lab} (h : ∀ l ∈ u.labels, LabIn P l)
    (e : basenameS m u p = .ok l) : LabIn P l := by
  obtain ⟨i, _, e⟩ := Res.bind_eq_ok.1 e
  cases e
  refine in_of_cases ?_ (removeSuffix_cases ..)
  unfold cutAt
  split
  · trivial
  · exact asString_in m _ (tail_labels m u h)

theorem suffix_new {m : Mem} {u : HUrl Lab} {b : Bool} {l : Lab} (e : suffix m u b = .ok l) : ∃ s, l = .new s := by
  obtain ⟨s, _, e⟩ := Res.bind_eq_ok.1 e
  cases e
  exact ⟨s, rfl⟩

theorem str_ok {st : State} {v : Nat} {l : Lab} (h : st.str v = .ok l) : ∃ a, st.strs v = some a ∧ l = .old a := by
  obtain ⟨a, h1, h2⟩ := Res.bind_eq_ok.1 h
  cases h2
  exact ⟨a, ofOption_ok h1, rfl⟩

theorem url_ok {st : State} {u : Nat} {t : HUrl Lab} (h : st.url u = .ok t) : ∃ a, st.urls u = some a ∧ t = a.map .old := by
  obtain ⟨a, h1, h2⟩ := Res.bind_eq_ok.1 h
  cases h2
  exact ⟨a, ofOption_ok h1, rfl⟩

section
variable {P : Nat → Prop} {st : State}

theorem str_in {l : Lab} {v : Nat} (hs : ∀ h, st.strs v = some h → P h) (e : st.str v = .ok l) : LabIn P l := by
  obtain ⟨a, h1, rfl⟩ := str_ok e
  exact hs a h1

theorem url_in {t : HUrl Lab} {u : Nat} (hu : ∀ u t, st.urls u = some t → ∀ h ∈ t.labels, P h) (e : st.url u = .ok t) :
    ∀ l ∈ t.labels, LabIn P l := by
  obtain ⟨a, h1, rfl⟩ := url_ok e
  intro l hl
  rw [labels_map] at hl
  obtain ⟨h, hh, rfl⟩ := List.mem_map.1 hl
  exact hu u a h1 h hh

/-- The result of a function is one of the strings that it is given, a label of the url that it is given, or new. -/
theorem eval_in {f : Fn} {l : Lab} (hs : ∀ v ∈ fnReads f, ∀ h, st.strs v = some h → P h)
    (hu : ∀ u t, st.urls u = some t → ∀ h ∈ t.labels, P h) (e : st.eval f = .ok l) : LabIn P l := by
  cases f with
  | make s => cases e; trivial
  | same v => exact str_in (hs v (by simp [fnReads])) e
  | upcaseFirst v =>
    obtain ⟨s, h1, e⟩ := Res.bind_eq_ok.1 e
    exact in_of_cases (str_in (hs v (by simp [fnReads])) h1) (upcaseFirst_cases e)
  | locaseFirst v =>
    obtain ⟨s, h1, e⟩ := Res.bind_eq_ok.1 e
    exact in_of_cases (str_in (hs v (by simp [fnReads])) h1) (locaseFirst_cases e)
  | removePrefix v p =>
    obtain ⟨s, h1, e⟩ := Res.bind_eq_ok.1 e
    obtain ⟨q, _, e⟩ := Res.bind_eq_ok.1 e
    exact in_of_cases (str_in (hs v (by simp [fnReads])) h1) (removePrefix_cases e)
  | removeSuffix v p =>
    obtain ⟨s, h1, e⟩ := Res.bind_eq_ok.1 e
    obtain ⟨q, _, e⟩ := Res.bind_eq_ok.1 e
    cases e
    exact in_of_cases (str_in (hs v (by simp [fnReads])) h1) (removeSuffix_cases ..)
  | rawUnquote v =>
    obtain ⟨s, h1, e⟩ := Res.bind_eq_ok.1 e
    exact in_of_cases (str_in (hs v (by simp [fnReads])) h1) (rawUnquote_cases e)
  | asString u =>
    obtain ⟨t, h1, e⟩ := Res.bind_eq_ok.1 e
    cases e
    exact asString_in _ _ (url_in hu h1)
  | protocol u =>
    obtain ⟨t, h1, e⟩ := Res.bind_eq_ok.1 e
    cases e
    exact protocol_in _ _ (url_in hu h1)
  | suffix u b =>
    obtain ⟨t, h1, e⟩ := Res.bind_eq_ok.1 e
    obtain ⟨s, rfl⟩ := suffix_new e
    trivial
  | basenameS u p =>
    obtain ⟨t, h1, e⟩ := Res.bind_eq_ok.1 e
    obtain ⟨q, _, e⟩ := Res.bind_eq_ok.1 e
    exact basenameS_in (url_in hu h1) e
  | basename u =>
    obtain ⟨t, h1, e⟩ := Res.bind_eq_ok.1 e
    obtain ⟨s, _, e⟩ := Res.bind_eq_ok.1 e
    exact basenameS_in (url_in hu h1) e

theorem ref_in {r : Ref} {l : Lab} (hs : ∀ v, r = .str v → ∀ h, st.strs v = some h → P h)
    (hu : ∀ u t, st.urls u = some t → ∀ h ∈ t.labels, P h) (e : st.ref r = .ok l) : LabIn P l := by
  cases r with
  | part u i =>
    obtain ⟨t, h1, e⟩ := Res.bind_eq_ok.1 e
    obtain ⟨h, h2, e⟩ := Res.bind_eq_ok.1 e
    cases e
    exact hu u t (ofOption_ok h1) h (List.mem_of_getElem? (rd_eq_ok.1 h2))
  | str v => exact str_in (hs v rfl) e
  | lit s => cases e; trivial

end

/-! ## Steps -/

/-- Where the handles are: `P` holds for those of variables in `V` and of urls. -/
structure In (V P : Nat → Prop) (st : State) : Prop where
  str : ∀ v h, V v → st.strs v = some h → P h
  url : ∀ u t, st.urls u = some t → ∀ h ∈ t.labels, P h

/-- The statement uses string variables in `V` only. -/
def Uses (V : Nat → Prop) : Stmt → Prop
  | .call w f => V w ∧ ∀ u ∈ fnReads f, V u
  | .append w _ => V w
  | .url _ t => ∀ w, Ref.str w ∈ t.labels → V w

/-- A statement that uses variables in `V` keeps the handles of `V` in `P`, or new, and changes only strings in `P`. -/
theorem step_in {V P : Nat → Prop} {st st1 : State} {s : Stmt} (w : WF st) (i : In V P st) (hs : Uses V s) (e : step st s = .ok st1) :
    WF st1 ∧ In V (fun h => P h ∨ st.mem.length ≤ h) st1 ∧ st.mem.length ≤ st1.mem.length ∧
      (∀ h, h < st.mem.length → ¬P h → st1.mem[h]? = st.mem[h]?) ∧ ∀ v, ¬V v → st1.strs v = st.strs v := by
  cases s with
  | call v f =>
    obtain ⟨l, h1, e⟩ := Res.bind_eq_ok.1 e
    cases e
    have a1 : LabIn P l := eval_in (fun u hu h => i.str u h (hs.2 u hu)) i.url h1
    have a2 : LabIn (· < st.mem.length) l := eval_in (fun u _ h => w.str u h) w.url h1
    have b1 := intern_in (m := st.mem) a1
    have b2 := intern_in (m := st.mem) a2
    have le := intern_le st.mem l
    obtain ⟨e1, he⟩ := intern_ext st.mem l
    refine ⟨⟨fun u h hu => ?_, fun u t hu h hh => Nat.lt_of_lt_of_le (w.url u t hu h hh) le⟩,
      ⟨fun u h hV hu => ?_, fun u t hu h hh => .inl (i.url u t hu h hh)⟩, le, fun h hh _ => ?_, fun u hu => ?_⟩
    · dsimp only at hu ⊢
      split at hu
      · cases hu; omega
      · exact Nat.lt_of_lt_of_le (w.str u h hu) le
    · dsimp only at hu
      split at hu
      · cases hu; exact b1.imp_right And.left
      · exact .inl (i.str u h hV hu)
    · show (intern st.mem l).1[h]? = _
      rw [he, List.getElem?_append_left hh]
    · exact if_neg fun (h : u = v) => hu (h ▸ hs.1)
  | append v x =>
    obtain ⟨a, h1, e⟩ := Res.bind_eq_ok.1 e
    obtain ⟨t, h2, e⟩ := Res.bind_eq_ok.1 e
    have h1 := ofOption_ok h1
    rw [wr_ok (w.str v a h1)] at e
    cases e
    have hl : (st.mem.set a (t ++ [x])).length = st.mem.length := List.length_set
    refine ⟨⟨fun u h hu => hl ▸ w.str u h hu, fun u t hu h hh => hl ▸ w.url u t hu h hh⟩,
      ⟨fun u h hV hu => .inl (i.str u h hV hu), fun u t hu h hh => .inl (i.url u t hu h hh)⟩, Nat.le_of_eq hl.symm, fun h hh hP => ?_,
      fun _ _ => rfl⟩
    exact List.getElem?_set_ne fun (q : a = h) => hP (q ▸ i.str v a hs h1)
  | url u t =>
    obtain ⟨⟨m, t'⟩, h1, e⟩ := Res.bind_eq_ok.1 e
    cases e
    obtain ⟨⟨ex, rfl⟩, q1⟩ := build_spec (P := P) t (fun r hr l hl =>
      ref_in (fun v hv h => i.str v h (hs v (hv ▸ hr))) i.url hl) h1
    obtain ⟨_, q2⟩ := build_spec (P := (· < st.mem.length)) t (fun r hr l hl => ref_in (fun v _ h => w.str v h) w.url hl) h1
    have le : st.mem.length ≤ (st.mem ++ ex).length := by simp
    refine ⟨⟨fun v h hv => Nat.lt_of_lt_of_le (w.str v h hv) le, fun v x hv h hh => ?_⟩,
      ⟨fun v h hV hv => .inl (i.str v h hV hv), fun v x hv h hh => ?_⟩, le, fun h hh _ => List.getElem?_append_left hh, fun _ _ => rfl⟩
    · dsimp only at hv ⊢
      split at hv
      · cases hv
        have := q2 h hh
        omega
      · exact Nat.lt_of_lt_of_le (w.url v x hv h hh) le
    · dsimp only at hv
      split at hv
      · cases hv; exact (q1 h hh).imp_right And.left
      · exact .inl (i.url v x hv h hh)

theorem start_wf : WF start := ⟨fun _ _ h => (by cases h), fun _ _ h => (by cases h)⟩

theorem run_wf : ∀ (l : List Stmt) {st st1 : State}, WF st → run st l = .ok st1 → WF st1
  | [], st, st1, w, e => by cases e; exact w
  | s :: l, st, st1, w, e => by
    obtain ⟨s1, e1, e2⟩ := Res.bind_eq_ok.1 e
    refine run_wf l (step_in (V := fun _ => True) (P := fun _ => True) w ⟨fun _ _ _ _ => trivial, fun _ _ _ _ _ => trivial⟩ ?_ e1).1 e2
    cases s with
    | call v f => exact ⟨trivial, fun _ _ => trivial⟩
    | append v x => trivial
    | url u t => exact fun _ _ => trivial

theorem avoids_uses {v : Nat} {s : Stmt} (h : AvoidsOne v s) : Uses (· ≠ v) s := by
  cases s with
  | call w f => exact ⟨h.1, fun u hu q => h.2 (q ▸ hu)⟩
  | append w x => exact h
  | url u t => exact h

/-- A string that only `v` has is not changed by programs that do not use `v`. -/
theorem alone {v n : Nat} : ∀ (l : List Stmt) {st st1 : State}, WF st → In (· ≠ v) (· ≠ n) st → n < st.mem.length → Avoids v l →
    run st l = .ok st1 → st1.mem[n]? = st.mem[n]? ∧ st1.strs v = st.strs v
  | [], st, st1, _, _, _, _, e => by cases e; exact ⟨rfl, rfl⟩
  | s :: l, st, st1, w, i, hn, a, e => by
    obtain ⟨s1, e1, e2⟩ := Res.bind_eq_ok.1 e
    obtain ⟨w1, i1, le, m1, v1⟩ := step_in w i (avoids_uses (a s List.mem_cons_self)) e1
    obtain ⟨m2, v2⟩ := alone (n := n) l w1 ⟨fun u h hu hh => (i1.str u h hu hh).elim id (by omega),
      fun u t hu h hh => (i1.url u t hu h hh).elim id (by omega)⟩ (by omega) (fun s hs => a s (List.mem_cons_of_mem _ hs)) e2
    exact ⟨m2.trans (m1 n hn (by simp)), v2.trans (v1 v (by simp))⟩

/-- A new string that is appended to. -/
theorem appends {v n : Nat} : ∀ (x : Bytes) {st st1 : State}, st.strs v = some n → run st (x.map (.append v)) = .ok st1 →
    st1.strs = st.strs ∧ st1.urls = st.urls ∧ ∀ h, h ≠ n → st1.mem[h]? = st.mem[h]?
  | [], st, st1, _, e => by cases e; exact ⟨rfl, rfl, fun _ _ => rfl⟩
  | c :: x, st, st1, hv, e => by
    obtain ⟨s1, e1, e2⟩ := Res.bind_eq_ok.1 e
    obtain ⟨a, h1, e1⟩ := Res.bind_eq_ok.1 e1
    obtain ⟨t, h2, e1⟩ := Res.bind_eq_ok.1 e1
    have h1 := ofOption_ok h1
    rw [hv] at h1
    cases h1
    rw [wr_ok (lt_of (rd_eq_ok.1 h2))] at e1
    cases e1
    obtain ⟨q1, q2, q3⟩ := appends x (st := { st with mem := st.mem.set n (t ++ [c]) }) hv e2
    exact ⟨q1, q2, fun h hh => (q3 h hh).trans (List.getElem?_set_ne hh.symm)⟩

theorem showsUrl_eq {st st1 : State} {u : Nat} {t : HUrl Nat} (h : st.urls u = some t) (h1 : st1.urls u = some t)
    (hm : ∀ a ∈ t.labels, st1.mem[a]? = st.mem[a]?) : showsUrl st1 u = showsUrl st u := by
  unfold showsUrl
  rw [h, h1]
  simp only [Option.map_some]
  congr 1
  refine val_congr _ fun l hl => ?_
  rw [labels_map] at hl
  obtain ⟨a, ha, rfl⟩ := List.mem_map.1 hl
  simp only [cont, hm a ha]

/-- New strings are independent. -/
theorem independent {st st1 : State} {v : Nat} {f : Fn} {s : Bytes} (w : WF st) (h : st.eval f = .ok (.new s))
    (e : step st (.call v f) = .ok st1) : Independent st st1 v ∧ shows st1 v = some s := by
  simp only [step, h, Res.ok_bind, intern] at e
  cases e
  refine ⟨⟨fun x st2 e => ?_, fun p st2 hp e => ?_⟩, by simp [shows]⟩
  · obtain ⟨q1, q2, q3⟩ := appends x (n := st.mem.length) (by simp) e
    have q4 : ∀ a, a < st.mem.length → st2.mem[a]? = st.mem[a]? := fun a ha =>
      (q3 a (by omega)).trans (List.getElem?_append_left ha)
    refine ⟨fun u hu => ?_, fun u => ?_⟩
    · unfold shows
      rw [q1]
      dsimp only
      rw [if_neg hu]
      cases hx : st.strs u with
      | none => rfl
      | some a => exact q4 a (w.str u a hx)
    · cases hx : st.urls u with
      | none => simp only [showsUrl, q2, hx, Option.map_none]
      | some t => exact showsUrl_eq hx (by rw [q2]; exact hx) fun a ha => q4 a (w.url u t hx a ha)
  · obtain ⟨q1, q2⟩ := alone (n := st.mem.length) p (st1 := st2) {
      str := fun u h hu => by
        dsimp only at hu ⊢
        simp only [List.length_append, List.length_singleton]
        split at hu
        · cases hu; omega
        · have := w.str u h hu; omega
      url := fun u t hu h hh => by
        have := w.url u t hu h hh
        simp only [List.length_append, List.length_singleton]
        omega } {
      str := fun u h hu hh => by
        dsimp only at hh
        rw [if_neg hu] at hh
        have := w.str u h hh
        omega
      url := fun u t hu h hh => by
        have := w.url u t hu h hh
        omega } (by simp) hp e
    unfold shows
    rw [q2]
    simp only [if_true, Option.bind_some, q1]

/-- A string that is returned as it is: appending to the result changes whatever has it. -/
theorem shared {st st1 : State} {v a : Nat} {f : Fn} {s : Bytes} (h : st.eval f = .ok (.old a)) (ha : st.mem[a]? = some s)
    (e : step st (.call v f) = .ok st1) (x : UInt8) :
    ∃ st2, step st1 (.append v x) = .ok st2 ∧ st2.mem[a]? = some (s ++ [x]) ∧ (∀ b, b ≠ a → st2.mem[b]? = st.mem[b]?) ∧
      st2.urls = st.urls ∧ ∀ u, u ≠ v → st2.strs u = st.strs u := by
  simp only [step, h, Res.ok_bind, intern] at e
  cases e
  refine ⟨{ st with mem := st.mem.set a (s ++ [x]), strs := fun w => if w = v then some a else st.strs w }, ?_, ?_, fun b hb =>
    List.getElem?_set_ne hb.symm, rfl, fun u hu => if_neg hu⟩
  · simp only [step, if_true, Res.ofOption, Res.ok_bind, rd_eq_ok.2 ha, wr_ok (lt_of ha)]
  · exact List.getElem?_set_self (lt_of ha)

/-! ## The results as text -/

theorem upcaseFirst_text {m : Mem} {s l : Lab} (h : upcaseFirst m s = .ok l) : An.upcaseFirst (cont m s) = .ok (cont m l) := by
  unfold upcaseFirst at h
  unfold An.upcaseFirst
  dsimp only at h
  split at h
  · next q => cases h; rw [if_pos q]
  · next q =>
    rw [if_neg q]
    obtain ⟨c, h1, h⟩ := Res.bind_eq_ok.1 h
    simp only [h1, Res.ok_bind]
    split at h
    · next hc => cases h; rw [if_pos hc]; rfl
    · next hc => cases h; rw [if_neg hc]

theorem locaseFirst_text {m : Mem} {s l : Lab} (h : locaseFirst m s = .ok l) : An.locaseFirst (cont m s) = .ok (cont m l) := by
  unfold locaseFirst at h
  unfold An.locaseFirst
  dsimp only at h
  split at h
  · next q => cases h; rw [if_pos q]
  · next q =>
    rw [if_neg q]
    obtain ⟨c, h1, h⟩ := Res.bind_eq_ok.1 h
    simp only [h1, Res.ok_bind]
    split at h
    · next hc => cases h; rw [if_pos hc]; rfl
    · next hc => cases h; rw [if_neg hc]

theorem removePrefix_text {m : Mem} {s p l : Lab} (h : removePrefix m s p = .ok l) :
    An.removePrefix (cont m s) (cont m p) = .ok (cont m l) := by
  unfold removePrefix at h
  unfold An.removePrefix
  dsimp only at h
  split at h
  · next q => cases h; rw [if_pos q]
  · next q =>
    rw [if_neg q]
    obtain ⟨c, h1, h⟩ := Res.bind_eq_ok.1 h
    simp only [h1, Res.ok_bind]
    cases h
    cases c <;> rfl

theorem removeSuffix_text (m : Mem) (s p : Lab) : cont m (removeSuffix m s p) = An.removeSuffix (cont m s) (cont m p) := by
  unfold removeSuffix An.removeSuffix
  dsimp only
  split
  · rfl
  · split <;> rfl

theorem rawUnquote_text {m : Mem} {s l : Lab} (h : rawUnquote m s = .ok l) : An.rawUnquote (cont m s) = .ok (cont m l) := by
  obtain ⟨c, h1, h⟩ := Res.bind_eq_ok.1 h
  cases h
  simp only [An.rawUnquote, h1, Res.ok_bind]
  cases c <;> rfl

theorem val_or {m : Mem} {u : HUrl Lab} {a b : Url.Url} (h : val m u = .or a b) : ∃ c d, u = .or c d ∧ val m c = a ∧ val m d = b := by
  cases u <;> simp only [val] at h <;> try cases h
  exact ⟨_, _, rfl, rfl, rfl⟩

theorem alt_two {u1 u2 : Url.Url} (h1 : u1 ≠ .none) (h2 : u2 ≠ .none) (hn : ∀ a b, u1 ≠ .or a b) :
    (u1 = u2 → Url.alt u1 u2 = u2) ∧ (u1 ≠ u2 → (∀ c d, u2 = .or c d → u1 = c → Url.alt u1 u2 = u2) ∧
      ((∀ c d, u2 = .or c d → u1 ≠ c) → Url.alt u1 u2 = .or u1 u2)) := by
  rw [Url.alt.eq_def, if_neg h1, if_neg h2]
  cases u1 with
  | none => exact (h1 rfl).elim
  | or a b => exact (hn a b rfl).elim
  | _ =>
    refine ⟨fun h => by simp only [if_pos h], fun h => ⟨fun c d e q => ?_, fun q => ?_⟩⟩
    · subst e
      simp only [if_neg h, if_pos q]
    · simp only [if_neg h]
      split
      · next c d => rw [if_neg (q c d rfl)]
      · rfl

theorem alt_text (m : Mem) (u1 u2 : HUrl Lab) : val m (alt m u1 u2) = Url.alt (val m u1) (val m u2) := by
  fun_induction alt m u1 u2 with
  | case1 u2 u1 h => rw [Url.alt.eq_def, if_pos h]
  | case2 u1 u2 h1 h2 => rw [Url.alt.eq_def, if_neg h1, if_pos h2]
  | case3 u2 h2 a b h1 iha ihb =>
    rw [ihb, iha]
    conv => rhs; rw [Url.alt.eq_def, if_neg h1, if_neg h2]
    rfl
  | case4 u1 u2 h1 h2 he hn =>
    simp only [if_pos he]
    exact ((alt_two h1 h2 fun a b q => by obtain ⟨c, d, e, _⟩ := val_or q; exact hn c d e).1 he).symm
  | case5 u1 h1 c d hc hn h2 he =>
    simp only [if_neg he, if_pos hc]
    exact (((alt_two h1 h2 fun a b q => by obtain ⟨c, d, e, _⟩ := val_or q; exact hn c d e).2 he).1 _ _ rfl hc).symm
  | case6 u1 h1 c d hc hn h2 he =>
    simp only [if_neg he, if_neg hc]
    exact (((alt_two h1 h2 fun a b q => by obtain ⟨c, d, e, _⟩ := val_or q; exact hn c d e).2 he).2
      fun c' d' q => by cases q; exact hc).symm
  | case7 u1 u2 h1 h2 he hn hm =>
    simp only [if_neg he]
    refine (((alt_two h1 h2 fun a b q => by obtain ⟨c, d, e, _⟩ := val_or q; exact hn c d e).2 he).2
      fun c' d' q => by obtain ⟨c, d, e, _⟩ := val_or q; exact (hm c d e).elim).symm

theorem tail_text (m : Mem) : ∀ u : HUrl Lab, val m (tail m u) = Url.tail (val m u)
  | .atom _ => rfl
  | .none => rfl
  | .root _ => rfl
  | .root3 _ _ => rfl
  | .concat a b => by
    simp only [tail, val, Url.tail]
    split
    · rfl
    · exact tail_text m b
  | .or a b => by simp only [tail, val, Url.tail, alt_text, tail_text m a, tail_text m b]
  | .wild0 => rfl
  | .wild1 _ => rfl

theorem asString_text (m : Mem) (u : HUrl Lab) : cont m (asString m u) = Url.asString (val m u) := by
  cases u <;> rfl

theorem protocol_text (m : Mem) : ∀ u : HUrl Lab, cont m (protocol m u) = Url.protocol (val m u)
  | .atom _ => rfl
  | .none => rfl
  | .root _ => rfl
  | .root3 _ _ => rfl
  | .concat a b => protocol_text m a
  | .or a b => by
    simp only [protocol, val, Url.protocol, protocol_text m a, protocol_text m b]
    repeat (first | rfl | exact protocol_text m a | split)
  | .wild0 => rfl
  | .wild1 _ => rfl

theorem basenameS_text {m : Mem} {u : HUrl Lab} {p l : Lab} (e : basenameS m u p = .ok l) :
    Url.basenameS (val m u) (cont m p) = .ok (cont m l) := by
  obtain ⟨i, h1, e⟩ := Res.bind_eq_ok.1 e
  cases e
  rw [asString_text, tail_text] at h1
  simp only [Url.basenameS, h1, Res.ok_bind, removeSuffix_text]
  congr 2
  unfold cutAt Url.cutAt
  rw [asString_text, tail_text]
  split
  · rfl
  · rw [asString_text, tail_text]

theorem suffix_text {m : Mem} {u : HUrl Lab} {b : Bool} {l : Lab} (e : suffix m u b = .ok l) :
    Url.suffix (val m u) b = .ok (cont m l) := by
  obtain ⟨s, h, e⟩ := Res.bind_eq_ok.1 e
  cases e
  exact h

theorem basename_text {m : Mem} {u : HUrl Lab} {l : Lab} (e : basename m u = .ok l) :
    Url.basename (val m u) = .ok (cont m l) := by
  obtain ⟨s, h, e⟩ := Res.bind_eq_ok.1 e
  have q := basenameS_text e
  simp only [Url.basename, suffix_text h, Res.ok_bind]
  rw [← q]
  split <;> rfl

/-! ## Functions of strings -/

/-- `f` is one of `upcase_first`, `locase_first`, `remove_prefix`, `remove_suffix`, `raw_unquote`, of the string `w`. -/
def Text (w : Nat) (f : Fn) : Prop :=
  f = .upcaseFirst w ∨ f = .locaseFirst w ∨ (∃ p, f = .removePrefix w p) ∨ (∃ p, f = .removeSuffix w p) ∨ f = .rawUnquote w

theorem head_ne {c d : UInt8} {s : Bytes} (h : rd s 0 = .ok c) (hd : d ≠ c) (r : Bytes) : [d] ++ r ≠ s := by
  intro e
  have := rd_eq_ok.1 h
  rw [← e] at this
  simp at this
  exact hd this

theorem upcaseFirst_ne {m : Mem} {s : Lab} {t : Bytes} {a : Nat} (hs : s = .old a) (h : upcaseFirst m s = .ok (.new t)) : t ≠ cont m s := by
  unfold upcaseFirst at h
  dsimp only at h
  split at h
  · subst hs; cases h
  · obtain ⟨c, h1, h⟩ := Res.bind_eq_ok.1 h
    split at h
    · next hc =>
      cases h
      exact head_ne h1 (forall_byte (P := fun c => An.isIsoLocase c = true → UInt8.ofNat (c.toNat - 32) ≠ c) (by decide +kernel) c hc) _
    · subst hs; cases h

theorem locaseFirst_ne {m : Mem} {s : Lab} {t : Bytes} {a : Nat} (hs : s = .old a) (h : locaseFirst m s = .ok (.new t)) : t ≠ cont m s := by
  unfold locaseFirst at h
  dsimp only at h
  split at h
  · subst hs; cases h
  · obtain ⟨c, h1, h⟩ := Res.bind_eq_ok.1 h
    split at h
    · next hc =>
      cases h
      exact head_ne h1 (forall_byte (P := fun c => An.isIsoUpcase c = true → UInt8.ofNat (c.toNat + 32) ≠ c) (by decide +kernel) c hc) _
    · subst hs; cases h

theorem removePrefix_ne {m : Mem} {s p : Lab} {t : Bytes} {a : Nat} (hs : s = .old a) (h : removePrefix m s p = .ok (.new t)) :
    t ≠ cont m s := by
  unfold removePrefix at h
  dsimp only at h
  split at h
  · subst hs; cases h
  · next q =>
    obtain ⟨c, h1, h⟩ := Res.bind_eq_ok.1 h
    cases c
    · subst hs; cases h
    · cases h
      intro e
      have := congrArg List.length e
      rw [An.sub_to_end, List.length_drop] at this
      omega

theorem removeSuffix_lt {m : Mem} {s p : Lab} {t : Bytes} {a : Nat} (hs : s = .old a) (h : removeSuffix m s p = .new t) :
    t.length < (cont m s).length := by
  unfold removeSuffix at h
  dsimp only at h
  split at h
  · subst hs; cases h
  · next q =>
    split at h
    · next he =>
      cases h
      have hle : (cont m p).length ≤ (cont m s).length := by
        unfold An.ends at he
        split at he
        · cases he
        · omega
      rw [← Int.ofNat_sub hle, An.sub_from_zero, List.length_take]
      omega
    · subst hs; cases h

theorem rawUnquote_ne {m : Mem} {s : Lab} {t : Bytes} {a : Nat} (hs : s = .old a) (h : rawUnquote m s = .ok (.new t)) : t ≠ cont m s := by
  obtain ⟨c, h1, h⟩ := Res.bind_eq_ok.1 h
  cases c
  · subst hs; cases h
  · cases h
    intro e
    have := congrArg List.length e
    unfold An.isQuoted at h1
    split at h1
    · simp only [An.sub, List.length_drop, List.length_take] at this
      omega
    · cases h1

theorem text_cases {st : State} {w : Nat} {f : Fn} {l : Lab} (hf : Text w f) (e : st.eval f = .ok l) :
    ∃ a, st.strs w = some a ∧ (l = .old a ∨ ∃ t, l = .new t ∧ t ≠ cont st.mem (.old a)) := by
  rcases hf with rfl | rfl | ⟨p, rfl⟩ | ⟨p, rfl⟩ | rfl
  · obtain ⟨s, h1, e⟩ := Res.bind_eq_ok.1 e
    obtain ⟨a, ha, rfl⟩ := str_ok h1
    refine ⟨a, ha, (upcaseFirst_cases e).imp_right ?_⟩
    rintro ⟨t, rfl⟩
    exact ⟨t, rfl, upcaseFirst_ne rfl e⟩
  · obtain ⟨s, h1, e⟩ := Res.bind_eq_ok.1 e
    obtain ⟨a, ha, rfl⟩ := str_ok h1
    refine ⟨a, ha, (locaseFirst_cases e).imp_right ?_⟩
    rintro ⟨t, rfl⟩
    exact ⟨t, rfl, locaseFirst_ne rfl e⟩
  · obtain ⟨s, h1, e⟩ := Res.bind_eq_ok.1 e
    obtain ⟨q, _, e⟩ := Res.bind_eq_ok.1 e
    obtain ⟨a, ha, rfl⟩ := str_ok h1
    refine ⟨a, ha, (removePrefix_cases e).imp_right ?_⟩
    rintro ⟨t, rfl⟩
    exact ⟨t, rfl, removePrefix_ne rfl e⟩
  · obtain ⟨s, h1, e⟩ := Res.bind_eq_ok.1 e
    obtain ⟨q, _, e⟩ := Res.bind_eq_ok.1 e
    obtain ⟨a, ha, rfl⟩ := str_ok h1
    cases e
    refine ⟨a, ha, (removeSuffix_cases ..).imp_right ?_⟩
    rintro ⟨t, ht⟩
    have := removeSuffix_lt rfl ht
    exact ⟨t, ht, fun e => by rw [e] at this; omega⟩
  · obtain ⟨s, h1, e⟩ := Res.bind_eq_ok.1 e
    obtain ⟨a, ha, rfl⟩ := str_ok h1
    refine ⟨a, ha, (rawUnquote_cases e).imp_right ?_⟩
    rintro ⟨t, rfl⟩
    exact ⟨t, rfl, rawUnquote_ne rfl e⟩

theorem cont_old {st : State} (wf : WF st) {v a : Nat} (h : st.strs v = some a) : st.mem[a]? = some (cont st.mem (.old a)) := by
  have := wf.str v a h
  simp only [cont, List.getElem?_eq_getElem this, Option.getD_some]

theorem shows_call {st st1 : State} {v : Nat} {f : Fn} {l : Lab} (h : st.eval f = .ok l) (e : step st (.call v f) = .ok st1)
    (hl : LabIn (· < st.mem.length) l) : shows st1 v = some (cont st.mem l) := by
  simp only [step, h, Res.ok_bind] at e
  cases e
  cases l with
  | old a => simp [shows, intern, cont, List.getElem?_eq_getElem hl]
  | new s => simp [shows, intern, cont]

/-- The text that a function should return, from the texts that its arguments show. -/
def expected (st : State) : Fn → Option (Res Bytes)
  | .make s => some (.ok s)
  | .same v => (shows st v).map .ok
  | .upcaseFirst v => (shows st v).map An.upcaseFirst
  | .locaseFirst v => (shows st v).map An.locaseFirst
  | .removePrefix v p => (shows st v).bind fun s => (shows st p).map fun q => An.removePrefix s q
  | .removeSuffix v p => (shows st v).bind fun s => (shows st p).map fun q => .ok (An.removeSuffix s q)
  | .rawUnquote v => (shows st v).map An.rawUnquote
  | .asString u => (showsUrl st u).map fun t => .ok (Url.asString t)
  | .protocol u => (showsUrl st u).map fun t => .ok (Url.protocol t)
  | .suffix u b => (showsUrl st u).map fun t => Url.suffix t b
  | .basenameS u p => (showsUrl st u).bind fun t => (shows st p).map fun q => Url.basenameS t q
  | .basename u => (showsUrl st u).map Url.basename

theorem str_shows {st : State} (wf : WF st) {v : Nat} {l : Lab} (h : st.str v = .ok l) : shows st v = some (cont st.mem l) := by
  obtain ⟨a, ha, rfl⟩ := str_ok h
  simp only [shows, ha, Option.bind_some, cont_old wf ha]

theorem showsUrl_url {st : State} {u : Nat} {t : HUrl Lab} (h : st.url u = .ok t) : showsUrl st u = some (val st.mem t) := by
  obtain ⟨a, ha, rfl⟩ := url_ok h
  simp only [showsUrl, ha, Option.map_some]

/-- C155: sharing does not change what functions return: after any program the text of the result is that of the function of
texts (C18 to C29, C46 to C51) on what the arguments show. -/
theorem C155_value {l : List Stmt} {st st1 : State} (h : run start l = .ok st) {v : Nat} {f : Fn}
    (e : step st (.call v f) = .ok st1) : ∃ s, expected st f = some (.ok s) ∧ shows st1 v = some s := by
  have wf := run_wf l start_wf h
  obtain ⟨x, h1, _⟩ := Res.bind_eq_ok.1 e
  refine ⟨cont st.mem x, ?_, shows_call h1 e (eval_in (fun v _ => wf.str v) wf.url h1)⟩
  clear e
  cases f with
  | make s => cases h1; rfl
  | same v => simp only [expected, str_shows wf h1, Option.map_some]
  | upcaseFirst v =>
    obtain ⟨s, h2, h1⟩ := Res.bind_eq_ok.1 h1
    simp only [expected, str_shows wf h2, Option.map_some, upcaseFirst_text h1]
  | locaseFirst v =>
    obtain ⟨s, h2, h1⟩ := Res.bind_eq_ok.1 h1
    simp only [expected, str_shows wf h2, Option.map_some, locaseFirst_text h1]
  | removePrefix v p =>
    obtain ⟨s, h2, h1⟩ := Res.bind_eq_ok.1 h1
    obtain ⟨q, h3, h1⟩ := Res.bind_eq_ok.1 h1
    simp only [expected, str_shows wf h2, str_shows wf h3, Option.bind_some, Option.map_some, removePrefix_text h1]
  | removeSuffix v p =>
    obtain ⟨s, h2, h1⟩ := Res.bind_eq_ok.1 h1
    obtain ⟨q, h3, h1⟩ := Res.bind_eq_ok.1 h1
    cases h1
    simp only [expected, str_shows wf h2, str_shows wf h3, Option.bind_some, Option.map_some, removeSuffix_text]
  | rawUnquote v =>
    obtain ⟨s, h2, h1⟩ := Res.bind_eq_ok.1 h1
    simp only [expected, str_shows wf h2, Option.map_some, rawUnquote_text h1]
  | asString u =>
    obtain ⟨t, h2, h1⟩ := Res.bind_eq_ok.1 h1
    cases h1
    simp only [expected, showsUrl_url h2, Option.map_some, asString_text]
  | protocol u =>
    obtain ⟨t, h2, h1⟩ := Res.bind_eq_ok.1 h1
    cases h1
    simp only [expected, showsUrl_url h2, Option.map_some, protocol_text]
  | suffix u b =>
    obtain ⟨t, h2, h1⟩ := Res.bind_eq_ok.1 h1
    simp only [expected, showsUrl_url h2, Option.map_some, suffix_text h1]
  | basenameS u p =>
    obtain ⟨t, h2, h1⟩ := Res.bind_eq_ok.1 h1
    obtain ⟨q, h3, h1⟩ := Res.bind_eq_ok.1 h1
    simp only [expected, showsUrl_url h2, str_shows wf h3, Option.bind_some, Option.map_some, basenameS_text h1]
  | basename u =>
    obtain ⟨t, h2, h1⟩ := Res.bind_eq_ok.1 h1
    simp only [expected, showsUrl_url h2, Option.map_some, basename_text h1]

/-- C155 for functions of strings, after any program: if the result of the call differs from the string it was given, it has nothing in
common with it or with anything else. Missing: results that are equal, see `C155_text_violated`. -/
theorem C155_text_partial {l : List Stmt} {st st1 : State} (h : run start l = .ok st) {v w : Nat} {f : Fn} (hf : Text w f)
    (e : step st (.call v f) = .ok st1) (hn : shows st1 v ≠ shows st w) : Independent st st1 v := by
  have wf := run_wf l start_wf h
  obtain ⟨x, h1, e'⟩ := Res.bind_eq_ok.1 e
  obtain ⟨a, ha, rfl | ⟨t, rfl, ht⟩⟩ := text_cases hf h1
  · refine (hn ?_).elim
    rw [shows_call h1 e (wf.str w a ha)]
    simp only [shows, ha, Option.bind_some, cont_old wf ha]
  · exact (independent wf h1 e).1

/-- C155 fails for functions of strings that have nothing to do: the result is the very string that was given, and `v << x` changes it. -/
theorem C155_text_violated {l : List Stmt} {st st1 : State} (h : run start l = .ok st) {v w : Nat} {f : Fn} (hf : Text w f) {s : Bytes}
    (hw : shows st w = some s) (e : step st (.call v f) = .ok st1) (hn : shows st1 v = some s) (hv : w ≠ v) (x : UInt8) :
    ∃ st2, step st1 (.append v x) = .ok st2 ∧ shows st2 w = some (s ++ [x]) := by
  have wf := run_wf l start_wf h
  obtain ⟨y, h1, e'⟩ := Res.bind_eq_ok.1 e
  obtain ⟨a, ha, rfl | ⟨t, rfl, ht⟩⟩ := text_cases hf h1
  · have hm : st.mem[a]? = some s := by simpa [shows, ha] using hw
    obtain ⟨st2, e2, q1, _, _, q4⟩ := shared h1 hm e x
    exact ⟨st2, e2, by simp only [shows, q4 w hv, ha, Option.bind_some, q1]⟩
  · refine (ht ?_).elim
    rw [(independent wf h1 e).2] at hn
    simp only [shows, ha, Option.bind_some, cont_old wf ha] at hw
    cases hn
    cases hw
    rfl

/-! ## Functions of urls -/

/-- Where a url begins. -/
def first : Url.Url → Url.Url
  | .concat a _ => first a
  | .or a _ => first a
  | u => u

theorem url_shows {st : State} {u : Nat} {U : Url.Url} (h : showsUrl st u = some U) :
    ∃ t, st.urls u = some t ∧ val st.mem (t.map .old) = U := by
  unfold showsUrl at h
  cases ht : st.urls u with
  | none => rw [ht] at h; cases h
  | some t => rw [ht] at h; cases h; exact ⟨t, rfl, rfl⟩

theorem url_eq {st : State} {u : Nat} {t : HUrl Nat} (h : st.urls u = some t) : st.url u = .ok (t.map .old) := by
  simp only [State.url, h, Res.ofOption, Res.ok_bind]

theorem protocol_new (m : Mem) : ∀ t : HUrl Lab, (∀ p, first (val m t) ≠ .root p) → (∀ p c, first (val m t) ≠ .root3 p c) →
    ∃ s, protocol m t = .new s
  | .atom _, _, _ => ⟨_, rfl⟩
  | .none, _, _ => ⟨_, rfl⟩
  | .root _, h, _ => (h _ rfl).elim
  | .root3 _ _, _, h => (h _ _ rfl).elim
  | .concat a b, h, h' => protocol_new m a h h'
  | .or a b, h, h' => by
    rw [protocol]
    split
    · exact ⟨_, rfl⟩
    · split
      · exact protocol_new m a h h'
      · exact ⟨_, rfl⟩
  | .wild0, _, _ => ⟨_, rfl⟩
  | .wild1 _, _, _ => ⟨_, rfl⟩

/-- C155 for `suffix`: always. -/
theorem C155_suffix {l : List Stmt} {st st1 : State} (h : run start l = .ok st) {v u : Nat} {b : Bool}
    (e : step st (.call v (.suffix u b)) = .ok st1) : Independent st st1 v := by
  obtain ⟨x, h1, _⟩ := Res.bind_eq_ok.1 e
  obtain ⟨t, _, h2⟩ := Res.bind_eq_ok.1 h1
  obtain ⟨s, rfl⟩ := suffix_new h2
  exact (independent (run_wf l start_wf h) h1 e).1

/-- C155 for `as_string`, if the url is not a single name or wildcard; see `C155_name_violated`. -/
theorem C155_as_string_partial {l : List Stmt} {st st1 : State} (h : run start l = .ok st) {v u : Nat} {U : Url.Url}
    (hu : showsUrl st u = some U) (hn : ∀ s, U ≠ .atom s ∧ U ≠ .wild1 s) (e : step st (.call v (.asString u)) = .ok st1) :
    Independent st st1 v ∧ shows st1 v = some (Url.asString U) := by
  obtain ⟨t, ht, rfl⟩ := url_shows hu
  have h1 : st.eval (.asString u) = .ok (.new (Url.asString (val st.mem (t.map .old)))) := by
    simp only [State.eval, url_eq ht, Res.ok_bind]
    cases t with
    | atom a => exact ((hn _).1 rfl).elim
    | wild1 a => exact ((hn _).2 rfl).elim
    | _ => rfl
  exact independent (run_wf l start_wf h) h1 e

/-- C155 for `protocol`, if the url does not begin with a root; see `C155_protocol_violated`. -/
theorem C155_protocol_partial {l : List Stmt} {st st1 : State} (h : run start l = .ok st) {v u : Nat} {U : Url.Url}
    (hu : showsUrl st u = some U) (hn : ∀ p c, first U ≠ .root p ∧ first U ≠ .root3 p c) (e : step st (.call v (.protocol u)) = .ok st1) :
    Independent st st1 v ∧ shows st1 v = some (Url.protocol U) := by
  obtain ⟨t, ht, rfl⟩ := url_shows hu
  obtain ⟨s, hs⟩ := protocol_new st.mem (t.map .old) (fun p => (hn p []).1) (fun p c => (hn p c).2)
  have h1 : st.eval (.protocol u) = .ok (.new s) := by
    simp only [State.eval, url_eq ht, Res.ok_bind, hs]
  have := protocol_text st.mem (t.map .old)
  rw [hs] at this
  rw [← this]
  exact independent (run_wf l start_wf h) h1 e

/-- `f` is `basename` of the url `u`, with or without a suffix. -/
def Base (u : Nat) (f : Fn) : Prop := f = .basename u ∨ ∃ p, f = .basenameS u p

theorem base_eval {st : State} {u : Nat} {f : Fn} {x : Lab} {t : HUrl Nat} (hf : Base u f) (ht : st.urls u = some t)
    (h : st.eval f = .ok x) : ∃ p, basenameS st.mem (t.map .old) p = .ok x := by
  rcases hf with rfl | ⟨q, rfl⟩
  · simp only [State.eval, url_eq ht, Res.ok_bind] at h
    obtain ⟨s, _, h⟩ := Res.bind_eq_ok.1 h
    exact ⟨_, h⟩
  · simp only [State.eval, url_eq ht, Res.ok_bind] at h
    obtain ⟨s, _, h⟩ := Res.bind_eq_ok.1 h
    exact ⟨_, h⟩

theorem basenameS_old {m : Mem} {t : HUrl Lab} {p : Lab} {a : Nat} (h : basenameS m t p = .ok (.old a)) :
    asString m (tail m t) = .old a := by
  obtain ⟨i, h1, h⟩ := Res.bind_eq_ok.1 h
  injection h with h
  rcases removeSuffix_cases m (cutAt m (asString m (tail m t)) i) p with q | ⟨s, q⟩
  · rw [q] at h
    unfold cutAt at h
    split at h
    · cases h
    · exact h
  · rw [q] at h
    cases h

/-- C155 for `basename`, if something is cut off from the last component, or if this is not a single name or wildcard; see
`C155_basename_violated`. -/
theorem C155_basename_partial {l : List Stmt} {st st1 : State} (h : run start l = .ok st) {v u : Nat} {U : Url.Url} {f : Fn}
    (hu : showsUrl st u = some U) (hf : Base u f) (e : step st (.call v f) = .ok st1)
    (hn : shows st1 v ≠ some (Url.asString (Url.tail U)) ∨ ∀ s, Url.tail U ≠ .atom s ∧ Url.tail U ≠ .wild1 s) :
    Independent st st1 v := by
  have wf := run_wf l start_wf h
  obtain ⟨t, ht, rfl⟩ := url_shows hu
  obtain ⟨x, h1, _⟩ := Res.bind_eq_ok.1 e
  obtain ⟨p, hp⟩ := base_eval hf ht h1
  cases x with
  | new s => exact (independent wf h1 e).1
  | old a =>
    have q := basenameS_old hp
    rw [← tail_text] at hn
    rcases hn with hn | hn
    · refine (hn ?_).elim
      rw [shows_call h1 e, ← asString_text, q]
      exact basenameS_in (P := (· < st.mem.length)) (url_in wf.url (url_eq ht)) hp
    · cases hx : tail st.mem (t.map .old) <;> rw [hx] at q hn
      case atom b => exact ((hn _).1 rfl).elim
      case wild1 b => exact ((hn _).2 rfl).elim
      all_goals cases q

theorem val_atom {m : Mem} {t : HUrl Nat} {s : Bytes} (h : val m (t.map .old) = .atom s) : ∃ a, t = .atom a ∧ cont m (.old a) = s := by
  cases t <;> simp only [HUrl.map, val] at h <;> try cases h
  exact ⟨_, rfl, rfl⟩

theorem mem_old {st : State} (wf : WF st) {u : Nat} {t : HUrl Nat} (h : st.urls u = some t) {a : Nat} (ha : a ∈ t.labels) :
    st.mem[a]? = some (cont st.mem (.old a)) := by
  have := wf.url u t h a ha
  simp only [cont, List.getElem?_eq_getElem this, Option.getD_some]

/-- C155 fails for `as_string` of a url that is a single name: `v << x` changes the url. -/
theorem C155_name_violated {l : List Stmt} {st st1 : State} (h : run start l = .ok st) {v u : Nat} {s : Bytes}
    (hu : showsUrl st u = some (.atom s)) (e : step st (.call v (.asString u)) = .ok st1) (x : UInt8) :
    ∃ st2, step st1 (.append v x) = .ok st2 ∧ showsUrl st2 u = some (.atom (s ++ [x])) := by
  have wf := run_wf l start_wf h
  obtain ⟨t, ht, hv⟩ := url_shows hu
  obtain ⟨a, rfl, rfl⟩ := val_atom hv
  have h1 : st.eval (.asString u) = .ok (.old a) := by
    simp only [State.eval, url_eq ht, Res.ok_bind, HUrl.map, asString]
  obtain ⟨st2, e2, q1, _, q3, _⟩ := shared h1 (mem_old wf ht List.mem_cons_self) e x
  refine ⟨st2, e2, ?_⟩
  simp only [showsUrl, q3, ht, Option.map_some, HUrl.map, val, cont, q1, Option.getD_some]

/-- C155 fails for `protocol` of a url with a root: `v << x` changes the root. -/
theorem C155_protocol_violated {l : List Stmt} {st st1 : State} (h : run start l = .ok st) {v u : Nat} {p : Bytes} {U : Url.Url}
    (hu : showsUrl st u = some (.concat (.root p) U)) (e : step st (.call v (.protocol u)) = .ok st1) (x : UInt8) :
    ∃ st2 U', step st1 (.append v x) = .ok st2 ∧ showsUrl st2 u = some (.concat (.root (p ++ [x])) U') := by
  have wf := run_wf l start_wf h
  obtain ⟨t, ht, hv⟩ := url_shows hu
  obtain ⟨a, b, rfl, rfl⟩ : ∃ a b, t = .concat (.root a) b ∧ p = cont st.mem (.old a) := by
    cases t <;> simp only [HUrl.map, val] at hv <;> try cases hv
    rename_i c d
    cases c <;> simp only [HUrl.map, val] at hv <;> cases hv
    exact ⟨_, _, rfl, rfl⟩
  have h1 : st.eval (.protocol u) = .ok (.old a) := by
    simp only [State.eval, url_eq ht, Res.ok_bind, HUrl.map, protocol]
  obtain ⟨st2, e2, q1, _, q3, _⟩ := shared h1 (mem_old wf ht (by simp [HUrl.labels])) e x
  refine ⟨st2, val st2.mem (b.map .old), e2, ?_⟩
  simp only [showsUrl, q3, ht, Option.map_some, HUrl.map, val, cont, q1, Option.getD_some]

theorem cutAt_lt {m : Mem} {a : Nat} {i : Int} {t : Bytes} (hi : An.indexOf (cont m (.old a)) (c! '?') = .ok i)
    (h : cutAt m (.old a) i = .new t) : t.length < (cont m (.old a)).length := by
  unfold cutAt at h
  split at h
  · next q =>
    cases h
    rcases (SearchProps.C20_index_of (cont m (.old a)) (c! '?')).1 with ⟨p, e, hp, _⟩ | ⟨e, _⟩
    · rw [hi] at e
      cases e
      have := lt_of hp
      rw [An.sub_from_zero, List.length_take]
      omega
    · rw [hi] at e
      cases e
      exact (q rfl).elim
  · cases h

/-- C155 fails for `basename` if nothing is cut off from the last name: `v << x` changes the url. -/
theorem C155_basename_violated {l : List Stmt} {st st1 : State} (h : run start l = .ok st) {v u : Nat} {f : Fn} {A : Url.Url} {s : Bytes}
    (hu : showsUrl st u = some (.concat A (.atom s))) (hA : Url.isRootWeb A = false) (hf : Base u f) (e : step st (.call v f) = .ok st1)
    (hs : shows st1 v = some s) (x : UInt8) :
    ∃ st2 A', step st1 (.append v x) = .ok st2 ∧ showsUrl st2 u = some (.concat A' (.atom (s ++ [x]))) := by
  have wf := run_wf l start_wf h
  obtain ⟨t, ht, hv⟩ := url_shows hu
  obtain ⟨a, b, rfl, rfl, rfl⟩ : ∃ a b, t = .concat a (.atom b) ∧ s = cont st.mem (.old b) ∧ A = val st.mem (a.map .old) := by
    cases t <;> simp only [HUrl.map, val] at hv <;> try cases hv
    rename_i c d
    cases d <;> simp only [HUrl.map, val] at hv <;> cases hv
    exact ⟨_, _, rfl, rfl, rfl⟩
  obtain ⟨y, h1, _⟩ := Res.bind_eq_ok.1 e
  obtain ⟨p, hp⟩ := base_eval hf ht h1
  have ht' : asString st.mem (tail st.mem ((HUrl.concat a (.atom b)).map .old)) = .old b := by
    simp only [HUrl.map, tail, hA, Bool.false_and, Bool.false_eq_true, if_false, asString]
  have hy : y = .old b := by
    have hc := shows_call h1 e (basenameS_in (P := (· < st.mem.length)) (url_in wf.url (url_eq ht)) hp)
    rw [hs] at hc
    injection hc with hc
    obtain ⟨i, hi, hp⟩ := Res.bind_eq_ok.1 hp
    rw [ht'] at hi hp
    injection hp with hp
    cases hcut : cutAt st.mem (.old b) i with
    | old d =>
      have hd : d = b := by
        unfold cutAt at hcut
        split at hcut <;> cases hcut
        rfl
      subst hd
      rw [hcut] at hp
      rcases removeSuffix_cases st.mem (.old d) p with q | ⟨r, q⟩
      · rw [← hp, q]
      · have := removeSuffix_lt rfl q
        rw [← hp, q] at hc
        have hc : cont st.mem (.old d) = r := hc
        rw [hc] at this
        omega
    | new r =>
      have h2 := cutAt_lt hi hcut
      rw [hcut] at hp
      have h3 : (cont st.mem y).length ≤ r.length := by
        rw [← hp, removeSuffix_text]
        unfold An.removeSuffix
        split
        · exact Nat.le_refl _
        · split
          · simp only [An.sub, List.length_drop, List.length_take, cont]
            omega
          · exact Nat.le_refl _
      rw [← hc] at h3
      omega
  subst hy
  obtain ⟨st2, e2, q1, _, q3, _⟩ := shared h1 (mem_old wf ht (by simp [HUrl.labels])) e x
  refine ⟨st2, val st2.mem (a.map .old), e2, ?_⟩
  simp only [showsUrl, q3, ht, Option.map_some, HUrl.map, val, cont, q1, Option.getD_some]

/-! ## The hypotheses hold for real programs -/

/-- `string s ("abc"); string t= upcase_first (s); t << "x"`: `s` is as before. -/
example : (run start [.call 0 (.make (b!"abc")), .call 1 (.upcaseFirst 0), .append 1 (c! 'x')]).bind
    (fun st => .ok (shows st 0, shows st 1)) = .ok (some (b!"abc"), some (b!"Abcx")) := by decide +kernel

/-- With `"Abc"` both are changed. -/
example : (run start [.call 0 (.make (b!"Abc")), .call 1 (.upcaseFirst 0), .append 1 (c! 'x')]).bind
    (fun st => .ok (shows st 0, shows st 1)) = .ok (some (b!"Abcx"), some (b!"Abcx")) := by decide +kernel

/-- `url u ("/data"); string t= as_string (u)` gives a new string; `suffix` as well. -/
example : (run start [.url 0 (.concat (.root (.lit (b!"default"))) (.atom (.lit (b!"data")))), .call 1 (.asString 0), .append 1 (c! 'x')]).bind
    (fun st => .ok (showsUrl st 0, shows st 1)) =
    .ok (some (.concat (.root (b!"default")) (.atom (b!"data"))), some (b!"/datax")) := by decide +kernel

/-- `basename (u, ".txt")` for `/data`: then `<<` changes the url to `/datax`. -/
example : (run start [.url 0 (.concat (.root (.lit (b!"default"))) (.atom (.lit (b!"data")))), .call 2 (.make (b!".txt")),
    .call 1 (.basenameS 0 2), .append 1 (c! 'x')]).bind
    (fun st => .ok (showsUrl st 0, shows st 1)) =
    .ok (some (.concat (.root (b!"default")) (.atom (b!"datax"))), some (b!"datax")) := by decide +kernel

/-- For `/data.txt` with the suffix `.txt` the url stays. -/
example : (run start [.url 0 (.concat (.root (.lit (b!"default"))) (.atom (.lit (b!"data.txt")))), .call 2 (.make (b!".txt")),
    .call 1 (.basenameS 0 2), .append 1 (c! 'x')]).bind
    (fun st => .ok (showsUrl st 0, shows st 1)) =
    .ok (some (.concat (.root (b!"default")) (.atom (b!"data.txt"))), some (b!"datax")) := by decide +kernel

/-- `basename (u)` for `/data.txt` and for a name without suffix. -/
example : (run start [.url 0 (.concat (.root (.lit (b!"default"))) (.atom (.lit (b!"data.txt")))), .url 1 (.atom (.lit (b!"data"))),
    .call 1 (.basename 0), .call 2 (.basename 1)]).bind (fun st => .ok (shows st 1, shows st 2)) =
    .ok (some (b!"data"), some (b!"data")) := by decide +kernel

/-- `protocol`: the root of the url is changed. -/
example : (run start [.url 0 (.concat (.root (.lit (b!"file"))) (.atom (.lit (b!"data")))), .call 1 (.protocol 0), .append 1 (c! 'x')]).bind
    (fun st => .ok (showsUrl st 0)) = .ok (some (.concat (.root (b!"filex")) (.atom (b!"data")))) := by decide +kernel

/-- A url made with the string of a variable, and parts of another url. -/
example : (run start [.call 0 (.make (b!"*.tm")), .url 0 (.wild1 (.str 0)), .url 1 (.or (.wild1 (.part 0 0)) (.atom (.lit (b!"a")))),
    .append 0 (c! 'x')]).bind (fun st => .ok (showsUrl st 0, showsUrl st 1)) =
    .ok (some (.wild1 (b!"*.tmx")), some (.or (.wild1 (b!"*.tmx")) (.atom (b!"a")))) := by decide +kernel

example : Avoids 1 [.call 0 (.make (b!"a")), .append 0 (c! 'x'), .url 0 (.wild1 (.str 0))] := by
  simp [Avoids, AvoidsOne, fnReads, HUrl.labels]

end Lolly.ResultsProps
