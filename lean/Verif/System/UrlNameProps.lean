import Verif.System.UrlProps
import Verif.Strings.CharsProps
import Verif.Strings.SearchProps

set_option autoImplicit false

/-!
# C49, C80: suffixes, base names, gluing, descendants
-/

namespace Lolly.UrlNameProps

open Lolly.Url

/-! ## Helpers -/

theorem lastDot_found (b t : Bytes) (h : c! '.' ∉ t) (j : Nat) (hj : j ≤ t.length) :
    lastDot (b ++ c! '.' :: t) (b.length + 1 + j) = .ok (b.length + 1) := by
  induction j with
  | zero =>
    rw [Nat.add_zero, lastDot, rd_ok (by simp), Res.ok_bind, if_pos (by simp)]
  | succ j ih =>
    rw [← Nat.add_assoc, lastDot, rd_ok (by simp; omega), Res.ok_bind, if_neg, ih (by omega)]
    rw [List.getElem_append_right (by omega)]
    intro e
    refine h ?_
    rw [← e]
    have : b.length + 1 + j - b.length = j + 1 := by omega
    simp only [this, List.getElem_cons_succ]
    exact List.getElem_mem _

theorem lastDot_none (s : Bytes) (h : c! '.' ∉ s) (k : Nat) (hk : k ≤ s.length) : lastDot s k = .ok 0 := by
  induction k with
  | zero => rfl
  | succ k ih =>
    rw [lastDot, rd_ok (by omega), Res.ok_bind, if_neg, ih (by omega)]
    intro e
    exact h (e ▸ List.getElem_mem _)

/-- A string either has no dot or splits at its last one. -/
theorem last_dot (s : Bytes) : c! '.' ∉ s ∨ ∃ b t, s = b ++ c! '.' :: t ∧ c! '.' ∉ t := by
  induction s with
  | nil => simp
  | cons x s ih =>
    rcases ih with ih | ⟨b, t, e, h⟩
    · by_cases hx : x = c! '.'
      · exact .inr ⟨[], s, by simp [hx], ih⟩
      · exact .inl (by simp [ih]; exact fun e => hx e.symm)
    · exact .inr ⟨x :: b, t, by simp [e], h⟩

theorem takeWhile_all {p : UInt8 → Bool} {s : Bytes} (h : ∀ x ∈ s, p x = true) : s.takeWhile p = s := by
  induction s with
  | nil => rfl
  | cons x s ih => rw [List.takeWhile_cons, if_pos (h x (by simp)), ih fun y hy => h y (by simp [hy])]

theorem mem_takeWhile {p : UInt8 → Bool} {s : Bytes} {x : UInt8} (h : x ∈ s.takeWhile p) : x ∈ s ∧ p x = true := by
  induction s with
  | nil => simp at h
  | cons y s ih =>
    rw [List.takeWhile_cons] at h
    split at h
    · next hy =>
      rcases List.mem_cons.1 h with rfl | h
      · exact ⟨by simp, hy⟩
      · exact ⟨by simp [(ih h).1], (ih h).2⟩
    · simp at h

theorem cut_query (s : Bytes) : ∃ f, An.indexOf s (c! '?') = .ok f ∧ cutAt s f = s.takeWhile (· ≠ c! '?') := by
  rcases (SearchProps.C20_index_of s (c! '?')).1 with ⟨p, e, hp, hmin⟩ | ⟨e, h⟩
  · refine ⟨p, e, ?_⟩
    rw [cutAt, if_pos (by omega), An.sub_from_zero]
    have hpl : p < s.length := by
      rcases Nat.lt_or_ge p s.length with h | h
      · exact h
      · rw [List.getElem?_eq_none h] at hp; simp at hp
    have e2 : s = s.take p ++ c! '?' :: s.drop (p + 1) := by
      rw [List.getElem?_eq_getElem hpl] at hp
      injection hp with hp
      rw [← hp, ← List.drop_eq_getElem_cons hpl, List.take_append_drop]
    conv => rhs; rw [e2]
    rw [List.takeWhile_append_of_pos, List.takeWhile_cons, if_neg (by simp), List.append_nil]
    intro x hx
    obtain ⟨i, hi, ex⟩ := List.mem_iff_getElem.1 hx
    simp only [List.length_take] at hi
    simp only [decide_eq_true_eq]
    intro e3
    have := hmin i (by
      rw [List.getElem?_eq_getElem (by omega)]
      rw [List.getElem_take] at ex
      rw [ex, e3])
    omega
  · refine ⟨-1, e, ?_⟩
    rw [cutAt, if_neg (by simp)]
    refine (takeWhile_all ?_).symm
    intro x hx
    simp only [decide_eq_true_eq]
    exact fun e => h (e ▸ hx)

/-- The marks of backup files. -/
def Mark (c : UInt8) : Prop := c = c! '~' ∨ c = c! '#'

instance (c : UInt8) : Decidable (Mark c) := inferInstanceAs (Decidable (_ ∨ _))

theorem stripMarks_eq (e m : Bytes) (hm : ∀ c ∈ m, Mark c) (he : ∀ c, e.getLast? = some c → ¬ Mark c) :
    stripMarks (e ++ m) = e := by
  induction h : m.length generalizing m with
  | zero =>
    have : m = [] := by simpa using h
    subst this
    rw [List.append_nil, stripMarks, if_neg]
    rintro ⟨_, hc | hc⟩
    · exact he _ hc (.inl rfl)
    · exact he _ hc (.inr rfl)
  | succ n ih =>
    have hne : m ≠ [] := by intro e; simp [e] at h
    have hl : (e ++ m).getLast? = some (m.getLast hne) := by
      rw [List.getLast?_append, List.getLast?_eq_some_getLast hne]; rfl
    have hc : (e ++ m).getLast? = some (c! '~') ∨ (e ++ m).getLast? = some (c! '#') := by
      rw [hl]
      rcases hm _ (List.getLast_mem hne) with h | h
      · exact .inl (by rw [h])
      · exact .inr (by rw [h])
    rw [stripMarks, if_pos ⟨by simp; omega, hc⟩, List.dropLast_append_of_ne_nil hne]
    exact ih m.dropLast (fun c hc => hm c (List.dropLast_subset _ hc)) (by simp [h])

theorem marks_split (t : Bytes) : ∃ e m, t = e ++ m ∧ (∀ c ∈ m, Mark c) ∧ ∀ c, e.getLast? = some c → ¬ Mark c := by
  induction h : t.length generalizing t with
  | zero => exact ⟨t, [], by simp, by simp, by simp [List.length_eq_zero_iff.1 h]⟩
  | succ n ih =>
    have hne : t ≠ [] := by intro e; simp [e] at h
    by_cases hm : Mark (t.getLast hne)
    · obtain ⟨e, m, e1, h1, h2⟩ := ih t.dropLast (by simp [h])
      refine ⟨e, m ++ [t.getLast hne], ?_, ?_, h2⟩
      · rw [← List.append_assoc, ← e1, List.dropLast_concat_getLast]
      · intro c hc
        rcases List.mem_append.1 hc with hc | hc
        · exact h1 c hc
        · simp at hc; exact hc ▸ hm
    · refine ⟨t, [], by simp, by simp, ?_⟩
      intro c hc
      rw [List.getLast?_eq_some_getLast hne] at hc
      injection hc with hc
      exact hc ▸ hm

/-! ## C49: suffix and base name -/

/-- The suffix of a name is what follows its last dot, without the marks `~` and `#` of backup files at its end, up to
the first `?`; the dot must be neither the first nor the last character. -/
theorem C49_suffix (u : Url) (b e m : Bytes) (hu : tail u = .atom (b ++ c! '.' :: (e ++ m))) (hb : b ≠ [])
    (hd : c! '.' ∉ e ++ m) (hem : e ++ m ≠ []) (hm : ∀ c ∈ m, Mark c) (he : ∀ c, e.getLast? = some c → ¬ Mark c) :
    suffix u false = .ok (e.takeWhile (· ≠ c! '?')) ∧
    suffix u true = .ok ((e.takeWhile (· ≠ c! '?')).map An.locase) := by
  have hk : lastDot (b ++ c! '.' :: (e ++ m)) (b ++ c! '.' :: (e ++ m)).length = .ok (b.length + 1) := by
    have := lastDot_found b (e ++ m) hd (e ++ m).length (Nat.le_refl _)
    rw [← this]; congr 1; simp; omega
  have hl : 0 < b.length := List.length_pos_iff.2 hb
  have hl2 : 0 < (e ++ m).length := List.length_pos_iff.2 hem
  obtain ⟨f, e1, e2⟩ := cut_query e
  have hs : An.sub (b ++ c! '.' :: (e ++ m)) (b.length + 1 : Nat) (b ++ c! '.' :: (e ++ m)).length = e ++ m := by
    rw [An.sub_to_end, List.drop_append]; simp
  have key : ∀ lc, suffix u lc = if lc then An.locaseAll (e.takeWhile (· ≠ c! '?')) else .ok (e.takeWhile (· ≠ c! '?')) := by
    intro lc
    unfold suffix
    rw [hu]
    dsimp only
    rw [hk, Res.ok_bind, if_pos ⟨by omega, by simp only [List.length_append, List.length_cons] at hl2 ⊢; omega⟩, hs,
      stripMarks_eq e m hm he, e1, Res.ok_bind, e2]
  exact ⟨by rw [key, if_neg (by simp)], by rw [key, if_pos rfl]; exact An.mapBytes_eq _ _⟩

example : suffix (P [.atom (b!"src"), .atom (b!"main.old.CC~")]) true = .ok (b!"cc") :=
  (C49_suffix _ (b!"main.old") (b!"CC") (b!"~") (by decide) (by decide) (by decide) (by decide) (by decide) (by
    intro c h; simp [Mark] at h ⊢; subst h; decide)).2

/-- In all other cases the suffix is empty: no dot, or the last dot is the first or the last character, or the url
does not end with a name. -/
theorem C49_no_suffix (u : Url) (lc : Bool)
    (h : ∀ s, tail u = .atom s → c! '.' ∉ s ∨ (∃ t, s = c! '.' :: t ∧ c! '.' ∉ t) ∨ ∃ b, s = b ++ [c! '.']) :
    suffix u lc = .ok [] := by
  unfold suffix
  split
  · next s hs =>
    have key : ∀ b t, s = b ++ c! '.' :: t → c! '.' ∉ t → b = [] ∨ t = [] → (do
        let k ← lastDot s s.length
        if 1 < k ∧ k < s.length then do
          let r := stripMarks (An.sub s k s.length)
          let found ← An.indexOf r (c! '?')
          let r := cutAt r found
          if lc then An.locaseAll r else .ok r
        else .ok []) = .ok [] := by
      intro b t e ht hbt
      have hk := lastDot_found b t ht t.length (Nat.le_refl _)
      rw [← e, show b.length + 1 + t.length = s.length by rw [e]; simp; omega] at hk
      rw [hk, Res.ok_bind, if_neg]
      rcases hbt with rfl | rfl
      · simp
      · rw [e]; simp
    rcases h s hs with h | ⟨t, e, ht⟩ | ⟨b, e⟩
    · rw [lastDot_none s h _ (Nat.le_refl _), Res.ok_bind, if_neg (by omega)]
    · exact key [] t e ht (.inl rfl)
    · exact key b [] e (by simp) (.inr rfl)
  · rfl

example : suffix (R (b!"default") [.atom (b!"home"), .atom (b!".bashrc")]) true = .ok [] :=
  C49_no_suffix _ _ fun s hs => .inr (.inl ⟨b!"bashrc", by
    rw [show tail _ = Url.atom (b!".bashrc") by decide] at hs
    injection hs with hs
    exact ⟨hs.symm, by decide⟩⟩)

theorem basename_eq (u : Url) (s r : Bytes) (hu : tail u = .atom s) (hr : suffix u false = .ok r) :
    basename u = .ok (An.removeSuffix (s.takeWhile (· ≠ c! '?')) (if r = [] then [] else (b!".") ++ r)) := by
  obtain ⟨f, e1, e2⟩ := cut_query s
  unfold basename
  rw [hr, Res.ok_bind, basenameS, hu]
  dsimp only [asString]
  rw [e1, Res.ok_bind, e2]
  by_cases h : r = []
  · rw [if_pos h, if_neg (by simp [h]), h]
  · rw [if_neg h, if_pos (by simp [h])]

/-- The suffix contains no dot and no `?`, and no `/` if the name does not; and if the name contains no `?` and does
not end with a mark of a backup file, then it is the base name, or the base name, a dot and the suffix.
Missing: names with a query or with a mark of backup files, see `C49_violated`. -/
theorem C49_recover_partial (u : Url) (s : Bytes) (hu : tail u = .atom s) : ∃ r b,
    suffix u false = .ok r ∧ suffix u true = .ok (r.map An.locase) ∧ basename u = .ok b ∧
    c! '.' ∉ r ∧ c! '?' ∉ r ∧ (∀ c ∈ r, c ∈ s) ∧
    (c! '?' ∉ s → (∀ c, s.getLast? = some c → ¬ Mark c) → s = if r = [] then b else b ++ (b!".") ++ r) := by
  have hcut : c! '?' ∉ s → s.takeWhile (· ≠ c! '?') = s := by
    intro h
    refine takeWhile_all ?_
    intro x hx
    simp only [decide_eq_true_eq]
    exact fun e => h (e ▸ hx)
  have hempty : (∀ lc, suffix u lc = .ok []) → ∃ r b,
    suffix u false = .ok r ∧ suffix u true = .ok (r.map An.locase) ∧ basename u = .ok b ∧
    c! '.' ∉ r ∧ c! '?' ∉ r ∧ (∀ c ∈ r, c ∈ s) ∧
    (c! '?' ∉ s → (∀ c, s.getLast? = some c → ¬ Mark c) → s = if r = [] then b else b ++ (b!".") ++ r) := by
    intro h
    refine ⟨[], _, h _, h _, basename_eq u s [] hu (h _), by simp, by simp, by simp, fun hq _ => ?_⟩
    rw [if_pos rfl, if_pos rfl, hcut hq, An.removeSuffix, if_pos (.inr rfl)]
  rcases last_dot s with h | ⟨b, t, e, h⟩
  · exact hempty fun lc => C49_no_suffix u lc fun s' hs' => by
      rw [hu] at hs'; injection hs' with hs'; exact .inl (hs' ▸ h)
  · by_cases hb : b = []
    · exact hempty fun lc => C49_no_suffix u lc fun s' hs' => by
        rw [hu] at hs'; injection hs' with hs'; exact .inr (.inl ⟨t, by rw [← hs', e, hb]; rfl, h⟩)
    by_cases ht : t = []
    · exact hempty fun lc => C49_no_suffix u lc fun s' hs' => by
        rw [hu] at hs'; injection hs' with hs'; exact .inr (.inr ⟨b, by rw [← hs', e, ht]⟩)
    obtain ⟨e', m, et, hm, he⟩ := marks_split t
    subst et
    obtain ⟨h1, h2⟩ := C49_suffix u b e' m (by rw [hu, e]) hb h ht hm he
    have hsub : ∀ c ∈ e'.takeWhile (· ≠ c! '?'), c ∈ e' ∧ c ≠ c! '?' := by
      intro c hc
      exact ⟨(mem_takeWhile hc).1, by simpa using (mem_takeWhile hc).2⟩
    refine ⟨_, _, h1, h2, basename_eq u s _ hu h1, ?_, ?_, ?_, ?_⟩
    · exact fun hc => h (by simp [(hsub _ hc).1])
    · exact fun hc => (hsub _ hc).2 rfl
    · intro c hc; rw [e]; simp [(hsub c hc).1]
    · intro hq hl
      have hm' : m = [] := by
        cases hmm : m.getLast? with
        | none => simpa using hmm
        | some c =>
          refine absurd (hm c (List.mem_of_getLast? hmm)) (hl c ?_)
          rw [e, List.getLast?_append, List.getLast?_cons, List.getLast?_append, hmm]; rfl
      subst hm'
      have hq' : e'.takeWhile (· ≠ c! '?') = e' := by
        refine takeWhile_all ?_
        intro x hx
        simp only [decide_eq_true_eq]
        exact fun e2 => hq (by rw [e]; simp [← e2, hx])
      simp only [List.append_nil] at ht e h
      rw [hq', if_neg ht, if_neg ht, hcut hq]
      have := (SearchProps.C27_remove s (b!"." ++ e')).2.2.1 b (by rw [e]; rfl)
      rw [this, e]; simp

example : ∃ s : Bytes, tail (P [.atom (b!"a"), .atom (b!"b.tar.gz")]) = .atom s ∧ c! '?' ∉ s ∧
    suffix (P [.atom (b!"a"), .atom (b!"b.tar.gz")]) false = .ok (b!"gz") :=
  ⟨b!"b.tar.gz", by decide, by decide,
    (C49_suffix _ (b!"b.tar") (b!"gz") [] (by decide) (by decide) (by decide) (by decide) (by decide) (by
      intro c h; simp [Mark] at h ⊢; subst h; decide)).1⟩

/-- With a query that contains no dot, suffix and base name are those of the name before the query.
Missing: queries with a dot, see `C49_violated`. -/
theorem C49_query_partial (u : Url) (b e q : Bytes) (hu : tail u = .atom (b ++ (b!".") ++ e ++ (b!"?") ++ q)) (hb : b ≠ [])
    (hb' : c! '?' ∉ b) (he : e ≠ []) (he' : c! '.' ∉ e ∧ c! '?' ∉ e) (hq : c! '.' ∉ q)
    (hq' : ∀ c, q.getLast? = some c → ¬ Mark c) : suffix u false = .ok e ∧ basename u = .ok b := by
  have e0 : b ++ (b!".") ++ e ++ (b!"?") ++ q = b ++ c! '.' :: ((e ++ c! '?' :: q) ++ []) := by simp
  have htw : ∀ w : Bytes, c! '?' ∉ w → ∀ v : Bytes, (w ++ c! '?' :: v).takeWhile (· ≠ c! '?') = w := by
    intro w hw v
    rw [List.takeWhile_append_of_pos, List.takeWhile_cons, if_neg (by simp), List.append_nil]
    intro x hx
    simp only [decide_eq_true_eq]
    exact fun e => hw (e ▸ hx)
  have hs := (C49_suffix u b (e ++ c! '?' :: q) [] (by rw [hu, e0]) hb
    (by simp only [List.append_nil, List.mem_append, List.mem_cons, not_or]; exact ⟨he'.1, by decide, hq⟩) (by simp)
    (by simp) (by
      intro c hc
      rw [List.getLast?_append, List.getLast?_cons] at hc
      cases hql : q.getLast? with
      | none =>
        rw [hql] at hc
        simp at hc
        subst hc
        simp [Mark]
      | some d =>
        rw [hql] at hc
        simp at hc
        exact hc ▸ hq' d hql)).1
  rw [htw e he'.2] at hs
  refine ⟨hs, ?_⟩
  rw [basename_eq u _ e hu hs, if_neg he]
  have : (b ++ (b!".") ++ e ++ (b!"?") ++ q).takeWhile (· ≠ c! '?') = b ++ (b!".") ++ e := by
    have := htw (b ++ (b!".") ++ e) (by
      simp only [List.mem_append, not_or]; exact ⟨⟨hb', by decide⟩, he'.2⟩) q
    rw [show b ++ (b!".") ++ e ++ (b!"?") ++ q = b ++ (b!".") ++ e ++ c! '?' :: q by simp, this]
  rw [this]
  exact congrArg _ ((SearchProps.C27_remove _ _).2.2.1 b (by simp))

example : suffix (.atom (b!"page.html?id=7")) false = .ok (b!"html") ∧ basename (.atom (b!"page.html?id=7")) = .ok (b!"page") :=
  C49_query_partial _ (b!"page") (b!"html") (b!"id=7") rfl (by decide) (by decide) (by decide) (by decide) (by decide)
    (by intro c h; simp [Mark] at h ⊢; subst h; decide)

/-- Whatever the name and its suffix are: if there is a dot in the query, the suffix is what follows the last such dot. -/
theorem C49_query_violated (u : Url) (n q r : Bytes) (hu : tail u = .atom (n ++ (b!"?") ++ q ++ (b!".") ++ r))
    (hr : r ≠ []) (hd : c! '.' ∉ r) (hq : c! '?' ∉ r) (hm : ∀ c, r.getLast? = some c → ¬ Mark c) :
    suffix u false = .ok r := by
  have h := (C49_suffix u (n ++ (b!"?") ++ q) r [] (by rw [hu]; simp) (by simp) (by simpa using hd) (by simpa using hr) (by simp)
    hm).1
  rw [h]
  congr 1
  refine takeWhile_all ?_
  intro x hx
  simp only [decide_eq_true_eq]
  exact fun e => hq (e ▸ hx)

/-- With a dot in the query the suffix comes from the query, and `a.txt~` is not made of base name and suffix. -/
theorem C49_violated : suffix (.atom (b!"a.txt?v=1.2")) false = .ok (b!"2") ∧
    basename (.atom (b!"a.txt?v=1.2")) = .ok (b!"a.txt") ∧
    suffix (.atom (b!"a.txt~")) false = .ok (b!"txt") ∧ basename (.atom (b!"a.txt~")) = .ok (b!"a.txt~") := by
  have h1 : suffix (.atom (b!"a.txt?v=1.2")) false = .ok (b!"2") :=
    (C49_suffix _ (b!"a.txt?v=1") (b!"2") [] rfl (by decide) (by decide) (by decide) (by decide)
      (by intro c h; simp [Mark] at h ⊢; subst h; decide)).1
  have h2 : suffix (.atom (b!"a.txt~")) false = .ok (b!"txt") :=
    (C49_suffix _ (b!"a") (b!"txt") (b!"~") rfl (by decide) (by decide) (by decide) (by
      intro c h; simp at h; exact .inl h)
      (by intro c h; simp [Mark] at h ⊢; subst h; decide)).1
  refine ⟨h1, ?_, h2, ?_⟩
  · rw [basename_eq _ _ _ rfl h1]; decide
  · rw [basename_eq _ _ _ rfl h2]; decide

/-- A function that works on the last name of a path. -/
theorem last_path (g : Url → Res Url) (hg : ∀ a b, g (.concat a b) = (g b >>= fun x => mul a x)) (l : List Url)
    (x y : Url) (hl : ∀ z ∈ l, Elem z) (hy : Elem y) (hn : Normal (l ++ [y])) (hx : g x = .ok y) :
    g (P (l ++ [x])) = .ok (P (l ++ [y])) := by
  induction l with
  | nil => exact hx
  | cons z l ih =>
    have h' : ∀ w ∈ l ++ [y], Elem w := by
      intro w hw
      rcases List.mem_append.1 hw with hw | hw
      · exact hl w (by simp [hw])
      · simp at hw; exact hw ▸ hy
    rw [List.cons_append, P_cons _ _ (by simp), hg, ih (fun w hw => hl w (by simp [hw])) (normal_tail hn), Res.ok_bind,
      mul_elem (hl z (by simp)) h', List.cons_append]
    have : ∀ m, Normal (z :: m) → push z m = z :: m := by
      intro m hm
      cases m with
      | nil => rfl
      | cons w m => rw [push, if_neg]; exact fun h => h.2 (hm.1 h.1)
    rw [this (l ++ [y]) hn]

theorem last_rooted (g : Url → Res Url) (hg : ∀ a b, g (.concat a b) = (g b >>= fun x => mul a x)) (r : Bytes)
    (l : List Url) (x y : Url) (hl : ∀ z ∈ l, Elem z) (hy : Elem y) (hn : parent ∉ l ++ [y]) (hx : g x = .ok y) :
    g (R r (l ++ [x])) = .ok (R r (l ++ [y])) := by
  have h' : ∀ w ∈ l ++ [y], Elem w := by
    intro w hw
    rcases List.mem_append.1 hw with hw | hw
    · exact hl w hw
    · simp at hw; exact hw ▸ hy
  rw [R_cons _ _ (by simp), hg, last_path g hg l x y hl hy (normal_of_no_parent hn) hx, Res.ok_bind, mul_root_P _ h',
    strip_eq_self fun e => hn (List.mem_of_mem_head? e)]

/-- `glue` appends to the last name of a path (relative or absolute), `unglue` drops characters at its end. -/
theorem C49_glue (r : Bytes) (l : List Url) (a b : Bytes) (hl : ∀ z ∈ l, Elem z) (hp : parent ∉ l)
    (ha : Elem (.atom a) ∧ Url.atom a ≠ parent) (hb : Elem (.atom (a ++ b)) ∧ Url.atom (a ++ b) ≠ parent) :
    glue b (P (l ++ [.atom a])) = .ok (P (l ++ [.atom (a ++ b)])) ∧
    unglue b.length (P (l ++ [.atom (a ++ b)])) = .ok (P (l ++ [.atom a])) ∧
    glue b (R r (l ++ [.atom a])) = .ok (R r (l ++ [.atom (a ++ b)])) ∧
    unglue b.length (R r (l ++ [.atom (a ++ b)])) = .ok (R r (l ++ [.atom a])) := by
  have h1 : glue b (.atom a) = .ok (.atom (a ++ b)) := rfl
  have h2 : unglue b.length (.atom (a ++ b)) = .ok (.atom a) := by
    rw [unglue, show max (((a ++ b).length : Int) - b.length) 0 = (a.length : Nat) by simp, An.sub_from_zero]
    simp
  have na : parent ∉ l ++ [.atom a] := by simp [hp]; exact fun e => ha.2 e.symm
  have nb : parent ∉ l ++ [.atom (a ++ b)] := by simp [hp]; exact fun e => hb.2 e.symm
  exact ⟨last_path _ (fun _ _ => rfl) l _ _ hl hb.1 (normal_of_no_parent nb) h1,
    last_path _ (fun _ _ => rfl) l _ _ hl ha.1 (normal_of_no_parent na) h2,
    last_rooted _ (fun _ _ => rfl) r l _ _ hl hb.1 nb h1,
    last_rooted _ (fun _ _ => rfl) r l _ _ hl ha.1 na h2⟩

example : glue (b!"~") (R (b!"default") [.atom (b!"tmp"), .atom (b!"x.tm")]) =
    .ok (R (b!"default") [.atom (b!"tmp"), .atom (b!"x.tm~")]) :=
  (C49_glue _ [.atom (b!"tmp")] (b!"x.tm") (b!"~") (by decide) (by decide) (by decide) (by decide)).2.2.1

/-- Removing more characters than there are leaves an empty name. -/
theorem C49_unglue_all (a : Bytes) (n : Int) (hn : (a.length : Int) ≤ n) :
    unglue n (.atom a) = .ok (.atom []) := by
  rw [unglue, show max ((a.length : Int) - n) 0 = (0 : Nat) by omega, An.sub_from_zero]; rfl

/-- A root or a wildcard has no name to glue to: an error. -/
theorem C49_glue_error (r b : Bytes) (l : List Url) (w : Bytes) (n : Int) :
    glue b (.root r) = .thrown ∧ unglue n (.root r) = .thrown ∧
    glue b (P (l ++ [.wild1 w])) = .thrown ∧ unglue n (P (l ++ [.wild1 w])) = .thrown := by
  refine ⟨rfl, rfl, ?_, ?_⟩
  · induction l with
    | nil => rfl
    | cons x l ih => rw [List.cons_append, P_cons _ _ (by simp), glue, ih]; rfl
  · induction l with
    | nil => rfl
    | cons x l ih => rw [List.cons_append, P_cons _ _ (by simp), unglue, ih]; rfl

/-! ## C80: descendants -/

theorem descends_P (b : Bool) (l m : List Url) (hl : ∀ y ∈ l, Elem y) (hm : ∀ y ∈ m, isAtomic y = true ∧ Elem y)
    (hne : m ≠ []) (hlne : l ≠ []) (hb : b = true → 2 ≤ l.length ∧ 2 ≤ m.length) :
    descendsAux b (P l) (P m) = true ↔ m <+: l := by
  induction m generalizing l b with
  | nil => exact absurd rfl hne
  | cons y m ih =>
    cases l with
    | nil => exact absurd rfl hlne
    | cons x l =>
      have hyx := hm y (by simp)
      by_cases he : b = false ∧ P (x :: l) = P (y :: m)
      · rw [descendsAux.eq_def, if_pos (by simp [he.1, he.2])]
        have := P_inj hl (fun z hz => (hm z hz).2) he.2
        simp [this]
      · rw [descendsAux.eq_def, if_neg (by simpa using he)]
        by_cases hm1 : m = []
        · subst hm1
          have hbf : b = false := by
            cases b with
            | false => rfl
            | true => have := (hb rfl).2; simp at this
          obtain ⟨s, rfl⟩ : ∃ s, y = .atom s := by
            cases y <;> simp_all [isAtomic]
          cases l with
          | nil =>
            have hx := hl x (by simp)
            have hne' : x ≠ .atom s := fun e => he ⟨hbf, by rw [e]⟩
            have := hx.1
            rw [P, P]
            cases x <;> simp_all [isPseudoAtomic]
            exact fun e => hne' e.symm
          | cons z l =>
            rw [P, P]
            simp only [decide_eq_true_eq, List.cons_prefix_cons, List.nil_prefix, and_true]
            exact eq_comm
        · rw [P_cons y m hm1]
          cases l with
          | nil =>
            have hx := hl x (by simp)
            have := hx.1
            rw [P]
            cases x <;> simp_all [isPseudoAtomic]
          | cons z l =>
            rw [P]
            dsimp only
            by_cases hxy : x = y
            · rw [if_pos hxy, ih (isConcat (P (z :: l)) && isConcat (P m)) (z :: l) (fun w hw => hl w (by simp [hw]))
                (fun w hw => hm w (by simp [hw])) hm1 (by simp), hxy]
              · simp
              · intro hc
                rw [Bool.and_eq_true] at hc
                constructor
                · cases l with
                  | nil =>
                    rw [P, (hl z (by simp)).not_concat] at hc; simp at hc
                  | cons => simp
                · match m, hm1 with
                  | [w], _ => rw [P, (hm w (by simp)).2.not_concat] at hc; simp at hc
                  | _ :: _ :: _, _ => simp
            · rw [if_neg hxy]
              simp [List.cons_prefix_cons, Ne.symm hxy]

/-- A relative path descends from another one exactly if the components of the latter are the first ones of the
former. -/
theorem C80_path (l m : List Url) (hl : ∀ y ∈ l, Elem y) (hm : ∀ y ∈ m, isAtomic y = true ∧ Elem y)
    (hne : m ≠ []) (hlne : l ≠ []) : descends (P l) (P m) = true ↔ m <+: l :=
  descends_P false l m hl hm hne hlne (by simp)

/-- The same for absolute paths with components and for sites; different roots or protocols are unrelated.
Missing: the bare root as the base, see `C80_root_violated`. -/
theorem C80_rooted_partial (q r : Bytes) (l m : List Url) (hl : ∀ y ∈ l, Elem y)
    (hm : ∀ y ∈ m, isAtomic y = true ∧ Elem y) (hne : m ≠ []) :
    descends (R q l) (R r m) = true ↔ q = r ∧ m <+: l := by
  unfold descends
  rw [R_cons r m hne]
  by_cases hlne : l = []
  · subst hlne
    rw [R_nil, descendsAux.eq_def, if_neg (by simp)]
    simp [hne]
  · rw [R_cons q l hlne]
    by_cases he : Url.concat (.root q) (P l) = .concat (.root r) (P m)
    · rw [descendsAux.eq_def, if_pos (by simp [he])]
      injection he with e1 e2
      injection e1 with e1
      simp [e1, P_inj hl (fun z hz => (hm z hz).2) e2]
    · rw [descendsAux.eq_def, if_neg (by simpa using he)]
      dsimp only
      by_cases hqr : q = r
      · rw [if_pos (by rw [hqr]), descends_P _ l m hl hm hne hlne]
        · simp [hqr]
        · intro hc
          rw [Bool.and_eq_true] at hc
          constructor
          · match l, hlne with
            | [w], _ => rw [P, (hl w (by simp)).not_concat] at hc; simp at hc
            | _ :: _ :: _, _ => simp
          · match m, hne with
            | [w], _ => rw [show P [w] = w from rfl, (hm w (by simp)).2.not_concat] at hc; simp at hc
            | _ :: _ :: _, _ => simp
      · rw [if_neg (by simpa using hqr)]
        simp [hqr]

example : descends (R (b!"default") [.atom (b!"usr"), .atom (b!"lib"), .wild1 (b!"*.so")])
    (R (b!"default") [.atom (b!"usr"), .atom (b!"lib")]) = true ∧
    ¬ descends (R (b!"default") [.atom (b!"usr"), .atom (b!"lib64")])
    (R (b!"default") [.atom (b!"usr"), .atom (b!"lib")]) = true := by
  constructor
  · exact (C80_rooted_partial _ _ _ _ (by decide) (by decide) (by decide)).2 (by decide)
  · exact fun h => absurd ((C80_rooted_partial _ _ _ _ (by decide) (by decide) (by decide)).1 h) (by decide)

/-- Nothing but the root itself descends from the root: `/tmp` does not. -/
theorem C80_root_violated (r : Bytes) (l : List Url) (hl : ∀ y ∈ l, Elem y) :
    descends (R r l) (.root r) = true ↔ l = [] := by
  unfold descends
  by_cases h : l = []
  · subst h
    rw [R_nil, descendsAux.eq_def, if_pos (by simp)]
    simp
  · rw [R_cons r l h, descendsAux.eq_def, if_neg (by simp)]
    simp [h]

/-- Alternatives: all of the left ones must descend, from one of the right ones each. -/
theorem C80_or (a b u c d : Url) (hu : isOr u = false) :
    (descends (.or a b) c = true ↔ .or a b = c ∨ (descends a c = true ∧ descends b c = true)) ∧
    (descends u (.or c d) = true ↔ descends u c = true ∨ descends u d = true) := by
  constructor
  · unfold descends
    rw [descendsAux.eq_def]
    by_cases h : Url.or a b = c
    · rw [if_pos (by simp [h])]; simp [h]
    · rw [if_neg (by simpa using h)]; simp [h]
  · unfold descends
    rw [descendsAux.eq_def, if_neg (by rintro h; simp at h; rw [h] at hu; simp [isOr] at hu)]
    cases u <;> simp_all [isOr]

example : descends (.atom (b!"a")) (.or (.atom (b!"a")) (.atom (b!"b"))) = true := by
  refine (C80_or .none .none (.atom (b!"a")) _ _ rfl).2.2 (.inl ?_)
  exact (C80_path [.atom (b!"a")] [.atom (b!"a")] (by decide) (by decide) (by decide) (by decide)).2 (by decide)

end Lolly.UrlNameProps
