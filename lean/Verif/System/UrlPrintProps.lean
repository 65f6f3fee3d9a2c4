import Verif.System.UrlPrintLemmas

set_option autoImplicit false

/-!
# C135: urls that are printed alike are equal
-/

namespace Lolly.UrlPrintProps
open Lolly.Url

/-! ## First marks -/

theorem split_at {x : Mark} {l m r s : List Mark} (hl : x ∉ l) (hm : x ∉ m) (h : l ++ x :: r = m ++ x :: s) :
    l = m ∧ r = s := by
  induction l generalizing m with
  | nil =>
    cases m with
    | nil => injection h with _ h; exact ⟨rfl, h⟩
    | cons y m => injection h with h _; exact absurd (by rw [h]; exact List.mem_cons_self) hm
  | cons y l ih =>
    cases m with
    | nil => injection h with h _; exact absurd (by rw [h]; exact List.mem_cons_self) hl
    | cons z m =>
      injection h with h1 h2
      obtain ⟨e1, e2⟩ := ih (fun hh => hl (List.mem_cons_of_mem _ hh)) (fun hh => hm (List.mem_cons_of_mem _ hh)) h2
      exact ⟨by rw [h1, e1], e2⟩

/-- A mark that is no separator. -/
def Solid (m : Mark) : Prop := m ≠ .slash ∧ m ≠ .colon

/-- The left part of a path without root is one mark. -/
theorem left_single {a : Url} (h4 : isConcat a = false) (h5 : isRoot a = false) :
    ∃ m, leftMarks a = [m] ∧ Solid m := by
  cases a with
  | root p => cases h5
  | root3 p c => cases h5
  | concat x y => cases h4
  | atom s => exact ⟨_, rfl, by simp [Solid]⟩
  | _ => exact ⟨_, rfl, by simp [Solid]⟩

theorem right_head : ∀ {b : Url}, Clear b → topRoot b = false →
    (∃ m l, rightMarks b = m :: l ∧ Solid m) ∧ Mark.colon ∉ rightMarks b := by
  intro b
  induction b with
  | concat a b iha ihb =>
    intro h ht
    obtain ⟨h1, h2, h3⟩ := h
    rcases h1 with ⟨p, rfl, hp⟩ | ⟨h1, h4, h5⟩
    · cases ht
    · obtain ⟨m, e, hm⟩ := left_single h4 h5
      have er : rightMarks (.concat a b) = m :: .slash :: rightMarks b := by
        rw [rightMarks, if_pos (by simp [isConcat]), marks_concat, e]; rfl
      rw [er]
      refine ⟨⟨m, _, rfl, hm⟩, ?_⟩
      intro hc
      rcases List.mem_cons.mp hc with hc | hc
      · exact hm.2 hc.symm
      · rcases List.mem_cons.mp hc with hc | hc
        · cases hc
        · exact (ihb h2 h3).2 hc
  | atom s =>
    intro _ _
    exact ⟨⟨_, _, rfl, by simp [Solid]⟩, by simp [rightMarks, isAtomic, marks]⟩
  | wild1 s =>
    intro _ _
    exact ⟨⟨_, _, rfl, by simp [Solid]⟩, by simp [rightMarks, isWild1, marks]⟩
  | wild0 => intro _ _; exact ⟨⟨_, _, rfl, by simp [Solid]⟩, by decide⟩
  | none => intro _ _; exact ⟨⟨_, _, rfl, by simp [Solid]⟩, by decide⟩
  | or a b _ _ =>
    intro _ _
    exact ⟨⟨_, _, rfl, by simp [Solid]⟩, by simp [rightMarks, isConcat, isAtomic, isWild1]⟩
  | root p => intro _ h; cases h
  | root3 p c => intro h; exact h.elim

/-- The left part of a path with a root. -/
theorem left_root (p : Bytes) :
    (p = b!"default" ∧ leftMarks (.root p) = []) ∨ (p = b!"blank" ∧ leftMarks (.root p) = [.slash]) ∨
    (p ≠ b!"default" ∧ p ≠ b!"blank" ∧ p = b!"file" ∧ leftMarks (.root p) = [.word p, .colon, .slash, .slash]) ∨
    (p ≠ b!"default" ∧ p ≠ b!"blank" ∧ p ≠ b!"file" ∧ leftMarks (.root p) = [.word p, .colon, .slash]) := by
  unfold leftMarks rootMarks
  dsimp only
  by_cases h1 : p = b!"default"
  · exact .inl ⟨h1, if_pos h1⟩
  · by_cases h2 : p = b!"blank"
    · refine .inr (.inl ⟨h2, ?_⟩)
      rw [if_neg h1, if_neg h1, if_pos h2]
    · by_cases h3 : p = b!"file"
      · refine .inr (.inr (.inl ⟨h1, h2, h3, ?_⟩))
        rw [if_neg h1, if_neg h1, if_neg h2, if_pos h3]
      · refine .inr (.inr (.inr ⟨h1, h2, h3, ?_⟩))
        rw [if_neg h1, if_neg h1, if_neg h2, if_neg h3]

/-! ## Names -/

theorem name_right {b : Url} (hn : isName b = true) : topRoot b = false ∧ rightMarks b = marks b := by
  cases b with
  | atom s => exact ⟨rfl, rfl⟩
  | concat x y =>
    refine ⟨?_, by rw [rightMarks, if_pos (by simp [isConcat])]⟩
    rw [isName, Bool.and_eq_true] at hn
    cases x <;> first | rfl | cases hn.1
  | _ => cases hn

/-- Names consist of words. -/
theorem name_marks {u : Url} (hn : isName u = true) : Clear u → ∀ s, Mark.braced s ∉ marks u := by
  induction u with
  | atom s => intro _ t h; simp [marks] at h
  | concat a b iha ihb =>
    intro hc s
    rw [isName, Bool.and_eq_true] at hn
    obtain ⟨h1, h2, h3⟩ := hc
    rw [marks_concat, (name_right hn.2).2]
    intro h
    rcases h1 with ⟨p, rfl, hp⟩ | ⟨h1, h4, h5⟩
    · cases hn.1
    · cases a with
      | atom t =>
        simp only [leftMarks, List.cons_append, List.nil_append, List.mem_cons, reduceCtorEq, false_or] at h
        exact ihb hn.2 h2 s h
      | concat x y => cases h4
      | _ => cases hn.1
  | _ => cases hn

theorem alt_cases {a : Url} (hc : Clear a) : (isNameInPath a = true ∧ altMarks a = marks a ∧
      (isName a = true ∨ ∃ b, a = .concat (.root (b!"default")) b ∧ isName b = true)) ∨
    (isNameInPath a = false ∧ altMarks a = [.braced (asString a)]) := by
  unfold altMarks
  by_cases h : isNameInPath a = true
  · refine .inl ⟨h, if_pos h, ?_⟩
    unfold isNameInPath at h
    rw [Bool.or_eq_true] at h
    rcases h with h | h
    · exact .inl h
    · right
      cases a with
      | concat x y =>
        dsimp only at h
        rw [Bool.and_eq_true] at h
        rcases hc.1 with ⟨p, rfl, hp⟩ | ⟨h1, h4, h5⟩
        · have : p = b!"default" := by simpa [isRootS] using h.1
          subst this
          exact ⟨y, rfl, h.2⟩
        · cases x <;> first | cases h.1 | cases h5
      | _ => cases h
  · refine .inr ⟨by simpa using h, if_neg h⟩

theorem marks_default (b : Url) :
    marks (.concat (.root (b!"default")) b) = .slash :: rightMarks b := by
  rw [marks_concat]; rfl

theorem marks_name {a : Url} (hc : Clear a) (hn : isName a = true) :
    (∃ m l, marks a = m :: l ∧ Solid m) ∧ Mark.colon ∉ marks a := by
  obtain ⟨h1, h2⟩ := name_right hn
  have := right_head hc h1
  rwa [h2] at this

/-- An alternative begins with a word, with braces, or with one slash; there is no colon in it. -/
theorem alt_head {a : Url} (hc : Clear a) : Mark.colon ∉ altMarks a ∧
    ((∃ m l, altMarks a = m :: l ∧ Solid m) ∨ ∃ m l, altMarks a = .slash :: m :: l ∧ Solid m) := by
  rcases alt_cases hc with ⟨_, e, hn⟩ | ⟨_, e⟩
  · rw [e]
    rcases hn with hn | ⟨b, rfl, hn⟩
    · obtain ⟨h1, h2⟩ := marks_name hc hn
      exact ⟨h2, .inl h1⟩
    · obtain ⟨h1, -⟩ := name_right hn
      obtain ⟨⟨m, l, e1, h2⟩, h3⟩ := right_head hc.2.1 h1
      rw [marks_default]
      refine ⟨?_, .inr ⟨m, l, by rw [e1], h2⟩⟩
      intro hh
      rcases List.mem_cons.mp hh with hh | hh
      · cases hh
      · exact h3 hh
  · rw [e]
    exact ⟨by simp, .inl ⟨_, _, rfl, by simp [Solid]⟩⟩

theorem rest_cases {b : Url} : (isOr b = true ∧ restMarks b = marks b) ∨ (isOr b = false ∧ restMarks b = altMarks b) := by
  unfold restMarks altMarks
  cases b <;> simp [isOr]

theorem rest_head {b : Url} (hc : Clear b) :
    (∃ m l, restMarks b = m :: l ∧ Solid m) ∨ ∃ m l, restMarks b = .slash :: m :: l ∧ m ≠ .slash := by
  rcases rest_cases (b := b) with ⟨h, e⟩ | ⟨_, e⟩
  · cases b with
    | or x y =>
      rw [e, marks_or]
      obtain ⟨_, h⟩ := alt_head hc.1
      rcases h with ⟨m, l, e1, h⟩ | ⟨m, l, e1, h⟩
      · exact .inl ⟨m, l ++ .colon :: restMarks y, by rw [e1]; rfl, h⟩
      · exact .inr ⟨m, l ++ .colon :: restMarks y, by rw [e1]; rfl, h.1⟩
    | _ => cases h
  · rw [e]
    obtain ⟨_, h⟩ := alt_head hc
    rcases h with h | ⟨m, l, e1, h⟩
    · exact .inl h
    · exact .inr ⟨m, l, e1, h.1⟩

/-! ## The marks determine the url -/

theorem root_cases (p : Bytes) (hb : p ≠ b!"blank") :
    (p = b!"default" ∧ rootMarks p = [.slash]) ∨
    (p = b!"file" ∧ rootMarks p = [.word p, .colon, .slash, .slash]) ∨
    (p ≠ b!"file" ∧ rootMarks p = [.word p, .colon, .slash]) := by
  unfold rootMarks
  by_cases h1 : p = b!"default"
  · exact .inl ⟨h1, if_pos h1⟩
  · rw [if_neg h1, if_neg hb]
    by_cases h3 : p = b!"file"
    · exact .inr (.inl ⟨h3, if_pos h3⟩)
    · exact .inr (.inr ⟨h3, if_neg h3⟩)

theorem root_inj {p q : Bytes} (hp : p ≠ b!"blank") (hq : q ≠ b!"blank") (h : rootMarks p = rootMarks q) : p = q := by
  rcases root_cases p hp with ⟨h1, e1⟩ | ⟨h1, e1⟩ | ⟨h1, e1⟩ <;>
  rcases root_cases q hq with ⟨h2, e2⟩ | ⟨h2, e2⟩ | ⟨h2, e2⟩ <;>
  rw [e1, e2] at h <;> simp_all

/-- The parts of a path without root. -/
theorem concat_split {a a' b b' : Url} (hc : Clear (.concat a b)) (hc' : Clear (.concat a' b'))
    (h : marks (.concat a b) = marks (.concat a' b')) : rightMarks b = rightMarks b' ∧
      ((∃ p, a = .root p ∧ a' = .root p) ∨ (isRoot a = false ∧ isRoot a' = false ∧ leftMarks a = leftMarks a')) := by
  obtain ⟨h1, h2, h3⟩ := hc
  obtain ⟨h1', h2', h3'⟩ := hc'
  obtain ⟨⟨m, l, e, hm⟩, -⟩ := right_head h2 h3
  obtain ⟨⟨m', l', e', hm'⟩, -⟩ := right_head h2' h3'
  rw [marks_concat, marks_concat, e, e'] at h
  rw [e, e']
  unfold Solid at hm hm'
  rcases h1 with ⟨p, rfl, hp⟩ | ⟨h1, h4, h5⟩
  · rcases h1' with ⟨q, rfl, hq⟩ | ⟨h1', h4', h5'⟩
    · rcases left_root p with ⟨k1, e1⟩ | ⟨k1, e1⟩ | ⟨_, _, k1, e1⟩ | ⟨_, _, k1, e1⟩ <;>
      rcases left_root q with ⟨k2, e2⟩ | ⟨k2, e2⟩ | ⟨_, _, k2, e2⟩ | ⟨_, _, k2, e2⟩ <;>
      rw [e1, e2] at h <;> simp_all
    · obtain ⟨x, ex, hx⟩ := left_single h4' h5'
      unfold Solid at hx
      rcases left_root p with ⟨k1, e1⟩ | ⟨k1, e1⟩ | ⟨_, _, k1, e1⟩ | ⟨_, _, k1, e1⟩ <;>
      rw [e1, ex] at h <;> simp_all
  · rcases h1' with ⟨q, rfl, hq⟩ | ⟨h1', h4', h5'⟩
    · obtain ⟨x, ex, hx⟩ := left_single h4 h5
      unfold Solid at hx
      rcases left_root q with ⟨k1, e1⟩ | ⟨k1, e1⟩ | ⟨_, _, k1, e1⟩ | ⟨_, _, k1, e1⟩ <;>
      rw [e1, ex] at h <;> simp_all
    · obtain ⟨x, ex, hx⟩ := left_single h4 h5
      obtain ⟨y, ey, hy⟩ := left_single h4' h5'
      rw [ex, ey] at h
      refine ⟨?_, .inr ⟨h5, h5', ?_⟩⟩
      · simp_all
      · simp_all

/-- Alternatives and paths differ. -/
theorem or_ne {a b v : Url} (hc : Clear (.or a b)) (hv : Clear v) (hn : isOr v = false) : marks (.or a b) ≠ marks v := by
  intro h
  rw [marks_or] at h
  obtain ⟨n1, n2⟩ := alt_head hc.1
  have n3 := rest_head hc.2
  have colon : Mark.colon ∈ marks v := by rw [← h]; simp
  -- what comes before the first colon is not empty; after it there are not two slashes
  have key : ∀ p (t : List Mark), altMarks a ++ .colon :: restMarks b = .word p :: .colon :: .slash :: .slash :: t → False := by
    intro p t e
    have := split_at (x := .colon) (m := [.word p]) n1 (by simp) e
    rcases n3 with ⟨m, l, e1, hm⟩ | ⟨m, l, e1, hm⟩
    · rw [this.2] at e1
      injection e1 with e1 _
      exact hm.1 e1.symm
    · rw [this.2] at e1
      injection e1 with _ e1
      injection e1 with e1 _
      exact hm e1.symm
  have key1 : ∀ p, altMarks a ++ .colon :: restMarks b = [.word p, .colon, .slash] → False := by
    intro p e
    have := split_at (x := .colon) (m := [.word p]) n1 (by simp) e
    rcases n3 with ⟨m, l, e1, hm⟩ | ⟨m, l, e1, hm⟩
    · rw [this.2] at e1
      injection e1 with e1 _
      exact hm.1 e1.symm
    · rw [this.2] at e1
      injection e1 with _ e1
      cases e1
  cases v with
  | or x y => cases hn
  | root3 p c => exact hv.elim
  | atom s => simp [marks] at colon
  | wild1 s => simp [marks] at colon
  | wild0 => exact absurd colon (by decide)
  | none => exact absurd colon (by decide)
  | root p =>
    rw [marks] at h
    rcases root_cases p hv.2 with ⟨_, e⟩ | ⟨_, e⟩ | ⟨_, e⟩
    · rw [marks, e] at colon; simp at colon
    · rw [e] at h; exact key p [] h
    · rw [e] at h; exact key1 p h
  | concat x y =>
    obtain ⟨h1, h2, h3⟩ := hv
    obtain ⟨⟨m, l, e, hm⟩, hr⟩ := right_head h2 h3
    rw [marks_concat] at h colon
    rcases h1 with ⟨p, rfl, hp⟩ | ⟨h1, h4, h5⟩
    · rcases left_root p with ⟨_, e1⟩ | ⟨_, e1⟩ | ⟨_, _, _, e1⟩ | ⟨_, _, _, e1⟩
      · rw [e1] at colon; simp [hr] at colon
      · rw [e1] at colon; simp [hr] at colon
      · rw [e1] at h; exact key p _ h
      · rw [e1] at h; exact key p _ h
    · obtain ⟨x', ex, hx⟩ := left_single h4 h5
      rw [ex] at colon
      simp only [List.cons_append, List.nil_append, List.mem_cons, reduceCtorEq, false_or] at colon
      rcases colon with colon | colon
      · exact hx.2 colon.symm
      · exact hr colon

/-- A path is none of the short ones. -/
theorem concat_ne {a b v : Url} (hc : Clear (.concat a b)) (hv : Clear v) (h1 : isConcat v = false) (h2 : isOr v = false) :
    marks (.concat a b) ≠ marks v := by
  intro h
  obtain ⟨g1, g2, g3⟩ := hc
  obtain ⟨⟨m, l, e, hm⟩, hr⟩ := right_head g2 g3
  rw [marks_concat, e] at h
  unfold Solid at hm
  cases v with
  | concat x y => cases h1
  | or x y => cases h2
  | root3 p c => exact hv.elim
  | root q =>
    rw [marks] at h
    rcases g1 with ⟨p, rfl, hp⟩ | ⟨g1, h4, h5⟩
    · rcases left_root p with ⟨_, e1⟩ | ⟨_, e1⟩ | ⟨_, _, _, e1⟩ | ⟨_, _, _, e1⟩ <;>
      rcases root_cases q hv.2 with ⟨_, e2⟩ | ⟨_, e2⟩ | ⟨_, e2⟩ <;>
      rw [e1, e2] at h <;> simp_all
    · obtain ⟨x', ex, hx⟩ := left_single h4 h5
      unfold Solid at hx
      rcases root_cases q hv.2 with ⟨_, e2⟩ | ⟨_, e2⟩ | ⟨_, e2⟩ <;>
      rw [ex, e2] at h <;> simp_all
  | _ =>
    have := congrArg List.length h
    simp [marks] at this
    try omega

theorem marks_inj : ∀ (n : Nat) (u v : Url), u.size ≤ n → Clear u → Clear v → marks u = marks v → u = v := by
  intro n
  induction n with
  | zero => intro u v hs; cases u <;> simp [Url.size] at hs
  | succ n ih =>
    intro u v hs hu hv h
    have text : ∀ a b, a.size ≤ n → Clear a → Clear b → asString a = asString b → a = b :=
      fun a b h1 h2 h3 h4 => ih a b h1 h2 h3 (marks_of_text h2 h3 h4)
    by_cases ou : isOr u = true
    · cases u with
      | or a b =>
        by_cases ov : isOr v = true
        · cases v with
          | or a' b' =>
            rw [marks_or, marks_or] at h
            obtain ⟨e1, e2⟩ := split_at (alt_head hu.1).1 (alt_head hv.1).1 h
            simp only [Url.size] at hs
            have alt : ∀ x y : Url, x.size ≤ n → Clear x → Clear y → altMarks x = altMarks y → x = y := by
              intro x y hx cx cy e
              rcases alt_cases cx with ⟨_, f1, k1⟩ | ⟨_, f1⟩ <;> rcases alt_cases cy with ⟨_, f2, k2⟩ | ⟨_, f2⟩
              · rw [f1, f2] at e
                exact ih x y hx cx cy e
              · exfalso
                rw [f1, f2] at e
                rcases k1 with k1 | ⟨b, rfl, k1⟩
                · exact name_marks k1 cx _ (by rw [e]; exact List.mem_cons_self)
                · rw [marks_default] at e; cases e
              · exfalso
                rw [f1, f2] at e
                rcases k2 with k2 | ⟨b, rfl, k2⟩
                · exact name_marks k2 cy _ (by rw [← e]; exact List.mem_cons_self)
                · rw [marks_default] at e; cases e
              · rw [f1, f2] at e
                injection e with e _
                injection e with e
                exact text x y hx cx cy e
            have hb : b = b' := by
              rcases rest_cases (b := b) with ⟨o1, f1⟩ | ⟨o1, f1⟩ <;> rcases rest_cases (b := b') with ⟨o2, f2⟩ | ⟨o2, f2⟩
              · rw [f1, f2] at e2
                exact ih b b' (by omega) hu.2 hv.2 e2
              · exfalso
                rw [f1, f2] at e2
                apply (alt_head hv.2).1
                rw [← e2]
                cases b <;> first | (cases o1; done) | (rw [marks_or]; simp)
              · exfalso
                rw [f1, f2] at e2
                apply (alt_head hu.2).1
                rw [e2]
                cases b' <;> first | (cases o2; done) | (rw [marks_or]; simp)
              · rw [f1, f2] at e2
                exact alt b b' (by omega) hu.2 hv.2 e2
            rw [alt a a' (by omega) hu.1 hv.1 e1, hb]
          | _ => cases ov
        · exact absurd h (or_ne hu hv (by simpa using ov))
      | _ => cases ou
    · have ou' : isOr u = false := by simpa using ou
      by_cases ov : isOr v = true
      · cases v with
        | or a' b' => exact absurd h.symm (or_ne hv hu ou')
        | _ => cases ov
      · have ov' : isOr v = false := by simpa using ov
        by_cases cu : isConcat u = true
        · cases u with
          | concat a b =>
            by_cases cv : isConcat v = true
            · cases v with
              | concat a' b' =>
                obtain ⟨er, el⟩ := concat_split hu hv h
                obtain ⟨h1, h2, h3⟩ := hu
                obtain ⟨h1', h2', h3'⟩ := hv
                simp only [Url.size] at hs
                have hb : b = b' := by
                  unfold rightMarks at er
                  by_cases q1 : (isConcat b || isAtomic b || isWild1 b) = true <;>
                  by_cases q2 : (isConcat b' || isAtomic b' || isWild1 b') = true
                  · rw [if_pos q1, if_pos q2] at er
                    exact ih b b' (by omega) h2 h2' er
                  · exfalso
                    rw [if_pos q1, if_neg q2] at er
                    cases b with
                    | concat x y =>
                      rw [marks_concat] at er
                      have := congrArg List.length er
                      have l1 : (leftMarks x).length = 1 := by
                        rcases h2.1 with ⟨p, rfl, hp⟩ | ⟨_, h4, h5⟩
                        · cases h3
                        · obtain ⟨m, e, _⟩ := left_single h4 h5
                          rw [e]; rfl
                      simp [l1] at this
                    | atom s => cases er
                    | wild1 s => cases er
                    | _ => exact absurd q1 (by simp [isConcat, isAtomic, isWild1])
                  · exfalso
                    rw [if_neg q1, if_pos q2] at er
                    cases b' with
                    | concat x y =>
                      rw [marks_concat] at er
                      have := congrArg List.length er
                      have l1 : (leftMarks x).length = 1 := by
                        rcases h2'.1 with ⟨p, rfl, hp⟩ | ⟨_, h4, h5⟩
                        · cases h3'
                        · obtain ⟨m, e, _⟩ := left_single h4 h5
                          rw [e]; rfl
                      simp [l1] at this
                    | atom s => cases er
                    | wild1 s => cases er
                    | _ => exact absurd q2 (by simp [isConcat, isAtomic, isWild1])
                  · rw [if_neg q1, if_neg q2] at er
                    injection er with er _
                    injection er with er
                    exact text b b' (by omega) h2 h2' er
                rw [hb]
                rcases el with ⟨p, rfl, rfl⟩ | ⟨r1, r2, el⟩
                · rfl
                · have ca : Clear a ∧ isConcat a = false := by
                    rcases h1 with ⟨p, rfl, _⟩ | h1
                    · cases r1
                    · exact ⟨h1.1, h1.2.1⟩
                  have ca' : Clear a' ∧ isConcat a' = false := by
                    rcases h1' with ⟨p, rfl, _⟩ | h1'
                    · cases r2
                    · exact ⟨h1'.1, h1'.2.1⟩
                  have t := text a a' (by omega) ca.1 ca'.1
                  have : a = a' := by
                    by_cases t1 : isAtomic a = true <;> by_cases t2 : isAtomic a' = true
                    · cases a <;> first | cases t1 | skip
                      cases a' <;> first | cases t2 | skip
                      injection el with el _
                      injection el with el
                      rw [el]
                    · exfalso
                      cases a <;> first | cases t1 | skip
                      cases a' <;> first | exact t2 rfl | (cases r2; done) | (cases ca'.2; done) | (cases el; done)
                    · exfalso
                      cases a' <;> first | cases t2 | skip
                      cases a <;> first | exact t1 rfl | (cases r1; done) | (cases ca.2; done) | (cases el; done)
                    · apply t
                      have f : ∀ x : Url, isConcat x = false → isRoot x = false → ¬ isAtomic x = true →
                          leftMarks x = [.braced (asString x)] := by
                        intro x k1 k2 k3
                        cases x <;> first | rfl | (cases k1; done) | (cases k2; done) | exact absurd rfl k3
                      rw [f a ca.2 r1 t1, f a' ca'.2 r2 t2] at el
                      injection el with el _
                      injection el with el
                  rw [this]
              | _ => cases cv
            · exact absurd h (concat_ne hu hv (by simpa using cv) ov')
          | _ => cases cu
        · have cu' : isConcat u = false := by simpa using cu
          by_cases cv : isConcat v = true
          · cases v with
            | concat a b => exact absurd h.symm (concat_ne hv hu cu' ou')
            | _ => cases cv
          · -- short ones
            cases u with
            | concat a b => exact absurd rfl cu
            | or a b => exact absurd rfl ou
            | root3 p c => exact hu.elim
            | root p =>
              cases v with
              | root q => rw [root_inj hu.2 hv.2 h]
              | concat a b => exact absurd rfl cv
              | or a b => exact absurd rfl ov
              | root3 p c => exact hv.elim
              | _ =>
                have h' : rootMarks p = _ := h
                rcases root_cases p hu.2 with ⟨_, e⟩ | ⟨_, e⟩ | ⟨_, e⟩ <;> rw [e] at h' <;> cases h'
            | atom s =>
              cases v with
              | atom t => injection h with h _; injection h with h; rw [h]
              | wild1 t =>
                injection h with h _; injection h with h
                exact absurd (h ▸ hv.2.1) hu.2
              | wild0 =>
                injection h with h _; injection h with h
                exact absurd (by rw [h]; decide) hu.2
              | none => cases h
              | concat a b => exact absurd rfl cv
              | or a b => exact absurd rfl ov
              | root3 p c => exact hv.elim
              | root p =>
                rw [marks, marks] at h
                rcases root_cases p hv.2 with ⟨_, e⟩ | ⟨_, e⟩ | ⟨_, e⟩ <;> rw [e] at h <;> cases h
            | wild1 s =>
              cases v with
              | wild1 t => injection h with h _; injection h with h; rw [h]
              | atom t =>
                injection h with h _; injection h with h
                exact absurd (h ▸ hu.2.1) hv.2
              | wild0 =>
                injection h with h _; injection h with h
                exact absurd h hu.2.2
              | none => cases h
              | concat a b => exact absurd rfl cv
              | or a b => exact absurd rfl ov
              | root3 p c => exact hv.elim
              | root p =>
                rw [marks, marks] at h
                rcases root_cases p hv.2 with ⟨_, e⟩ | ⟨_, e⟩ | ⟨_, e⟩ <;> rw [e] at h <;> cases h
            | wild0 =>
              cases v with
              | wild0 => rfl
              | wild1 t =>
                injection h with h _; injection h with h
                exact absurd h.symm hv.2.2
              | atom t =>
                injection h with h _; injection h with h
                exact absurd (by rw [← h]; decide) hv.2
              | none => cases h
              | concat a b => exact absurd rfl cv
              | or a b => exact absurd rfl ov
              | root3 p c => exact hv.elim
              | root p =>
                rw [marks, marks] at h
                rcases root_cases p hv.2 with ⟨_, e⟩ | ⟨_, e⟩ | ⟨_, e⟩ <;> rw [e] at h <;> cases h
            | none =>
              cases v with
              | none => rfl
              | concat a b => exact absurd rfl cv
              | or a b => exact absurd rfl ov
              | root3 p c => exact hv.elim
              | root p =>
                rw [marks, marks] at h
                rcases root_cases p hv.2 with ⟨_, e⟩ | ⟨_, e⟩ | ⟨_, e⟩ <;> rw [e] at h <;> cases h
              | _ => cases h

/-- **C135, the part that holds.** Two urls that `as_string` prints alike are equal, with alternatives and wildcards at
any depth. What is missing: see below. -/
theorem C135_partial (u v : Url) (hu : Clear u) (hv : Clear v) (h : asString u = asString v) : u = v :=
  marks_inj u.size u v (Nat.le_refl _) hu hv (marks_of_text hu hv h)

/-- **C135 does not hold** for roots that stand alone: the root of the file system and the root of urls `//x` are both
printed as `/`. -/
theorem C135_root_violated : asString (.root (b!"default")) = asString (.root (b!"blank")) ∧
    Url.root (b!"default") ≠ .root (b!"blank") := by decide

/-- **C135 does not hold** for ramdiscs: their contents are not printed. -/
theorem C135_ramdisc_violated (c d : Bytes) : asString (.root3 (b!"ramdisc") c) = asString (.root3 (b!"ramdisc") d) ∧
    (c ≠ d → Url.root3 (b!"ramdisc") c ≠ .root3 (b!"ramdisc") d) :=
  ⟨rfl, fun h e => h (by injection e)⟩

/-! ## Examples -/

theorem plain_of {s : Bytes} (h : s ≠ [] ∧ c! '/' ∉ s ∧ c! ':' ∉ s ∧ c! '{' ∉ s ∧ c! '}' ∉ s) : Plain s :=
  ⟨h.1, h.2.1, h.2.2.1, h.2.2.2.1, h.2.2.2.2⟩

/-- `/a/{b:{http://c}}/{**}/*.d` -/
example : Clear (.concat (.root (b!"default")) (.concat (.atom (b!"a")) (.concat (.or (.atom (b!"b"))
      (.concat (.root (b!"http")) (.atom (b!"c")))) (.concat .wild0 (.wild1 (b!"*.d")))))) := by
  refine ⟨.inl ⟨_, rfl, plain_of (by decide)⟩, ⟨.inr ⟨⟨plain_of (by decide), by decide⟩, rfl, rfl⟩, ⟨.inr ⟨⟨⟨plain_of (by decide), by decide⟩,
    .inl ⟨_, rfl, plain_of (by decide)⟩, ⟨plain_of (by decide), by decide⟩, rfl⟩, rfl, rfl⟩, ⟨.inr ⟨trivial, rfl, rfl⟩,
    ⟨plain_of (by decide), by decide, by decide⟩, rfl⟩, rfl⟩, rfl⟩, rfl⟩

example : asString (.concat (.root (b!"default")) (.concat (.atom (b!"a")) (.concat (.or (.atom (b!"b"))
      (.concat (.root (b!"http")) (.atom (b!"c")))) (.concat .wild0 (.wild1 (b!"*.d")))))) =
    (b!"/a/{b:{http://c}}/{**}/*.d") := by decide

end Lolly.UrlPrintProps
