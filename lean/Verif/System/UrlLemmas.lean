import Verif.System.UrlSpec

set_option autoImplicit false

/-!
# Lemmas on urls: paths as lists of components
-/

namespace Lolly.Url

/-! ## Paths as lists -/

/-- Put one component before a path: `x/..` cancels. -/
def push (x : Url) (l : List Url) : List Url :=
  match l with
  | [] => [x]
  | y :: r => if y = parent ∧ x ≠ parent then r else x :: y :: r

/-- Drop the leading `..`. -/
def strip : List Url → List Url
  | [] => []
  | x :: l => if x = parent then strip l else x :: l

/-- Append two paths, cancelling. -/
def joinL (l1 l2 : List Url) : List Url := l1.foldr push l2

theorem elem_parent : Elem parent := by decide

theorem Elem.not_root {x : Url} (h : Elem x) : isRoot x = false := by
  obtain ⟨h1, _, _⟩ := h
  cases x <;> simp_all [isPseudoAtomic, isRoot]

theorem Elem.not_concat {x : Url} (h : Elem x) : isConcat x = false := by
  obtain ⟨h1, _, _⟩ := h
  cases x <;> simp_all [isPseudoAtomic, isConcat]

theorem Elem.ne_none {x : Url} (h : Elem x) : x ≠ .none := by
  obtain ⟨h1, _, _⟩ := h
  cases x <;> simp_all [isPseudoAtomic]

theorem P_cons (x : Url) (l : List Url) (h : l ≠ []) : P (x :: l) = .concat x (P l) := by
  cases l with
  | nil => exact absurd rfl h
  | cons y l => rw [P]

theorem R_cons (r : Bytes) (l : List Url) (h : l ≠ []) : R r l = .concat (.root r) (P l) := by
  simp [R, h]

theorem R_nil (r : Bytes) : R r [] = .root r := by simp [R]

theorem elem_push {x : Url} {l : List Url} (hx : Elem x) (hl : ∀ y ∈ l, Elem y) : ∀ y ∈ push x l, Elem y := by
  intro y hy
  cases l with
  | nil => simp [push] at hy; exact hy ▸ hx
  | cons z r =>
    simp only [push] at hy
    split at hy
    · exact hl y (by simp [hy])
    · simp at hy
      rcases hy with rfl | rfl | hy
      · exact hx
      · exact hl _ (by simp)
      · exact hl y (by simp [hy])

theorem elem_joinL {l1 l2 : List Url} (h1 : ∀ y ∈ l1, Elem y) (h2 : ∀ y ∈ l2, Elem y) :
    ∀ y ∈ joinL l1 l2, Elem y := by
  induction l1 with
  | nil => exact h2
  | cons x l ih =>
    simp only [joinL, List.foldr_cons]
    exact elem_push (h1 x (by simp)) (ih fun y hy => h1 y (by simp [hy]))

theorem elem_strip {l : List Url} (h : ∀ y ∈ l, Elem y) : ∀ y ∈ strip l, Elem y := by
  induction l with
  | nil => exact h
  | cons x l ih =>
    rw [strip]
    split
    · exact ih fun y hy => h y (by simp [hy])
    · exact h

theorem topRoot_P {l : List Url} (h : ∀ y ∈ l, Elem y) : topRoot (P l) = false := by
  match l, h with
  | [], _ => rfl
  | [x], h =>
    have hx := h x (by simp)
    have h1 := hx.not_root
    have h2 := hx.not_concat
    rw [P]
    cases x <;> simp_all [topRoot, isConcat]
  | x :: y :: l, h =>
    rw [P, topRoot]
    exact (h x (by simp)).not_root

theorem P_ne_none {l : List Url} (h : ∀ y ∈ l, Elem y) : P l ≠ .none := by
  match l, h with
  | [], _ => decide
  | [x], h => rw [P]; exact (h x (by simp)).ne_none
  | x :: y :: l, h => rw [P]; simp

theorem P_eq_here {l : List Url} (h : ∀ y ∈ l, Elem y) (e : P l = here) : l = [] := by
  match l, h with
  | [], _ => rfl
  | [x], h => rw [P] at e; exact absurd e (h x (by simp)).2.1
  | x :: y :: l, h => rw [P] at e; simp [here] at e

theorem P_ne_empty {l : List Url} (h : ∀ y ∈ l, Elem y) : P l ≠ .atom [] := by
  match l, h with
  | [], _ => decide
  | [x], h => rw [P]; exact (h x (by simp)).2.2
  | x :: y :: l, h => rw [P]; simp

theorem P_inj {l m : List Url} (h : ∀ y ∈ l, Elem y) (h' : ∀ y ∈ m, Elem y) (e : P l = P m) : l = m := by
  induction l generalizing m with
  | nil => exact (P_eq_here h' e.symm).symm
  | cons x l ih =>
    cases m with
    | nil => exact P_eq_here h e
    | cons y m =>
      cases l with
      | nil =>
        cases m with
        | nil => simpa [P] using e
        | cons z m =>
          exfalso
          have := (h x (by simp)).not_concat
          rw [P, P] at e
          rw [e] at this
          simp [isConcat] at this
      | cons z l =>
        cases m with
        | nil =>
          exfalso
          have := (h' y (by simp)).not_concat
          rw [P, P] at e
          rw [← e] at this
          simp [isConcat] at this
        | cons w m =>
          rw [P, P] at e
          injection e with e1 e2
          rw [e1, ih (fun y hy => h y (by simp [hy])) (fun y hy => h' y (by simp [hy])) e2]

/-! ## The product -/

/-- The part of `mul` after the tests for rooted second arguments. -/
theorem mul_plain (u1 u2 : Url) (h : topRoot u2 = false) : mul u1 u2 =
    (if isAtom u1 (b!".") || isAtom u1 [] then .ok u2
    else if isAtom u2 (b!".") then .ok u1
    else if isNone u1 || isNone u2 then .ok .none
    else if isAtom u2 (b!"..") && isRoot u1 then .ok u1
    else if isAtom u2 (b!"..") && isPseudoAtomic u1 && !isAtom u1 (b!"..") then .ok here
    else if isAtom u2 (b!"..") && isSemiRoot u1 then .ok u1
    else if parentFirst u2 && isRoot u1 then mul u1 (second u2)
    else if parentFirst u2 && isPseudoAtomic u1 && !isAtom u1 (b!"..") then .ok (second u2)
    else if parentFirst u2 && isSemiRoot u1 then mul u1 (second u2)
    else
      match u1 with
      | .concat a b => mul b u2 >>= fun r => mul a r
      | _ => .ok (.concat u1 u2)) := by
  rw [mul.eq_def, if_neg (by simp [h])]
  cases u1 <;> rfl

theorem isAtom_here (u : Url) : isAtom u (b!".") = decide (u = here) := rfl
theorem isAtom_parent (u : Url) : isAtom u (b!"..") = decide (u = parent) := rfl
theorem isAtom_empty (u : Url) : isAtom u [] = decide (u = .atom []) := rfl
theorem isNone_eq (u : Url) : isNone u = decide (u = .none) := by cases u <;> simp [isNone]

theorem mul_here_left (u : Url) : mul here u = .ok u := by
  by_cases h : topRoot u
  · rw [mul.eq_def, if_pos h, if_neg (by decide)]
    rfl
  · rw [mul_plain _ _ (by simpa using h), if_pos (by decide)]

theorem mul_elem {x : Url} {l : List Url} (hx : Elem x) (hl : ∀ y ∈ l, Elem y) :
    mul x (P l) = .ok (P (push x l)) := by
  have hr := hx.not_root
  have hc := hx.not_concat
  have hn := hx.ne_none
  obtain ⟨hp, hh, he⟩ := hx
  have hsemi : isSemiRoot x = false := by cases x <;> simp_all [isSemiRoot, isConcat]
  rw [mul_plain _ _ (topRoot_P hl)]
  rw [if_neg (by simp [isAtom_here, hh, isAtom_empty, he])]
  match l, hl with
  | [], _ =>
    rw [if_pos (by simp [isAtom_here, P])]
    rfl
  | [y], hl =>
    have hy := hl y (by simp)
    rw [if_neg (by simp [isAtom_here, P, hy.2.1]), if_neg (by simp [isNone_eq, P, hn, hy.ne_none]),
      if_neg (by simp [hr])]
    by_cases hpar : y = parent ∧ x ≠ parent
    · rw [if_pos (by simp [isAtom_parent, P, hp, hpar])]
      simp [push, hpar, P]
    · rw [if_neg (by simp [isAtom_parent, P, hp]; exact fun h => Classical.not_not.1 fun h' => hpar ⟨h, h'⟩),
        if_neg (by simp [hsemi])]
      have : parentFirst (P [y]) = false := by
        have := hy.not_concat
        rw [P]
        cases y <;> simp_all [parentFirst, isConcat]
      rw [if_neg (by simp [this]), if_neg (by simp [this]), if_neg (by simp [this])]
      simp only [push, if_neg hpar, P]
      cases x <;> simp_all [isConcat]
  | y :: z :: l, hl =>
    rw [if_neg (by simp [isAtom_here, P, here]), if_neg (by simp [isNone_eq, P, hn]),
      if_neg (by simp [hr]), if_neg (by simp [isAtom_parent, P, parent]), if_neg (by simp [hsemi]),
      if_neg (by simp [hr])]
    by_cases hpar : y = parent ∧ x ≠ parent
    · rw [if_pos (by simp [isAtom_parent, P, hp, hpar, parentFirst])]
      simp [push, hpar, P, second]
    · rw [if_neg (by simp [isAtom_parent, P, hp, parentFirst]; exact fun h => Classical.not_not.1 fun h' => hpar ⟨h, h'⟩),
        if_neg (by simp [hsemi])]
      simp only [push, if_neg hpar, P]
      cases x <;> simp_all [isConcat]

theorem mul_here_right {u : Url} (h : u ≠ .atom []) : mul u here = .ok u := by
  rw [mul_plain _ _ rfl]
  by_cases hu : u = here
  · rw [hu]; decide
  · rw [if_neg (by simp [isAtom_here, hu, isAtom_empty, h]), if_pos (by decide)]

/-- The product of a concatenation with a path that does not start with `..` or where the first factor is no web
root followed by a name. -/
theorem mul_concat {a b u2 : Url} (h : topRoot u2 = false) (hh : u2 ≠ here) (hn : u2 ≠ .none)
    (hs : isSemiRoot (.concat a b) = false ∨ (u2 ≠ parent ∧ parentFirst u2 = false)) :
    mul (.concat a b) u2 = (mul b u2 >>= fun r => mul a r) := by
  rw [mul_plain _ _ h, if_neg (by simp [isAtom]), if_neg (by simp [isAtom_here, hh]),
    if_neg (by simp [isNone_eq, hn]), if_neg (by simp [isRoot]), if_neg (by simp [isPseudoAtomic])]
  rcases hs with hs | ⟨hs1, hs2⟩
  · rw [if_neg (by simp [hs]), if_neg (by simp [isRoot]), if_neg (by simp [isPseudoAtomic]), if_neg (by simp [hs])]
  · rw [if_neg (by simp [isAtom_parent, hs1]), if_neg (by simp [isRoot]), if_neg (by simp [isPseudoAtomic]),
      if_neg (by simp [hs2])]

theorem mul_P {l1 l2 : List Url} (h1 : ∀ y ∈ l1, Elem y) (h2 : ∀ y ∈ l2, Elem y) (hne : l2 ≠ []) :
    mul (P l1) (P l2) = .ok (P (joinL l1 l2)) := by
  induction l1 with
  | nil => exact mul_here_left _
  | cons x l ih =>
    have hx := h1 x (by simp)
    have hl : ∀ y ∈ l, Elem y := fun y hy => h1 y (by simp [hy])
    cases l with
    | nil => exact mul_elem hx h2
    | cons y l =>
      rw [P, mul_concat (topRoot_P h2) (fun e => hne (P_eq_here h2 e)) (P_ne_none h2)
        (.inl (by simp [isSemiRoot, isSpecialRoot, isRootWeb]; intro h; have := hx.not_root; cases x <;> simp_all [isRootS, isRoot]))]
      rw [ih hl, Res.ok_bind]
      exact mul_elem hx (elem_joinL hl h2)

theorem mul_root_P (r : Bytes) {l : List Url} (hl : ∀ y ∈ l, Elem y) :
    mul (.root r) (P l) = .ok (R r (strip l)) := by
  induction l with
  | nil => rw [P, mul_here_right (by simp)]; rfl
  | cons x l ih =>
    have hx := hl x (by simp)
    have hl' : ∀ y ∈ l, Elem y := fun y hy => hl y (by simp [hy])
    rw [mul_plain _ _ (topRoot_P hl), if_neg (by simp [isAtom]),
      if_neg (by simp [isAtom_here]; exact fun e => by simpa using P_eq_here hl e),
      if_neg (by simp [isNone_eq]; exact P_ne_none hl)]
    rw [strip]
    by_cases hp : x = parent
    · subst hp
      cases l with
      | nil => rw [if_pos (by simp [P, isAtom_parent, isRoot])]; rfl
      | cons y l =>
        rw [if_neg (by simp [P, isAtom_parent, parent]), if_neg (by simp [isPseudoAtomic]), if_neg (by simp [isSemiRoot]),
          if_pos (by simp [P, parentFirst, isAtom_parent, isRoot])]
        rw [if_pos rfl]
        exact ih hl'
    · rw [if_neg hp]
      have e1 : isAtom (P (x :: l)) (b!"..") = false := by
        cases l with
        | nil => simp [P, isAtom_parent, hp]
        | cons y l => simp [P, isAtom_parent, parent]
      have e2 : parentFirst (P (x :: l)) = false := by
        cases l with
        | nil => have := hx.not_concat; rw [P]; cases x <;> simp_all [parentFirst, isConcat]
        | cons y l => simp [P, parentFirst, isAtom_parent, hp]
      rw [if_neg (by simp [e1]), if_neg (by simp [e1]), if_neg (by simp [e1]), if_neg (by simp [e2]), if_neg (by simp [e2]),
        if_neg (by simp [e2])]
      simp [R]

theorem isRootWeb_root (r : Bytes) : isRootWeb (.root r) = webProtocol r := by
  simp only [isRootWeb, isRootS, webProtocol, Bool.decide_or, Bool.or_assoc]

theorem mul_R_P {r : Bytes} (hr : webProtocol r = false) {l1 l2 : List Url} (h1 : ∀ y ∈ l1, Elem y)
    (h2 : ∀ y ∈ l2, Elem y) (hne : l2 ≠ []) : mul (R r l1) (P l2) = .ok (R r (strip (joinL l1 l2))) := by
  by_cases hl : l1 = []
  · subst hl; rw [R_nil]; exact mul_root_P r h2
  · rw [R_cons r l1 hl, mul_concat (topRoot_P h2) (fun e => hne (P_eq_here h2 e)) (P_ne_none h2)
      (.inl (by simp [isSemiRoot, isSpecialRoot, isRootWeb_root, hr])), mul_P h1 h2 hne, Res.ok_bind]
    exact mul_root_P r (elem_joinL h1 h2)

theorem joinL_push (x : Url) (l l3 : List Url) : joinL (push x l) l3 = push x (joinL l l3) := by
  cases l with
  | nil => rfl
  | cons y r =>
    simp only [push]
    split
    · next h =>
      obtain ⟨rfl, hx⟩ := h
      show joinL r l3 = push x (push parent (joinL r l3))
      have : push parent (joinL r l3) = parent :: joinL r l3 := by
        generalize joinL r l3 = m
        cases m <;> simp [push]
      rw [this]
      simp [push, hx]
    · rfl

theorem joinL_assoc (l1 l2 l3 : List Url) : joinL (joinL l1 l2) l3 = joinL l1 (joinL l2 l3) := by
  induction l1 with
  | nil => rfl
  | cons x l ih =>
    show joinL (push x (joinL l l2)) l3 = push x (joinL l (joinL l2 l3))
    rw [joinL_push, ih]

/-! ## The shape of products -/

theorem second_good {u : Url} (hp : parentFirst u = true) (h : Good u) : Good (second u) ∧ topRoot (second u) = false := by
  cases u <;> simp_all [parentFirst, second, Good]

theorem mul_good (u1 u2 : Url) (h1 : Good u1) (h2 : Good u2) (h : topRoot u2 = false) :
    ∃ r, mul u1 u2 = .ok r ∧ Good r ∧ (topRoot u1 = false → topRoot r = false) := by
  rw [mul_plain _ _ h]
  split
  · exact ⟨u2, rfl, h2, fun _ => h⟩
  · split
    · exact ⟨u1, rfl, h1, id⟩
    · split
      · exact ⟨.none, rfl, trivial, fun _ => rfl⟩
      · split
        · exact ⟨u1, rfl, h1, id⟩
        · split
          · exact ⟨here, rfl, trivial, fun _ => rfl⟩
          · split
            · exact ⟨u1, rfl, h1, id⟩
            · split
              · next hp =>
                have hp' : parentFirst u2 = true := by simp_all
                have hs := second_size u2 hp'
                obtain ⟨g1, g2⟩ := second_good hp' h2
                exact mul_good u1 (second u2) h1 g1 g2
              · split
                · next hp =>
                  have hp' : parentFirst u2 = true := by simp_all
                  obtain ⟨g1, g2⟩ := second_good hp' h2
                  exact ⟨second u2, rfl, g1, fun _ => g2⟩
                · split
                  · next hp =>
                    have hp' : parentFirst u2 = true := by simp_all
                    have hs := second_size u2 hp'
                    obtain ⟨g1, g2⟩ := second_good hp' h2
                    exact mul_good u1 (second u2) h1 g1 g2
                  · by_cases hc : isConcat u1 = false
                    · have : ∃ r, (Res.ok (.concat u1 u2) : Res Url) = .ok r ∧ Good r ∧
                          (topRoot u1 = false → topRoot r = false) := by
                        refine ⟨_, rfl, ⟨h1, h2, hc, h⟩, fun ht => ?_⟩
                        cases u1 <;> simp_all [topRoot, isConcat]
                      cases u1 <;> first | exact this | simp [isConcat] at hc
                    · obtain ⟨a, b, e⟩ : ∃ a b, u1 = .concat a b := by
                        cases u1 <;> simp [isConcat] at hc
                        exact ⟨_, _, rfl⟩
                      have g := h1
                      rw [e] at g
                      obtain ⟨ga, gb, gc, gd⟩ := g
                      have hsz : u1.size = a.size + b.size + 1 := by rw [e]; rfl
                      obtain ⟨r, e1, hr, hr'⟩ := mul_good b u2 gb h2 h
                      obtain ⟨r', e2, hr1, hr2⟩ := mul_good a r ga hr (hr' gd)
                      refine ⟨r', ?_, hr1, fun ht => hr2 ?_⟩
                      · simp only [e, e1, Res.ok_bind, e2]
                      · rw [e] at ht
                        cases a <;> simp_all [topRoot, isConcat]
termination_by (u1.size, u2.size)
decreasing_by
  all_goals simp only [Prod.lex_def, true_and]
  all_goals omega

theorem alt_none (u : Url) : alt u .none = u := by
  rw [alt.eq_def]
  split
  · next h => exact h.symm
  · rw [if_pos rfl]

theorem none_alt (u : Url) : alt .none u = u := by
  rw [alt.eq_def, if_pos rfl]

theorem alt_or (a b u : Url) (hu : u ≠ .none) : alt (.or a b) u = alt a (alt b u) := by
  rw [alt.eq_def, if_neg (by simp), if_neg hu]

theorem alt_single (u v : Url) (h1 : u ≠ .none) (h2 : v ≠ .none) (h3 : isOr u = false) :
    alt u v = if u = v then v else match (generalizing := false) v with
      | .or c _ => if u = c then v else .or u v
      | _ => .or u v := by
  rw [alt.eq_def, if_neg h1, if_neg h2]
  cases u
  case none => exact absurd rfl h1
  case or => simp [isOr] at h3
  all_goals rfl

/-- Properties of alternatives. -/
theorem alt_ind {Q : Url → Prop} (hor : ∀ a b, Q (.or a b) ↔ Q a ∧ Q b) (u v : Url) (h1 : Q u) (h2 : Q v) :
    Q (alt u v) := by
  by_cases hv : v = .none
  · rw [hv, alt_none]; exact h1
  induction u generalizing v with
  | or a b iha ihb =>
    rw [alt_or _ _ _ hv]
    have hb := ihb v ((hor a b).1 h1).2 h2 hv
    by_cases hn : alt b v = .none
    · rw [hn, alt_none]; exact ((hor a b).1 h1).1
    · exact iha _ ((hor a b).1 h1).1 hb hn
  | none => rw [none_alt]; exact h2
  | _ =>
    rw [alt_single _ _ (by simp) hv rfl]
    split
    · exact h2
    · split
      · split
        · exact h2
        · exact (hor _ _).2 ⟨h1, h2⟩
      · exact (hor _ _).2 ⟨h1, h2⟩

theorem alt_good (u1 u2 : Url) (h1 : Good u1) (h2 : Good u2) : Good (alt u1 u2) :=
  alt_ind (fun _ _ => Iff.rfl) u1 u2 h1 h2

theorem alt_ne_none (u v : Url) (hv : v ≠ .none) : alt u v ≠ .none := by
  induction u generalizing v with
  | or a b iha ihb =>
    rw [alt_or _ _ _ hv]
    exact iha _ (ihb v hv)
  | none => rw [none_alt]; exact hv
  | _ =>
    rw [alt_single _ _ (by simp) hv rfl]
    split
    · exact hv
    · split
      · split
        · simp
        · simp
      · simp

theorem alt_topRoot' (u v : Url) (hv : v ≠ .none) (h2 : topRoot v = false) : topRoot (alt u v) = false := by
  induction u generalizing v with
  | or a b iha ihb =>
    rw [alt_or _ _ _ hv]
    exact iha _ (alt_ne_none b v hv) (ihb v hv h2)
  | none => rw [none_alt]; exact h2
  | _ =>
    rw [alt_single _ _ (by simp) hv rfl]
    split
    · exact h2
    · split
      · split
        · exact h2
        · rfl
      · rfl

theorem alt_topRoot (u v : Url) (h1 : topRoot u = false) (h2 : topRoot v = false) : topRoot (alt u v) = false := by
  by_cases hv : v = .none
  · rw [hv, alt_none]; exact h1
  · exact alt_topRoot' u v hv h2

theorem topRoot_concat {a b : Url} (h : isConcat a = false) : topRoot (.concat a b) = topRoot a := by
  cases a <;> simp_all [topRoot, isConcat]

theorem leftmost_not_concat (u : Url) : isConcat (leftmost u) = false := by
  induction u with
  | concat a b iha _ => rw [leftmost]; exact iha
  | _ => rfl

/-- `mulWebRoot` is the product it stands for. -/
theorem mul_webRoot (p : Bytes) (v : Url) (hc : isConcat v = false) (hp : p ≠ b!"file") :
    mul (.root p) v = .ok (mulWebRoot (.root p) v) := by
  unfold mulWebRoot
  split
  · next h =>
    have ht : topRoot v = true := by cases v <;> simp_all [topRoot, isRoot]
    rw [mul.eq_def, if_pos ht, if_neg (by simp [isRootS, hp])]
  · next h =>
    have ht : topRoot v = false := by cases v <;> simp_all [topRoot, isRoot, isConcat]
    have hpf : parentFirst v = false := by cases v <;> simp_all [parentFirst, isConcat]
    rw [mul_plain _ _ ht, if_neg (by simp [isAtom])]
    by_cases h2 : v = here
    · rw [if_pos (by simp [isAtom_here, h2]), if_pos h2]
    · rw [if_neg (by simp [isAtom_here, h2]), if_neg h2]
      by_cases h3 : v = .none
      · rw [if_pos (by simp [isNone_eq, h3]), if_pos h3]
      · rw [if_neg (by simp [isNone_eq, h3]), if_neg h3]
        by_cases h4 : v = parent
        · rw [if_pos (by simp [isAtom_parent, h4, isRoot]), if_pos h4]
        · rw [if_neg (by simp [isAtom_parent, h4]), if_neg (by simp [isAtom_parent, h4]), if_neg (by simp [isAtom_parent, h4]),
            if_neg (by simp [hpf]), if_neg (by simp [hpf]), if_neg (by simp [hpf]), if_neg h4]

theorem leftmost_good {u : Url} (h : Good u) (ht : topRoot u = false) :
    Good (leftmost u) ∧ isRoot (leftmost u) = false := by
  cases u with
  | concat a b =>
    obtain ⟨ga, gb, gc, gd⟩ := h
    have : leftmost (.concat a b) = a := by
      rw [leftmost]
      cases a <;> simp_all [leftmost, isConcat]
    rw [this]
    exact ⟨ga, ht⟩
  | _ => exact ⟨h, ht⟩

theorem mulWebRoot_good {r v : Url} (hr : isRoot r = true) (gr : Good r) (hv : Good v) (h : isRoot v = false)
    (hc : isConcat v = false) : Good (mulWebRoot r v) := by
  unfold mulWebRoot
  have ht : topRoot v = false := by cases v <;> simp_all [topRoot, isRoot, isConcat]
  have hrc : isConcat r = false := by cases r <;> simp_all [isRoot, isConcat]
  split
  · exact hv
  · split
    · exact gr
    · split
      · trivial
      · split
        · exact gr
        · exact ⟨gr, hv, hrc, ht⟩

theorem isRootWeb_isRoot {u : Url} (h : isRootWeb u = true) : isRoot u = true := by
  cases u <;> simp_all [isRootWeb, isRootS, isRoot]

/-- The product of well-formed urls is defined except for the product of two roots of which the first is
`file`. -/
theorem mul_total (u1 u2 : Url) (h1 : Good u1) (h2 : Good u2) :
    (∃ r, mul u1 u2 = .ok r ∧ Good r) ∨ (mul u1 u2 = .ub ∧ u1 = .root (b!"file") ∧ ∃ q, u2 = .root q) := by
  by_cases h : topRoot u2 = false
  · obtain ⟨r, e, g, _⟩ := mul_good u1 u2 h1 h2 h
    exact .inl ⟨r, e, g⟩
  · have ht : topRoot u2 = true := by simpa using h
    rw [mul.eq_def, if_pos ht]
    split
    · next hf =>
      have e1 : u1 = .root (b!"file") := by
        cases u1 with
        | root p => simpa [isRootS] using hf
        | root3 p c =>
          have e : p = b!"ramdisc" := h1
          subst e
          rw [isRootS] at hf
          exact absurd hf (by decide)
        | _ => simp [isRootS] at hf
      subst e1
      cases u2 with
      | concat x y =>
        obtain ⟨r, e, g, _⟩ := mul_good (.root (b!"file")) y trivial h2.2.1 h2.2.2.2
        exact .inl ⟨r, e, g⟩
      | root q => exact .inr ⟨rfl, rfl, q, rfl⟩
      | root3 p c =>
        obtain ⟨r, e, g, _⟩ := mul_good (.root (b!"file")) (.atom c) trivial trivial rfl
        exact .inl ⟨r, e, g⟩
      | _ => simp [topRoot, isRoot] at ht
    · refine .inl ?_
      split
      · rename_i a b _
        split
        · next hw =>
          have hw' : isRootWeb a = true := by simp_all
          obtain ⟨gl, hl⟩ := leftmost_good h1.2.1 h1.2.2.2
          have gm := mulWebRoot_good (isRootWeb_isRoot hw') h1.1 gl hl (leftmost_not_concat b)
          cases u2 with
          | concat x y =>
            obtain ⟨r, e, g, _⟩ := mul_good _ y gm h2.2.1 h2.2.2.2
            exact ⟨r, e, g⟩
          | _ => exact ⟨_, rfl, gm⟩
        · split
          · cases u2 with
            | concat x y =>
              obtain ⟨r, e, g, _⟩ := mul_good (.root (rootName a)) y trivial h2.2.1 h2.2.2.2
              exact ⟨r, e, g⟩
            | _ => exact ⟨_, rfl, trivial⟩
          · exact ⟨u2, rfl, h2⟩
      · exact ⟨u2, rfl, h2⟩

/-! ## The other operations keep the shape -/

theorem tail_good {u : Url} (h : Good u) : Good (tail u) := by
  induction u with
  | concat a b iha ihb =>
    rw [tail]
    split
    · trivial
    · exact ihb h.2.1
  | or a b iha ihb => rw [tail]; exact alt_good _ _ (iha h.1) (ihb h.2)
  | root3 p c => trivial
  | _ => exact h

theorem mul_ok_good {u1 u2 r : Url} (h1 : Good u1) (h2 : Good u2) (e : mul u1 u2 = .ok r) : Good r := by
  rcases mul_total u1 u2 h1 h2 with ⟨r', e', g⟩ | ⟨e', _⟩
  · rw [e'] at e; injection e with e; exact e ▸ g
  · rw [e'] at e; exact absurd e (by simp)

/-- Functions that go through a url, with `*` at concatenations and `|` at alternatives, keep the shape. -/
theorem map_good {f : Url → Res Url} (hc : ∀ a b r, Good (.concat a b) → f (.concat a b) = .ok r →
      (∃ x, f a = .ok x ∧ mul x b = .ok r) ∨ (∃ x, f b = .ok x ∧ mul a x = .ok r) ∨ r = a)
    (ho : ∀ a b r, f (.or a b) = .ok r → ∃ x y, f a = .ok x ∧ f b = .ok y ∧ r = alt x y)
    (hs : ∀ u r, isConcat u = false → isOr u = false → Good u → f u = .ok r → Good r) {u r : Url} (h : Good u)
    (e : f u = .ok r) : Good r := by
  induction u generalizing r with
  | concat a b iha ihb =>
    rcases hc a b r h e with ⟨x, e1, e2⟩ | ⟨x, e1, e2⟩ | rfl
    · exact mul_ok_good (iha h.1 e1) h.2.1 e2
    · exact mul_ok_good h.1 (ihb h.2.1 e1) e2
    · exact h.1
  | or a b iha ihb =>
    obtain ⟨x, y, e1, e2, rfl⟩ := ho a b r e
    exact alt_good _ _ (iha h.1 e1) (ihb h.2 e2)
  | _ => exact hs _ _ rfl rfl h e

theorem bind2_eq_ok {x y : Res Url} {r : Url} (e : (x >>= fun a => y >>= fun b => .ok (alt a b)) = .ok r) :
    ∃ a b, x = .ok a ∧ y = .ok b ∧ r = alt a b := by
  obtain ⟨a, e1, e⟩ := Res.bind_eq_ok.1 e
  obtain ⟨b, e2, e⟩ := Res.bind_eq_ok.1 e
  injection e with e
  exact ⟨a, b, e1, e2, e.symm⟩

theorem unroot_good {u r : Url} (h : Good u) (e : unroot u = .ok r) : Good r := by
  refine map_good (f := unroot) (fun a b r _ e => ?_) (fun a b r e => ?_) (fun u r hc ho hg e => ?_) h e
  · rw [unroot] at e
    obtain ⟨x, e1, e2⟩ := Res.bind_eq_ok.1 e
    exact .inl ⟨x, e1, e2⟩
  · rw [unroot] at e; exact bind2_eq_ok e
  · cases u <;> simp_all [unroot, isConcat, isOr] <;> subst e <;> first | trivial | exact hg

theorem reroot_good {p : Bytes} {u r : Url} (h : Good u) (e : reroot p u = .ok r) : Good r := by
  refine map_good (f := reroot p) (fun a b r _ e => ?_) (fun a b r e => ?_) (fun u r hc ho hg e => ?_) h e
  · rw [reroot] at e
    obtain ⟨x, e1, e2⟩ := Res.bind_eq_ok.1 e
    exact .inl ⟨x, e1, e2⟩
  · rw [reroot] at e; exact bind2_eq_ok e
  · cases u <;> simp_all [reroot, isConcat, isOr] <;> subst e <;> first | trivial | exact hg

theorem unblank_good {u r : Url} (h : Good u) (e : unblank u = .ok r) : Good r := by
  refine map_good (f := unblank) (fun a b r _ e => ?_) (fun a b r e => ?_) (fun u r hc ho hg e => ?_) h e
  · rw [unblank] at e
    split at e
    · injection e with e; exact .inr (.inr e.symm)
    · obtain ⟨x, e1, e2⟩ := Res.bind_eq_ok.1 e
      exact .inr (.inl ⟨x, e1, e2⟩)
  · rw [unblank] at e; exact bind2_eq_ok e
  · cases u <;> simp_all [unblank, isConcat, isOr] <;> subst e <;> first | trivial | exact hg

theorem glue_good {s : Bytes} {u r : Url} (h : Good u) (e : glue s u = .ok r) : Good r := by
  refine map_good (f := glue s) (fun a b r _ e => ?_) (fun a b r e => ?_) (fun u r hc ho hg e => ?_) h e
  · rw [glue] at e
    obtain ⟨x, e1, e2⟩ := Res.bind_eq_ok.1 e
    exact .inr (.inl ⟨x, e1, e2⟩)
  · rw [glue] at e; exact bind2_eq_ok e
  · cases u <;> simp_all [glue, isConcat, isOr] <;> subst e <;> trivial

theorem unglue_good {n : Int} {u r : Url} (h : Good u) (e : unglue n u = .ok r) : Good r := by
  refine map_good (f := unglue n) (fun a b r _ e => ?_) (fun a b r e => ?_) (fun u r hc ho hg e => ?_) h e
  · rw [unglue] at e
    obtain ⟨x, e1, e2⟩ := Res.bind_eq_ok.1 e
    exact .inr (.inl ⟨x, e1, e2⟩)
  · rw [unglue] at e; exact bind2_eq_ok e
  · cases u <;> simp_all [unglue, isConcat, isOr] <;> subst e <;> trivial

/-! ## Lists of components -/

theorem joinL_nil_of_normal {l : List Url} (h : Normal l) : joinL l [] = l := by
  induction l with
  | nil => rfl
  | cons x l ih =>
    cases l with
    | nil => rfl
    | cons y l =>
      show push x (joinL (y :: l) []) = _
      rw [ih h.2]
      simp only [push]
      rw [if_neg (fun hh => hh.2 (h.1 hh.1))]

theorem joinL_snoc {l : List Url} {x : Url} (h : Normal l) (hx : x ≠ parent) : joinL l [x] = l ++ [x] := by
  induction l with
  | nil => rfl
  | cons y l ih =>
    have hl : Normal l := by
      cases l with
      | nil => trivial
      | cons z l => exact h.2
    show push y (joinL l [x]) = _
    rw [ih hl]
    cases l with
    | nil => simp [push, hx]
    | cons z l =>
      simp only [push, List.cons_append]
      rw [if_neg (fun hh => hh.2 (h.1 hh.1))]

theorem joinL_append (l m n : List Url) : joinL (l ++ m) n = joinL l (joinL m n) := by
  simp [joinL, List.foldr_append]

theorem strip_joinL_strip (m l : List Url) : strip (joinL (strip m) l) = strip (joinL m l) := by
  induction m with
  | nil => rfl
  | cons x m ih =>
    rw [strip]
    split
    · next h =>
      subst h
      rw [ih]
      show _ = strip (push parent (joinL m l))
      have : push parent (joinL m l) = parent :: joinL m l := by
        generalize joinL m l = n
        cases n <;> simp [push]
      rw [this, strip, if_pos rfl]
    · rfl

theorem walk_push (d : List Url) (x : Url) (l : List Url) : walk d (push x l) = walk d (x :: l) := by
  cases l with
  | nil => rfl
  | cons y r =>
    simp only [push]
    split
    · next h =>
      obtain ⟨rfl, hx⟩ := h
      simp [walk, hx]
    · rfl

theorem walk_append (d l m : List Url) : walk d (l ++ m) = walk (walk d l) m := by
  induction l generalizing d with
  | nil => rfl
  | cons x l ih =>
    simp only [List.cons_append, walk]
    split <;> exact ih _

theorem walk_joinL (d l m : List Url) : walk d (joinL l m) = walk (walk d l) m := by
  induction l generalizing d with
  | nil => rfl
  | cons x l ih =>
    show walk d (push x (joinL l m)) = _
    rw [walk_push]
    simp only [walk]
    split <;> exact ih _

theorem walk_strip (l : List Url) : walk [] (strip l) = walk [] l := by
  induction l with
  | nil => rfl
  | cons x l ih =>
    rw [strip]
    split
    · next h => simp [walk, h, ih]
    · rfl

theorem normal_tail {x : Url} {l : List Url} (h : Normal (x :: l)) : Normal l := by
  cases l with
  | nil => trivial
  | cons y l => exact h.2

theorem normal_push {x : Url} {l : List Url} (h : Normal l) : Normal (push x l) := by
  cases l with
  | nil => trivial
  | cons y r =>
    simp only [push]
    split
    · exact normal_tail h
    · next hn => exact ⟨fun hy => Classical.not_not.1 fun hx => hn ⟨hy, hx⟩, h⟩

theorem normal_joinL {l m : List Url} (h : Normal m) : Normal (joinL l m) := by
  induction l with
  | nil => exact h
  | cons x l ih => exact normal_push ih

theorem normal_strip {l : List Url} (h : Normal l) : Normal (strip l) := by
  induction l with
  | nil => exact h
  | cons x l ih =>
    rw [strip]
    split
    · exact ih (normal_tail h)
    · exact h

theorem strip_eq_self {l : List Url} (h : l.head? ≠ some parent) : strip l = l := by
  cases l with
  | nil => rfl
  | cons x l => rw [strip, if_neg (by simpa using h)]

theorem head_strip (l : List Url) : (strip l).head? ≠ some parent := by
  induction l with
  | nil => simp [strip]
  | cons x l ih =>
    rw [strip]
    split
    · exact ih
    · next h => simpa using h

/-- A normal path without leading `..` has no `..`. -/
theorem normal_no_parent {l : List Url} (h : Normal l) (hh : l.head? ≠ some parent) : parent ∉ l := by
  induction l with
  | nil => simp
  | cons x l ih =>
    have hx : x ≠ parent := by simpa using hh
    simp only [List.mem_cons, not_or]
    refine ⟨fun e => hx e.symm, ih (normal_tail h) ?_⟩
    cases l with
    | nil => simp
    | cons y l => simp; exact fun e => hx (h.1 e)

theorem normal_of_no_parent {l : List Url} (h : parent ∉ l) : Normal l := by
  induction l with
  | nil => trivial
  | cons x l ih =>
    simp only [List.mem_cons, not_or] at h
    cases l with
    | nil => trivial
    | cons y l => exact ⟨fun e => absurd (by simp [e]) h.2, ih h.2⟩

theorem joinL_disjoint {l m : List Url} (h : Normal l) (hm : m.head? ≠ some parent) (hne : m ≠ []) :
    joinL l m = l ++ m := by
  induction l with
  | nil => rfl
  | cons x l ih =>
    show push x (joinL l m) = _
    rw [ih (normal_tail h)]
    cases l with
    | nil =>
      cases m with
      | nil => exact absurd rfl hne
      | cons y m => simp only [push, List.nil_append]; rw [if_neg (fun hh => by simp [hh.1] at hm)]; rfl
    | cons y l =>
      simp only [push, List.cons_append]
      rw [if_neg (fun hh => hh.2 (h.1 hh.1))]

theorem joinL_ups {l m : List Url} (h : parent ∉ l) (k : Nat) (hk : k ≤ l.length) :
    joinL l (List.replicate k parent ++ m) = joinL (l.take (l.length - k)) m := by
  induction k generalizing l with
  | zero => simp
  | succ k ih =>
    have hne : l ≠ [] := by intro e; subst e; simp at hk
    have e : l = l.dropLast ++ [l.getLast hne] := (List.dropLast_concat_getLast hne).symm
    have hx : l.getLast hne ≠ parent := fun e => h (e ▸ List.getLast_mem hne)
    have h' : parent ∉ l.dropLast := fun e => h (List.dropLast_subset l e)
    have step : joinL l (List.replicate (k + 1) parent ++ m) = joinL l.dropLast (List.replicate k parent ++ m) := by
      conv => lhs; rw [e]
      rw [joinL_append]
      simp [joinL, push, List.replicate_succ, hx]
    rw [step, ih h' (by simp; omega), List.dropLast_eq_take, List.take_take, List.length_take]
    congr 2
    omega

/-! ## Web urls -/

theorem leftmost_P {x : Url} (l : List Url) (hx : Elem x) : leftmost (P (x :: l)) = x := by
  have := hx.not_concat
  cases l with
  | nil => rw [P]; cases x <;> simp_all [leftmost, isConcat]
  | cons y l => rw [P, leftmost]; cases x <;> simp_all [leftmost, isConcat]

theorem mul_semi {p : Bytes} (hp : webProtocol p = true) {s : Bytes} (hs : Elem (.atom s)) (hs' : Url.atom s ≠ parent)
    {l : List Url} (hl : ∀ y ∈ l, Elem y) : mul (R p [.atom s]) (P l) = .ok (R p (.atom s :: strip l)) := by
  have hsemi : isSemiRoot (R p [.atom s]) = true := by
    simp [R, P, isSemiRoot, isSpecialRoot, isRootWeb_root, hp, isAtomic]
  induction l with
  | nil => rw [P, mul_here_right (by simp [R])]; rfl
  | cons x l ih =>
    have hx := hl x (by simp)
    have hl' : ∀ y ∈ l, Elem y := fun y hy => hl y (by simp [hy])
    by_cases hpx : x = parent
    · subst hpx
      rw [strip, if_pos rfl]
      rw [mul_plain _ _ (topRoot_P hl), if_neg (by simp [isAtom, R]),
        if_neg (by simp [isAtom_here]; exact fun e => by simpa using P_eq_here hl e),
        if_neg (by simp [isNone_eq, R]; exact P_ne_none hl)]
      cases l with
      | nil =>
        rw [if_neg (by simp [R, isRoot]), if_neg (by simp [R, isPseudoAtomic]), if_pos (by simp [P, isAtom_parent, hsemi])]
        rfl
      | cons y l =>
        rw [if_neg (by simp [R, isRoot]), if_neg (by simp [R, isPseudoAtomic]), if_neg (by simp [P, isAtom_parent, parent]),
          if_neg (by simp [R, isRoot]), if_neg (by simp [R, isPseudoAtomic]),
          if_pos (by simp [P, parentFirst, isAtom_parent, hsemi])]
        exact ih hl'
    · have e : P (x :: l) ≠ parent ∧ parentFirst (P (x :: l)) = false := by
        cases l with
        | nil =>
          have := hx.not_concat
          refine ⟨by rw [P]; exact hpx, ?_⟩
          rw [P]; cases x <;> simp_all [parentFirst, isConcat]
        | cons y l => exact ⟨by simp [P, parent], by simp [P, parentFirst, isAtom_parent, hpx]⟩
      rw [R_cons _ _ (by simp), mul_concat (topRoot_P hl) (fun e => by simpa using P_eq_here hl e) (P_ne_none hl) (.inr e)]
      show (mul (.atom s) (P (x :: l)) >>= _) = _
      rw [mul_elem hs hl, Res.ok_bind, mul_root_P _ (elem_push hs hl)]
      simp [push, hpx, strip, hs']

/-- For a web url with a path after the host, the product is that of the whole list of components: the host is not
protected. -/
theorem mul_web_P {p : Bytes} {x y : Url} {l1 l2 : List Url} (h1 : ∀ z ∈ x :: y :: l1, Elem z)
    (h2 : ∀ z ∈ l2, Elem z) (hne : l2 ≠ []) :
    mul (R p (x :: y :: l1)) (P l2) = .ok (R p (strip (joinL (x :: y :: l1) l2))) := by
  rw [R_cons _ _ (by simp), mul_concat (topRoot_P h2) (fun e => hne (P_eq_here h2 e)) (P_ne_none h2)
    (.inl (by simp [isSemiRoot, P, isAtomic])), mul_P h1 h2 hne, Res.ok_bind]
  exact mul_root_P p (elem_joinL h1 h2)

end Lolly.Url
