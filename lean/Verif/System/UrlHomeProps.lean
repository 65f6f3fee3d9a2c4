import Verif.System.UrlParseProps

/-!
# C106: home directories and environment variables in urls
-/

set_option autoImplicit false

namespace Lolly.UrlHomeProps

open Lolly.Url Lolly.UrlParseProps

/-! ## Specification

`env v` is the value of the environment variable `v`, empty if it is not set. `general env f type s` is `url_general`; the
types 0 and 1 are those of files, 2 is that of the web. -/

/-- An ordinary name. -/
structure Plain (s : Bytes) : Prop extends Name s where
  not_parent : s ≠ (b!"..")
  no_colon : c! ':' ∉ s
  no_star : c! '*' ∉ s

/-- The url of the absolute path with the given names, and of the relative one. -/
def absolute (ns : List Bytes) : Url := R (b!"default") (ns.map .atom)
def relative (ns : List Bytes) : Url := P (ns.map .atom)

/-- A name as it may occur on the web: not empty, not `.`, without `/`; it may be `~` and begin with `$`. -/
def WebName (s : Bytes) : Prop := s ≠ [] ∧ s ≠ (b!".") ∧ c! '/' ∉ s

/-! ## Lemmas -/

theorem elems {ns : List Bytes} (h : ∀ x ∈ ns, Plain x) : ns.map elemOf = ns.map .atom := by
  apply List.map_congr_left
  intro x hx
  rw [elemOf, if_neg (h x hx).no_star]

theorem elem_atoms {ns : List Bytes} (h : ∀ x ∈ ns, Plain x) : ∀ y ∈ ns.map Url.atom, Elem y ∧ y ≠ parent := by
  intro y hy
  obtain ⟨x, hx, rfl⟩ := List.mem_map.1 hy
  have := (h x hx).elem
  rw [elemOf, if_neg (h x hx).no_star] at this
  refine ⟨this, fun e => ?_⟩
  injection e with e
  exact (h x hx).not_parent e

/-- Reading a path whose components have no `/` and no `:`. -/
theorem general_components (env : Env) (f type : Nat) (cs : List Bytes) (hne : cs ≠ [])
    (h : ∀ x ∈ cs, x ≠ [] ∧ c! '/' ∉ x ∧ c! ':' ∉ x) (h1 : ¬ (b!"www.") <+: text cs) (h2 : ¬ (b!"ftp.") <+: text cs) :
    general env (f + 1) type (text cs) = (getAtoms env (general env f 0) type cs >>= assemble) := by
  have hcol := colon_not_in_text fun x hx => (h x hx).2.2
  have hn : ∀ x ∈ cs, x ≠ [] ∧ c! '/' ∉ x := fun x hx => ⟨(h x hx).1, (h x hx).2.1⟩
  rw [general_plain _ _ _ _ (noProtocol (noDouble_text hn))]
  unfold withoutProtocol
  simp only [starts_eq, Res.ok_bind, isPath_false hcol]
  rw [not_prefix_of_not_mem (c! ':') (by decide) hcol, not_double_prefix (head_text hn),
    if_neg (by simp), if_neg (by simp), if_neg (by simp), if_neg (head_text hn),
    if_neg (by simp; intro _; simpa using h1), if_neg (by simp; intro _; simpa using h2)]
  have := components_at [] cs hn hne
  simp only [List.nil_append, List.length_nil] at this
  rw [getName, this]

theorem assemble_cons (u : Url) (ns : List Bytes) (h : ∀ x ∈ ns, Plain x) :
    assemble (u :: ns.map .atom) = if ns = [] then .ok u else addFront u (relative ns) := by
  cases ns with
  | nil => rfl
  | cons x ns =>
    have hn := assemble_names (x :: ns) (fun y hy => (h y hy).toName)
      (fun y hy => (h y (List.dropLast_subset _ hy)).no_star) (by simp)
    rw [elems h] at hn
    rw [if_neg (by simp)]
    simp only [List.map_cons] at hn ⊢
    rw [assemble, hn, Res.ok_bind]
    · rfl
    · simp

/-- A special component before ordinary names. -/
theorem general_special (env : Env) (f type : Nat) (e : Bytes) (c : UInt8) (he : e.head? = some c)
    (hc : c ≠ c! 'w' ∧ c ≠ c! 'f') (h : c! '/' ∉ e ∧ c! ':' ∉ e) (ns : List Bytes) (hns : ∀ x ∈ ns, Plain x) :
    general env (f + 1) type (text (e :: ns)) = (getAtom env (general env f 0) type e >>= fun u =>
      if ns = [] then .ok u else addFront u (relative ns)) := by
  have hhead : ∃ t, text (e :: ns) = c :: t := by
    cases e with
    | nil => cases he
    | cons d e =>
      simp only [List.head?_cons, Option.some.injEq] at he
      subst he
      by_cases hn : ns = []
      · subst hn; exact ⟨e, rfl⟩
      · rw [text_cons _ _ hn]; exact ⟨e ++ (b!"/") ++ text ns, by simp⟩
  obtain ⟨t, ht⟩ := hhead
  have hne : e ≠ [] := by intro e'; subst e'; cases he
  rw [general_components env f type (e :: ns) (by simp) (by
    intro x hx
    rcases List.mem_cons.1 hx with rfl | hx
    · exact ⟨hne, h⟩
    · exact ⟨(hns x hx).nonempty, (hns x hx).no_slash, (hns x hx).no_colon⟩)
    (by rw [ht]; rintro ⟨s, hs⟩; simp only [List.cons_append, List.cons.injEq] at hs; exact hc.1 hs.1.symm)
    (by rw [ht]; rintro ⟨s, hs⟩; simp only [List.cons_append, List.cons.injEq] at hs; exact hc.2 hs.1.symm),
    getAtoms, if_neg hne]
  cases getAtom env (general env f 0) type e with
  | ok u =>
    rw [Res.ok_bind, getAtoms_names env _ type ns fun x hx => (hns x hx).toName, elems hns]
    exact assemble_cons u ns hns
  | ub => rfl
  | thrown => rfl
  | hang => rfl

/-- A directory from the root before ordinary names. -/
theorem addFront_absolute (hs ns : List Bytes) (h1 : ∀ x ∈ hs, Plain x) (h2 : ∀ x ∈ ns, Plain x) :
    (if ns = [] then .ok (absolute hs) else addFront (absolute hs) (relative ns)) = .ok (absolute (hs ++ ns)) := by
  by_cases hn : ns = []
  · rw [if_pos hn, hn, List.append_nil]
  · rw [if_neg hn]
    have ha : addFront (absolute hs) (relative ns) = mul (absolute hs) (relative ns) := by
      rw [addFront, absolute]
      cases hs with
      | nil => rfl
      | cons x hs => rw [R_cons _ _ (by simp)]; rfl
    have e1 : ∀ y ∈ hs.map Url.atom, Elem y := fun y hy => (elem_atoms h1 y hy).1
    have e2 : ∀ y ∈ ns.map Url.atom, Elem y := fun y hy => (elem_atoms h2 y hy).1
    have hnorm : ∀ l : List Url, (∀ y ∈ l, y ≠ parent) → Normal l := by
      intro l
      induction l with
      | nil => intro _; trivial
      | cons x l ih =>
        intro hl
        cases l with
        | nil => trivial
        | cons y l =>
          exact ⟨fun e => absurd e (hl y (by simp)), ih fun z hz => hl z (by simp [hz])⟩
    have hhead : (ns.map Url.atom).head? ≠ some parent := by
      intro e
      exact (elem_atoms h2 _ (List.mem_of_mem_head? e)).2 rfl
    rw [ha, absolute, relative, mul_R_P (by decide) e1 e2 (by simpa using hn),
      joinL_disjoint (hnorm _ fun y hy => (elem_atoms h1 y hy).2) hhead (by simpa using hn), strip_eq_self, absolute,
      List.map_append]
    intro e
    have := List.mem_of_mem_head? e
    rcases List.mem_append.1 this with hm | hm
    · exact (elem_atoms h1 _ hm).2 rfl
    · exact (elem_atoms h2 _ hm).2 rfl

/-- Reading an absolute path. -/
theorem general_absolute (env : Env) (f type : Nat) (hs : List Bytes) (h : ∀ x ∈ hs, Plain x) :
    general env (f + 1) type ((b!"/") ++ text hs) = .ok (absolute hs) := by
  have := (C48_absolute_partial env f type hs (fun x hx => (h x hx).toName) (fun x hx => (h x hx).no_colon)
    (fun x hx => (h x (List.dropLast_subset _ hx)).no_star) (by
      intro e
      exact (h _ (List.mem_of_mem_head? e)).not_parent rfl)).2
  rw [this, absolute, elems h]

theorem unblank_P (l : List Url) (hne : l ≠ []) (h : ∀ y ∈ l, Elem y ∧ y ≠ parent) : unblank (P l) = .ok (P l) := by
  induction l with
  | nil => exact absurd rfl hne
  | cons x l ih =>
    have hx := h x (by simp)
    cases l with
    | nil =>
      rw [P]
      have := hx.1.1
      cases x <;> simp_all [isPseudoAtomic, unblank]
    | cons y l =>
      have hy := h y (by simp)
      rw [P, unblank, if_neg, ih (by simp) fun z hz => h z (by simp [hz]), Res.ok_bind]
      · have := mul_P (l1 := [x]) (l2 := y :: l) (by simpa using hx.1) (fun z hz => (h z (by simp [hz])).1) (by simp)
        rw [show P [x] = x from rfl] at this
        rw [this]
        show Res.ok (P (push x (y :: l))) = _
        rw [push, if_neg (fun e => hy.2 e.1)]; rfl
      · intro e
        have e := of_decide_eq_true e
        cases l with
        | nil => rw [P] at e; exact hy.1.2.2 e
        | cons => rw [P] at e; cases e

theorem unblank_absolute (hs : List Bytes) (h : ∀ x ∈ hs, Plain x) : unblank (absolute hs) = .ok (absolute hs) := by
  rw [absolute]
  by_cases hn : hs = []
  · subst hn; rfl
  · have hne : hs.map Url.atom ≠ [] := by simpa using hn
    have he := elem_atoms h
    rw [R_cons _ _ hne, unblank, if_neg, unblank_P _ hne he, Res.ok_bind, mul_root_P _ (fun y hy => (he y hy).1),
      strip_eq_self, R_cons _ _ hne]
    · intro e
      exact (he _ (List.mem_of_mem_head? e)).2 rfl
    · intro e
      have e := of_decide_eq_true e
      match hm : hs.map Url.atom, hne with
      | [x], _ => rw [hm] at e; rw [P] at e; exact (he x (by rw [hm]; simp)).1.2.2 e
      | x :: y :: l, _ => rw [hm] at e; rw [P] at e; cases e

/-! ## C106 -/

/-- C106: for urls of files, `~` at the beginning stands for the home directory.
Missing: `~` after a name, see `C106_inside_violated`. -/
theorem C106_home_partial (env : Env) (f type : Nat) (ht : type < 2) (hs ns : List Bytes) (h1 : ∀ x ∈ hs, Plain x)
    (h2 : ∀ x ∈ ns, Plain x) (he : env (b!"HOME") = (b!"/") ++ text hs) :
    general env (f + 2) type (text ((b!"~") :: ns)) = .ok (absolute (hs ++ ns)) := by
  rw [general_special env (f + 1) type (b!"~") (c! '~') rfl (by decide) (by decide) ns h2, getAtom, if_pos ⟨ht, rfl⟩, he,
    general_absolute env f 0 hs h1, Res.ok_bind]
  exact addFront_absolute hs ns h1 h2

/-- `~/a/b` for the home directory `/home/u`. -/
example : text ((b!"~") :: [b!"a", b!"b"]) = (b!"~/a/b") ∧ (b!"/") ++ text [b!"home", b!"u"] = (b!"/home/u") ∧
    Plain (b!"home") ∧ asString (absolute ([b!"home", b!"u"] ++ [b!"a", b!"b"])) = (b!"/home/u/a/b") :=
  ⟨by decide, by decide, ⟨⟨by decide, by decide, by decide, by decide, by decide⟩, by decide, by decide, by decide⟩, by decide⟩

/-- Without a home directory `~/x` is the relative path `x`. -/
theorem C106_home_unset (env : Env) (f type : Nat) (ht : type < 2) (ns : List Bytes) (hne : ns ≠ [])
    (h : ∀ x ∈ ns, Plain x) (he : env (b!"HOME") = []) :
    general env (f + 2) type (text ((b!"~") :: ns)) = .ok (relative ns) := by
  have hnil : general env (f + 1) 0 [] = .ok (.atom []) := by
    rw [general_plain _ _ _ _ (noProtocol (by trivial))]
    unfold withoutProtocol
    simp only [starts_eq, Res.ok_bind, isPath_false (s := []) (by simp)]
    simp [List.isPrefixOf, getName, components, getAtoms, assemble]
  rw [general_special env (f + 1) type (b!"~") (c! '~') rfl (by decide) (by decide) ns h, getAtom, if_pos ⟨ht, rfl⟩, he,
    hnil, Res.ok_bind, if_neg hne]
  rfl

theorem getAtom_var (env : Env) (gen : Bytes → Res Url) (type : Nat) (ht : type < 2) (x : Bytes) :
    getAtom env gen type ((c! '$') :: x) =
      if env x = [] then .ok .none else (gen (env x) >>= unblank) := by
  rw [getAtom, if_neg (by simp)]
  have hd : An.starts ((c! '$') :: x) (b!"$") = .ok true := by
    rw [starts_eq]; rfl
  have hsub : An.sub ((c! '$') :: x) 1 ((c! '$') :: x).length = x := by
    have := An.sub_nat ((c! '$') :: x) 1 ((c! '$') :: x).length
    rw [List.take_length] at this
    exact this
  simp only [hd, Res.ok_bind]
  rw [if_pos ⟨ht, trivial⟩, hsub]

/-- C106: `$X` at the beginning stands for the directory that is the value of the variable X. If it is not set, the url is
`{}`, which stands for no file. Missing: values that are not absolute paths of ordinary names. -/
theorem C106_variable_partial (env : Env) (f type : Nat) (ht : type < 2) (x : Bytes) (hx : c! '/' ∉ x ∧ c! ':' ∉ x)
    (hs ns : List Bytes) (h1 : ∀ x ∈ hs, Plain x) (h2 : ∀ x ∈ ns, Plain x) :
    (env x = (b!"/") ++ text hs →
      general env (f + 2) type (text (((c! '$') :: x) :: ns)) = .ok (absolute (hs ++ ns))) ∧
    (env x = [] → general env (f + 2) type (text (((c! '$') :: x) :: ns)) = .ok .none) := by
  have hsp := general_special env (f + 1) type ((c! '$') :: x) (c! '$') rfl (by decide)
    ⟨fun e => by rcases List.mem_cons.1 e with e | e; exact absurd e (by decide); exact hx.1 e,
     fun e => by rcases List.mem_cons.1 e with e | e; exact absurd e (by decide); exact hx.2 e⟩ ns h2
  rw [hsp, getAtom_var env _ type ht]
  constructor
  · intro he
    rw [he, if_neg (by simp), general_absolute env f 0 hs h1, Res.ok_bind, unblank_absolute hs h1, Res.ok_bind]
    exact addFront_absolute hs ns h1 h2
  · intro he
    rw [if_pos he, Res.ok_bind]
    by_cases hn : ns = []
    · rw [if_pos hn]
    · rw [if_neg hn, addFront, if_neg (by decide), if_neg (by decide)]
      have hr : topRoot (relative ns) = false :=
        topRoot_P fun y hy => (elem_atoms h2 y hy).1
      rw [mul.eq_def, if_neg (by simp [hr]), if_neg (by decide)]
      by_cases hh : isAtom (relative ns) (b!".") = true
      · rw [if_pos hh]
      · rw [if_neg hh, if_pos (by simp [isNone])]

example : c! '/' ∉ (b!"TEXMACS_PATH") ∧ c! ':' ∉ (b!"TEXMACS_PATH") := by decide

/-! ## The web -/

theorem WebName.elem {s : Bytes} (h : WebName s) : Elem (elemOf s) := by
  unfold elemOf Elem here
  split
  · exact ⟨rfl, by simp, by simp⟩
  · refine ⟨rfl, ?_, ?_⟩
    · intro e; injection e with e; exact h.2.1 e
    · intro e; injection e with e; exact h.1 e

theorem getAtom_web (env : Env) (gen : Bytes → Res Url) (type : Nat) (ht : 2 ≤ type) (s : Bytes) :
    getAtom env gen type s = .ok (elemOf s) := by
  rw [getAtom, if_neg (by omega), starts_eq, Res.ok_bind, if_neg (by omega), (SearchProps.C20_index_of s (c! '*')).2,
    Res.ok_bind, elemOf]
  by_cases hs : c! '*' ∈ s <;> simp [hs]

theorem getName_web (env : Env) (gen : Bytes → Res Url) (type : Nat) (ht : 2 ≤ type) (ns : List Bytes) (hne : ns ≠ [])
    (h : ∀ x ∈ ns, WebName x) (hw : ∀ x ∈ ns.dropLast, c! '*' ∉ x) :
    getName env gen (text ns) type = .ok (P (ns.map elemOf)) := by
  have hc := components_at [] ns (fun x hx => ⟨(h x hx).1, (h x hx).2.2⟩) hne
  simp only [List.nil_append, List.length_nil] at hc
  have hat : ∀ l : List Bytes, (∀ x ∈ l, WebName x) → getAtoms env gen type l = .ok (l.map elemOf) := by
    intro l
    induction l with
    | nil => intro _; rfl
    | cons x l ih =>
      intro hl
      rw [getAtoms, if_neg (hl x (by simp)).1, getAtom_web env gen type ht, Res.ok_bind, ih fun y hy => hl y (by simp [hy])]
      rfl
  have has : ∀ l : List Bytes, l ≠ [] → (∀ x ∈ l, WebName x) → (∀ x ∈ l.dropLast, c! '*' ∉ x) →
      assemble (l.map elemOf) = .ok (P (l.map elemOf)) := by
    intro l
    induction l with
    | nil => intro hl; exact absurd rfl hl
    | cons x l ih =>
      intro _ hl hs
      cases l with
      | nil => rfl
      | cons y l =>
        have e := ih (by simp) (fun z hz => hl z (by simp [hz])) (fun z hz => hs z (by simp [List.dropLast, hz]))
        simp only [List.map_cons] at e ⊢
        rw [assemble, e, Res.ok_bind]
        · have hx := (hl x (by simp)).elem
          have hxa : elemOf x = .atom x := by simp [elemOf, hs x (by simp)]
          rw [addFront, if_neg (by simp [isAtom_here, isAtom_empty, hx.2.1, hx.2.2]), if_pos (by simp [hxa, isAtomic]), P]
        · simp
  rw [getName, hc, hat ns h, Res.ok_bind, has ns hne h hw]

/-- C106: on the web `~` and `$` have no special meaning. What is read from `p://host/...` has the components that are
written there, and prints as it was written. -/
theorem C106_web (env : Env) (f type : Nat) (p : Bytes) (hp : p = (b!"http") ∨ p = (b!"https") ∨ p = (b!"ftp"))
    (ns : List Bytes) (hne : ns ≠ []) (h : ∀ x ∈ ns, WebName x) (hw : ∀ x ∈ ns.dropLast, c! '*' ∉ x)
    (hpar : ns.head? ≠ some (b!"..")) :
    general env (f + 1) type (p ++ (b!"://") ++ text ns) = .ok (R p (ns.map elemOf)) ∧
      asString (R p (ns.map elemOf)) = p ++ (b!"://") ++ text ns := by
  have hn : ∀ x ∈ ns, x ≠ [] ∧ c! '/' ∉ x := fun x hx => ⟨(h x hx).1, (h x hx).2.2⟩
  have hprop : (∀ c ∈ p, An.isAlpha c || An.isDigit c) ∧ 2 ≤ p.length ∧ p ≠ (b!"file") ∧ p ≠ (b!"default") ∧
      p ≠ (b!"blank") := by
    rcases hp with rfl | rfl | rfl <;> decide
  obtain ⟨p1, p2, p3, p4, p5⟩ := hprop
  have hstrip : strip (ns.map elemOf) = ns.map elemOf := by
    apply strip_eq_self
    cases ns with
    | nil => simp
    | cons x ns =>
      simp only [List.map_cons, List.head?_cons, ne_eq, Option.some.injEq] at hpar ⊢
      unfold elemOf parent
      split
      · simp
      · intro e; injection e with e; exact hpar e
  have he : ∀ y ∈ ns.map elemOf, Elem y := by
    intro y hy
    obtain ⟨x, hx, rfl⟩ := List.mem_map.1 hy
    exact (h x hx).elem
  constructor
  · rw [general_protocol env f type p _ p1 p2 (noProtocol (noDouble_text hn)), if_neg p3, if_pos hp, rooted,
      getName_web env _ 2 (by omega) ns hne h hw, Res.ok_bind, mul_root_P _ he, hstrip]
  · rw [asString_R _ ns hw hne, if_neg p4, asString, if_neg p4, if_neg p5, if_neg p3]
    simp

example : (∀ x ∈ [b!"host", b!"~", b!"$x"], WebName x) ∧
    text [b!"host", b!"~", b!"$x"] = (b!"host/~/$x") := by
  refine ⟨?_, by decide⟩
  intro x hx
  simp only [List.mem_cons, List.not_mem_nil, or_false] at hx
  rcases hx with rfl | rfl | rfl <;> exact ⟨by decide, by decide, by decide⟩

/-- C106 fails for `~` after a name: `a/~` is not the home directory, but something with a root inside of it. -/
theorem C106_inside_violated (env : Env) (he : env (b!"HOME") = (b!"/h")) :
    ∃ u, general env 2 1 (b!"a/~") = .ok u ∧ u ≠ absolute [b!"h"] ∧ asString u = (b!"a//h") :=
  ⟨_, (C46_shape_violated env he).1, by simp [absolute, R], by decide⟩

end Lolly.UrlHomeProps
