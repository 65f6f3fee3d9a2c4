import Verif.System.UrlHomeProps

/-!
# C106: more values of variables in urls

`UrlHomeProps` has the values that are absolute paths. Here are relative paths, paths with `/` at the end, all values in general, and
values that refer to themselves.
-/

set_option autoImplicit false

namespace Lolly.UrlHomeProps

open Lolly.Url Lolly.UrlParseProps

/-! ## Lemmas -/

theorem dollar_clean {x : Bytes} (hx : c! '/' ∉ x ∧ c! ':' ∉ x) : c! '/' ∉ (c! '$') :: x ∧ c! ':' ∉ (c! '$') :: x :=
  ⟨fun e => by rcases List.mem_cons.1 e with e | e; exact absurd e (by decide); exact hx.1 e,
   fun e => by rcases List.mem_cons.1 e with e | e; exact absurd e (by decide); exact hx.2 e⟩

theorem text_slash (ns : List Bytes) (hne : ns ≠ []) : text (ns ++ [[]]) = text ns ++ (b!"/") := by
  induction ns with
  | nil => exact absurd rfl hne
  | cons x ns ih =>
    by_cases hn : ns = []
    · subst hn; simp [text, An.join]
    · rw [List.cons_append, text_cons _ _ (by simp), text_cons _ _ hn, ih hn]; simp

/-- A `/` at the end gives an empty component. -/
theorem components_slash (pre : Bytes) (ns : List Bytes) (h : ∀ x ∈ ns, x ≠ [] ∧ c! '/' ∉ x) (hne : ns ≠ []) :
    components (pre ++ text (ns ++ [[]])) pre.length = ns ++ [[]] := by
  induction ns generalizing pre with
  | nil => exact absurd rfl hne
  | cons x ns ih =>
    obtain ⟨hx, hs⟩ := h x (by simp)
    have hpos : 0 < x.length := List.length_pos_iff.2 hx
    have e : pre ++ text ((x :: ns) ++ [[]]) = pre ++ x ++ ((b!"/") ++ text (ns ++ [[]])) := by
      rw [List.cons_append, text_cons _ _ (by simp)]; simp
    rw [e, components, if_pos (by simp; omega), nextSlash_name pre x _ hs (.inr rfl)]
    dsimp only
    rw [if_pos (by omega)]
    show _ :: _ = x :: (ns ++ [[]])
    congr 1
    · rw [An.sub_nat]; simp [List.take_append]
    · have hsep : nextSep (c! '/') (pre ++ x ++ ((b!"/") ++ text (ns ++ [[]]))) (pre.length + x.length) = pre.length + x.length := by
        have := nextSlash_name (pre ++ x) [] ((b!"/") ++ text (ns ++ [[]])) (by simp) (.inr rfl)
        simpa using this
      rw [components, if_pos (by simp), hsep]
      dsimp only
      rw [if_neg (by omega)]
      by_cases hn : ns = []
      · subst hn
        rw [if_pos (by simp [text, An.join]; omega)]; rfl
      · have htl : 0 < (text (ns ++ [[]])).length := by rw [text_slash ns hn]; simp
        rw [if_neg (by simp; omega)]
        have e2 : pre ++ x ++ ((b!"/") ++ text (ns ++ [[]])) = (pre ++ x ++ (b!"/")) ++ text (ns ++ [[]]) := by simp
        have : pre.length + x.length + 1 = (pre ++ x ++ (b!"/")).length := by simp; omega
        rw [e2, this, ih (pre ++ x ++ (b!"/")) (fun y hy => h y (by simp [hy])) hn]

/-- The path with an empty component at the end. -/
def open' (ns : List Bytes) : Url := P (ns.map .atom ++ [.atom []])

theorem open'_cons (x : Bytes) (ns : List Bytes) : open' (x :: ns) = .concat (.atom x) (open' ns) := by
  unfold open'
  rw [List.map_cons, List.cons_append, P_cons _ _ (by simp)]

theorem getAtoms_snoc (env : Env) (gen : Bytes → Res Url) (type : Nat) (ns : List Bytes) (h : ∀ x ∈ ns, Name x) :
    getAtoms env gen type (ns ++ [[]]) = .ok (ns.map elemOf ++ [.atom []]) := by
  induction ns with
  | nil => rfl
  | cons x ns ih =>
    have hx := h x (by simp)
    rw [List.cons_append, getAtoms, if_neg hx.nonempty, getAtom_name env gen type hx, Res.ok_bind,
      ih fun y hy => h y (by simp [hy])]
    rfl

theorem assemble_open (ns : List Bytes) (h : ∀ x ∈ ns, Plain x) :
    assemble (ns.map .atom ++ [.atom []]) = .ok (open' ns) := by
  induction ns with
  | nil => rfl
  | cons x ns ih =>
    have e := ih fun y hy => h y (by simp [hy])
    have hx := h x (by simp)
    rw [List.map_cons, List.cons_append, assemble, e, Res.ok_bind, addFront, if_neg, if_pos (show isAtomic (.atom _) = true from rfl), open'_cons]
    · simp only [isAtom_here, isAtom_empty, here, Url.atom.injEq, Bool.or_eq_true, decide_eq_true_eq, not_or]
      exact ⟨hx.not_here, hx.nonempty⟩
    · simp

theorem atom_ne {x : Bytes} (hx : Plain x) : Url.atom x ≠ parent := fun e => by
  injection e with e; exact hx.not_parent e

theorem mul_root_open (x : Bytes) (ns : List Bytes) (hx : Plain x) :
    mul (.root (b!"default")) (open' (x :: ns)) = .ok (.concat (.root (b!"default")) (open' (x :: ns))) := by
  have h1 : topRoot (open' (x :: ns)) = false := by rw [open'_cons]; rfl
  have h2 : parentFirst (open' (x :: ns)) = false := by
    rw [open'_cons]; simp [parentFirst, isAtom_parent, atom_ne hx]
  rw [mul_plain _ _ h1, if_neg (by simp [isAtom]), if_neg (by rw [open'_cons]; simp [isAtom]),
    if_neg (by rw [open'_cons]; simp [isNone]), if_neg (by rw [open'_cons]; simp [isAtom]),
    if_neg (by rw [open'_cons]; simp [isAtom]), if_neg (by rw [open'_cons]; simp [isAtom]),
    if_neg (by simp [h2]), if_neg (by simp [h2]), if_neg (by simp [h2])]

/-- Reading an absolute path with `/` at the end. -/
theorem general_open (env : Env) (f type : Nat) (x : Bytes) (hs : List Bytes) (h : ∀ y ∈ x :: hs, Plain y) :
    general env (f + 1) type ((b!"/") ++ text (x :: hs) ++ (b!"/")) =
      .ok (.concat (.root (b!"default")) (open' (x :: hs))) := by
  have hn : ∀ y ∈ x :: hs, y ≠ [] ∧ c! '/' ∉ y := fun y hy => ⟨(h y hy).nonempty, (h y hy).no_slash⟩
  have hcol : c! ':' ∉ text (x :: hs) := colon_not_in_text fun y hy => (h y hy).no_colon
  rw [List.append_assoc, ← text_slash _ (by simp)]
  have hcol2 : c! ':' ∉ (b!"/") ++ text ((x :: hs) ++ [[]]) := by
    rw [text_slash _ (by simp)]; simp [hcol]
  have hprot : ∀ q, ¬ An.OccursAt (b!"://") ((b!"/") ++ text ((x :: hs) ++ [[]])) q := by
    rintro q ⟨a, b, e, _⟩
    exact hcol2 (by rw [e]; simp)
  have hhead : (text ((x :: hs) ++ [[]])).head? ≠ some (c! '/') := by
    rw [text_slash _ (by simp)]
    have := head_text hn
    cases ht : text (x :: hs) with
    | nil => exact absurd ht (text_ne_nil (fun y hy => (hn y hy).1) (by simp))
    | cons c t => rw [ht] at this; simpa using this
  have hdbl : (b!"//").isPrefixOf ((b!"/") ++ text ((x :: hs) ++ [[]])) = false := by
    cases ht : text ((x :: hs) ++ [[]]) with
    | nil => rfl
    | cons c t =>
      rw [ht] at hhead
      simp only [List.head?_cons, ne_eq, Option.some.injEq] at hhead
      simp [List.isPrefixOf, Ne.symm hhead]
  have hsep : nextSep (c! '/') ((b!"/") ++ text ((x :: hs) ++ [[]])) 0 = 0 :=
    nextSlash _ 0 0 (by omega) (by omega) (fun k _ hk => by omega) (.inr rfl)
  have hl : 0 < (text ((x :: hs) ++ [[]])).length := by rw [text_slash _ (by simp)]; simp
  have hcomp : components ((b!"/") ++ text ((x :: hs) ++ [[]])) 0 = (x :: hs) ++ [[]] := by
    rw [components, if_pos (by simp), hsep]
    dsimp only
    rw [if_neg (by omega), if_neg (by simp only [List.length_append, List.length_singleton]; omega)]
    exact components_slash (b!"/") (x :: hs) hn (by simp)
  rw [general_plain _ _ _ _ hprot]
  unfold withoutProtocol
  simp only [starts_eq, Res.ok_bind, isPath_false hcol2, hdbl]
  rw [not_prefix_of_not_mem (c! ':') (by decide) hcol2, if_neg (by simp), if_neg (by simp), if_neg (by simp), if_pos (by simp),
    urlDefault, getName, hcomp, getAtoms_snoc env _ type _ fun y hy => (h y hy).toName, Res.ok_bind, elems h,
    assemble_open _ h, Res.ok_bind, if_neg (by rw [open'_cons]; simp [isAtom]),
    mul_root_open x hs (h x (by simp))]

/-- Removing the empty component. -/
theorem unblank_open (x : Bytes) (ns : List Bytes) (h : ∀ y ∈ x :: ns, Plain y) :
    unblank (open' (x :: ns)) = .ok (relative (x :: ns)) := by
  induction ns generalizing x with
  | nil => rfl
  | cons y ns ih =>
    have he := elem_atoms h
    rw [open'_cons, unblank, if_neg (by rw [open'_cons]; simp [isAtom]), ih y fun z hz => h z (by simp [hz]), Res.ok_bind]
    have := mul_P (l1 := [.atom x]) (l2 := (y :: ns).map .atom) (fun z hz => (he z (by simp at hz; simp [hz])).1)
      (fun z hz => (he z (by rw [List.map_cons]; exact List.mem_cons_of_mem _ hz)).1) (by simp)
    rw [relative, show Url.atom x = P [.atom x] from rfl, this]
    show Res.ok (P (push (.atom x) ((y :: ns).map .atom))) = _
    rw [List.map_cons, push, if_neg (fun e => atom_ne (h y (by simp)) e.1)]; rfl

theorem mul_open (ns ms : List Bytes) (h : ∀ y ∈ ns, Plain y) (hm : ∀ y ∈ ms, Plain y) (hne : ms ≠ []) :
    mul (open' ns) (relative ms) = .ok (relative (ns ++ ms)) := by
  have em : ∀ z ∈ ms.map Url.atom, Elem z := fun z hz => (elem_atoms hm z hz).1
  have t1 : topRoot (relative ms) = false := topRoot_P em
  have t2 : relative ms ≠ here := fun e => hne (by simpa using P_eq_here em e)
  have t3 : relative ms ≠ .none := P_ne_none em
  induction ns with
  | nil =>
    rw [show open' [] = .atom [] from rfl, mul_plain _ _ t1, if_pos (by decide)]; rfl
  | cons x ns ih =>
    have hx := h x (by simp)
    rw [open'_cons, mul_concat t1 t2 t3 (.inl rfl), ih fun y hy => h y (by simp [hy]), Res.ok_bind]
    have hall : ∀ y ∈ x :: (ns ++ ms), Plain y := by
      intro y hy
      rcases List.mem_cons.1 hy with rfl | hy
      · exact hx
      · rcases List.mem_append.1 hy with hy | hy
        · exact h y (by simp [hy])
        · exact hm y hy
    have he := elem_atoms hall
    obtain ⟨z, l, hzl⟩ : ∃ z l, ns ++ ms = z :: l := by
      cases hnm : ns ++ ms with
      | nil => simp at hnm; exact absurd hnm.2 hne
      | cons z l => exact ⟨z, l, rfl⟩
    rw [relative, mul_elem (x := .atom x) (he _ (by simp)).1
      (fun w hw => (he w (by rw [List.map_cons]; exact List.mem_cons_of_mem _ hw)).1), relative, List.cons_append, hzl,
      List.map_cons, List.map_cons, push, if_neg (fun e => atom_ne (hall z (by rw [hzl]; simp)) e.1)]
    rfl

/-! ## C106 -/

/-- C106: a `/` at the end of the value makes no difference for what is written behind `$X` or `~`. -/
theorem C106_slash_partial (env : Env) (f type : Nat) (ht : type < 2) (x : Bytes) (hx : c! '/' ∉ x ∧ c! ':' ∉ x)
    (hs ns : List Bytes) (hne : hs ≠ []) (h1 : ∀ x ∈ hs, Plain x) (h2 : ∀ x ∈ ns, Plain x) :
    (env x = (b!"/") ++ text hs ++ (b!"/") →
      general env (f + 2) type (text (((c! '$') :: x) :: ns)) = .ok (absolute (hs ++ ns))) ∧
    (env (b!"HOME") = (b!"/") ++ text hs ++ (b!"/") → ns ≠ [] →
      general env (f + 2) type (text ((b!"~") :: ns)) = .ok (absolute (hs ++ ns))) := by
  obtain ⟨y, hs, rfl⟩ : ∃ y l, hs = y :: l := by
    cases hs with
    | nil => exact absurd rfl hne
    | cons y l => exact ⟨y, l, rfl⟩
  have he := elem_atoms h1
  constructor
  · intro e
    rw [general_special env (f + 1) type ((c! '$') :: x) (c! '$') rfl (by decide) (dollar_clean hx) ns h2,
      getAtom_var env _ type ht, e, if_neg (by simp), general_open env f 0 y hs h1, Res.ok_bind, unblank,
      if_neg (by rw [open'_cons]; simp [isAtom]), unblank_open y hs h1, Res.ok_bind, relative,
      mul_root_P _ (fun z hz => (he z hz).1), strip_eq_self, Res.ok_bind]
    · exact addFront_absolute (y :: hs) ns h1 h2
    · intro e
      exact (he _ (List.mem_of_mem_head? e)).2 rfl
  · intro e hn
    have em : ∀ z ∈ ns.map Url.atom, Elem z := fun z hz => (elem_atoms h2 z hz).1
    have t1 : topRoot (relative ns) = false := topRoot_P em
    have t2 : relative ns ≠ here := fun e => hn (by simpa using P_eq_here em e)
    have t3 : relative ns ≠ .none := P_ne_none em
    have hall : ∀ z ∈ (y :: hs) ++ ns, Plain z := by
      intro z hz
      rcases List.mem_append.1 hz with hz | hz
      · exact h1 z hz
      · exact h2 z hz
    have ea := elem_atoms hall
    rw [general_special env (f + 1) type (b!"~") (c! '~') rfl (by decide) (by decide) ns h2, getAtom, if_pos ⟨ht, rfl⟩, e,
      general_open env f 0 y hs h1, Res.ok_bind, if_neg hn, addFront, if_neg (by simp [isAtom]), if_neg (by simp [isAtomic]),
      mul_concat t1 t2 t3 (.inl (by simp [isSemiRoot, isSpecialRoot, isRootWeb, isRootS])), mul_open _ ns h1 h2 hn, Res.ok_bind, relative,
      mul_root_P _ (fun z hz => (ea z hz).1), strip_eq_self]
    · rfl
    · intro e
      exact (ea _ (List.mem_of_mem_head? e)).2 rfl

/-- `HOME=/home/u/`. -/
example : (b!"/") ++ text [b!"home", b!"u"] ++ (b!"/") = (b!"/home/u/") ∧ text ((b!"~") :: [b!"a"]) = (b!"~/a") := by decide

/-- C106: relative values. -/
theorem C106_relative_partial (env : Env) (f type : Nat) (ht : type < 2) (x : Bytes) (hx : c! '/' ∉ x ∧ c! ':' ∉ x)
    (hs ns : List Bytes) (hne : hs ≠ []) (h1 : ∀ x ∈ hs, Plain x) (h2 : ∀ x ∈ ns, Plain x)
    (hw : ¬ (b!"www.") <+: text hs) (hf : ¬ (b!"ftp.") <+: text hs) (e : env x = text hs) :
    general env (f + 2) type (text (((c! '$') :: x) :: ns)) = .ok (relative (hs ++ ns)) := by
  have he := elem_atoms h1
  have em := elem_atoms h2
  have hmap : hs.map Url.atom ≠ [] := by simpa using hne
  rw [general_special env (f + 1) type ((c! '$') :: x) (c! '$') rfl (by decide) (dollar_clean hx) ns h2,
    getAtom_var env _ type ht, e, if_neg (text_ne_nil (fun y hy => (h1 y hy).nonempty) hne),
    (C48_relative_partial env f 0 hs hne (fun y hy => (h1 y hy).toName) (fun y hy => (h1 y hy).no_colon)
      (fun y hy => (h1 y (List.dropLast_subset _ hy)).no_star) hw hf).2, Res.ok_bind, elems h1, unblank_P _ hmap he, Res.ok_bind]
  by_cases hn : ns = []
  · rw [if_pos hn, hn, List.append_nil]; rfl
  · rw [if_neg hn]
    have hmul : mul (P (hs.map .atom)) (relative ns) = .ok (relative (hs ++ ns)) := by
      rw [relative, mul_P (fun z hz => (he z hz).1) (fun z hz => (em z hz).1) (by simpa using hn),
        joinL_disjoint (normal_of_no_parent fun hm => (he _ hm).2 rfl)
          (fun e => (em _ (List.mem_of_mem_head? e)).2 rfl) (by simpa using hn), relative, List.map_append]
    obtain ⟨y, hs, rfl⟩ : ∃ y l, hs = y :: l := by
      cases hs with
      | nil => exact absurd rfl hne
      | cons y l => exact ⟨y, l, rfl⟩
    cases hs with
    | nil =>
      have hy := h1 y (by simp)
      rw [show P ([y].map Url.atom) = .atom y from rfl, addFront, if_neg, if_pos (show isAtomic (.atom _) = true from rfl)]
      · show _ = Res.ok (P (Url.atom y :: ns.map Url.atom))
        rw [P_cons _ _ (by simpa using hn)]; rfl
      simp only [isAtom_here, isAtom_empty, here, Url.atom.injEq, Bool.or_eq_true, decide_eq_true_eq, not_or]
      exact ⟨hy.not_here, hy.nonempty⟩
    | cons z hs =>
      rw [addFront, if_neg (by simp [P, isAtom]), if_neg (by simp [P, isAtomic])]
      exact hmul

/-- `$X/c` for the value `a/b`. -/
example : text (((c! '$') :: (b!"X")) :: [b!"c"]) = (b!"$X/c") ∧ text [b!"a", b!"b"] = (b!"a/b") ∧ ¬ (b!"www.") <+: text [b!"a", b!"b"] := by
  decide

/-- C106, any value: it is read as a path of the system, a `/` at its end is removed, and the names that follow are put behind it. -/
theorem C106_any (env : Env) (f type : Nat) (ht : type < 2) (x : Bytes) (hx : c! '/' ∉ x ∧ c! ':' ∉ x)
    (ns : List Bytes) (h : ∀ x ∈ ns, Plain x) (hne : env x ≠ []) :
    general env (f + 1) type (text (((c! '$') :: x) :: ns)) =
      ((general env f 0 (env x) >>= unblank) >>= fun u => if ns = [] then .ok u else addFront u (relative ns)) := by
  rw [general_special env f type ((c! '$') :: x) (c! '$') rfl (by decide) (dollar_clean hx) ns h,
    getAtom_var env _ type ht, if_neg hne]

/-- C106 fails for variables that refer to themselves, directly or through others in the set `C`: reading the url does not end,
however many calls are allowed. -/
theorem C106_cycle_violated (env : Env) (C : Bytes → Prop) (hC : ∀ x, C x → c! '/' ∉ x ∧ c! ':' ∉ x)
    (h : ∀ x, C x → ∃ y ns, C y ∧ (∀ z ∈ ns, Plain z) ∧ env x = text (((c! '$') :: y) :: ns))
    (f type : Nat) (ht : type < 2) (x : Bytes) (hx : C x) (ms : List Bytes) (hm : ∀ z ∈ ms, Plain z) :
    general env f type (text (((c! '$') :: x) :: ms)) = .hang := by
  induction f generalizing type x ms with
  | zero => rfl
  | succ f ih =>
    obtain ⟨y, ns, hy, hns, e⟩ := h x hx
    have hne : env x ≠ [] := by
      rw [e]
      exact text_ne_nil (fun z hz => by
        rcases List.mem_cons.1 hz with rfl | hz
        · simp
        · exact (hns z hz).nonempty) (by simp)
    rw [C106_any env f type ht x (hC x hx) ms hm hne, e, ih 0 (by decide) y hy ns hns]
    rfl

/-- `X=$Y/a` and `Y=$X`. -/
example : ∃ (env : Env) (C : Bytes → Prop), C (b!"X") ∧ C (b!"Y") ∧ (∀ x, C x → c! '/' ∉ x ∧ c! ':' ∉ x) ∧
    ∀ x, C x → ∃ y ns, C y ∧ (∀ z ∈ ns, Plain z) ∧ env x = text (((c! '$') :: y) :: ns) := by
  refine ⟨fun v => if v = (b!"X") then (b!"$Y/a") else (b!"$X"), fun x => x = (b!"X") ∨ x = (b!"Y"), .inl rfl, .inr rfl, ?_, ?_⟩
  · rintro x (rfl | rfl) <;> decide
  · rintro x (rfl | rfl)
    · refine ⟨b!"Y", [b!"a"], .inr rfl, ?_, by decide⟩
      intro z hz
      simp only [List.mem_singleton] at hz
      subst hz
      exact ⟨⟨by decide, by decide, by decide, by decide, by decide⟩, by decide, by decide, by decide⟩
    · exact ⟨b!"X", [], .inl rfl, by simp, by decide⟩

/-- C106 fails for `HOME=~`, and `HOME=~/a` and so on. -/
theorem C106_home_violated (env : Env) (ns : List Bytes) (hns : ∀ z ∈ ns, Plain z) (he : env (b!"HOME") = text ((b!"~") :: ns))
    (f type : Nat) (ht : type < 2) (ms : List Bytes) (hm : ∀ z ∈ ms, Plain z) :
    general env f type (text ((b!"~") :: ms)) = .hang := by
  induction f generalizing type ms with
  | zero => rfl
  | succ f ih =>
    rw [general_special env f type (b!"~") (c! '~') rfl (by decide) (by decide) ms hm, getAtom, if_pos ⟨ht, rfl⟩, he,
      ih 0 (by decide) ns hns]
    rfl

end Lolly.UrlHomeProps
