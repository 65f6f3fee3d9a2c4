import Verif.System.UrlLemmas

set_option autoImplicit false

/-!
# C46, C47, C79: concatenation of urls, head and tail

A path is given by its components (`P` for relative paths, `R r` for paths with root `r`).
-/

namespace Lolly.UrlProps
open Lolly.Url

/-! ## C46: the laws of concatenation -/

/-- `u * url_here == u` unless `u` is the empty name, `url_here * u == u`, and the product with the invalid url is
invalid, except that a rooted second factor does not look at the first. -/
theorem C46_units (u : Url) : mul here u = .ok u ∧ (u ≠ .atom [] → mul u here = .ok u) ∧
    mul u .none = .ok .none ∧ (topRoot u = false → mul .none u = .ok .none) := by
  refine ⟨mul_here_left u, mul_here_right, ?_, fun h => ?_⟩
  · rw [mul_plain _ _ rfl]
    split
    · rfl
    · rw [if_neg (by decide), if_pos (by simp [isNone_eq])]
  · rw [mul_plain _ _ h, if_neg (by decide)]
    split
    · rfl
    · rw [if_pos (by simp [isNone_eq])]

example : topRoot (.concat (.atom (b!"a")) (.atom (b!"b"))) = false := by decide

/-- A rooted second factor replaces the first factor, unless that is a web url or the bare root `file`. -/
theorem C46_absorb (u1 u2 : Url) (h2 : topRoot u2 = true) (hf : isRootS u1 (b!"file") = false)
    (hw : ∀ a b, u1 = .concat a b → isRootWeb a = false) : mul u1 u2 = .ok u2 := by
  rw [mul.eq_def, if_pos h2, if_neg (by simp [hf])]
  cases u1 with
  | concat a b => simp [hw a b rfl]
  | _ => rfl

example : mul (P [.atom (b!"a"), .atom (b!"b")]) (R (b!"default") [.atom (b!"c")]) =
    .ok (R (b!"default") [.atom (b!"c")]) :=
  C46_absorb _ _ rfl rfl (by intro a b h; injection h with h1 h2; rw [← h1]; decide)

/-- If the first factor is a web url, an absolute path keeps its protocol and host, and a url without protocol
(`//host/path`) keeps its protocol. -/
theorem C46_web (p s : Bytes) (hp : webProtocol p = true) (hs : Elem (.atom s)) (hs' : Url.atom s ≠ parent)
    (l l2 : List Url) (h2 : ∀ y ∈ l2, Elem y) :
    mul (R p (.atom s :: l)) (R (b!"default") l2) = .ok (R p (.atom s :: strip l2)) ∧
    mul (R p (.atom s :: l)) (R (b!"blank") l2) = .ok (R p (strip l2)) := by
  have hw : isRootWeb (.root p) = true := by rw [isRootWeb_root]; exact hp
  have hm : mulWebRoot (.root p) (leftmost (P (.atom s :: l))) = R p [.atom s] := by
    rw [leftmost_P l hs, mulWebRoot, if_neg (by simp [isRoot]), if_neg hs.2.1, if_neg (by simp), if_neg hs']
    simp [R, P]
  rw [R_cons p _ (by simp)]
  by_cases h : l2 = []
  · subst h
    rw [R_nil, R_nil]
    constructor
    · rw [mul.eq_def, if_pos (show topRoot _ = true from rfl), if_neg (by simp [isRootS])]
      simp only [hw, hm, topRootS, isRootS, Bool.true_and]
      rfl
    · rw [mul.eq_def, if_pos (show topRoot _ = true from rfl), if_neg (by simp [isRootS])]
      simp only [hw, topRootS, isRootS, Bool.true_and]
      rfl
  · rw [R_cons _ _ h, R_cons _ _ h]
    constructor
    · rw [mul.eq_def, if_pos (show topRoot _ = true from rfl), if_neg (by simp [isRootS])]
      simp only [hw, hm, topRootS, isRootS, Bool.true_and]
      exact mul_semi hp hs hs' h2
    · rw [mul.eq_def, if_pos (show topRoot _ = true from rfl), if_neg (by simp [isRootS])]
      simp only [hw, topRootS, isRootS, Bool.true_and, rootName]
      exact mul_root_P p h2

example : mul (R (b!"http") [.atom (b!"gnu.org"), .atom (b!"a")]) (R (b!"default") [.atom (b!"b")]) =
    .ok (R (b!"http") [.atom (b!"gnu.org"), .atom (b!"b")]) :=
  (C46_web _ _ (by decide) (by decide) (by decide) _ _ (by decide)).1

/-- The product of two paths leads where one comes when one follows the one and then the other; it contains no
name followed by `..` if the factors do not. -/
theorem C46_walk (l1 l2 : List Url) (h1 : ∀ y ∈ l1, Elem y) (h2 : ∀ y ∈ l2, Elem y) :
    ∃ l, mul (P l1) (P l2) = .ok (P l) ∧ (∀ y ∈ l, Elem y) ∧ (∀ d, walk d l = walk (walk d l1) l2) ∧
      (Normal l1 → Normal l2 → Normal l) := by
  by_cases h : l2 = []
  · subst h
    refine ⟨l1, mul_here_right (P_ne_empty h1), h1, fun d => ?_, fun h _ => h⟩
    simp [walk]
  · exact ⟨joinL l1 l2, mul_P h1 h2 h, elem_joinL h1 h2, fun d => walk_joinL d l1 l2, fun _ hn => normal_joinL hn⟩

/-- The same for an absolute first path, from the top; the product contains no `..` if the first path contains none
and the second no name followed by `..`. -/
theorem C46_walk_rooted (r : Bytes) (hr : webProtocol r = false) (l1 l2 : List Url) (h1 : ∀ y ∈ l1, Elem y)
    (h2 : ∀ y ∈ l2, Elem y) : ∃ l, mul (R r l1) (P l2) = .ok (R r l) ∧ (∀ y ∈ l, Elem y) ∧
      walk [] l = walk (walk [] l1) l2 ∧ (parent ∉ l1 → Normal l2 → parent ∉ l) := by
  by_cases h : l2 = []
  · subst h
    refine ⟨l1, mul_here_right ?_, h1, by simp [walk], fun h _ => h⟩
    unfold R; split <;> simp
  · refine ⟨_, mul_R_P hr h1 h2 h, elem_strip (elem_joinL h1 h2), ?_, fun _ hn => ?_⟩
    · rw [walk_strip, walk_joinL]
    · exact normal_no_parent (normal_strip (normal_joinL hn)) (head_strip _)

example : ∃ l, mul (R (b!"default") [.atom (b!"a"), .atom (b!"b")]) (P [parent, parent, parent, .atom (b!"c")]) =
      .ok (R (b!"default") l) ∧ l = [.atom (b!"c")] :=
  ⟨_, mul_R_P (by decide) (by decide) (by decide) (by simp), by decide⟩

/-- Concatenation of paths is associative, if the first one contains no name followed by `..`. -/
theorem C46_assoc (l1 l2 l3 : List Url) (h1 : ∀ y ∈ l1, Elem y) (h2 : ∀ y ∈ l2, Elem y) (h3 : ∀ y ∈ l3, Elem y)
    (hn : Normal l1) : ∃ l m u, mul (P l1) (P l2) = .ok l ∧ mul (P l2) (P l3) = .ok m ∧
      mul l (P l3) = .ok u ∧ mul (P l1) m = .ok u := by
  by_cases e2 : l2 = []
  · subst e2
    obtain ⟨l, e, _⟩ := C46_walk l1 l3 h1 h3
    exact ⟨P l1, P l3, P l, mul_here_right (P_ne_empty h1), mul_here_left _, e, e⟩
  by_cases e3 : l3 = []
  · subst e3
    refine ⟨_, P l2, _, mul_P h1 h2 e2, mul_here_right (P_ne_empty h2), mul_here_right ?_, mul_P h1 h2 e2⟩
    exact P_ne_empty (elem_joinL h1 h2)
  refine ⟨_, _, P (joinL (joinL l1 l2) l3), mul_P h1 h2 e2, mul_P h2 h3 e3, mul_P (elem_joinL h1 h2) h3 e3, ?_⟩
  by_cases e : joinL l2 l3 = []
  · rw [e]
    show mul (P l1) here = _
    rw [mul_here_right (P_ne_empty h1), joinL_assoc, e, joinL_nil_of_normal hn]
  · rw [mul_P h1 (elem_joinL h2 h3) e, joinL_assoc]

/-- The same for an absolute first path without `..`. -/
theorem C46_assoc_rooted (r : Bytes) (hr : webProtocol r = false) (l1 l2 l3 : List Url) (h1 : ∀ y ∈ l1, Elem y)
    (h2 : ∀ y ∈ l2, Elem y) (h3 : ∀ y ∈ l3, Elem y) (hn : parent ∉ l1) :
    ∃ l m u, mul (R r l1) (P l2) = .ok l ∧ mul (P l2) (P l3) = .ok m ∧
      mul l (P l3) = .ok u ∧ mul (R r l1) m = .ok u := by
  have ne : ∀ l, R r l ≠ .atom [] := fun l => by unfold R; split <;> simp
  by_cases e2 : l2 = []
  · subst e2
    obtain ⟨l, e, _⟩ := C46_walk_rooted r hr l1 l3 h1 h3
    exact ⟨R r l1, P l3, _, mul_here_right (ne _), mul_here_left _, e, e⟩
  by_cases e3 : l3 = []
  · subst e3
    exact ⟨_, P l2, _, mul_R_P hr h1 h2 e2, mul_here_right (P_ne_empty h2), mul_here_right (ne _), mul_R_P hr h1 h2 e2⟩
  refine ⟨_, _, R r (strip (joinL (joinL l1 l2) l3)), mul_R_P hr h1 h2 e2, mul_P h2 h3 e3, ?_, ?_⟩
  · rw [mul_R_P hr (elem_strip (elem_joinL h1 h2)) h3 e3, strip_joinL_strip]
  · by_cases e : joinL l2 l3 = []
    · rw [e]
      show mul (R r l1) here = _
      rw [mul_here_right (ne _), joinL_assoc, e, joinL_nil_of_normal (normal_of_no_parent hn), strip_eq_self]
      intro hh
      exact hn (List.mem_of_mem_head? hh)
    · rw [mul_R_P hr h1 (elem_joinL h2 h3) e, joinL_assoc]

/-- Exactly when the law holds: it fails only if the first path contains a name followed by `..` and the other two, none
of them the current directory, cancel each other. -/
theorem C46_assoc_exact (l1 l2 l3 : List Url) (h1 : ∀ y ∈ l1, Elem y) (h2 : ∀ y ∈ l2, Elem y) (h3 : ∀ y ∈ l3, Elem y) :
    (do let l ← mul (P l1) (P l2); mul l (P l3)) = (do let m ← mul (P l2) (P l3); mul (P l1) m) ↔
      Normal l1 ∨ l2 = [] ∨ l3 = [] ∨ mul (P l2) (P l3) ≠ .ok here := by
  by_cases e2 : l2 = []
  · subst e2
    refine ⟨fun _ => .inr (.inl rfl), fun _ => ?_⟩
    have a : mul (P l1) (P []) = .ok (P l1) := mul_here_right (P_ne_empty h1)
    have b : mul (P []) (P l3) = .ok (P l3) := mul_here_left _
    rw [a, b, Res.ok_bind, Res.ok_bind]
  by_cases e3 : l3 = []
  · subst e3
    refine ⟨fun _ => .inr (.inr (.inl rfl)), fun _ => ?_⟩
    have b : mul (P l2) (P []) = .ok (P l2) := mul_here_right (P_ne_empty h2)
    have c : mul (P (joinL l1 l2)) (P []) = .ok (P (joinL l1 l2)) := mul_here_right (P_ne_empty (elem_joinL h1 h2))
    rw [mul_P h1 h2 e2, b, Res.ok_bind, Res.ok_bind, c, mul_P h1 h2 e2]
  rw [mul_P h1 h2 e2, mul_P h2 h3 e3, Res.ok_bind, Res.ok_bind, mul_P (elem_joinL h1 h2) h3 e3, joinL_assoc]
  by_cases e : joinL l2 l3 = []
  · rw [e]
    have a : mul (P l1) (P []) = .ok (P l1) := mul_here_right (P_ne_empty h1)
    rw [a]
    constructor
    · intro h
      injection h with h
      have := P_inj (elem_joinL h1 (by simp)) h1 h
      exact .inl (this ▸ normal_joinL (l := l1) (m := []) (by simp [Normal]))
    · rintro (h | h | h | h)
      · rw [joinL_nil_of_normal h]
      · exact absurd h e2
      · exact absurd h e3
      · exact absurd rfl h
  · rw [mul_P h1 (elem_joinL h2 h3) e]
    refine ⟨fun _ => .inr (.inr (.inr fun h => e ?_)), fun _ => rfl⟩
    injection h with h
    exact P_eq_here (elem_joinL h2 h3) h

/-- Without the condition on the first path the law fails: `((x/..)/a)/.. ≠ (x/..)/(a/..)`, for every first path with a
name followed by `..` in place of `x/..` and every name `a`. -/
theorem C46_assoc_violated (l : List Url) (a : Url) (h : ∀ y ∈ l, Elem y) (hl : ¬ Normal l) (ha : Elem a)
    (hp : a ≠ parent) : (do let u ← mul (P l) a; mul u parent) ≠ (do let v ← mul a parent; mul (P l) v) := by
  have e := C46_assoc_exact l [a] [parent] h (by simpa using ha) (by decide)
  intro c
  rcases e.1 c with k | k | k | k
  · exact hl k
  · cases k
  · cases k
  · refine k ((mul_P (l1 := [a]) (l2 := [parent]) (by simpa using ha) (by decide) (by simp)).trans ?_)
    simp [joinL, push, hp, P]

example : ¬ Normal [.atom (b!"x"), parent] ∧ ∀ y ∈ [Url.atom (b!"x"), parent], Elem y :=
  ⟨by simp [Normal, parent], by decide⟩

/-- The urls made from names, roots and wildcards by the operations on urls. -/
inductive Made : Url → Prop
  | atom (s : Bytes) : Made (.atom s)
  | none : Made .none
  | root (p : Bytes) : Made (.root p)
  | ramdisc (c : Bytes) : Made (.root3 (b!"ramdisc") c)
  | wild0 : Made .wild0
  | wild1 (s : Bytes) : Made (.wild1 s)
  | mul {u v r : Url} : Made u → Made v → Url.mul u v = .ok r → Made r
  | alt {u v : Url} : Made u → Made v → Made (Url.alt u v)
  | tail {u : Url} : Made u → Made (Url.tail u)
  | reroot {u r : Url} (p : Bytes) : Made u → Url.reroot p u = .ok r → Made r
  | unroot {u r : Url} : Made u → Url.unroot u = .ok r → Made r
  | unblank {u r : Url} : Made u → Url.unblank u = .ok r → Made r
  | glue {u r : Url} (s : Bytes) : Made u → Url.glue s u = .ok r → Made r
  | unglue {u r : Url} (n : Int) : Made u → Url.unglue n u = .ok r → Made r

theorem good_of_made {u : Url} (h : Made u) : Good u := by
  induction h with
  | ramdisc c => exact rfl
  | mul _ _ e ih1 ih2 => exact mul_ok_good ih1 ih2 e
  | alt _ _ ih1 ih2 => exact alt_good _ _ ih1 ih2
  | tail _ ih => exact tail_good ih
  | reroot p _ e ih => exact reroot_good ih e
  | unroot _ e ih => exact unroot_good ih e
  | unblank _ e ih => exact unblank_good ih e
  | glue s _ e ih => exact glue_good ih e
  | unglue n _ e ih => exact unglue_good ih e
  | _ => trivial

/-- In every url made by the operations, concatenations nest to the right and only the first component is a
root. -/
theorem C46_shape (a b : Url) (h : Made (.concat a b)) : isConcat a = false ∧ topRoot b = false :=
  (good_of_made h).2.2

/-- The product of two such urls is defined exactly if it is not the product of the bare root `file` with a bare
root. -/
theorem C46_total_partial (u v : Url) (hu : Made u) (hv : Made v) :
    (∃ r, mul u v = .ok r) ↔ ¬ (u = .root (b!"file") ∧ ∃ q, v = .root q) := by
  constructor
  · rintro ⟨r, e⟩ ⟨rfl, q, rfl⟩
    rw [mul.eq_def, if_pos (show topRoot _ = true from rfl), if_pos (by decide)] at e
    simp at e
  · intro h
    rcases mul_total u v (good_of_made hu) (good_of_made hv) with ⟨r, e, _⟩ | ⟨_, h'⟩
    · exact ⟨r, e⟩
    · exact absurd h' h

/-- `url_root ("file") * url_root (q)` reads a component that is not there. -/
theorem C46_total_violated (q : Bytes) : mul (.root (b!"file")) (.root q) = .ub := by
  rw [mul.eq_def, if_pos (show topRoot _ = true from rfl), if_pos (by decide)]

/-! ## C79: following a link on a web site -/

/-- From a page of a web site one comes, with a relative path that goes up at most to the top of the site, to a page
of that site: the last `k` components are dropped and the rest of the path is appended. -/
theorem C79_stays_partial (p s : Bytes) (hp : webProtocol p = true) (l m : List Url) (k : Nat)
    (h1 : ∀ y ∈ .atom s :: l, Elem y) (hl : parent ∉ .atom s :: l) (h2 : ∀ y ∈ m, Elem y) (hm : parent ∉ m)
    (hk : k ≤ l.length) (hne : m ≠ []) :
    mul (R p (.atom s :: l)) (P (List.replicate k parent ++ m)) =
      .ok (R p (.atom s :: (l.take (l.length - k) ++ m))) := by
  have h2' : ∀ y ∈ List.replicate k parent ++ m, Elem y := by
    intro y hy
    rcases List.mem_append.1 hy with hy | hy
    · rw [List.eq_of_mem_replicate hy]; exact elem_parent
    · exact h2 y hy
  have hs := h1 (.atom s) (by simp)
  have hs' : Url.atom s ≠ parent := fun e => hl (by simp [← e])
  have hm' : m.head? ≠ some parent := fun e => hm (List.mem_of_mem_head? e)
  cases l with
  | nil =>
    have : k = 0 := by simpa using hk
    subst this
    rw [mul_semi hp hs hs' h2']
    simp [strip_eq_self hm']
  | cons y l =>
    rw [mul_web_P h1 h2' (by simp [hne]), joinL_ups hl k (by simp at hk ⊢; omega)]
    rw [joinL_disjoint _ hm' hne]
    · have e : (List.take ((Url.atom s :: y :: l).length - k) (.atom s :: y :: l)) =
          .atom s :: (y :: l).take ((y :: l).length - k) := by
        have : (Url.atom s :: y :: l).length - k = ((y :: l).length - k) + 1 := by simp at hk ⊢; omega
        rw [this, List.take_succ_cons]
      rw [e, List.cons_append, strip, if_neg hs']
    · exact normal_of_no_parent fun e => hl (List.mem_of_mem_take e)

/-- A path that goes up further leaves the site: its first name becomes the host. With a path after the host this
happens for every such path; `http://host/a` and `../../x` give `http://x`. -/
theorem C79_stays_violated (p s : Bytes) (y : Url) (l m : List Url) (h1 : ∀ z ∈ .atom s :: y :: l, Elem z)
    (hl : parent ∉ .atom s :: y :: l) (h2 : ∀ z ∈ m, Elem z) (hm : parent ∉ m) :
    mul (R p (.atom s :: y :: l)) (P (List.replicate (l.length + 2) parent ++ m)) = .ok (R p m) := by
  have h2' : ∀ y ∈ List.replicate (l.length + 2) parent ++ m, Elem y := by
    intro y hy
    rcases List.mem_append.1 hy with hy | hy
    · rw [List.eq_of_mem_replicate hy]; exact elem_parent
    · exact h2 y hy
  rw [mul_web_P h1 h2' (by simp [List.replicate_succ]), joinL_ups hl _ (by simp)]
  have hm' : m.head? ≠ some parent := fun e => hm (List.mem_of_mem_head? e)
  simp [joinL, strip_eq_self hm']

example : mul (R (b!"http") [.atom (b!"host"), .atom (b!"a")]) (P [parent, parent, .atom (b!"x")]) =
    .ok (R (b!"http") [.atom (b!"x")]) :=
  C79_stays_violated _ _ _ [] _ (by decide) (by decide) (by decide) (by decide)

/-- One step at a time the site is not left. -/
example : mul (R (b!"http") [.atom (b!"host"), .atom (b!"a")]) parent = .ok (R (b!"http") [.atom (b!"host")]) ∧
    mul (R (b!"http") [.atom (b!"host")]) (P [parent, .atom (b!"x")]) =
      .ok (R (b!"http") [.atom (b!"host"), .atom (b!"x")]) :=
  ⟨mul_web_P (l2 := [parent]) (by decide) (by decide) (by simp),
   mul_semi (by decide) (by decide) (by decide) (by decide)⟩

/-! ## C47: head and tail -/

theorem tail_P_snoc (l : List Url) (x : Url) (hl : ∀ y ∈ l, Elem y) (hx : Elem x) : tail (P (l ++ [x])) = x := by
  induction l with
  | nil => cases x <;> simp_all [P, tail, Elem, isPseudoAtomic]
  | cons y l ih =>
    rw [List.cons_append, P_cons _ _ (by simp), tail, if_neg, ih fun z hz => hl z (by simp [hz])]
    have := (hl y (by simp)).not_root
    intro h
    simp at h
    rw [isRootWeb_isRoot h.1] at this
    exact absurd this (by simp)

/-- The head of a relative path is the path without its last name, the tail is the last name, and their product
is the path. -/
theorem C47_path (l : List Url) (x : Url) (hl : ∀ y ∈ l, Elem y) (hx : Elem x) (hn : Normal l) (hp : x ≠ parent) :
    head (P (l ++ [x])) = .ok (P l) ∧ tail (P (l ++ [x])) = x ∧ mul (P l) x = .ok (P (l ++ [x])) := by
  have h' : ∀ y ∈ l ++ [x], Elem y := by
    intro y hy
    rcases List.mem_append.1 hy with hy | hy
    · exact hl y hy
    · simp at hy; exact hy ▸ hx
  refine ⟨?_, tail_P_snoc l x hl hx, ?_⟩
  · show mul _ (P [parent]) = _
    rw [mul_P h' (by decide) (by simp), joinL_append]
    show Res.ok (P (joinL l (push x [parent]))) = _
    simp only [push]
    rw [if_pos ⟨trivial, hp⟩, joinL_nil_of_normal hn]
  · show mul _ (P [x]) = _
    rw [mul_P hl (by simpa using hx) (by simp), joinL_snoc hn hp]

/-- The same for absolute paths, also on the web; there at least the host stays in the head. -/
theorem C47_rooted (r : Bytes) (l : List Url) (x : Url) (hl : ∀ y ∈ l, Elem y) (hx : Elem x) (hn : parent ∉ l)
    (hp : x ≠ parent) (hw : webProtocol r = true → l ≠ []) :
    head (R r (l ++ [x])) = .ok (R r l) ∧ tail (R r (l ++ [x])) = x ∧ mul (R r l) x = .ok (R r (l ++ [x])) := by
  have h' : ∀ y ∈ l ++ [x], Elem y := by
    intro y hy
    rcases List.mem_append.1 hy with hy | hy
    · exact hl y hy
    · simp at hy; exact hy ▸ hx
  have hp' : parent ∉ l ++ [x] := by simp [hn]; exact fun e => hp e.symm
  have hnn := normal_of_no_parent hn
  have e1 : strip (joinL (l ++ [x]) [parent]) = l := by
    rw [joinL_append]
    show strip (joinL l (push x [parent])) = _
    simp only [push]
    rw [if_pos ⟨trivial, hp⟩, joinL_nil_of_normal hnn, strip_eq_self fun e => hn (List.mem_of_mem_head? e)]
  have e2 : strip (joinL l [x]) = l ++ [x] := by
    rw [joinL_snoc hnn hp, strip_eq_self fun e => hp' (List.mem_of_mem_head? e)]
  have et : tail (R r (l ++ [x])) = x := by
    rw [R_cons _ _ (by simp), tail, if_neg, tail_P_snoc l x hl hx]
    intro h
    rw [isRootWeb_root, Bool.and_eq_true] at h
    have hne := hw h.1
    cases l with
    | nil => exact hne rfl
    | cons y l => rw [List.cons_append, P_cons _ _ (by simp)] at h; simp [isAtomic] at h
  refine ⟨?_, et, ?_⟩
  · show mul _ (P [parent]) = _
    by_cases hweb : webProtocol r = true
    · have hne := hw hweb
      match l, hne with
      | [y], _ => rw [List.singleton_append, mul_web_P h' (by decide) (by simp)]; rw [List.singleton_append] at e1; rw [e1]
      | y :: z :: l, _ =>
        rw [List.cons_append, List.cons_append] at h' e1 ⊢
        rw [mul_web_P h' (by decide) (by simp), e1]
    · rw [mul_R_P (by simpa using hweb) h' (by decide) (by simp), e1]
  · show mul _ (P [x]) = _
    by_cases hweb : webProtocol r = true
    · have hne := hw hweb
      match l, hne with
      | [y], _ =>
        rw [R_cons _ _ (by simp), mul_concat (u2 := P [x]) (topRoot_P (by simpa using hx)) (show x ≠ here from hx.2.1)
          (show x ≠ .none from hx.ne_none) (.inr ⟨show x ≠ parent from hp, ?_⟩)]
        · show (mul (P [y]) (P [x]) >>= _) = _
          rw [mul_P hl (by simpa using hx) (by simp), Res.ok_bind, mul_root_P r (elem_joinL hl (by simpa using hx)), e2]
        · have := hx.not_concat
          rw [P]; cases x <;> simp_all [parentFirst, isConcat]
      | y :: z :: l, _ =>
        rw [mul_web_P hl (by simpa using hx) (by simp), e2]
    · rw [mul_R_P (by simpa using hweb) hl (by simpa using hx) (by simp), e2]

example : head (R (b!"http") [.atom (b!"gnu.org"), .atom (b!"a"), .atom (b!"b.tm")]) =
      .ok (R (b!"http") [.atom (b!"gnu.org"), .atom (b!"a")]) :=
  (C47_rooted (b!"http") [.atom (b!"gnu.org"), .atom (b!"a")] (.atom (b!"b.tm")) (by decide) (by decide) (by decide) (by decide)
    (by simp)).1

/-- At the top (a bare root, or a web site without path) the head is the url itself and the tail is `.`. -/
theorem C47_top (r s : Bytes) (hs : Elem (.atom s)) (hs' : Url.atom s ≠ parent) (hr : webProtocol r = true) :
    (∀ q, head (.root q) = .ok (.root q) ∧ tail (.root q) = here ∧ mul (.root q) here = .ok (.root q)) ∧
    head (R r [.atom s]) = .ok (R r [.atom s]) ∧ tail (R r [.atom s]) = here ∧
      mul (R r [.atom s]) here = .ok (R r [.atom s]) := by
  refine ⟨fun q => ⟨?_, rfl, mul_here_right (by simp)⟩, ?_, ?_, mul_here_right (by simp [R])⟩
  · exact mul_root_P q (l := [parent]) (by decide)
  · exact mul_semi hr hs hs' (l := [parent]) (by decide)
  · rw [R_cons _ _ (by simp), tail, if_pos (by rw [isRootWeb_root, hr]; rfl)]

end Lolly.UrlProps
