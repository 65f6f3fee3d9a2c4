import Verif.System.UrlAltLemmas

set_option autoImplicit false

/-!
# Alternatives of a url (C51, C66)

`den u` (`UrlAltSpec`) is the list of paths that a url with alternatives stands for: the products of the alternatives
of the factors, in order.
-/

namespace Lolly.UrlAltProps

open Lolly.Url

/-! ## C51: expanding -/

/-- `expand (u)` is a right-nested alternative of paths without alternatives. These are the paths of `u`, in order of
first occurrence; equal neighbours are merged; the last one is the last path of `u`. -/
theorem C51_expand (u : Url) (h : Free true u) : ∃ f0, ∀ f, f0 ≤ f → ∃ L : List (List Url),
    expand f u = .ok (orOf (L.map P)) ∧ (∀ p, p ∈ L ↔ p ∈ den u) ∧
    (∀ q : List Url → Bool, L.find? q = (den u).find? q) ∧ L.getLast? = (den u).getLast? ∧ merge L = L := by
  obtain ⟨f0, h0⟩ := expand_free u h
  refine ⟨f0, fun f hf => ?_⟩
  obtain ⟨L, e, ho, hm, -, hl⟩ := h0 f hf
  exact ⟨L, e, fun p => ho.mem p, ho, hl, hm⟩

theorem comp_a : Comp (.atom (b!"a")) := by decide
theorem comp_b : Comp (.atom (b!"b")) := by decide

/-- A url `{a | b} / {a | b}` meets the hypothesis. -/
example : Free true (.concat (.or (.atom (b!"a")) (.atom (b!"b"))) (.or (.atom (b!"a")) (.atom (b!"b")))) :=
  ⟨⟨comp_a, comp_b⟩, rfl, comp_a, comp_b⟩

/-- It stands for four paths. -/
example : den (.concat (.or (.atom (b!"a")) (.atom (b!"b"))) (.or (.atom (b!"a")) (.atom (b!"b")))) =
    [[.atom (b!"a"), .atom (b!"a")], [.atom (b!"a"), .atom (b!"b")], [.atom (b!"b"), .atom (b!"a")],
      [.atom (b!"b"), .atom (b!"b")]] := rfl

/-- The ways up from a path: the path, its parent, and so on down to its first component. -/
def ways : List Url → List (List Url)
  | [] => []
  | x :: l => (ways l).map (x :: ·) ++ [[x]]

theorem ways_ne (l : List Url) : ∀ w ∈ ways l, w ≠ [] := by
  cases l with
  | nil => simp [ways]
  | cons x l =>
    intro w hw
    simp only [ways, List.mem_append, List.mem_map, List.mem_cons, List.not_mem_nil, or_false] at hw
    rcases hw with ⟨v, _, rfl⟩ | rfl <;> simp

theorem mem_ways (l w : List Url) : w ∈ ways l ↔ w ≠ [] ∧ w <+: l := by
  induction l generalizing w with
  | nil => simp [ways]
  | cons x l ih =>
    simp only [ways, List.mem_append, List.mem_map, List.mem_cons, List.not_mem_nil, or_false]
    constructor
    · rintro (⟨v, hv, rfl⟩ | rfl)
      · exact ⟨by simp, by simpa using ((ih v).1 hv).2⟩
      · exact ⟨by simp, by simp⟩
    · rintro ⟨hne, hp⟩
      cases w with
      | nil => exact absurd rfl hne
      | cons y w =>
        rw [List.cons_prefix_cons] at hp
        obtain ⟨rfl, hp⟩ := hp
        by_cases hw : w = []
        · subst hw; exact .inr rfl
        · exact .inl ⟨w, (ih w).2 ⟨hw, hp⟩, rfl⟩

theorem expand_P (f : Nat) (l : List Url) (hl : ∀ y ∈ l, Comp y) (hne : l ≠ []) : expand (f + 1) (P l) = .ok (P l) := by
  have hx : ∀ x, Comp x → expand (f + 1) x = .ok x := by
    intro x hx
    have h1 := hx.1.not_concat
    have h2 := (single_path (b := false) (x := [x]) (by simpa [PathOk] using hx)).1
    rw [show P [x] = x from rfl] at h2
    cases x <;> simp_all [isConcat, isOr, expand]
  induction l with
  | nil => exact absurd rfl hne
  | cons x l ih =>
    cases l with
    | nil => exact hx x (hl x (by simp))
    | cons y l =>
      rw [P, expand, hx x (hl x (by simp)), ih (fun z hz => hl z (by simp [hz])) (by simp), Res.ok_bind, Res.ok_bind]
      have h1 : PathOk false [x] := ⟨.inl (hl x (by simp)), by simp⟩
      have h2 : PathOk false (y :: l) := ⟨.inl (hl y (by simp)), fun z hz => hl z (by simp [hz])⟩
      exact expand2_single f h1 h2

theorem elem_ancestor : Elem ancestor := by decide

theorem mul_anc (m : List Url) (hm : ∀ y ∈ m, Comp y) (hne : m ≠ []) : mul ancestor (P m) = .ok (P (ancestor :: m)) := by
  have hp := no_parent_of_comp hm
  have := mul_P (l1 := [ancestor]) (l2 := m) (by simpa using elem_ancestor) (elem_of_comp hm) hne
  rw [joinL_disjoint (by simp [Normal]) (fun e => hp (List.mem_of_mem_head? e)) hne] at this
  exact this

theorem expand2_anc_left (f : Nat) (m : List Url) (hm : ∀ y ∈ m, Comp y) (hne : m ≠ []) :
    expand2 (f + 1) ancestor (P m) = .ok (P (ancestor :: m)) := by
  have h2 := (single_path (b := false) (x := m) (by
    cases m with
    | nil => exact absurd rfl hne
    | cons a m => exact ⟨.inl (hm a (by simp)), fun z hz => hm z (by simp [hz])⟩)).1
  have h3 : P m ≠ ancestor := by
    match m, hne with
    | [a], _ => rw [P]; exact (hm a (by simp)).2.2
    | a :: c :: y, _ => rw [P]; simp [ancestor]
  have h4 : ∀ c d, P m = .concat c d → c ≠ ancestor := by
    intro c d e
    match m, hne with
    | [a], _ =>
      have := (hm a (by simp)).1.not_concat
      rw [P] at e; rw [e] at this; simp [isConcat] at this
    | a :: z :: y, _ =>
      rw [P] at e
      injection e with e1 e2
      rw [← e1]; exact (hm a (by simp)).2.2
  rw [← mul_anc m hm hne]
  generalize P m = v at *
  rw [expand2.eq_def, show ancestor = .atom (b!"...") from rfl] at *
  cases v with
  | or => simp [isOr] at h2
  | concat c d => dsimp only; rw [if_neg h3, if_neg (h4 c d rfl)]
  | _ => dsimp only; rw [if_neg h3]

theorem expand_anc (f : Nat) (m : List Url) (hm : ∀ y ∈ m, Comp y) :
    expand (f + 1) (P (ancestor :: m)) = .ok (P (ancestor :: m)) := by
  cases m with
  | nil => rfl
  | cons y m =>
    rw [P, expand, expand_P f (y :: m) hm (by simp), show expand (f + 1) ancestor = .ok ancestor from rfl, Res.ok_bind,
      Res.ok_bind, expand2_anc_left f _ hm (by simp), P]

/-- One component before `.../m`. -/
theorem expand2_anc_right (f : Nat) (x : Url) (hx : Comp x) (m : List Url) (hm : ∀ y ∈ m, Comp y) :
    expand2 (f + 3) x (P (ancestor :: m)) = .ok (.or (P (x :: m)) (P (ancestor :: m))) := by
  have hxs : Single x := single_path (b := false) (x := [x]) ⟨.inl hx, by simp⟩
  have hxc := hx.1.not_concat
  have hxr : isSpecialRoot x = false := by
    have := hx.1.1
    cases x <;> simp_all [isPseudoAtomic, isSpecialRoot, isRootWeb, isRootS]
  have has : Single ancestor := ⟨rfl, by simp [ancestor]⟩
  have halt : ∀ v : Url, Single v → ∀ w, Single w → v ≠ w → alt v w = .or v w := by
    intro v hv w hw hne
    have := alt_ins (a := v) (l := [w]) hv (by simpa using hw) (by simp)
    rw [ins, if_neg (by simpa using fun e => hne e.symm)] at this
    exact this
  have h1 : ∀ g, expand2 (g + 1) x ancestor = .ok (.or x ancestor) := by
    intro g
    rw [← halt x hxs ancestor has hx.2.2, expand2.eq_def]
    have := hxs.1
    cases x with
    | or => simp [isOr] at this
    | concat => simp [isConcat] at hxc
    | _ => simp_all [ancestor]
  cases m with
  | nil =>
    exact h1 _
  | cons y m =>
    have hpy : PathOk false (y :: m) := ⟨.inl (hm y (by simp)), fun z hz => hm z (by simp [hz])⟩
    have h2 : expand2 (f + 2) (.or x ancestor) (P (y :: m)) = .ok (.or (P (x :: y :: m)) (P (ancestor :: y :: m))) := by
      rw [expand2.eq_def]
      dsimp only
      have := expand2_single f (b := false) (x := [x]) (y := y :: m) ⟨.inl hx, by simp⟩ hpy
      rw [show P [x] = x from rfl] at this
      rw [this, expand2_anc_left f _ hm (by simp), Res.ok_bind, Res.ok_bind]
      refine congrArg _ (halt _ ⟨rfl, by simp [P]⟩ _ ⟨rfl, by simp [P]⟩ ?_)
      rw [List.singleton_append, P, P]
      intro e
      injection e with e1 e2
      exact hx.2.2 e1
    rw [P, expand2.eq_def]
    have := hxs.1
    cases x with
    | or => simp [isOr] at this
    | concat => simp [isConcat] at hxc
    | _ =>
      dsimp only
      rw [if_neg (by simp [ancestor]), if_pos rfl, h1, Res.ok_bind, h2]; rfl

theorem expand2_ways (f : Nat) (x : Url) (hx : Comp x) (m : List Url) (hm : ∀ y ∈ m, Comp y) (W : List (List Url))
    (hW : ∀ w ∈ W, w ≠ [] ∧ ∀ y ∈ w, Comp y) (hlen : W.Pairwise fun v w => v.length ≠ w.length)
    (hone : ∀ w ∈ W, w.length ≠ 0) :
    expand2 (W.length + f + 3) x (orOf (W.map (fun w => P (w ++ m)) ++ [P (ancestor :: m)])) =
      .ok (orOf (W.map (fun w => P (x :: w ++ m)) ++ [P (x :: m), P (ancestor :: m)])) := by
  have hxs : Single x := single_path (b := false) (x := [x]) ⟨.inl hx, by simp⟩
  have has : Single (P (ancestor :: m)) := by
    cases m with
    | nil => exact ⟨rfl, by simp [P, ancestor]⟩
    | cons => exact ⟨rfl, by simp [P]⟩
  have hok : ∀ w, (∀ y ∈ w, Comp y) → PathOk false (x :: w ++ m) := fun w hw => ⟨.inl hx, fun z hz => by
    rcases List.mem_append.1 hz with h | h
    · exact hw z h
    · exact hm z h⟩
  induction W with
  | nil =>
    have := expand2_anc_right f x hx m hm
    simpa [orOf] using this
  | cons w W ih =>
    obtain ⟨hl1, hl2⟩ := List.pairwise_cons.1 hlen
    have hw := hW w (by simp)
    have ih' := ih (fun v hv => hW v (by simp [hv])) hl2 (fun v hv => hone v (by simp [hv]))
    have hpw : PathOk false (w ++ m) := by
      cases w with
      | nil => exact absurd rfl hw.1
      | cons a w =>
        refine ⟨.inl (hw.2 a (by simp)), fun z hz => ?_⟩
        rcases List.mem_append.1 hz with h | h
        · exact hw.2 z (by simp [h])
        · exact hm z h
    have hsing := expand2_single (W.length + f + 2) (b := false) (x := [x]) (y := w ++ m) ⟨.inl hx, by simp⟩ hpw
    rw [show P [x] = x from rfl] at hsing
    have hstep : expand2 ((w :: W).length + f + 3) x (orOf ((w :: W).map (fun w => P (w ++ m)) ++ [P (ancestor :: m)])) =
        (do
          let v ← expand2 (W.length + f + 3) x (P (w ++ m))
          let u ← expand2 (W.length + f + 3) x (orOf (W.map (fun w => P (w ++ m)) ++ [P (ancestor :: m)]))
          Res.ok (alt v u)) := by
      rw [List.map_cons, List.cons_append, orOf_cons _ _ (by simp),
        show (w :: W).length + f + 3 = (W.length + f + 3) + 1 by simp; omega, expand2.eq_def]
      have := hxs.1
      cases x with
      | or => simp [isOr] at this
      | _ => rfl
    rw [hstep, hsing, ih', Res.ok_bind, Res.ok_bind, show [x] ++ (w ++ m) = x :: w ++ m from rfl, alt_ins (single_path (hok w hw.2))]
    · rw [ins, if_neg]
      · rfl
      · have hne : ∀ v : List Url, (∀ y ∈ v, Comp y) → v.length ≠ w.length → P (x :: v ++ m) ≠ P (x :: w ++ m) := by
          intro v hv hvl e
          have := P_inj_path (hok v hv) (hok w hw.2) e
          simp only [List.cons_append, List.cons.injEq, true_and] at this
          have := congrArg List.length this
          simp at this
          exact hvl this
        cases W with
        | nil =>
          have := hne [] (by simp) (by simpa using (hone w (by simp)).symm)
          simpa using this
        | cons v W =>
          have := hne v (hW v (by simp)).2 (hl1 v (by simp)).symm
          simpa using this
    · intro y hy
      simp only [List.mem_append, List.mem_map, List.mem_cons, List.not_mem_nil, or_false] at hy
      rcases hy with ⟨v, hv, rfl⟩ | rfl | rfl
      · exact single_path (hok v (hW v (by simp [hv])).2)
      · exact single_path (hok [] (by simp))
      · exact has
    · simp

theorem ways_lengths (l : List Url) : (ways l).Pairwise fun v w => v.length ≠ w.length := by
  induction l with
  | nil => simp [ways]
  | cons x l ih =>
    rw [ways, List.pairwise_append]
    refine ⟨?_, by simp, ?_⟩
    · rw [List.pairwise_map]
      exact ih.imp (by simp)
    · intro v hv w hw
      simp only [List.mem_map, List.mem_cons, List.not_mem_nil, or_false] at hv hw
      obtain ⟨u, hu, rfl⟩ := hv
      subst hw
      have := ways_ne l u hu
      simpa using this

theorem ways_length (l : List Url) : (ways l).length = l.length := by
  induction l with
  | nil => rfl
  | cons x l ih => simp [ways, ih]

/-- `l/.../m` stands for `m` in the directory `l` and in every directory above it, the nearest first; what is above
the first component is left as `.../m`. Missing: `...` after alternatives, see `C51_ancestor_violated`. -/
theorem C51_ancestor_partial (l m : List Url) (hl : ∀ y ∈ l, Comp y) (hm : ∀ y ∈ m, Comp y) (f : Nat) (hf : l.length + 3 ≤ f) :
    expand f (P (l ++ ancestor :: m)) = .ok (orOf ((ways l).map (fun w => P (w ++ m)) ++ [P (ancestor :: m)])) := by
  induction l with
  | nil =>
    obtain ⟨f, rfl⟩ : ∃ g, f = g + 1 := ⟨f - 1, by omega⟩
    exact expand_anc f m hm
  | cons x l ih =>
    have hx := hl x (by simp)
    obtain ⟨g, rfl⟩ : ∃ g, f = g + 1 := ⟨f - 1, by omega⟩
    have hex := expand_P g [x] (by simpa using hx) (by simp)
    rw [show P [x] = x from rfl] at hex
    have hP : P (x :: l ++ ancestor :: m) = .concat x (P (l ++ ancestor :: m)) := by
      cases l <;> rfl
    rw [hP, expand, hex, ih (fun y hy => hl y (by simp [hy])) (by simp at hf; omega), Res.ok_bind, Res.ok_bind]
    have := expand2_ways (g + 1 - l.length - 3) x hx m hm (ways l)
      (fun w hw => ⟨ways_ne l w hw, fun y hy => hl y (by
        have := ((mem_ways l w).1 hw).2
        simp [this.subset hy])⟩) (ways_lengths l) (fun w hw => by simpa using ways_ne l w hw)
    rw [show (ways l).length + (g + 1 - l.length - 3) + 3 = g + 1 by rw [ways_length]; simp at hf; omega] at this
    rw [this, ways, List.map_append, List.map_map, List.append_assoc]
    rfl

/-- `a/b/.../x` stands for `a/b/x`, `a/x` and `.../x`. -/
example : ways [.atom (b!"a"), .atom (b!"b")] = [[.atom (b!"a"), .atom (b!"b")], [.atom (b!"a")]] := rfl

/-! ## C51: sorting -/

/-- The order of paths: inside a directory the names come first and the subdirectories after them, both in the order of
strings; the contents of one subdirectory stay together. -/
def pathLe : List Bytes → List Bytes → Bool
  | [s], [t] => StrProps.lexLE s t
  | [_], _ => true
  | _, [_] => false
  | s :: l, t :: m => if s = t then pathLe l m else StrProps.lexLE s t
  | _, _ => true

/-- The path of names. -/
def names (l : List Bytes) : Url := P (l.map .atom)

theorem strLe_eq (s t : Bytes) : strLe s t = StrProps.lexLE s t := by
  induction s generalizing t with
  | nil => rfl
  | cons x s ih =>
    cases t with
    | nil => rfl
    | cons y t =>
      rw [strLe, StrProps.lexLE, ih]
      by_cases h1 : schar x < schar y
      · simp [h1]
      · by_cases h2 : schar x > schar y
        · have hne : x ≠ y := by intro e; subst e; omega
          simp [h1, h2, hne]
        · have : x = y := StrProps.schar_inj (by omega)
          subst this
          simp

theorem le_names (l m : List Bytes) (hl : l ≠ []) (hm : m ≠ []) : le (names l) (names m) = pathLe l m := by
  unfold names
  induction l generalizing m with
  | nil => exact absurd rfl hl
  | cons s l ih =>
    cases m with
    | nil => exact absurd rfl hm
    | cons t m =>
      cases l with
      | nil =>
        cases m with
        | nil => exact strLe_eq s t
        | cons t2 m => rfl
      | cons s2 l =>
        cases m with
        | nil => rfl
        | cons t2 m =>
          have := ih (t2 :: m) (by simp) (by simp)
          simp only [List.map_cons] at this
          simp only [List.map_cons, P, le, pathLe, this, strLe_eq]
          by_cases h : s = t
          · simp [h]
          · simp [h]

theorem names_inj {l m : List Bytes} (hl : l ≠ []) (hm : m ≠ []) (h : names l = names m) : l = m := by
  unfold names at h
  induction l generalizing m with
  | nil => exact absurd rfl hl
  | cons s l ih =>
    cases m with
    | nil => exact absurd rfl hm
    | cons t m =>
      cases l with
      | nil =>
        cases m with
        | nil => simpa [P] using h
        | cons t2 m => simp [P] at h
      | cons s2 l =>
        cases m with
        | nil => simp [P] at h
        | cons t2 m =>
          simp only [List.map_cons, P] at h
          injection h with h1 h2
          injection h1 with h1
          rw [h1, ih (m := t2 :: m) (by simp) (by simp) (by simpa using h2)]

theorem names_single (l : List Bytes) : Single (names l) := by
  unfold names
  match l with
  | [] => exact ⟨rfl, by simp [P, here]⟩
  | [_] => exact ⟨rfl, by simp [P]⟩
  | _ :: _ :: _ => exact ⟨rfl, by simp [P]⟩

theorem namePath_names {l : List Bytes} (h : l ≠ []) : NamePath (names l) :=
  namePath_P (by simp [isAtomic]) (by simpa using h)

/-- A list whose members are all values of `g` is a list of values of `g`. -/
theorem exists_map {α β : Type} (g : α → β) (Q : α → Prop) (l : List β) (h : ∀ y ∈ l, ∃ x, Q x ∧ g x = y) :
    ∃ m : List α, l = m.map g ∧ ∀ x ∈ m, Q x := by
  induction l with
  | nil => exact ⟨[], rfl, by simp⟩
  | cons y l ih =>
    obtain ⟨x, hx, rfl⟩ := h y (by simp)
    obtain ⟨m, rfl, hm⟩ := ih fun z hz => h z (by simp [hz])
    refine ⟨x :: m, rfl, fun z hz => ?_⟩
    rcases List.mem_cons.1 hz with rfl | hz
    · exact hx
    · exact hm z hz

/-- Sorting alternatives built by an injective `g` that reflects the order of paths. -/
theorem sort_map (g : List Bytes → Url) (hg : ∀ l, l ≠ [] → Single (g l))
    (hinj : ∀ l m, l ≠ [] → m ≠ [] → g l = g m → l = m)
    (hle : ∀ l m, l ≠ [] → m ≠ [] → le (g l) (g m) = pathLe l m) (L : List (List Bytes)) (hL : ∀ l ∈ L, l ≠ [])
    (hne : L ≠ []) : ∃ M : List (List Bytes), sort (orOf (L.map g)) = orOf (M.map g) ∧ (∀ l, l ∈ M ↔ l ∈ L) ∧
      M.Pairwise fun l m => pathLe l m = true ∧ l ≠ m := by
  have hle' : ∀ l m, l ≠ [] → m ≠ [] → le (g l) (g m) = le (names l) (names m) := fun l m hl hm => by
    rw [hle l m hl hm, le_names l m hl hm]
  have hsort := sorted_foldr (Q := fun u => ∃ l, l ≠ [] ∧ g l = u)
    (by
      rintro x y ⟨l, hl, rfl⟩ ⟨m, hm, rfl⟩
      rw [hle' l m hl hm, hle' m l hm hl]
      exact le_total _ _ (namePath_names hl) (namePath_names hm))
    (by
      rintro x y z ⟨l, hl, rfl⟩ ⟨m, hm, rfl⟩ ⟨n, hn, rfl⟩
      rw [hle' l m hl hm, hle' m n hm hn, hle' l n hl hn]
      exact le_trans _ _ _ (namePath_names hl) (namePath_names hm) (namePath_names hn))
    (by
      rintro x y ⟨l, hl, rfl⟩ ⟨m, hm, rfl⟩
      rw [hle' l m hl hm, hle' m l hm hl]
      intro h1 h2
      rw [names_inj hl hm (le_antisymm _ _ (namePath_names hl) (namePath_names hm) h1 h2)])
    (L.map g) (by
      intro y hy
      obtain ⟨l, hl, rfl⟩ := List.mem_map.1 hy
      exact ⟨l, hL l hl, rfl⟩)
  obtain ⟨M, eM, hM⟩ := exists_map g (fun l => l ≠ []) ((L.map g).foldr sIns []) (by
    intro y hy
    obtain ⟨l, hl, rfl⟩ := List.mem_map.1 ((mem_sorted _ y).1 hy)
    exact ⟨l, hL l hl, rfl⟩)
  refine ⟨M, ?_, fun l => ?_, ?_⟩
  · rw [sort_orOf _ (by
      intro y hy
      obtain ⟨l, hl, rfl⟩ := List.mem_map.1 hy
      exact hg l (hL l hl)) (by simpa using hne), eM]
  · have key : ∀ N : List (List Bytes), (∀ l ∈ N, l ≠ []) → l ≠ [] → (l ∈ N ↔ g l ∈ N.map g) := by
      intro N hN hl
      constructor
      · exact fun h => List.mem_map.2 ⟨l, h, rfl⟩
      · intro h
        obtain ⟨m, hm, e⟩ := List.mem_map.1 h
        rwa [← hinj m l (hN m hm) hl e]
    constructor
    · intro h
      have := (key M hM (hM l h)).1 h
      rw [← eM, mem_sorted] at this
      exact (key L hL (hM l h)).2 this
    · intro h
      have := (key L hL (hL l h)).1 h
      rw [← mem_sorted, eM] at this
      exact (key M hM (hL l h)).2 this
  · rw [eM, List.pairwise_map] at hsort
    refine hsort.imp_of_mem ?_
    intro l m hl hm h
    exact ⟨by rw [← hle l m (hM l hl) (hM m hm)]; exact h.1, fun e => h.2 (by rw [e])⟩

/-- `sort` of alternatives that are relative paths: the same paths, each once, in increasing order.
Missing: alternatives with different roots, see `C51_sort_violated`. -/
theorem C51_sort_partial (L : List (List Bytes)) (hL : ∀ l ∈ L, l ≠ []) (hne : L ≠ []) :
    ∃ M : List (List Bytes), sort (orOf (L.map names)) = orOf (M.map names) ∧ (∀ l, l ∈ M ↔ l ∈ L) ∧
      M.Pairwise fun l m => pathLe l m = true ∧ l ≠ m :=
  sort_map names (fun l _ => names_single l) (fun _ _ => names_inj) le_names L hL hne

/-- The same for paths below one root. Missing: alternatives with different roots, see `C51_sort_violated`. -/
theorem C51_sort_rooted_partial (r : Bytes) (L : List (List Bytes)) (hL : ∀ l ∈ L, l ≠ []) (hne : L ≠ []) :
    ∃ M : List (List Bytes), sort (orOf (L.map fun l => R r (l.map .atom))) = orOf (M.map fun l => R r (l.map .atom)) ∧
      (∀ l, l ∈ M ↔ l ∈ L) ∧ M.Pairwise fun l m => pathLe l m = true ∧ l ≠ m := by
  have hR : ∀ l : List Bytes, l ≠ [] → R r (l.map .atom) = .concat (.root r) (names l) := fun l hl => by
    rw [R, if_neg (by simpa using hl)]; rfl
  refine sort_map _ (fun l hl => ?_) (fun l m hl hm h => ?_) (fun l m hl hm => ?_) L hL hne
  · rw [hR l hl]; exact ⟨rfl, by simp⟩
  · rw [hR l hl, hR m hm] at h
    injection h with _ h
    exact names_inj hl hm h
  · rw [hR l hl, hR m hm, le, if_pos rfl, le_names l m hl hm]

example : sort (orOf ([[b!"b", b!"x"], [b!"c"], [b!"a"], [b!"a", b!"y"], [b!"b"]].map names)) =
    orOf ([[b!"a"], [b!"b"], [b!"c"], [b!"a", b!"y"], [b!"b", b!"x"]].map names) := by
  rw [sort_orOf _ (by intro y hy; obtain ⟨l, _, rfl⟩ := List.mem_map.1 hy; exact names_single l) (by simp)]
  simp [names, sIns, le, strLe, schar, ins, orOf, P]

/-- Paths with roots of which no two neighbours have the same root. -/
def Changing : List (Bytes × List Url) → Prop
  | p :: q :: L => p.1 ≠ q.1 ∧ Changing (q :: L)
  | _ => True

theorem fold_changing (L : List (Bytes × List Url)) (hL : ∀ p ∈ L, p.2 ≠ []) (h : Changing L) :
    (L.map fun p => R p.1 p.2).foldr sIns [] = L.map fun p => R p.1 p.2 := by
  induction L with
  | nil => rfl
  | cons p L ih =>
    cases L with
    | nil => simp [sIns]
    | cons q L =>
      have hp := hL p (by simp)
      have hq := hL q (by simp)
      rw [List.map_cons, List.foldr_cons, ih (fun p hp => hL p (by simp [hp])) h.2]
      have hle : le (R p.1 p.2) (R q.1 q.2) = true := by simp [R, hp, hq, le, h.1]
      have hne : R q.1 q.2 ≠ R p.1 p.2 := by simp [R, hp, hq, Ne.symm h.1]
      rw [List.map_cons, sIns, if_pos hle, ins, if_neg (by simpa using hne)]

/-- Alternatives of which no two neighbours have the same root are left as they are, in whatever order they are: `/b`,
`http://h/x`, `/a` stays as it is, with `/b` before `/a`, while `sort` of `/b` and `/a` alone puts `/a` first. -/
theorem C51_sort_violated :
    (∀ L : List (Bytes × List Url), L ≠ [] → (∀ p ∈ L, p.2 ≠ []) → Changing L →
      sort (orOf (L.map fun p => R p.1 p.2)) = orOf (L.map fun p => R p.1 p.2)) ∧
    ∀ (r : Bytes) (a b : Url), le b a = false → le a b = true →
      sort (orOf [R r [b], R r [a]]) = orOf [R r [a], R r [b]] := by
  refine ⟨fun L hne hL h => ?_, fun r a b h h' => ?_⟩
  · rw [sort_orOf _ (by
      intro y hy
      obtain ⟨p, hp, rfl⟩ := List.mem_map.1 hy
      simp [R, hL p hp, Single, isOr]) (by simpa using hne), fold_changing L hL h]
  · have hne : a ≠ b := by rintro rfl; rw [h] at h'; cases h'
    rw [sort_orOf _ (by simp [R, Single, isOr]) (by simp)]
    simp [R, sIns, le, h, ins, orOf, P, Ne.symm hne]

example : Changing [(b!"default", [.atom (b!"b")]), (b!"http", [.atom (b!"h"), .atom (b!"x")]),
      (b!"default", [.atom (b!"a")])] ∧ le (.atom (b!"b")) (.atom (b!"a")) = false ∧
    le (.atom (b!"a")) (.atom (b!"b")) = true := by
  refine ⟨⟨by decide, by decide, trivial⟩, by decide, by decide⟩

/-- A root or a wildcard alone. -/
def Alone : Url → Prop
  | .root _ | .root3 _ _ | .wild0 | .wild1 _ => True
  | _ => False

theorem le_alone {x y : Url} (hy : Alone y) : le x y = true := by
  cases y <;> cases x <;> simp [Alone, le] at hy ⊢

theorem sorted_alone (x : Url) (l : List Url) (hx : NamePath x ∨ Alone x) (hl : ∀ y ∈ l, NamePath y ∨ Alone y)
    (hs : l.Pairwise fun x y => le x y = true ∧ (NamePath x → x ≠ y)) :
    (sIns x l).Pairwise fun x y => le x y = true ∧ (NamePath x → x ≠ y) := by
  have not_le : ∀ x y, Alone x → NamePath y → le x y = false := by
    intro x y hx hy
    cases x <;> cases y <;> simp [Alone, NamePath, le] at hx hy ⊢
  have excl : ∀ x, Alone x → ¬ NamePath x := by
    intro x h h'
    cases x <;> simp [Alone, NamePath] at h h'
  have htot : ∀ x y, NamePath x ∨ Alone x → NamePath y ∨ Alone y → le x y = true ∨ le y x = true := by
    intro x y hx hy
    rcases hx with hx | hx
    · rcases hy with hy | hy
      · exact le_total x y hx hy
      · exact .inl (le_alone hy)
    · exact .inr (le_alone hx)
  have htr : ∀ x y z, NamePath x ∨ Alone x → NamePath y ∨ Alone y → NamePath z ∨ Alone z → le x y = true →
      le y z = true → le x z = true := by
    intro x y z hx hy hz h1 h2
    rcases hz with hz | hz
    · rcases hy with hy | hy
      · rcases hx with hx | hx
        · exact le_trans x y z hx hy hz h1 h2
        · rw [not_le x y hx hy] at h1; cases h1
      · rw [not_le y z hy hz] at h2; cases h2
    · exact le_alone hz
  have hanti : ∀ x y, NamePath x → NamePath y ∨ Alone y → le x y = true → le y x = true → x = y := by
    intro x y hx hy h1 h2
    rcases hy with hy | hy
    · exact le_antisymm x y hx hy h1 h2
    · rw [not_le y x hy hx] at h2; cases h2
  induction l with
  | nil => simp [sIns]
  | cons y l ih =>
    have hy := hl y (by simp)
    obtain ⟨hy1, hy2⟩ := List.pairwise_cons.1 hs
    rw [sIns]
    split
    · next hle =>
      unfold ins
      split
      · exact hs
      · next hne =>
        have hxy : x ≠ y := by simpa using fun e => hne (by simp [e])
        refine List.pairwise_cons.2 ⟨fun z hz => ?_, hs⟩
        rcases List.mem_cons.1 hz with rfl | hz
        · exact ⟨hle, fun _ => hxy⟩
        · have hz' := hl z (by simp [hz])
          refine ⟨htr x y z hx hy hz' hle (hy1 z hz).1, fun hn e => ?_⟩
          subst e
          exact hxy (hanti _ _ hn hy hle (hy1 x hz).1)
    · next hle =>
      have hyx : le y x = true := by
        rcases htot x y hx hy with h | h
        · exact absurd h hle
        · exact h
      have hne : y ≠ x := by intro e; rw [e] at hyx hle; exact hle hyx
      have hrest := ih (fun z hz => hl z (by simp [hz])) hy2
      unfold ins
      split
      · exact hrest
      · refine List.pairwise_cons.2 ⟨fun z hz => ?_, hrest⟩
        rcases (mem_sIns x z l).1 hz with rfl | hz
        · exact ⟨hyx, fun _ => hne⟩
        · exact hy1 z hz

/-- `sort` of relative paths together with roots and wildcards that stand alone: the paths come first, in increasing order
and each once; the others follow. Missing: alternatives with different roots, see `C51_sort_violated`. -/
theorem C51_sort_alone_partial (L : List Url) (hL : ∀ u ∈ L, (∃ l, l ≠ [] ∧ u = names l) ∨ Alone u) (hne : L ≠ []) :
    ∃ M : List Url, sort (orOf L) = orOf M ∧ (∀ u, u ∈ M ↔ u ∈ L) ∧ M.Pairwise fun u v =>
      (Alone u → Alone v) ∧ ∀ l m, l ≠ [] → m ≠ [] → u = names l → v = names m → pathLe l m = true ∧ l ≠ m := by
  have hs : ∀ u ∈ L, Single u := by
    intro u hu
    rcases hL u hu with ⟨l, _, rfl⟩ | h
    · exact names_single l
    · cases u <;> simp [Alone, Single, isOr] at h ⊢
  have hq : ∀ u ∈ L, NamePath u ∨ Alone u := by
    intro u hu
    rcases hL u hu with ⟨l, h, rfl⟩ | h
    · exact .inl (namePath_names h)
    · exact .inr h
  refine ⟨L.foldr sIns [], sort_orOf L hs hne, mem_sorted L, ?_⟩
  have hsort : ∀ K : List Url, (∀ u ∈ K, NamePath u ∨ Alone u) →
      (K.foldr sIns []).Pairwise fun x y => le x y = true ∧ (NamePath x → x ≠ y) := by
    intro K
    induction K with
    | nil => simp
    | cons x K ih =>
      intro h
      rw [List.foldr_cons]
      refine sorted_alone x _ (h x (by simp)) (fun y hy => h y ?_) (ih fun u hu => h u (by simp [hu]))
      exact List.mem_cons_of_mem _ ((mem_sorted K y).1 hy)
  refine (hsort L hq).imp_of_mem ?_
  intro u v hu hv h
  refine ⟨fun hau => ?_, fun l m hl hm e1 e2 => ?_⟩
  · rcases hL v ((mem_sorted L v).1 hv) with ⟨m, hm, rfl⟩ | h'
    · have hn := namePath_names hm
      have h1 := h.1
      generalize names m = v at hn h1
      cases u <;> cases v <;> simp [Alone, NamePath, le] at hau hn h1
    · exact h'
  · subst e1; subst e2
    refine ⟨by rw [← le_names l m hl hm]; exact h.1, fun e => h.2 (namePath_names hl) (by rw [e])⟩

example : Alone (.root (b!"default")) ∧ sort (orOf [names [b!"a", b!"d"], .root (b!"default"), names [b!"a", b!"c"]]) =
    orOf [names [b!"a", b!"c"], names [b!"a", b!"d"], .root (b!"default")] := by
  rw [sort_orOf _ (by simp [names, P, Single, isOr]) (by simp)]
  exact ⟨trivial, by simp [names, sIns, le, strLe, schar, ins, orOf, P]⟩

/-- Whatever the alternatives are, `sort` keeps the set of paths. -/
theorem C51_sort_set (u : Url) (h : Free true u) : ∀ p, p ∈ den (sort u) ↔ p ∈ den u := (keeps_sort h).2.1

/-! ## C51: factoring -/

/-- `factor (u)` comes to an end and stands for the same set of paths, in a url that is not larger. -/
theorem C51_factor (u : Url) (h : Free true u) (f : Nat) (hf : u.size ≤ f) :
    ∃ v, factor f u = .ok v ∧ (∀ p, p ∈ den v ↔ p ∈ den u) ∧ v.size ≤ u.size := by
  obtain ⟨v, e, hv⟩ := keeps_factor u.size u (Nat.le_refl _) h f hf
  exact ⟨v, e, hv.2.1, hv.2.2⟩

/-- The relative paths `l`, factored: the same set of paths, and no two alternatives at any level begin with the same
directory. Missing: alternatives with different roots, see `C51_factor_violated`. -/
theorem C51_factor_groups_partial (L : List (List Bytes)) (hL : ∀ l ∈ L, l ≠ [] ∧ ∀ s ∈ l, Comp (.atom s)) (hne : L ≠ []) (f : Nat)
    (hf : (orOf (L.map names)).size ≤ f) : ∃ v, factor f (orOf (L.map names)) = .ok v ∧
      (∀ p, p ∈ den v ↔ ∃ l ∈ L, p = l.map .atom) ∧ Factored v := by
  have hcp : ∀ l : List Bytes, l ≠ [] → (∀ s ∈ l, Comp (.atom s)) → CompPath (names l) := by
    intro l hl h
    unfold names
    induction l with
    | nil => exact absurd rfl hl
    | cons s l ih =>
      cases l with
      | nil => exact h s (by simp)
      | cons t l => exact ⟨h s (by simp), ih (by simp) fun x hx => h x (by simp [hx])⟩
  have hall : ∀ x ∈ L.map names, CompPath x := by
    intro x hx
    obtain ⟨l, hl, rfl⟩ := List.mem_map.1 hx
    exact hcp l (hL l hl).1 (hL l hl).2
  have hden : ∀ l : List Bytes, l ≠ [] → den (names l) = [l.map .atom] := by
    intro l hl
    unfold names
    induction l with
    | nil => exact absurd rfl hl
    | cons s l ih =>
      cases l with
      | nil => rfl
      | cons t l =>
        simp only [List.map_cons, P, den] at ih ⊢
        rw [ih (by simp)]
        simp
  have hden' : ∀ M : List (List Bytes), (∀ l ∈ M, l ≠ []) → M ≠ [] → den (orOf (M.map names)) = M.map fun l => l.map .atom := by
    intro M hM hM0
    induction M with
    | nil => exact absurd rfl hM0
    | cons l M ih =>
      by_cases h : M = []
      · subst h
        simpa [orOf] using hden l (hM l (by simp))
      · rw [List.map_cons, orOf_cons _ _ (by simpa using h), den, hden l (hM l (by simp)), ih (fun x hx => hM x (by simp [hx])) h]
        rfl
  have hne' : L.map names ≠ [] := by simpa using hne
  obtain ⟨v, ev, -, hv⟩ := factor_groups _ (L.map names) hne' hall (Nat.le_refl _) f hf
  obtain ⟨w, ew, hw⟩ := keeps_factor (b := false) _ (orOf (L.map names)) (Nat.le_refl _)
    (free_orOf (fun x hx => (hall x hx).free) hne') f hf
  rw [ev] at ew
  injection ew with ew
  subst ew
  refine ⟨v, ev, fun p => ?_, hv⟩
  rw [hw.2.1, hden' L (fun l hl => (hL l hl).1) hne, List.mem_map]
  constructor
  · rintro ⟨l, hl, rfl⟩; exact ⟨l, hl, rfl⟩
  · rintro ⟨l, hl, rfl⟩; exact ⟨l, hl, rfl⟩

/-- Paths below one root are factored below that root.
Missing: alternatives with different roots, see `C51_factor_violated`. -/
theorem C51_factor_rooted_partial (r : Bytes) (L : List (List Bytes)) (hL : ∀ l ∈ L, l ≠ [] ∧ ∀ s ∈ l, Comp (.atom s)) (hne : L ≠ []) :
    ∃ f0, ∀ f, f0 ≤ f → ∃ v, factor f (orOf (L.map fun l => R r (l.map .atom))) = .ok (.concat (.root r) v) ∧
      (∀ p, p ∈ den v ↔ ∃ l ∈ L, p = l.map .atom) ∧ Factored v := by
  obtain ⟨M, eM, hM, hs⟩ := C51_sort_rooted_partial r L (fun l hl => (hL l hl).1) hne
  have hM' : ∀ l ∈ M, l ≠ [] ∧ ∀ s ∈ l, Comp (.atom s) := fun l hl => hL l ((hM l).1 hl)
  have hM0 : M ≠ [] := by
    intro e
    subst e
    obtain ⟨l, hl⟩ := List.exists_mem_of_ne_nil L hne
    exact absurd ((hM l).2 hl) (by simp)
  have hfree : ∀ l : List Bytes, l ≠ [] → (∀ s ∈ l, Comp (.atom s)) → Free false (names l) := by
    intro l hl h
    unfold names
    induction l with
    | nil => exact absurd rfl hl
    | cons s l ih =>
      cases l with
      | nil => exact h s (by simp)
      | cons t l => exact ⟨h s (by simp), rfl, ih (by simp) fun x hx => h x (by simp [hx])⟩
  have hfac : ∀ K : List (List Bytes), K ≠ [] → (∀ l ∈ K, l ≠ [] ∧ ∀ s ∈ l, Comp (.atom s)) → K.Pairwise (· ≠ ·) →
      factorSorted (orOf (K.map fun l => R r (l.map .atom))) = .ok (.concat (.root r) (orOf (K.map names))) := by
    intro K
    induction K with
    | nil => intro h; exact absurd rfl h
    | cons l K ih =>
      intro _ hK hp
      have hl : R r (l.map .atom) = .concat (.root r) (names l) := by
        rw [R, if_neg (by simpa using (hK l (by simp)).1)]; rfl
      by_cases h : K = []
      · subst h
        simp only [List.map_cons, List.map_nil, orOf, hl]
        rfl
      · have hK' : ∀ l ∈ K, l ≠ [] ∧ ∀ s ∈ l, Comp (.atom s) := fun x hx => hK x (by simp [hx])
        have h0 : K.map names ≠ [] := by simpa using h
        rw [List.map_cons, orOf_cons _ _ (by simpa using h), hl, factorSorted, ih h hK' (List.pairwise_cons.1 hp).2]
        simp only [Res.ok_bind, if_true]
        have hsing : ∀ x ∈ K.map names, Single x := by
          intro x hx
          obtain ⟨m, _, rfl⟩ := List.mem_map.1 hx
          exact names_single m
        have halt : alt (names l) (orOf (K.map names)) = orOf ((l :: K).map names) := by
          rw [alt_ins (names_single l) hsing h0, ins, if_neg]
          · rfl
          · intro e
            obtain ⟨m, K', rfl⟩ := List.exists_cons_of_ne_nil h
            simp only [List.map_cons, List.head?_cons, Option.some.injEq] at e
            exact (List.pairwise_cons.1 hp).1 m (by simp)
              (names_inj (hK l (by simp)).1 (hK m (by simp)).1 e.symm)
        rw [halt]
        refine mul_free (b := true) rfl rfl (free_orOf ?_ (by simp))
        intro x hx
        obtain ⟨m, hm, rfl⟩ := List.mem_map.1 hx
        exact hfree m (hK m hm).1 (hK m hm).2
  refine ⟨(orOf (M.map names)).size + 1, fun f hf => ?_⟩
  obtain ⟨f, rfl⟩ : ∃ g, f = g + 1 := ⟨f - 1, by omega⟩
  obtain ⟨v, ev, hv1, hv2⟩ := C51_factor_groups_partial M hM' hM0 f (by omega)
  obtain ⟨w, ew, hw⟩ := keeps_factor (b := false) _ (orOf (M.map names)) (Nat.le_refl _)
    (free_orOf (by
      intro x hx
      obtain ⟨m, hm, rfl⟩ := List.mem_map.1 hx
      exact hfree m (hM' m hm).1 (hM' m hm).2) (by simpa using hM0)) f (by omega)
  rw [ev] at ew
  cases ew
  refine ⟨v, ?_, fun p => ?_, hv2⟩
  · rw [factor, eM, hfac M hM0 hM' (hs.imp fun h => h.2), Res.ok_bind, factorSub, ev, Res.ok_bind]
    exact mul_free (b := true) rfl rfl hw.1
  · rw [hv1]
    constructor
    · rintro ⟨l, hl, rfl⟩; exact ⟨l, (hM l).1 hl, rfl⟩
    · rintro ⟨l, hl, rfl⟩; exact ⟨l, (hM l).2 hl, rfl⟩

theorem free_path (l : List Bytes) (hl : l ≠ []) (hc : ∀ s ∈ l, Comp (.atom s)) : Free false (P (l.map .atom)) := by
  induction l with
  | nil => exact absurd rfl hl
  | cons s l ih =>
    cases l with
    | nil => exact hc s (by simp)
    | cons r l => exact ⟨hc s (by simp), rfl, ih (by simp) fun s hs => hc s (List.mem_cons_of_mem _ hs)⟩

theorem factor_path (f : Nat) (l : List Bytes) (hl : l ≠ []) (hc : ∀ s ∈ l, Comp (.atom s)) (hf : l.length ≤ f) :
    factor f (P (l.map .atom)) = .ok (P (l.map .atom)) := by
  induction l generalizing f with
  | nil => exact absurd rfl hl
  | cons s l ih =>
    obtain ⟨f, rfl⟩ : ∃ g, f = g + 1 := ⟨f - 1, by simp at hf; omega⟩
    cases l with
    | nil => rfl
    | cons r l =>
      have hc' : ∀ s ∈ r :: l, Comp (.atom s) := fun s hs => hc s (List.mem_cons_of_mem _ hs)
      have e := ih f (by simp) hc' (by simp at hf ⊢; omega)
      have hp := free_path (r :: l) (by simp) hc'
      show factor (f + 1) (.concat (.atom s) (P ((r :: l).map .atom))) = _
      rw [factor, sort.eq_def]
      simp only [factorSorted, Res.ok_bind, factorSub, e]
      exact mul_free (b := false) (hc s (by simp)) rfl hp

/-- Alternatives of which no two neighbours have the same root are left as they are: those that begin with the same root
are not put together, however many there are. -/
theorem C51_factor_violated (L : List (Bytes × List Bytes)) (hne : L ≠ [])
    (hL : ∀ p ∈ L, p.2 ≠ [] ∧ ∀ s ∈ p.2, Comp (.atom s))
    (h : Changing (L.map fun p => (p.1, p.2.map .atom))) (f : Nat) (hf : ∀ p ∈ L, p.2.length ≤ f) :
    factor (f + 1) (orOf (L.map fun p => R p.1 (p.2.map .atom))) = .ok (orOf (L.map fun p => R p.1 (p.2.map .atom))) := by
  have hs := C51_sort_violated.1 _ (by simpa using hne) (by
    intro p hp
    obtain ⟨q, hq, rfl⟩ := List.mem_map.1 hp
    simpa using (hL q hq).1) h
  rw [List.map_map] at hs
  rw [factor]
  rw [show sort (orOf (L.map fun p => R p.1 (p.2.map .atom))) = orOf (L.map fun p => R p.1 (p.2.map .atom)) from hs]
  clear hs
  have single : ∀ q : Bytes × List Bytes, q.2 ≠ [] → R q.1 (q.2.map .atom) = .concat (.root q.1) (P (q.2.map .atom)) := by
    intro q hq; simp [R, hq]
  have main : factorSorted (orOf (L.map fun p => R p.1 (p.2.map .atom))) = .ok (orOf (L.map fun p => R p.1 (p.2.map .atom))) ∧
      factorSub (factor f) (orOf (L.map fun p => R p.1 (p.2.map .atom))) =
        .ok (orOf (L.map fun p => R p.1 (p.2.map .atom))) := by
    induction L with
    | nil => exact absurd rfl hne
    | cons p L ih =>
      have hp := hL p (by simp)
      have ep := single p hp.1
      have e1 : factorSub (factor f) (R p.1 (p.2.map .atom)) = .ok (R p.1 (p.2.map .atom)) := by
        rw [ep, factorSub, factor_path f p.2 hp.1 hp.2 (hf p (by simp)), Res.ok_bind]
        exact mul_free (b := true) rfl rfl (free_path p.2 hp.1 hp.2)
      cases L with
      | nil =>
        refine ⟨?_, e1⟩
        simp only [List.map_cons, List.map_nil, orOf, ep, factorSorted]
      | cons q L =>
        obtain ⟨i1, i2⟩ := ih (by simp) (fun p hp => hL p (List.mem_cons_of_mem _ hp)) h.2
          (fun p hp => hf p (List.mem_cons_of_mem _ hp))
        have hq := hL q (by simp)
        have eq := single q hq.1
        have hd : p.1 ≠ q.1 := h.1
        have hall : ∀ x ∈ (q :: L).map fun p => R p.1 (p.2.map .atom), Single x := by
          intro x hx
          obtain ⟨r, hr, rfl⟩ := List.mem_map.1 hx
          rw [single r (hL r (List.mem_cons_of_mem _ hr)).1]
          exact ⟨rfl, by simp⟩
        have ea : alt (R p.1 (p.2.map .atom)) (orOf ((q :: L).map fun p => R p.1 (p.2.map .atom))) =
            orOf ((p :: q :: L).map fun p => R p.1 (p.2.map .atom)) := by
          have hn : ¬ ((q :: L).map fun p => R p.1 (p.2.map .atom)).head? = some (R p.1 (p.2.map .atom)) := by
            rw [List.map_cons, List.head?_cons, ep, eq]
            simp [Ne.symm hd]
          rw [alt_ins (by rw [ep]; exact ⟨rfl, by simp⟩) hall (by simp), ins, if_neg hn]
          rfl
        have ec : orOf ((p :: q :: L).map fun p => R p.1 (p.2.map .atom)) =
            .or (R p.1 (p.2.map .atom)) (orOf ((q :: L).map fun p => R p.1 (p.2.map .atom))) :=
          orOf_cons _ _ (by simp)
        constructor
        · rw [ec, factorSorted, i1, Res.ok_bind, ← ec, ← ea]
          cases L with
          | nil => simp only [List.map_cons, List.map_nil, orOf, ep, eq, Url.root.injEq, if_neg hd]
          | cons r L => simp only [List.map_cons, orOf, ep, eq, Url.root.injEq, if_neg hd]
        · rw [ec, factorSub, e1, Res.ok_bind, i2, Res.ok_bind, ea, ec]
  rw [main.1, Res.ok_bind, main.2]

/-- `/b`, `http://h/x` and `/a` meet the hypotheses. -/
example : Changing ([(b!"default", [b!"b"]), (b!"http", [b!"h", b!"x"]), (b!"default", [b!"a"])].map
      fun p => (p.1, p.2.map .atom)) ∧
    ∀ p ∈ [(b!"default", [b!"b"]), (b!"http", [b!"h", b!"x"]), (b!"default", [b!"a"])],
      p.2 ≠ [] ∧ ∀ s ∈ p.2, Comp (.atom s) :=
  ⟨⟨by decide, by decide, trivial⟩, by decide⟩

/-- Grouping `a/x | a/y | b`: `a/{x | y}` and `b` begin differently. -/
example : Apart (.concat (.atom (b!"a")) (.or (.atom (b!"x")) (.atom (b!"y")))) (.atom (b!"b")) := by
  constructor <;> simp [key]

/-- The ungrouped url is not in this form. -/
example : ¬ Apart (.concat (.atom (b!"a")) (.atom (b!"x"))) (.concat (.atom (b!"a")) (.atom (b!"y"))) := by
  simp [Apart, key]

/-! ## C66: the first alternative that exists -/

/-- The loop of `find_the_first_exist` (System/Files/file.cpp:361-369); `reg` is `is_regular` in the file system as it
is while the loop runs. -/
def firstLoop (reg : Url → Bool) : Url → Url
  | .or a b => if reg a then a else firstLoop reg b
  | u => u

/-- `find_the_first_exist (u)` (System/Files/file.cpp:358-370). -/
def findTheFirstExist (f : Nat) (reg : Url → Bool) (u : Url) : Res Url := do
  let v ← expand f u
  .ok (firstLoop reg v)

theorem firstLoop_orOf (reg : Url → Bool) (l : List Url) (hl : ∀ x ∈ l, Single x) (hne : l ≠ []) :
    some (firstLoop reg (orOf l)) = (l.find? reg).or l.getLast? := by
  induction l with
  | nil => exact absurd rfl hne
  | cons x l ih =>
    by_cases h : l = []
    · subst h
      have := (hl x (by simp)).1
      have e : firstLoop reg x = x := by cases x <;> simp_all [firstLoop, isOr]
      rw [orOf, e, List.find?_cons]
      cases reg x <;> rfl
    · rw [orOf_cons _ _ h, firstLoop, List.find?_cons]
      cases reg x with
      | true => rfl
      | false =>
        simp only [Bool.false_eq_true, if_false]
        rw [ih (fun y hy => hl y (by simp [hy])) h]
        cases l with
        | nil => exact absurd rfl h
        | cons y l => rw [List.getLast?_cons_cons]

/-- The target is the first path of `u` that is a regular file; if there is none, the last path of `u`. -/
theorem C66_first (reg : Url → Bool) (u : Url) (h : Free true u) : ∃ f0, ∀ f, f0 ≤ f →
    ∃ x ∈ den u, findTheFirstExist f reg u = .ok (P x) ∧
      (((den u).find? fun y => reg (P y)) = some x ∨
        (∀ y ∈ den u, reg (P y) = false) ∧ (den u).getLast? = some x) := by
  obtain ⟨f0, h0⟩ := expand_free u h
  refine ⟨f0, fun f hf => ?_⟩
  obtain ⟨L, e, ho, -, -, hl⟩ := h0 f hf
  have hok : ∀ x ∈ L, PathOk true x := fun x hx => pathOk_den h x ((ho.mem x).1 hx)
  have hL : L ≠ [] := by
    intro h
    rw [h] at hl
    exact den_ne_nil u (by simpa using hl.symm)
  have hfl := firstLoop_orOf reg (L.map P) (singles hok) (by simpa using hL)
  rw [List.find?_map, List.getLast?_map] at hfl
  have hff := ho (fun y => reg (P y))
  rw [show reg ∘ P = fun y => reg (P y) from rfl, hff, hl] at hfl
  have hft : findTheFirstExist f reg u = .ok (firstLoop reg (orOf (L.map P))) := by
    rw [findTheFirstExist, e, Res.ok_bind]
  rw [hft]
  cases hfind : (den u).find? (fun y => reg (P y)) with
  | some x =>
    rw [hfind] at hfl
    refine ⟨x, List.mem_of_find?_eq_some hfind, ?_, .inl rfl⟩
    simp only [Option.map_some, Option.some_or, Option.some.injEq] at hfl
    rw [hfl]
  | none =>
    rw [hfind] at hfl
    cases hlast : (den u).getLast? with
    | none => simp at hlast; exact absurd hlast (den_ne_nil u)
    | some x =>
      rw [hlast] at hfl
      refine ⟨x, List.mem_of_getLast? hlast, ?_, .inr ⟨fun y hy => ?_, rfl⟩⟩
      · simp only [Option.map_none, Option.map_some, Option.none_or, Option.some.injEq] at hfl
        rw [hfl]
      · have := List.find?_eq_none.1 hfind y hy
        simpa using this

/-- `{a | b}/a` where only `b/a` is a file: the search in the paths of the url finds `b/a`. -/
example : Free true (.concat (.or (.atom (b!"a")) (.atom (b!"b"))) (.atom (b!"a"))) ∧
    (den (.concat (.or (.atom (b!"a")) (.atom (b!"b"))) (.atom (b!"a")))).find?
      (fun y => decide (P y = P [.atom (b!"b"), .atom (b!"a")])) = some [.atom (b!"b"), .atom (b!"a")] :=
  ⟨⟨⟨comp_a, comp_b⟩, rfl, comp_a⟩, by decide⟩

/-- The search above a directory: `a/b/.../x` is `a/b/x` if that is a file, else `a/x` if that is one. -/
theorem C66_ancestor (reg : Url → Bool) (l m : List Url) (hl : ∀ y ∈ l, Comp y) (hm : ∀ y ∈ m, Comp y) (f : Nat)
    (hf : l.length + 3 ≤ f) :
    findTheFirstExist f reg (P (l ++ ancestor :: m)) =
      .ok (P ((((ways l).find? fun w => reg (P (w ++ m))).getD [ancestor]) ++ m)) := by
  rw [findTheFirstExist, C51_ancestor_partial l m hl hm f hf, Res.ok_bind]
  congr 1
  generalize hW : ways l = W
  have hWc : ∀ w ∈ W, w ≠ [] ∧ ∀ y ∈ w, Comp y := by
    intro w hw
    subst hW
    exact ⟨ways_ne l w hw, fun y hy => hl y (((mem_ways l w).1 hw).2.subset hy)⟩
  clear hW
  induction W with
  | nil =>
    cases m with
    | nil => rfl
    | cons y m => rfl
  | cons w W ih =>
    rw [List.map_cons, List.cons_append, orOf_cons _ _ (by simp), firstLoop, List.find?_cons]
    cases reg (P (w ++ m)) with
    | true => rfl
    | false => exact ih fun v hv => hWc v (by simp [hv])

end Lolly.UrlAltProps
