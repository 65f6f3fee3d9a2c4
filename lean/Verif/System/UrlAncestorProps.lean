import Verif.System.UrlAltProps

/-!
# C51: `...` below roots and after alternatives
-/

set_option autoImplicit false

namespace Lolly.UrlAltProps

open Lolly.Url

/-- What a root has above `.../m`: a root of the web has nothing, other roots are directories themselves. -/
def rootTail (r : Bytes) (m : List Url) : List Url :=
  (if webProtocol r = true then [] else [P (.root r :: m)]) ++ [P (ancestor :: m)]

theorem single_anc (m : List Url) : Single (P (ancestor :: m)) := by
  cases m with
  | nil => exact ⟨rfl, by simp [P, ancestor]⟩
  | cons => exact ⟨rfl, by simp [P]⟩

theorem pathOk_root (r : Bytes) {m : List Url} (hm : ∀ y ∈ m, Comp y) : PathOk true (.root r :: m) :=
  ⟨.inr ⟨rfl, r, rfl⟩, hm⟩

theorem alt_two {v w : Url} (hv : Single v) (hw : Single w) (hne : v ≠ w) : alt v w = .or v w := by
  have := alt_ins (a := v) (l := [w]) hv (by simpa using hw) (by simp)
  rw [ins, if_neg (by simpa using fun e => hne e.symm)] at this
  exact this

theorem expand2_root_anc (f : Nat) (r : Bytes) (m : List Url) (hm : ∀ y ∈ m, Comp y) :
    expand2 (f + 3) (.root r) (P (ancestor :: m)) = .ok (orOf (rootTail r m)) := by
  have hr : isSpecialRoot (.root r) = webProtocol r := isRootWeb_root r
  have hrs : Single (.root r) := ⟨rfl, by simp⟩
  have h1 : ∀ g, expand2 (g + 1) (.root r) ancestor = .ok (orOf (rootTail r [])) := by
    intro g
    have e : expand2 (g + 1) (.root r) ancestor =
        if isSpecialRoot (.root r) then .ok ancestor else .ok (alt (.root r) ancestor) := rfl
    rw [e, hr, rootTail]
    by_cases h : webProtocol r = true
    · simp [h, orOf, P, ancestor]
    · simp only [h, if_false, Bool.false_eq_true]
      rw [alt_two hrs ⟨rfl, by simp [ancestor]⟩ (by simp [ancestor])]
      rfl
  cases m with
  | nil => exact h1 _
  | cons y m =>
    rw [P, expand2.eq_def]
    dsimp only
    rw [if_neg (by simp [ancestor]), if_pos rfl, h1, Res.ok_bind, rootTail, rootTail]
    by_cases h : webProtocol r = true
    · simp only [h, if_true, List.nil_append]
      exact expand2_anc_left _ _ hm (by simp)
    · simp only [h, if_false, Bool.false_eq_true]
      show expand2 (f + 2) (.or (.root r) ancestor) _ = _
      rw [expand2.eq_def]
      dsimp only
      have := expand2_single f (b := true) (x := [.root r]) (y := y :: m) (pathOk_root r (by simp))
        ⟨.inl (hm y (by simp)), fun z hz => hm z (by simp [hz])⟩
      rw [show P [.root r] = .root r from rfl] at this
      rw [this, expand2_anc_left f _ hm (by simp), Res.ok_bind, Res.ok_bind, List.singleton_append,
        alt_two (single_path (pathOk_root r hm)) (single_anc (y :: m)) (by simp [P, ancestor])]
      rfl

theorem expand2_root_ways (f : Nat) (r : Bytes) (m : List Url) (hm : ∀ y ∈ m, Comp y) (W : List (List Url))
    (hW : ∀ w ∈ W, w ≠ [] ∧ ∀ y ∈ w, Comp y) (hlen : W.Pairwise fun v w => v.length ≠ w.length) :
    expand2 (W.length + f + 3) (.root r) (orOf (W.map (fun w => P (w ++ m)) ++ [P (ancestor :: m)])) =
      .ok (orOf (W.map (fun w => P (.root r :: w ++ m)) ++ rootTail r m)) := by
  have hok : ∀ w, (∀ y ∈ w, Comp y) → PathOk true (.root r :: w ++ m) := fun w hw => pathOk_root r (fun z hz => by
    rcases List.mem_append.1 hz with h | h
    · exact hw z h
    · exact hm z h)
  have hT : ∀ u ∈ rootTail r m, Single u := by
    intro u hu
    rw [rootTail, List.mem_append] at hu
    rcases hu with hu | hu
    · split at hu
      · cases hu
      · rw [List.mem_singleton] at hu; rw [hu]; exact single_path (pathOk_root r hm)
    · rw [List.mem_singleton] at hu; rw [hu]; exact single_anc m
  induction W with
  | nil => simpa [orOf] using expand2_root_anc f r m hm
  | cons w W ih =>
    obtain ⟨hl1, hl2⟩ := List.pairwise_cons.1 hlen
    have hw := hW w (by simp)
    have ih' := ih (fun v hv => hW v (by simp [hv])) hl2
    have hpw : PathOk false (w ++ m) := by
      cases w with
      | nil => exact absurd rfl hw.1
      | cons a w =>
        refine ⟨.inl (hw.2 a (by simp)), fun z hz => ?_⟩
        rcases List.mem_append.1 hz with h | h
        · exact hw.2 z (by simp [h])
        · exact hm z h
    have hsing := expand2_single (W.length + f + 2) (b := true) (x := [.root r]) (y := w ++ m)
      (pathOk_root r (by simp)) hpw
    rw [show P [.root r] = .root r from rfl] at hsing
    have hstep : expand2 ((w :: W).length + f + 3) (.root r)
        (orOf ((w :: W).map (fun w => P (w ++ m)) ++ [P (ancestor :: m)])) =
        (do
          let v ← expand2 (W.length + f + 3) (.root r) (P (w ++ m))
          let u ← expand2 (W.length + f + 3) (.root r) (orOf (W.map (fun w => P (w ++ m)) ++ [P (ancestor :: m)]))
          Res.ok (alt v u)) := by
      rw [List.map_cons, List.cons_append, orOf_cons _ _ (by simp),
        show (w :: W).length + f + 3 = (W.length + f + 3) + 1 by simp; omega, expand2.eq_def]
    rw [hstep, hsing, ih', Res.ok_bind, Res.ok_bind, show [Url.root r] ++ (w ++ m) = .root r :: w ++ m from rfl,
      alt_ins (single_path (hok w hw.2))]
    · rw [ins, if_neg]
      · rfl
      · have hne : ∀ v : List Url, (∀ y ∈ v, Comp y) → v.length ≠ w.length → P (.root r :: v ++ m) ≠ P (.root r :: w ++ m) := by
          intro v hv hvl e
          have := P_inj_path (hok v hv) (hok w hw.2) e
          simp only [List.cons_append, List.cons.injEq, true_and] at this
          have := congrArg List.length this
          simp at this
          exact hvl this
        cases W with
        | nil =>
          have h0 := hne [] (by simp) (by simpa using Ne.symm (by simpa using hw.1))
          rw [List.map_nil, List.nil_append, rootTail]
          by_cases h : webProtocol r = true
          · simp only [h, if_true, List.nil_append, List.head?_cons, Option.some.injEq]
            intro e
            cases w with
            | nil => exact absurd rfl hw.1
            | cons a w => cases m <;> simp [P, ancestor] at e
          · simp only [h, if_false, Bool.false_eq_true]
            simpa using h0
        | cons v W =>
          have := hne v (hW v (by simp)).2 (hl1 v (by simp)).symm
          simpa using this
    · intro y hy
      simp only [List.mem_append, List.mem_map] at hy
      rcases hy with ⟨v, hv, rfl⟩ | hy
      · exact single_path (hok v (hW v (by simp [hv])).2)
      · exact hT y hy
    · simp [rootTail]

/-- C51 for `...` below a root: `r/l/.../m` stands for `m` in the directory `l` and in every directory above it, the nearest
first, up to the root itself, unless that is the root of the web. What is left at the end is `.../m`, which is relative.
Missing: `...` after alternatives, see `C51_ancestor_violated`. -/
theorem C51_ancestor_rooted_partial (r : Bytes) (l m : List Url) (hl : ∀ y ∈ l, Comp y) (hm : ∀ y ∈ m, Comp y) (f : Nat)
    (hf : l.length + 3 ≤ f) :
    expand f (R r (l ++ ancestor :: m)) = .ok (orOf ((ways l).map (fun w => R r (w ++ m)) ++
      (if webProtocol r = true then [] else [R r m]) ++ [P (ancestor :: m)])) := by
  rw [R_cons _ _ (by simp), expand, C51_ancestor_partial l m hl hm f hf]
  have hroot : expand f (.root r) = .ok (.root r) := by cases f <;> rfl
  rw [hroot, Res.ok_bind, Res.ok_bind]
  have := expand2_root_ways (f - l.length - 3) r m hm (ways l)
    (fun w hw => ⟨ways_ne l w hw, fun y hy => hl y (((mem_ways l w).1 hw).2.subset hy)⟩) (ways_lengths l)
  rw [show (ways l).length + (f - l.length - 3) + 3 = f by rw [ways_length]; omega] at this
  have hPR : ∀ k : List Url, P (.root r :: k) = R r k := by
    intro k
    cases k with
    | nil => rfl
    | cons => rw [R_cons _ _ (by simp)]; rfl
  rw [this, rootTail]
  simp only [List.cons_append, hPR, List.append_assoc]

example : (∀ y ∈ [Url.atom (b!"a")], Comp y) ∧ (∀ y ∈ [Url.atom (b!"x")], Comp y) := by decide

/-- `{l:n}/...` for a path `l` of at least two components: only `l` and its first component are found. -/
theorem expand2_path_anc (f : Nat) (x y : Url) (l : List Url) (h : ∀ z ∈ x :: y :: l, Comp z) :
    expand2 (f + 4) (P (x :: y :: l)) ancestor = .ok (orOf [P (x :: y :: l), x, ancestor]) := by
  have hx := h x (by simp)
  have h1 := expand2_anc_right f x hx [] (by simp)
  simp only [P] at h1
  have hs : Single x := single_path (b := false) (x := [x]) ⟨.inl hx, by simp⟩
  have hp : Single (P (x :: y :: l)) := ⟨rfl, by simp [P]⟩
  have e : expand2 (f + 4) (P (x :: y :: l)) ancestor =
      expand2 (f + 3) x ancestor >>= fun v => .ok (alt (P (x :: y :: l)) v) := rfl
  rw [e, h1, Res.ok_bind]
  have := alt_ins (a := P (x :: y :: l)) (l := [x, ancestor]) hp (by
    intro u hu
    simp only [List.mem_cons, List.not_mem_nil, or_false] at hu
    rcases hu with rfl | rfl
    · exact hs
    · exact ⟨rfl, by simp [ancestor]⟩) (by simp)
  rw [ins, if_neg (by
    simp only [List.head?_cons, Option.some.injEq]
    intro e
    have := hx.1.not_concat
    rw [e] at this
    simp [P, isConcat] at this)] at this
  exact congrArg Res.ok this

/-- C51 fails for `...` after alternatives: in `{x/y/z:n}/...` the directory `x/y` is left out, while `x/y/z/...` has it. -/
theorem C51_ancestor_violated (f : Nat) (x y z n : Url) (hx : Comp x) (hy : Comp y) (hz : Comp z) (hn : Comp n) :
    expand (f + 6) (.concat (.or (P [x, y, z]) n) ancestor) =
      .ok (alt (orOf [P [x, y, z], x, ancestor]) (orOf [n, ancestor])) ∧
    P [x, y] ∈ [P [x, y, z], P [x, y], x, ancestor] ∧
    expand (f + 6) (P [x, y, z, ancestor]) = .ok (orOf [P [x, y, z], P [x, y], x, ancestor]) := by
  have h3 : ∀ u ∈ [x, y, z], Comp u := by
    intro u hu
    simp only [List.mem_cons, List.not_mem_nil, or_false] at hu
    rcases hu with rfl | rfl | rfl <;> assumption
  refine ⟨?_, by simp, ?_⟩
  · have e1 := expand_P (f + 5) [x, y, z] h3 (by simp)
    have e2 := expand_P (f + 5) [n] (by simpa using hn) (by simp)
    rw [show P [n] = n from rfl] at e2
    have hne : P [x, y, z] ≠ n := by
      intro e
      have := hn.1.not_concat
      rw [← e] at this
      simp [P, isConcat] at this
    have hnc : Single n := single_path (b := false) (x := [n]) ⟨.inl hn, by simp⟩
    have hor : expand (f + 6) (.or (P [x, y, z]) n) = .ok (.or (P [x, y, z]) n) := by
      rw [expand, e1, e2, Res.ok_bind, Res.ok_bind, alt_two ⟨rfl, by simp [P]⟩ hnc hne]
    rw [expand, hor, show expand (f + 6) ancestor = .ok ancestor from rfl, Res.ok_bind, Res.ok_bind, expand2.eq_def]
    dsimp only
    rw [expand2_path_anc (f + 1) x y [z] h3, Res.ok_bind]
    have := expand2_anc_right (f + 2) n hn [] (by simp)
    simp only [P] at this
    rw [this]
    rfl
  · have := C51_ancestor_partial [x, y, z] [] h3 (by simp) (f + 6) (by simp)
    simpa [ways, P] using this

example : Comp (.atom (b!"a")) ∧ Comp (.atom (b!"b")) ∧ Comp (.atom (b!"c")) := by decide

end Lolly.UrlAltProps
