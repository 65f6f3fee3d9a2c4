import Verif.System.UrlListProps

/-!
# C107: changing and removing the root of a url
-/

set_option autoImplicit false

namespace Lolly.UrlRootProps

open Lolly.Url Lolly.UrlListProps

/-! ## Specification

`R r l` is the url with protocol `r` and components `l`, `P l` the relative path with components `l`, `orOf us` the
alternatives `us`; `merge` identifies equal neighbours. A ramdisc url is `.root3 r c` with contents `c`. -/

/-- The components of a path: no empty name, no `.`, no `..`. -/
def Components (l : List Url) : Prop := ∀ y ∈ l, Elem y ∧ y ≠ parent

theorem Components.elem {l : List Url} (h : Components l) : ∀ y ∈ l, Elem y := fun y hy => (h y hy).1

theorem Components.strip {l : List Url} (h : Components l) : strip l = l :=
  strip_eq_self fun e => (h _ (List.mem_of_mem_head? e)).2 rfl

theorem mul_cons_P {x : Url} {l : List Url} (h : Components (x :: l)) : mul x (P l) = .ok (P (x :: l)) := by
  by_cases hl : l = []
  · subst hl
    rw [P, P, mul_here_right]
    intro e
    exact (h x (by simp)).1.2.2 e
  · have := mul_P (l1 := [x]) (l2 := l) (by simpa using (h x (by simp)).1) (fun y hy => (h y (by simp [hy])).1) hl
    rw [show P [x] = x from rfl] at this
    rw [this]
    show Res.ok (P (push x l)) = _
    cases l with
    | nil => exact absurd rfl hl
    | cons y l => rw [push, if_neg (fun e => (h y (by simp)).2 e.1)]

/-- C107: changing the root of an absolute url changes the protocol and nothing else. -/
theorem C107_reroot (p r : Bytes) (l : List Url) (h : Components l) :
    reroot p (R r l) = .ok (R p l) ∧ protocol (R p l) = p := by
  constructor
  · by_cases hl : l = []
    · subst hl; rfl
    · rw [R_cons _ _ hl, reroot]
      show mul (.root p) (P l) = _
      rw [mul_root_P _ h.elem, h.strip]
  · by_cases hl : l = []
    · subst hl; rfl
    · rw [R_cons _ _ hl]; rfl

/-- A url of the ramdisc gets the new root, too; its contents are no longer part of the url. -/
theorem C107_ramdisc (p r c : Bytes) (l : List Url) (h : Components l) :
    reroot p (.root3 r c) = .ok (.root p) ∧ reroot p (.concat (.root3 r c) (P l)) = .ok (R p l) := by
  refine ⟨rfl, ?_⟩
  rw [reroot]
  show mul (.root p) (P l) = _
  rw [mul_root_P _ h.elem, h.strip]

/-- C107: removing the root of an absolute url leaves the path below it. -/
theorem C107_unroot (r c : Bytes) (l : List Url) :
    unroot (R r l) = .ok (P l) ∧ unroot (.concat (.root3 r c) (P l)) = .ok (P l) := by
  have h : mul here (P l) = .ok (P l) := mul_here_left _
  refine ⟨?_, h⟩
  by_cases hl : l = []
  · subst hl; rfl
  · rw [R_cons _ _ hl]; exact h

/-- C107: urls without a root are left as they are. -/
theorem C107_relative (p : Bytes) (l : List Url) (h : Components l) :
    reroot p (P l) = .ok (P l) ∧ unroot (P l) = .ok (P l) := by
  have key : ∀ f : Url → Res Url, (∀ a b, f (.concat a b) = f a >>= fun x => mul x b) →
      (∀ y, Elem y → f y = .ok y) → f here = .ok here → f (P l) = .ok (P l) := by
    intro f hc he hh
    cases l with
    | nil => exact hh
    | cons x l =>
      cases l with
      | nil => exact he x (h x (by simp)).1
      | cons y l =>
        rw [P_cons _ _ (by simp), hc, he x (h x (by simp)).1, Res.ok_bind, mul_cons_P h, P_cons _ _ (by simp)]
  refine ⟨key _ (fun a b => by rw [reroot]) (fun y hy => ?_) rfl, key _ (fun a b => by rw [unroot]) (fun y hy => ?_) rfl⟩
  · have := hy.1; cases y <;> simp_all [isPseudoAtomic, reroot]
  · have := hy.1; cases y <;> simp_all [isPseudoAtomic, unroot]

/-- C107: a root that was changed can be put back. -/
theorem C107_back (p r : Bytes) (l : List Url) (h : Components l) :
    (reroot p (R r l) >>= reroot r) = .ok (R r l) ∧ (unroot (R r l) >>= mul (.root r)) = .ok (R r l) := by
  rw [(C107_reroot p r l h).1, (C107_unroot r [] l).1, Res.ok_bind, Res.ok_bind]
  exact ⟨(C107_reroot r p l h).1, by rw [mul_root_P _ h.elem, h.strip]⟩

/-- C107: both work on each of a list of alternatives.
Missing: alternatives whose results have alternatives or are undefined; and see `C107_root_violated`. -/
theorem C107_alternatives_partial (p : Bytes) (us : List Url) (hne : us ≠ []) (g : Url → Url) (hs : ∀ u ∈ us, Single (g u)) :
    ((∀ u ∈ us, reroot p u = .ok (g u)) → reroot p (orOf us) = .ok (orOf (merge (us.map g)))) ∧
    ((∀ u ∈ us, unroot u = .ok (g u)) → unroot (orOf us) = .ok (orOf (merge (us.map g)))) := by
  have key : ∀ f : Url → Res Url, (∀ a b, f (.or a b) = f a >>= fun x => f b >>= fun y => .ok (alt x y)) →
      (∀ u ∈ us, f u = .ok (g u)) → f (orOf us) = .ok (orOf (merge (us.map g))) := by
    intro f ho hf
    induction us with
    | nil => exact absurd rfl hne
    | cons x us ih =>
      by_cases hn : us = []
      · subst hn
        rw [List.map_cons, List.map_nil, merge_singleton]
        exact hf x (by simp)
      · rw [orOf_cons _ _ hn, ho, hf x (by simp), Res.ok_bind,
          ih hn (fun u hu => hs u (by simp [hu])) (fun u hu => hf u (by simp [hu])), Res.ok_bind]
        have h1 : Single (g x) := hs x (by simp)
        have h2 : ∀ v ∈ us.map g, Single v := by
          intro v hv
          obtain ⟨u, hu, rfl⟩ := List.mem_map.1 hv
          exact hs u (by simp [hu])
        rw [alt_ins h1 (singles_merge h2) (merge_ne_nil (by simpa using hn))]
        rfl
  exact ⟨key _ fun a b => by rw [reroot], key _ fun a b => by rw [unroot]⟩

/-- `http://h/x` and `y` under the root `https`: only the first one has a root to change. -/
example : reroot (b!"https") (orOf [R (b!"http") [.atom (b!"h"), .atom (b!"x")], P [.atom (b!"y")]]) =
    .ok (.or (R (b!"https") [.atom (b!"h"), .atom (b!"x")]) (.atom (b!"y"))) := by
  have hc : Components [.atom (b!"h"), .atom (b!"x")] := by unfold Components; decide
  have h := (C107_alternatives_partial (b!"https") [R (b!"http") [.atom (b!"h"), .atom (b!"x")], P [.atom (b!"y")]] (by simp)
    (fun u => if u = .atom (b!"y") then u else R (b!"https") [.atom (b!"h"), .atom (b!"x")]) (by unfold Single; decide)).1 (by
      intro u hu
      simp only [List.mem_cons, List.not_mem_nil, or_false] at hu
      rcases hu with rfl | rfl
      · rw [(C107_reroot _ _ _ hc).1]; rfl
      · rfl)
  rw [h]
  decide

/-- Changing the root of a path that was read as absolute keeps the host of a web url as its first component: `/h/x`
under `http` is `http://h/x`. -/
example : reroot (b!"http") (R (b!"default") [.atom (b!"h"), .atom (b!"x")]) =
    .ok (R (b!"http") [.atom (b!"h"), .atom (b!"x")]) :=
  (C107_reroot _ _ _ (by unfold Components; decide)).1

/-- C107 fails for `unroot` on a root: it becomes `.`, a relative url; also as one of two alternatives, unless the other one
becomes `.` too. -/
theorem C107_root_violated (p : Bytes) :
    unroot (.root p) = .ok here ∧
    ∀ u v, unroot u = .ok v → Single v →
      unroot (.or (.root p) u) = .ok (if v = here then here else .or here v) := by
  refine ⟨rfl, fun u v hu hv => ?_⟩
  show (do let y ← unroot u; Res.ok (alt here y)) = _
  rw [hu, Res.ok_bind]
  have := alt_ins (a := here) (l := [v]) ⟨rfl, by decide⟩ (by
    intro x hx
    rw [List.mem_singleton.1 hx]
    exact hv) (by simp)
  rw [show orOf [v] = v from rfl] at this
  rw [this, ins]
  by_cases h : v = here
  · rw [if_pos h, if_pos (by rw [h]; rfl), h]; rfl
  · rw [if_neg h, if_neg (by simpa using h)]; rfl

/-- The alternatives `/` and `x`. -/
example : unroot (.or (.root (b!"default")) (.atom (b!"x"))) = .ok (.or here (.atom (b!"x"))) :=
  ((C107_root_violated _).2 (.atom (b!"x")) (.atom (b!"x")) rfl ⟨rfl, by decide⟩).trans (by decide)

end Lolly.UrlRootProps
