import Verif.Containers.ListThrowProps
import Verif.Containers.ListThrowMore

/-!
# C181: `l * x` and `remove` when copying an element throws
-/

set_option autoImplicit false

namespace Lolly.ListThrow

variable {T : Type} {fails : Nat → Bool} {early : Bool}

/-- A list of the items `xs` is made with `c` copies; when one of them throws, the new nodes are freed, and at most one block is
lost. -/
def Ends (fails : Nat → Bool) (xs : List T) (c : Nat) (s : St T) (o : Out T (Option Nat)) : Prop :=
  (NoneOf fails s c → o = .ret (top s.heap.length xs.length)
      ⟨s.heap ++ made s.heap.length xs, s.copies + c, s.elems + xs.length, s.lost⟩) ∧
  ∀ j, j < c → First fails s j → ∃ m b, b ≤ 1 ∧ o = .thrown
      ⟨s.heap ++ List.replicate m none, s.copies + j + 1, s.elems, s.lost + b⟩

/-- The copies after the first one. -/
theorem NoneOf.shift {s : St T} {n : Nat} (h : NoneOf fails s (n + 1)) : fails s.copies = false ∧
    NoneOf fails { s with copies := s.copies + 1, elems := s.elems + 1 } n :=
  ⟨h 0 (by omega), fun i hi => by have := h (i + 1) (by omega); rw [← this]; congr 1; dsimp only; omega⟩

theorem ends_nil (s : St T) : Ends fails [] 0 s (.ret none s) :=
  ⟨fun _ => by simp [top, made], fun j hj => absurd hj (by omega)⟩

theorem ends_param {xs : List T} {c : Nat} {H : List (Option (Node T))} {body : St T → Out T (Option Nat)}
    (hb : ∀ s, s.heap = H → Ends fails xs c s (body s)) (s : St T) (hs : s.heap = H) :
    Ends fails xs (c + 1) s (param fails body s) := by
  have hb := hb { s with copies := s.copies + 1, elems := s.elems + 1 } hs
  unfold param
  constructor
  · intro hn
    obtain ⟨h0, h1⟩ := hn.shift
    rw [elem_ok h0, hb.1 h1]
    simp only [Out.ret.injEq, St.mk.injEq, true_and, and_true]
    omega
  · intro j hj hf
    cases j with
    | zero =>
      rw [elem_fail (s' := { s with copies := s.copies + 1 }) (by exact hf.1) rfl]
      exact ⟨0, 0, by omega, by simp⟩
    | succ j =>
      obtain ⟨h0, h1⟩ := NoneOf.shift hf.2
      obtain ⟨m, b, hb1, e⟩ := hb.2 j (by omega) ⟨by rw [← hf.1]; congr 1; dsimp only; omega, h1⟩
      refine ⟨m, b, hb1, ?_⟩
      rw [elem_ok h0, e]
      simp only [Out.thrown.injEq, St.mk.injEq, true_and, and_true]
      omega

/-- The constructor of a node whose parameters exist. -/
theorem ends_inside (item : T) (H : List (Option (Node T))) (xs : List T) (s : St T) (hs : s.heap = H ++ made H.length xs) :
    (NoneOf fails s 2 → inside fails item (top H.length xs.length) s = .ret (top H.length (xs.length + 1))
        ⟨H ++ made H.length (item :: xs), s.copies + 2, s.elems, s.lost⟩) ∧
    ∀ j, j < 2 → First fails s j → inside fails item (top H.length xs.length) s = .thrown
        ⟨H ++ List.replicate xs.length none, s.copies + j + 1, s.elems - 1 - xs.length, s.lost + 1⟩ := by
  obtain ⟨h1, h2, h3⟩ := inside_spec (fails := fails) item H xs s hs
  refine ⟨fun hn => h1 (hn 0 (by omega)) (hn 1 (by omega)), fun j hj hf => ?_⟩
  match j, hj, hf with
  | 0, _, hf => exact h2 hf.1
  | 1, _, hf => exact h3 (hf.2 0 (by omega)) hf.1

theorem ends_node {item : T} {xs : List T} {c : Nat} {H : List (Option (Node T))} {rest : St T → Out T (Option Nat)}
    (hr : ∀ s, s.heap = H → Ends fails xs c s (rest s)) (s : St T) (hs : s.heap = H) :
    Ends fails (item :: xs) (c + 3) s (node fails early item rest s) := by
  subst hs
  unfold node
  cases early with
  | true =>
    have hr := hr { s with copies := s.copies + 1, elems := s.elems + 1 } rfl
    have ins := ends_inside (fails := fails) item s.heap xs ⟨s.heap ++ made s.heap.length xs, s.copies + 1 + c,
        s.elems + 1 + xs.length, s.lost⟩ rfl
    rw [if_pos rfl]
    constructor
    · intro hn
      obtain ⟨h0, h1⟩ := NoneOf.shift hn
      rw [elem_ok h0, hr.1 fun i hi => h1 i (by omega)]
      dsimp only
      rw [ins.1 fun i hi => by have := h1 (c + i) (by omega); rw [← this]; congr 1; dsimp only; omega]
      simp only [List.length_cons, Out.ret.injEq, St.mk.injEq, true_and, and_true]
      omega
    · intro j hj hf
      cases j with
      | zero =>
        rw [elem_fail (s' := { s with copies := s.copies + 1 }) (by exact hf.1) rfl]
        exact ⟨0, 0, by omega, by simp⟩
      | succ j =>
        obtain ⟨h0, h1⟩ := NoneOf.shift hf.2
        rw [elem_ok h0]
        by_cases hjc : j < c
        · obtain ⟨m, b, hb, e⟩ := hr.2 j hjc ⟨by rw [← hf.1]; congr 1; dsimp only; omega, h1⟩
          refine ⟨m, b, hb, ?_⟩
          rw [e]
          simp only [Out.thrown.injEq, St.mk.injEq, true_and, and_true]
          omega
        · rw [hr.1 fun i hi => h1 i (by omega)]
          dsimp only
          rw [ins.2 (j - c) (by omega) ⟨by rw [← hf.1]; congr 1; dsimp only; omega, fun i hi => by
            have := h1 (c + i) (by omega); rw [← this]; congr 1; dsimp only; omega⟩]
          refine ⟨xs.length, 1, by omega, ?_⟩
          simp only [Out.thrown.injEq, St.mk.injEq, true_and, and_true]
          omega
  | false =>
    have hr := hr s rfl
    rw [if_neg (by decide)]
    have ins := ends_inside (fails := fails) item s.heap xs ⟨s.heap ++ made s.heap.length xs, s.copies + c + 1,
        s.elems + xs.length + 1, s.lost⟩ rfl
    constructor
    · intro hn
      rw [hr.1 fun i hi => hn i (by omega)]
      dsimp only
      rw [elem_ok (by exact hn c (by omega))]
      dsimp only
      rw [ins.1 fun i hi => by have := hn (c + 1 + i) (by omega); rw [← this]; congr 1; dsimp only; omega]
      simp only [List.length_cons, Out.ret.injEq, St.mk.injEq, true_and, and_true]
      omega
    · intro j hj hf
      by_cases hjc : j < c
      · obtain ⟨m, b, hb, e⟩ := hr.2 j hjc hf
        exact ⟨m, b, hb, by rw [e]⟩
      · rw [hr.1 fun i hi => hf.2 i (by omega)]
        dsimp only
        by_cases hj0 : j = c
        · rw [elem_fail (by rw [← hj0]; exact hf.1) (release_made s.heap xs _ rfl)]
          refine ⟨xs.length, 0, by omega, ?_⟩
          simp only [Out.thrown.injEq, St.mk.injEq, true_and]
          omega
        · rw [elem_ok (by exact hf.2 c (by omega))]
          dsimp only
          rw [ins.2 (j - c - 1) (by omega) ⟨by rw [← hf.1]; congr 1; dsimp only; omega, fun i hi => by
            have := hf.2 (c + 1 + i) (by omega); rw [← this]; congr 1; dsimp only; omega⟩]
          refine ⟨xs.length, 1, by omega, ?_⟩
          simp only [Out.thrown.injEq, St.mk.injEq, true_and, and_true]
          omega

theorem times_ends (x : T) {H : List (Option (Node T))} {p : Option Nat} {xs : List T} (h : Lists H p xs) (f : Nat)
    (hf : xs.length < f) (s : St T) (hs : s.heap = H) :
    Ends fails (xs ++ [x]) (4 * (xs.length + 1)) s (times fails early x f p s) := by
  induction h generalizing f s with
  | nil =>
    cases f with
    | zero => omega
    | succ f =>
      rw [times]
      exact ends_param (c := 3) (fun s hs => ends_node (c := 0) (fun s _ => ends_nil s) s hs) s hs
  | @cons a nd xs hn _ ih =>
    cases f with
    | zero => omega
    | succ f =>
      rw [times, show 4 * ((nd.item :: xs).length + 1) = 4 * (xs.length + 1) + 3 + 1 by simp; omega]
      refine ends_param (fun s hs => ?_) s hs
      dsimp only
      rw [hs, hn]
      exact ends_node (fun s hs => ih f (by simpa using hf) s hs) s hs

theorem remove_ends (eq : T → T → Bool) (what : T) {H : List (Option (Node T))} {p : Option Nat} {xs : List T}
    (h : Lists H p xs) (f : Nat) (hf : xs.length < f) (s : St T) (hs : s.heap = H) :
    Ends fails (xs.filter fun y => !eq y what) (xs.length + 1 + 3 * (xs.filter fun y => !eq y what).length) s
      (remove fails early eq what f p s) := by
  induction h generalizing f s with
  | nil =>
    cases f with
    | zero => omega
    | succ f =>
      rw [remove]
      exact ends_param (c := 0) (fun s _ => ends_nil s) s hs
  | @cons a nd xs hn _ ih =>
    cases f with
    | zero => omega
    | succ f =>
      have ih := fun s hs => ih f (by simpa using hf) s hs
      rw [remove]
      by_cases he : eq nd.item what = true
      · rw [List.filter_cons_of_neg (by simp [he])]
        rw [show (nd.item :: xs).length + 1 + 3 * (xs.filter fun y => !eq y what).length =
          xs.length + 1 + 3 * (xs.filter fun y => !eq y what).length + 1 by simp; omega]
        refine ends_param (fun s hs => ?_) s hs
        dsimp only
        rw [hs, hn]
        dsimp only
        rw [if_pos he]
        exact ih s hs
      · rw [List.filter_cons_of_pos (by simp [he])]
        rw [show (nd.item :: xs).length + 1 + 3 * (nd.item :: xs.filter fun y => !eq y what).length =
          xs.length + 1 + 3 * (xs.filter fun y => !eq y what).length + 3 + 1 by simp; omega]
        refine ends_param (fun s hs => ?_) s hs
        dsimp only
        rw [hs, hn]
        dsimp only
        rw [if_neg he]
        exact ends_node ih s hs

end Lolly.ListThrow

namespace Lolly.ListThrowProps

open Lolly.ListThrow

variable {T : Type} {fails : Nat → Bool} {early : Bool}

/-- A list of the items `xs` is made by `o` with `c` copies of elements; if one of them throws, everything is as before but that
one block may be lost. -/
def MakesWith (fails : Nat → Bool) (xs : List T) (c : Nat) (s : St T) (o : Out T (Option Nat)) : Prop :=
  (NoneOf fails s c → ∃ r s', o = .ret r s' ∧ Lists s'.heap r xs ∧ Kept s s' ∧ s'.copies = s.copies + c ∧
    s'.elems = s.elems + xs.length ∧ s'.lost = s.lost) ∧
  ∀ j, j < c → First fails s j → ∃ s', o = .thrown s' ∧ Restored s s' ∧ s'.copies = s.copies + j + 1 ∧
    s.lost ≤ s'.lost ∧ s'.lost ≤ s.lost + 1

theorem makesWith_of {xs : List T} {c : Nat} {s : St T} {o : Out T (Option Nat)} (h : Ends fails xs c s o) :
    MakesWith fails xs c s o := by
  refine ⟨fun hn => ⟨_, _, h.1 hn, made_lists _ _, ⟨_, rfl⟩, rfl, rfl, rfl⟩, fun j hj hf => ?_⟩
  obtain ⟨m, b, hb, e⟩ := h.2 j hj hf
  exact ⟨_, e, ⟨⟨m, rfl⟩, rfl⟩, rfl, by dsimp only; omega, by dsimp only; omega⟩

/-- C181, `l * x`: four copies for each item and for `x`. Missing: a block may be lost, see `C181_times_violated`. -/
theorem C181_times_partial (x : T) (s : St T) {p : Option Nat} {xs : List T} (h : Lists s.heap p xs) (f : Nat)
    (hf : xs.length < f) : MakesWith fails (xs ++ [x]) (4 * (xs.length + 1)) s (times fails early x f p s) :=
  makesWith_of (times_ends x h f hf s rfl)

/-- C181, `remove (l, what)`: the items that are not equal to `what`, in the same order, with three copies for each of them and one
of `what` for each item of `l` and for its end. Missing: a block may be lost. -/
theorem C181_remove_partial (eq : T → T → Bool) (what : T) (s : St T) {p : Option Nat} {xs : List T} (h : Lists s.heap p xs)
    (f : Nat) (hf : xs.length < f) :
    MakesWith fails (xs.filter fun y => !eq y what) (xs.length + 1 + 3 * (xs.filter fun y => !eq y what).length) s
      (remove fails early eq what f p s) :=
  makesWith_of (remove_ends eq what h f hf s rfl)

/-- **C181 is violated** by `l * x` too, whatever the item: a block is lost when `x` is appended to the empty list and the last
copy throws. -/
theorem C181_times_violated (x : T) (s : St T) (f : Nat) : ∃ fails, ∃ s',
    times fails early x (f + 1) none s = .thrown s' ∧ s'.lost = s.lost + 1 ∧ ∀ k, fails k = true → k = s.copies + 3 := by
  refine ⟨fun k => decide (k = s.copies + 3), ⟨s.heap, s.copies + 4, s.elems, s.lost + 1⟩, ?_, rfl,
    fun k hk => of_decide_eq_true hk⟩
  have h0 : decide (s.copies = s.copies + 3) = false := by simp
  have h1 : decide (s.copies + 1 = s.copies + 3) = false := by simp
  have h2 : decide (s.copies + 1 + 1 = s.copies + 3) = false := by simp
  have h3 : decide (s.copies + 1 + 1 + 1 = s.copies + 3) = true := by simp
  cases early <;>
  · simp [times, param, node, inside, elem, release, drop]
    try omega

/-- [5, 6] * 7, and without 5. -/
example : times (· == 99) false 7 3 (some 1) two =
      .ret (some 4) ⟨two.heap ++ [some ⟨7, none, 1⟩, some ⟨6, some 2, 1⟩, some ⟨5, some 3, 1⟩], 12, 5, 0⟩ ∧
    times (· == 8) false 7 3 (some 1) two = .thrown ⟨two.heap ++ [none], 9, 2, 1⟩ ∧
    remove (· == 99) true (· == ·) 5 3 (some 1) two = .ret (some 2) ⟨two.heap ++ [some ⟨6, none, 1⟩], 6, 3, 0⟩ ∧
    remove (· == 1) true (· == ·) 5 3 (some 1) two = .thrown ⟨two.heap, 2, 2, 0⟩ := by decide

end Lolly.ListThrowProps
