import Verif.Containers.ListThrowLemmas

/-!
# C181: lists of elements whose copying throws

`Lists H p xs`: in the memory `H`, the list at `p` has the items `xs`. `NoneOf` and `First` say which of the next copies throws
first. `isInside early n j` tells whether copy `j` of those for `n` items is made inside of the constructor of a node: if items
are copied before the rest of the list is made, these are the copies after the first `n` ones, otherwise two of three.
-/

set_option autoImplicit false

namespace Lolly.ListThrowProps

open Lolly.ListThrow

variable {T : Type} {fails : Nat → Bool} {early : Bool}

/-- All old nodes are as they were, with their counts: memory only got new ones. -/
def Kept (s s' : St T) : Prop := ∃ G, s'.heap = s.heap ++ G

/-- After an exception: all old nodes are as they were, all new ones are freed, and there are as many elements as before. -/
def Restored (s s' : St T) : Prop := (∃ m, s'.heap = s.heap ++ List.replicate m none) ∧ s'.elems = s.elems

/-- A list of the items `xs` is made by `o`, with three copies of each; if one of them throws, everything is as before but that a
block is lost if it was made inside of the constructor of a node. -/
def MakesList (fails : Nat → Bool) (early : Bool) (xs : List T) (s : St T) (o : Out T (Option Nat)) : Prop :=
  (NoneOf fails s (3 * xs.length) → ∃ r s', o = .ret r s' ∧ Lists s'.heap r xs ∧ Kept s s' ∧
    s'.elems = s.elems + xs.length ∧ s'.lost = s.lost) ∧
  ∀ j, j < 3 * xs.length → First fails s j → ∃ s', o = .thrown s' ∧ Restored s s' ∧
    s'.lost = s.lost + if isInside early xs.length j then 1 else 0

theorem makes_of {xs : List T} {s : St T} {o : Out T (Option Nat)} (h : Result fails early xs s o) :
    MakesList fails early xs s o := by
  refine ⟨fun hn => ⟨_, _, h.1 hn, made_lists _ _, ⟨_, rfl⟩, rfl, rfl⟩, fun j hj hf => ⟨_, h.2 j hj hf, ⟨⟨_, rfl⟩, rfl⟩, rfl⟩⟩

theorem copy_result {H : List (Option (Node T))} {p : Option Nat} {xs : List T} (h : Lists H p xs) (f : Nat)
    (hf : xs.length < f) (s : St T) (hs : s.heap = H) : Result fails early xs s (copy fails early f p s) := by
  induction h generalizing f s with
  | nil =>
    cases f with
    | zero => omega
    | succ f =>
      refine ⟨fun _ => ?_, fun j hj => absurd hj (by simp)⟩
      simp [copy, top, made]
  | cons hn _ ih =>
    cases f with
    | zero => omega
    | succ f =>
      rw [copy, hs, hn]
      exact node_spec early _ _ _ H (fun s hs => ih f (by simpa using hf) s hs) s hs

/-- C181, `copy`. Missing for the full statement: the block that is lost, see `C181_lost_violated`. -/
theorem C181_copy_partial (s : St T) {p : Option Nat} {xs : List T} (h : Lists s.heap p xs) (f : Nat) (hf : xs.length < f) :
    MakesList fails early xs s (copy fails early f p s) :=
  makes_of (copy_result h f hf s rfl)

theorem concat_result {H : List (Option (Node T))} {p q : Option Nat} {xs ys : List T} (h : Lists H p xs) (h' : Lists H q ys)
    (f : Nat) (hf : xs.length + ys.length + 1 < f) (s : St T) (hs : s.heap = H) :
    Result fails early (xs ++ ys) s (concat fails early f p q s) := by
  induction h generalizing f s with
  | nil =>
    cases f with
    | zero => omega
    | succ f =>
      rw [concat]
      exact copy_result h' f (by simp at hf; omega) s hs
  | cons hn _ ih =>
    cases f with
    | zero => omega
    | succ f =>
      rw [concat, hs, hn]
      exact node_spec early _ _ _ H (fun s hs => ih f (by simp at hf; omega) s hs) s hs

/-- C181, `l1 * l2`; the lists may share nodes. Missing: as for `copy`. -/
theorem C181_concat_partial (s : St T) {p q : Option Nat} {xs ys : List T} (h : Lists s.heap p xs) (h' : Lists s.heap q ys)
    (f : Nat) (hf : xs.length + ys.length + 1 < f) : MakesList fails early (xs ++ ys) s (concat fails early f p q s) :=
  makes_of (concat_result h h' f hf s rfl)

theorem head_result {H : List (Option (Node T))} {p : Option Nat} {xs : List T} (h : Lists H p xs) (n : Nat)
    (hn : n ≤ xs.length) (f : Nat) (hf : n < f) (s : St T) (hs : s.heap = H) :
    Result fails early (xs.take n) s (head fails early f p n s) := by
  induction h generalizing f s n with
  | nil =>
    cases f with
    | zero => omega
    | succ f =>
      obtain rfl : n = 0 := by simpa using hn
      refine ⟨fun _ => ?_, fun j hj => absurd hj (by simp)⟩
      simp [head, top, made]
  | cons hn' _ ih =>
    cases f with
    | zero => omega
    | succ f =>
      cases n with
      | zero =>
        refine ⟨fun _ => ?_, fun j hj => absurd hj (by simp)⟩
        simp [head, top, made]
      | succ n =>
        rw [head, if_neg (by omega)]
        rw [hs, hn', List.take_succ_cons]
        refine node_spec early _ _ _ H (fun s hs => ?_) s hs
        rw [show ((n + 1 : Nat) : Int) - 1 = n by omega]
        exact ih n (by simpa using hn) f (by omega) s hs

/-- C181, `head (l, n)`. Missing: as for `copy`. -/
theorem C181_head_partial (s : St T) {p : Option Nat} {xs : List T} (h : Lists s.heap p xs) (n : Nat) (hn : n ≤ xs.length)
    (f : Nat) (hf : n < f) : MakesList fails early (xs.take n) s (head fails early f p n s) :=
  makes_of (head_result h n hn f hf s rfl)

/-- C181, `head` of too short a list, or of a negative length: always an exception, and no block is lost, whether the assertion
or a copy throws first. -/
theorem C181_short (s : St T) {p : Option Nat} {xs : List T} (h : Lists s.heap p xs) (n : Int) (hn : n < 0 ∨ xs.length < n)
    (f : Nat) (hf : xs.length < f) : ∃ s', head fails early f p n s = .thrown s' ∧ s'.heap = s.heap ∧
      s'.elems = s.elems ∧ s'.lost = s.lost := by
  suffices H : ∀ (H : List (Option (Node T))) p xs, Lists H p xs → ∀ (s : St T) (n : Int) (f : Nat), s.heap = H →
      (n < 0 ∨ xs.length < n) → xs.length < f → ∃ s', head fails early f p n s = .thrown s' ∧ s'.heap = s.heap ∧
      s'.elems = s.elems ∧ s'.lost = s.lost from H _ p xs h s n f rfl hn hf
  intro H p xs h
  induction h with
  | nil =>
    intro s n f hs hn hf
    cases f with
    | zero => omega
    | succ f =>
      refine ⟨s, ?_, rfl, rfl, rfl⟩
      rw [head, if_neg (by simp at hn; omega)]
  | cons hh _ ih =>
    intro s n f hs hn hf
    simp only [List.length_cons] at hn hf
    cases f with
    | zero => omega
    | succ f =>
      rw [head, if_neg (by omega)]
      rw [hs, hh]
      dsimp only
      unfold node
      cases early with
      | false =>
        obtain ⟨s', e, h1, h2, h3⟩ := ih s (n - 1) f hs (by omega) (by omega)
        rw [if_neg (by decide), e]
        exact ⟨s', rfl, h1.trans hs, h2, h3⟩
      | true =>
        rw [if_pos rfl]
        by_cases hc : fails s.copies = true
        · rw [elem_fail (s' := { s with copies := s.copies + 1 }) hc rfl]
          exact ⟨_, rfl, hs, rfl, rfl⟩
        · rw [elem_ok (by simpa using hc)]
          obtain ⟨s', e, h1, h2, h3⟩ := ih { s with copies := s.copies + 1, elems := s.elems + 1 } (n - 1) f hs (by omega)
            (by omega)
          rw [e]
          exact ⟨_, rfl, h1.trans hs, by dsimp only; rw [h2]; dsimp only; omega, h3⟩

/-- One node in front of a new list. -/
theorem front_spec (item : T) (H : List (Option (Node T))) (ys : List T) (s : St T) (hs : s.heap = H ++ made H.length ys) :
    (NoneOf fails s 3 → node fails false item (fun s => .ret (top H.length ys.length) s) s =
      .ret (top H.length (ys.length + 1)) ⟨H ++ made H.length (item :: ys), s.copies + 3, s.elems + 1, s.lost⟩) ∧
    ∀ j, j < 3 → First fails s j → node fails false item (fun s => .ret (top H.length ys.length) s) s =
      .thrown ⟨H ++ List.replicate ys.length none, s.copies + j + 1, s.elems - ys.length,
        s.lost + if isInside false 1 j then 1 else 0⟩ := by
  have ins := inside_spec (fails := fails) item H ys { s with copies := s.copies + 1, elems := s.elems + 1 } hs
  unfold node
  rw [if_neg (by decide)]
  dsimp only
  constructor
  · intro hn
    rw [elem_ok (by exact hn 0 (by omega)), ins.1 (hn 1 (by omega)) (by exact hn 2 (by omega))]
  · intro j hj hf
    match j, hj, hf with
    | 0, _, hf =>
      rw [elem_fail (by exact hf.1) (release_made H ys _ (by exact hs))]
      simp [isInside]
    | 1, _, hf =>
      rw [elem_ok (by exact hf.2 0 (by omega)), ins.2.1 (by exact hf.1)]
      simp only [Out.thrown.injEq, St.mk.injEq, true_and]
      exact ⟨by omega, by simp [isInside]⟩
    | 2, _, hf =>
      rw [elem_ok (by exact hf.2 0 (by omega)), ins.2.2 (by exact hf.2 1 (by omega)) (by exact hf.1)]
      simp only [Out.thrown.injEq, St.mk.injEq, true_and]
      exact ⟨by omega, by simp [isInside]⟩

theorem reverse_result {H : List (Option (Node T))} {p : Option Nat} {xs : List T} (h : Lists H p xs) (f : Nat)
    (hf : xs.length < f) (ys : List T) (s : St T) (hs : s.heap = H ++ made H.length ys) :
    (NoneOf fails s (3 * xs.length) → reverse fails f p (top H.length ys.length) s =
      .ret (top H.length (xs.length + ys.length))
        ⟨H ++ made H.length (xs.reverse ++ ys), s.copies + 3 * xs.length, s.elems + xs.length, s.lost⟩) ∧
    ∀ j, j < 3 * xs.length → First fails s j → reverse fails f p (top H.length ys.length) s = .thrown
      ⟨H ++ List.replicate (ys.length + j / 3) none, s.copies + j + 1, s.elems - ys.length,
        s.lost + if isInside false xs.length j then 1 else 0⟩ := by
  induction h generalizing f s ys with
  | nil =>
    cases f with
    | zero => omega
    | succ f =>
      refine ⟨fun _ => ?_, fun j hj => absurd hj (by simp)⟩
      obtain ⟨h, c, e, l⟩ := s
      simp only at hs
      subst hs
      simp [reverse]
  | @cons a nd xs hn _ ih =>
    cases f with
    | zero => omega
    | succ f =>
      have hg : s.heap[a]? = some (some nd) := by
        rw [hs, List.getElem?_append_left (List.getElem?_eq_some_iff.1 hn).1, hn]
      have fr := front_spec (fails := fails) nd.item H ys s hs
      have ih := ih f (by simpa using hf) (nd.item :: ys)
        ⟨H ++ made H.length (nd.item :: ys), s.copies + 3, s.elems + 1, s.lost⟩ rfl
      have shift : ∀ n, NoneOf fails s (3 + n) → NoneOf fails s 3 ∧
          NoneOf fails (⟨H ++ made H.length (nd.item :: ys), s.copies + 3, s.elems + 1, s.lost⟩ : St T) n := fun n hn =>
        ⟨fun i hi => hn i (by omega), fun i hi => by
          have := hn (3 + i) (by omega); rw [← this]; congr 1; dsimp only; omega⟩
      rw [reverse, hg]
      dsimp only
      constructor
      · intro hno
        obtain ⟨h1, h2⟩ := shift (3 * xs.length) (by
          rw [List.length_cons, show 3 * (xs.length + 1) = 3 + 3 * xs.length by omega] at hno; exact hno)
        rw [fr.1 h1]
        refine (ih.1 h2).trans ?_
        simp only [List.length_cons, Out.ret.injEq, St.mk.injEq, List.reverse_cons, List.append_assoc, List.singleton_append,
          true_and, and_true]
        refine ⟨by congr 1; omega, by omega, by omega⟩
      · intro j hj hfj
        rw [List.length_cons] at hj
        by_cases hj3 : j < 3
        · rw [fr.2 j hj3 hfj]
          simp only [Out.thrown.injEq, St.mk.injEq, true_and]
          rw [show j / 3 = 0 by omega]
          exact ⟨rfl, by simp [isInside]⟩
        · obtain ⟨k, rfl⟩ : ∃ k, j = 3 + k := ⟨j - 3, by omega⟩
          obtain ⟨h1, h2⟩ := shift k hfj.2
          rw [fr.1 h1]
          refine (ih.2 k (by omega) ⟨by rw [← hfj.1]; congr 1; dsimp only; omega, h2⟩).trans ?_
          simp only [List.length_cons, Out.thrown.injEq, St.mk.injEq]
          refine ⟨?_, by omega, by omega, ?_⟩
          · rw [show ys.length + 1 + k / 3 = ys.length + (3 + k) / 3 by omega]
          · have : isInside false xs.length k = isInside false (xs.length + 1) (3 + k) := by
              simp only [isInside]
              rw [if_neg (by decide), if_neg (by decide), show (3 + k) % 3 = k % 3 by omega]
            rw [this]

/-- C181, `reverse`. Missing: as for `copy`. -/
theorem C181_reverse_partial (s : St T) {p : Option Nat} {xs : List T} (h : Lists s.heap p xs) (f : Nat) (hf : xs.length < f) :
    MakesList fails false xs.reverse s (reverse fails f p none s) := by
  have := reverse_result (fails := fails) h f hf [] s (by simp [made])
  apply makes_of
  rw [show top s.heap.length ([] : List T).length = none from rfl] at this
  constructor
  · intro hn
    rw [List.length_reverse] at hn
    rw [this.1 hn]
    simp
  · intro j hj hfj
    rw [List.length_reverse] at hj
    rw [this.2 j hj hfj]
    simp [nodesAt]

/-- The node at `a` of an old memory has the same item and count in the new one. -/
def SameItems (H H' : List (Option (Node T))) : Prop :=
  ∀ (a : Nat) (nd : Node T), H[a]? = some (some nd) → ∃ nx, H'[a]? = some (some ⟨nd.item, nx, nd.count⟩)

theorem push_ok (x : T) {H : List (Option (Node T))} {p : Option Nat} {xs : List T} (h : Lists H p xs) (f : Nat)
    (hf : xs.length < f) (s : St T) (hs : s.heap = H) (hn : NoneOf fails s (xs.length + 4)) :
    ∃ r s', push fails x f p s = .ret r s' ∧ Lists s'.heap r (xs ++ [x]) ∧ s'.elems = s.elems + 1 ∧ s'.lost = s.lost ∧
      (∀ (a : Nat) (nd : Node T), H[a]? = some (some nd) → nd.next ≠ none → s'.heap[a]? = H[a]?) ∧ SameItems H s'.heap ∧
      (p ≠ none → r = p) ∧ (p = none → s'.heap = H ++ [some ⟨x, none, 1⟩] ∧ r = some H.length) := by
  induction h generalizing f s with
  | nil =>
    cases f with
    | zero => omega
    | succ f =>
      rw [push, elem_ok (by exact hn 0 (by omega))]
      dsimp only
      have fr := (front_spec (fails := fails) x H [] { s with copies := s.copies + 1, elems := s.elems + 1 }
        (by simpa [made] using hs)).1 (fun i hi => by
          have := hn (1 + i) (by simp; omega); rw [← this]; congr 1; dsimp only; omega)
      rw [show top H.length ([] : List T).length = none from rfl] at fr
      rw [fr]
      dsimp only
      refine ⟨_, _, rfl, made_lists H [x], by dsimp only; omega, rfl, ?_, ?_, fun h => absurd rfl h, fun _ => ⟨rfl, rfl⟩⟩
      · intro a nd ha _
        dsimp only
        rw [List.getElem?_append_left (List.getElem?_eq_some_iff.1 ha).1]
      · intro a nd ha
        refine ⟨nd.next, ?_⟩
        dsimp only
        rw [List.getElem?_append_left (List.getElem?_eq_some_iff.1 ha).1, ha]
  | @cons a nd xs hg t ih =>
    cases f with
    | zero => omega
    | succ f =>
      rw [push, elem_ok (by exact hn 0 (by omega))]
      dsimp only
      rw [hs, hg]
      dsimp only
      obtain ⟨r, s', e, h1, h2, h3, h4, h5, h6, h7⟩ := ih f (by simpa using hf)
        ⟨H, s.copies + 1, s.elems + 1, s.lost⟩ rfl (fun i hi => by
          have := hn (1 + i) (by simp; omega); rw [← this]; congr 1; dsimp only; omega)
      rw [e]
      dsimp only at h2 h3 ⊢
      have ha := (List.getElem?_eq_some_iff.1 hg).1
      cases hx : nd.next with
      | some b =>
        have hr := h6 (by simp [hx])
        have hk := h4 a nd hg (by simp [hx])
        rw [hg] at hk
        have hid : s'.heap.set a (some { nd with next := r }) = s'.heap := by
          rw [hr]
          obtain ⟨hl, he⟩ := List.getElem?_eq_some_iff.1 hk
          exact (congrArg _ he.symm).trans (List.set_getElem_self hl)
        refine ⟨_, _, rfl, ?_, by dsimp only; omega, h3, ?_, ?_, fun _ => rfl, fun h => absurd h (by simp)⟩
        · dsimp only
          rw [hid]
          rw [hr] at h1
          exact .cons hk h1
        · dsimp only
          rw [hid]; exact h4
        · dsimp only
          rw [hid]; exact h5
      | none =>
        obtain ⟨h8, h9⟩ := h7 hx
        subst h9
        rw [hx] at t
        cases t
        have hset : s'.heap.set a (some ⟨nd.item, some H.length, nd.count⟩) =
            H.set a (some ⟨nd.item, some H.length, nd.count⟩) ++ [some ⟨x, none, 1⟩] := by
          rw [h8, List.set_append_left _ _ ha]
        have ho : ∀ b, b ≠ a → b < H.length →
            (H.set a (some ⟨nd.item, some H.length, nd.count⟩) ++ [some ⟨x, none, 1⟩])[b]? = H[b]? := by
          intro b hb hl
          rw [List.getElem?_append_left (by simpa using hl), List.getElem?_set_ne (by omega)]
        have hself : (H.set a (some ⟨nd.item, some H.length, nd.count⟩) ++ [some ⟨x, none, 1⟩])[a]? =
            some (some ⟨nd.item, some H.length, nd.count⟩) := by
          rw [List.getElem?_append_left (by simpa using ha), List.getElem?_set_self ha]
        refine ⟨_, _, rfl, ?_, by dsimp only; omega, h3, ?_, ?_, fun _ => rfl, fun h => absurd h (by simp)⟩
        · dsimp only
          rw [hset]
          refine Lists.cons (nd := ⟨nd.item, some H.length, nd.count⟩) hself ?_
          refine Lists.cons (nd := ⟨x, none, 1⟩) ?_ .nil
          rw [List.getElem?_append_right (by simp)]
          simp
        · intro b nb hb hnb
          dsimp only
          rw [hset]
          refine ho b ?_ (List.getElem?_eq_some_iff.1 hb).1
          rintro rfl
          rw [hg] at hb
          obtain rfl := Option.some.inj (Option.some.inj hb)
          exact hnb hx
        · intro b nb hb
          dsimp only
          rw [hset]
          by_cases hba : b = a
          · subst hba
            rw [hg] at hb
            obtain rfl := Option.some.inj (Option.some.inj hb)
            exact ⟨_, hself⟩
          · exact ⟨nb.next, (ho b hba (List.getElem?_eq_some_iff.1 hb).1).trans hb⟩

theorem push_fail (x : T) {H : List (Option (Node T))} {p : Option Nat} {xs : List T} (h : Lists H p xs) (f : Nat)
    (hf : xs.length < f) (s : St T) (hs : s.heap = H) (j : Nat) (hj : j < xs.length + 4) (hfj : First fails s j) :
    push fails x f p s =
      .thrown ⟨H, s.copies + j + 1, s.elems, s.lost + if xs.length + 2 ≤ j then 1 else 0⟩ := by
  induction h generalizing f s j with
  | nil =>
    cases f with
    | zero => omega
    | succ f =>
      rw [push]
      cases j with
      | zero =>
        rw [elem_fail (s' := { s with copies := s.copies + 1 }) (by exact hfj.1) rfl, ← hs]
        simp
      | succ j =>
        rw [elem_ok (by exact hfj.2 0 (by omega))]
        dsimp only
        have fr := (front_spec (fails := fails) x H [] { s with copies := s.copies + 1, elems := s.elems + 1 }
          (by simpa [made] using hs)).2 j (by simp at hj; omega) ⟨by rw [← hfj.1]; congr 1; dsimp only; omega, fun i hi => by
            have := hfj.2 (1 + i) (by omega); rw [← this]; congr 1; dsimp only; omega⟩
        rw [show top H.length ([] : List T).length = none from rfl] at fr
        rw [fr]
        simp only [List.length_nil, List.replicate_zero, List.append_nil, Out.thrown.injEq, St.mk.injEq, true_and]
        refine ⟨by omega, by omega, ?_⟩
        simp only [List.length_nil] at hj
        match j, hj with
        | 0, _ => simp [isInside]
        | 1, _ => simp [isInside]
        | 2, _ => simp [isInside]
  | @cons a nd xs hg t ih =>
    cases f with
    | zero => omega
    | succ f =>
      rw [push]
      cases j with
      | zero =>
        rw [elem_fail (s' := { s with copies := s.copies + 1 }) (by exact hfj.1) rfl, ← hs]
        simp
      | succ j =>
        rw [elem_ok (by exact hfj.2 0 (by omega))]
        dsimp only
        rw [hs, hg]
        dsimp only
        rw [ih f (by simpa using hf) ⟨H, s.copies + 1, s.elems + 1, s.lost⟩ rfl j (by simp at hj; omega)
          ⟨by rw [← hfj.1]; congr 1; dsimp only; omega, fun i hi => by
            have := hfj.2 (1 + i) (by omega); rw [← this]; congr 1; dsimp only; omega⟩]
        simp only [List.length_cons, Out.thrown.injEq, St.mk.injEq, true_and]
        refine ⟨by omega, by omega, ?_⟩
        by_cases hb : xs.length + 2 ≤ j
        · rw [if_pos hb, if_pos (by omega)]
        · rw [if_neg hb, if_neg (by omega)]

/-- C181, `l << x`, where `x` is copied for every item of `l` as well: the item is put at the end, and no node gets another item or
count. If a copy throws, nothing has changed, but that a block is lost if it was one of the last two copies. -/
theorem C181_push_partial (x : T) (s : St T) {p : Option Nat} {xs : List T} (h : Lists s.heap p xs) (f : Nat)
    (hf : xs.length < f) :
    (NoneOf fails s (xs.length + 4) → ∃ r s', push fails x f p s = .ret r s' ∧ Lists s'.heap r (xs ++ [x]) ∧
      SameItems s.heap s'.heap ∧ s'.elems = s.elems + 1 ∧ s'.lost = s.lost) ∧
    ∀ j, j < xs.length + 4 → First fails s j → ∃ s', push fails x f p s = .thrown s' ∧ s'.heap = s.heap ∧
      s'.elems = s.elems ∧ s'.lost = s.lost + if xs.length + 2 ≤ j then 1 else 0 := by
  refine ⟨fun hn => ?_, fun j hj hfj => ⟨_, push_fail x h f hf s rfl j hj hfj, rfl, rfl, rfl⟩⟩
  obtain ⟨r, s', e, h1, h2, h3, _, h5, _⟩ := push_ok x h f hf s rfl hn
  exact ⟨r, s', e, h1, h5, h2, h3⟩

/-- There is a handle to the list `p`. -/
def Held (H : List (Option (Node T))) (p : Option Nat) : Prop :=
  ∀ (a : Nat) (nd : Node T), p = some a → H[a]? = some (some nd) → 1 ≤ nd.count

/-- Memory after another handle to `p` was made, and perhaps further nodes: when the handle is destroyed, the count is as before. -/
theorem hold_release {H : List (Option (Node T))} {p : Option Nat} {xs : List T} (h : Lists H p xs) (hh : Held H p) :
    ∃ H', H'.length = H.length ∧ (∀ s : St T, s.heap = H → hold p s = .ret p { s with heap := H' }) ∧
      ∀ (G : List (Option (Node T))) (s : St T), s.heap = H' ++ G → release p s = .ret none { s with heap := H ++ G } := by
  cases h with
  | nil =>
    refine ⟨H, rfl, ?_, ?_⟩
    · rintro s rfl; rfl
    · rintro G s hs
      unfold release
      rw [drop, ← hs]
  | @cons a nd xs hg t =>
    have ha := (List.getElem?_eq_some_iff.1 hg).1
    have hc := hh a nd rfl hg
    refine ⟨H.set a (some { nd with count := nd.count + 1 }), by simp, ?_, ?_⟩
    · rintro s rfl
      simp only [hold, hg]
    · intro G s hs
      unfold release
      have : s.heap[a]? = some (some { nd with count := nd.count + 1 }) := by
        rw [hs, List.getElem?_append_left (by simpa using ha), List.getElem?_set_self ha]
      rw [drop, this]
      dsimp only
      rw [if_neg (by omega), hs, List.set_append_left _ _ (by simpa using ha), List.set_set]
      have he := (List.getElem?_eq_some_iff.1 hg).2
      have : H.set a (some ⟨nd.item, nd.next, nd.count⟩) = H :=
        (congrArg _ he.symm).trans (List.set_getElem_self ha)
      simp only [Nat.add_sub_cancel, this]

theorem unshift_result (x : T) (s : St T) {p : Option Nat} {xs : List T} (h : Lists s.heap p xs) (hh : Held s.heap p) :
    (NoneOf fails s 4 → unshift fails x p s = .ret (some s.heap.length)
      ⟨s.heap ++ [some ⟨x, p, 1⟩], s.copies + 4, s.elems + 1, s.lost⟩) ∧
    ∀ j, j < 4 → First fails s j → unshift fails x p s = .thrown
      ⟨s.heap, s.copies + j + 1, s.elems, s.lost + if 2 ≤ j then 1 else 0⟩ := by
  obtain ⟨H', hl, h1, h2⟩ := hold_release h hh
  have h3 : ∀ s' : St T, s'.heap = H' → release p s' = .ret none { s' with heap := s.heap } := fun s' e => by
    have := h2 [] s' (by simpa using e)
    simpa using this
  have hold1 := h1 { s with copies := s.copies + 1, elems := s.elems + 1 } rfl
  constructor
  · intro hn
    unfold unshift
    rw [elem_ok (by exact hn 0 (by omega))]
    unfold node
    rw [if_neg (by decide), hold1]
    dsimp only
    rw [elem_ok (by exact hn 1 (by omega))]
    unfold inside
    rw [elem_ok (by exact hn 2 (by omega)), elem_ok (by exact hn 3 (by omega))]
    dsimp only
    rw [h2 _ _ rfl]
    simp only [hl, Out.ret.injEq, St.mk.injEq, true_and, and_true]
    omega
  · intro j hj hf
    unfold unshift
    match j, hj, hf with
    | 0, _, hf =>
      rw [elem_fail (s' := { s with copies := s.copies + 1 }) (by exact hf.1) rfl]
      simp
    | 1, _, hf =>
      rw [elem_ok (by exact hf.2 0 (by omega))]
      unfold node
      rw [if_neg (by decide), hold1]
      dsimp only
      rw [elem_fail (by exact hf.1) (h3 _ rfl)]
      simp only [Out.thrown.injEq, St.mk.injEq, true_and]
      exact ⟨by omega, by simp⟩
    | 2, _, hf =>
      rw [elem_ok (by exact hf.2 0 (by omega))]
      unfold node
      rw [if_neg (by decide), hold1]
      dsimp only
      rw [elem_ok (by exact hf.2 1 (by omega))]
      unfold inside
      rw [elem_fail (r := none) (s' := ⟨s.heap, s.copies + 3, s.elems + 1, s.lost + 1⟩) (by exact hf.1) (by
        refine (h3 _ rfl).trans ?_
        simp only [Out.ret.injEq, St.mk.injEq, true_and, and_true]
        omega)]
      simp only [Out.thrown.injEq, St.mk.injEq, true_and]
      exact ⟨by omega, by simp⟩
    | 3, _, hf =>
      rw [elem_ok (by exact hf.2 0 (by omega))]
      unfold node
      rw [if_neg (by decide), hold1]
      dsimp only
      rw [elem_ok (by exact hf.2 1 (by omega))]
      unfold inside
      rw [elem_ok (by exact hf.2 2 (by omega)), elem_fail (r := none)
        (s' := ⟨s.heap, s.copies + 4, s.elems + 1, s.lost + 1⟩) (by exact hf.1) (by
        refine (h3 _ rfl).trans ?_
        simp only [Out.ret.injEq, St.mk.injEq, true_and, and_true]
        omega)]
      simp only [Out.thrown.injEq, St.mk.injEq, true_and]
      exact ⟨by omega, by simp⟩

/-- C181, `x >> l`: the item is put in front of the list, whose nodes are shared. If a copy throws, nothing has changed, but that a
block is lost if it was one of the last two copies. -/
theorem C181_unshift_partial (x : T) (s : St T) {p : Option Nat} {xs : List T} (h : Lists s.heap p xs) (hh : Held s.heap p) :
    (NoneOf fails s 4 → ∃ r s', unshift fails x p s = .ret r s' ∧ Lists s'.heap r (x :: xs) ∧ Kept s s' ∧
      s'.elems = s.elems + 1 ∧ s'.lost = s.lost) ∧
    ∀ j, j < 4 → First fails s j → ∃ s', unshift fails x p s = .thrown s' ∧ s'.heap = s.heap ∧
      s'.elems = s.elems ∧ s'.lost = s.lost + if 2 ≤ j then 1 else 0 := by
  have hu := unshift_result (fails := fails) x s h hh
  refine ⟨fun hn => ⟨_, _, hu.1 hn, ?_, ⟨_, rfl⟩, rfl, rfl⟩, fun j hj hf => ⟨_, hu.2 j hj hf, rfl, rfl, rfl⟩⟩
  refine Lists.cons (nd := ⟨x, p, 1⟩) ?_ (h.mono _)
  rw [List.getElem?_append_right (by omega)]
  simp

/-- **C181 is violated**: whatever list is copied, and whatever argument is evaluated first, a block of memory is lost for good if
the last copy of an element throws. -/
theorem C181_lost_violated (s : St T) {p : Option Nat} {xs : List T} (h : Lists s.heap p xs) (hx : xs ≠ []) (f : Nat)
    (hf : xs.length < f) : ∃ fails, ∃ s', copy fails early f p s = .thrown s' ∧ s'.lost = s.lost + 1 ∧
      ∀ k, fails k = true → k = s.copies + 3 * xs.length - 1 := by
  have hl := List.length_pos_iff.2 hx
  obtain ⟨s', e, _, h2⟩ := (C181_copy_partial (fails := fun k => decide (k = s.copies + 3 * xs.length - 1)) (early := early)
    s h f hf).2 (3 * xs.length - 1) (by omega)
      ⟨decide_eq_true (by omega), fun i hi => decide_eq_false (by omega)⟩
  refine ⟨_, s', e, ?_, fun k hk => of_decide_eq_true hk⟩
  have : isInside early xs.length (3 * xs.length - 1) = true := by
    unfold isInside
    cases early with
    | true => rw [if_pos rfl]; exact decide_eq_true (by omega)
    | false => rw [if_neg (by decide)]; exact decide_eq_true (by omega)
  rw [h2, this, if_pos rfl]

theorem copy_loses (s : St T) {p : Option Nat} {xs : List T} (h : Lists s.heap p xs) (f : Nat) (hf : xs.length < f)
    (j : Nat) (hj : j < 3 * xs.length) (hi : isInside early xs.length j = true) (hfj : First fails s j) :
    ∃ s', copy fails early f p s = .thrown s' ∧ s'.lost = s.lost + 1 ∧ s'.copies = s.copies + j + 1 ∧ Lists s'.heap p xs := by
  have e := (copy_result (fails := fails) (early := early) h f hf s rfl).2 j hj hfj
  refine ⟨_, e, ?_, rfl, h.mono _⟩
  rw [hi]; rfl

/-- A program that tries to copy a list `k` times and catches the exceptions. -/
def attempts (fails : Nat → Bool) (early : Bool) (f : Nat) (p : Option Nat) : Nat → St T → Out T (Option Nat)
  | 0, s => .ret none s
  | k + 1, s =>
    match copy fails early f p s with
    | .thrown s => attempts fails early f p k s
    | o => o

/-- **C181 is violated** again and again: a program that tries to copy a list any number of times, and each time in vain, loses as
many blocks of memory. -/
theorem C181_again_violated (s : St T) {p : Option Nat} {xs : List T} (h : Lists s.heap p xs) (hx : xs ≠ []) (f : Nat)
    (hf : xs.length < f) : ∃ fails, ∀ k, ∃ s', attempts fails early f p k s = .ret none s' ∧ s'.lost = s.lost + k := by
  have hl := List.length_pos_iff.2 hx
  obtain ⟨j, hj, hi⟩ : ∃ j, j < 3 * xs.length ∧ isInside early xs.length j = true := by
    cases early with
    | true => exact ⟨xs.length, by omega, by simp [isInside]⟩
    | false => exact ⟨1, by omega, by simp [isInside]⟩
  refine ⟨fun c => decide ((c - s.copies) % (j + 1) = j), fun k => ?_⟩
  suffices H : ∀ k (t : St T) m, Lists t.heap p xs → t.copies = s.copies + (j + 1) * m →
      ∃ s', attempts (fun c => decide ((c - s.copies) % (j + 1) = j)) early f p k t = .ret none s' ∧
        s'.lost = t.lost + k from H k s 0 h (by simp)
  intro k
  induction k with
  | zero => intro t m _ _; exact ⟨t, rfl, rfl⟩
  | succ k ih =>
    intro t m ht hc
    have hm : ∀ i, i < j + 1 → (t.copies + i - s.copies) % (j + 1) = i := fun i hi => by
      rw [hc, show s.copies + (j + 1) * m + i - s.copies = i + (j + 1) * m by omega, Nat.add_mul_mod_self_left,
        Nat.mod_eq_of_lt hi]
    obtain ⟨t', e, h1, h2, h3⟩ := copy_loses (fails := fun c => decide ((c - s.copies) % (j + 1) = j)) t ht f hf j hj hi
      ⟨decide_eq_true (hm j (by omega)), fun i hi => decide_eq_false (by rw [hm i (by omega)]; omega)⟩
    obtain ⟨s', e', h4⟩ := ih t' (m + 1) h3 (by rw [h2, hc, Nat.mul_add]; omega)
    refine ⟨s', ?_, by omega⟩
    rw [attempts, e]
    exact e'

/-- Memory with the list [5, 6], to which one handle refers. -/
def two : St Nat := ⟨[some ⟨6, none, 1⟩, some ⟨5, some 0, 1⟩], 0, 2, 0⟩

/-- It meets the hypotheses. -/
example : Lists two.heap (some 1) [5, 6] ∧ Held two.heap (some 1) := by
  refine ⟨.cons (nd := ⟨5, some 0, 1⟩) rfl (.cons (nd := ⟨6, none, 1⟩) rfl .nil), ?_⟩
  rintro a nd ⟨⟩ h
  obtain rfl := Option.some.inj (Option.some.inj h)
  decide

/-- Copying it when the second copy throws: nothing is made, and one block is lost. When the fifth copy throws, a node was made and
is freed. -/
example : copy (· == 1) false 3 (some 1) two = .thrown ⟨two.heap, 2, 2, 1⟩ ∧
    copy (· == 4) false 3 (some 1) two = .thrown ⟨two.heap ++ [none], 5, 2, 1⟩ ∧
    copy (· == 1) true 3 (some 1) two = .thrown ⟨two.heap, 2, 2, 0⟩ ∧
    reverse (· == 9) 3 (some 1) none two = .ret (some 3) ⟨two.heap ++ [some ⟨5, none, 1⟩, some ⟨6, some 2, 1⟩], 6, 4, 0⟩ := by
  decide

/-- `l << 7` and `7 >> l`. -/
example : push (· == 9) 7 3 (some 1) two =
      .ret (some 1) ⟨[some ⟨6, some 2, 1⟩, some ⟨5, some 0, 1⟩, some ⟨7, none, 1⟩], 6, 3, 0⟩ ∧
    push (· == 5) 7 3 (some 1) two = .thrown ⟨two.heap, 6, 2, 1⟩ ∧
    unshift (· == 9) 7 (some 1) two = .ret (some 2) ⟨two.heap ++ [some ⟨7, some 1, 1⟩], 4, 3, 0⟩ ∧
    unshift (· == 3) 7 (some 1) two = .thrown ⟨two.heap, 4, 2, 1⟩ := by decide

end Lolly.ListThrowProps
