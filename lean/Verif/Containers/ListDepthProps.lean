import Verif.Containers.ListDepth
import Verif.Containers.LinkedListLemmas

set_option autoImplicit false

/-!
# Property C147: lists of any length
-/

namespace Lolly.ListDepthProps

open LL ListDepth

variable {T : Type}

/-! ## Functions that walk along a list -/

/-- C147 for lists shorter than the stack: all functions give what they should. (`Fresh`: a new list of these items, which
shares no node with the old ones.) -/
theorem C147_walk_partial [DecidableEq T] {h : Cells T} {p q : Ptr} {as bs : List Nat} {xs ys : List T} (c : Chain h p as xs)
    (e : Chain h q bs ys) {d : Nat} (hd : xs.length < d) (x : T) :
    Fresh h (copyF d h p) xs ∧ Fresh h (snocF x d h p) (xs ++ [x]) ∧ Fresh h (removeF x d h p) (xs.filter (· ≠ x)) ∧
    containsF h x d p = .ok (decide (x ∈ xs)) ∧ eqF h d p q = .ok (decide (xs = ys)) ∧
    leF h d p q = .ok (decide (xs <+: ys)) ∧ (xs.length + ys.length + 1 < d → Fresh h (concatD q d h p) (xs ++ ys)) := by
  obtain ⟨h1, h0, h2, h3⟩ := cmp_spec c e hd
  refine ⟨copyF_fresh (ext := []) (by simp) c hd, snocF_fresh x c hd, removeF_fresh x c hd, containsF_spec x c hd, h1, h2, ?_⟩
  clear h0 h1 h2 h3 hd x
  intro hd
  induction c generalizing d with
  | nil =>
    obtain ⟨d, rfl⟩ : ∃ g, d = g + 1 := ⟨d - 1, by omega⟩
    exact copyF_fresh (h0 := h) (ext := []) (by simp) e (by simp at hd; omega)
  | @cons a x p as xs e' c ih =>
    obtain ⟨d, rfl⟩ : ∃ g, d = g + 1 := ⟨d - 1, by omega⟩
    obtain ⟨q1, ext, cs, e1, c1, h1⟩ := ih (d := d) (by simp at hd; omega)
    have : concatD q (d + 1) h (some a) = .ok (mk (h ++ ext) x q1) := by
      simp [concatD, rd_eq_ok.2 e', e1]
    rw [this]; exact mk_fresh x c1 h1

/-- C147 fails for all longer ones: the stack does not suffice for lists that have as many items as it has room for calls,
whatever the items are. For `==`, `<=` and `contains` this concerns lists that are equal (or begin alike) and items that
do not occur. -/
theorem C147_walk_exact [DecidableEq T] {h : Cells T} {p q : Ptr} {as bs : List Nat} {xs ys : List T} (c : Chain h p as xs)
    (e : Chain h q bs ys) {d : Nat} (hd : d ≤ xs.length) (x : T) :
    copyF d h p = .hang ∧ snocF x d h p = .hang ∧ removeF x d h p = .hang ∧
    (x ∉ xs → containsF h x d p = .hang) ∧ (xs.take d <+: ys → eqF h d p q = .hang ∧ leF h d p q = .hang) ∧
    concatD q d h p = .hang := by
  induction c generalizing d q bs ys with
  | nil =>
    obtain rfl : d = 0 := by simpa using hd
    simp [copyF, snocF, removeF, containsF, eqF, leF, concatD]
  | @cons a y p as xs ha c ih =>
    cases d with
    | zero => simp [copyF, snocF, removeF, containsF, eqF, leF, concatD]
    | succ d =>
      have hd' : d ≤ xs.length := by simpa using hd
      obtain ⟨h1, h2, h3, h4, _, h6⟩ := ih e hd'
      refine ⟨by simp [copyF, rd_eq_ok.2 ha, h1], by simp [snocF, rd_eq_ok.2 ha, h2], ?_, ?_, ?_, ?_⟩
      · by_cases hy : y = x <;> simp [removeF, rd_eq_ok.2 ha, hy, h3]
      · intro hx
        simp only [List.mem_cons, not_or] at hx
        have : ¬ y = x := fun e => hx.1 e.symm
        simp [containsF, rd_eq_ok.2 ha, this, h4 hx.2]
      · intro hp
        cases e with
        | nil => simp at hp
        | @cons b z q bs ys hb e =>
          rw [List.take_succ_cons, List.cons_prefix_cons] at hp
          obtain ⟨rfl, hp⟩ := hp
          obtain ⟨_, _, _, _, h5, _⟩ := ih e hd'
          obtain ⟨h5, h5'⟩ := h5 hp
          simp [eqF, leF, deref, rd_eq_ok.2 ha, rd_eq_ok.2 hb, h5, h5']
      · simp [concatD, rd_eq_ok.2 ha, h6]

/-- The same for the functions that stop early (`l[i]`, `head (l, n)`) and for those that change the end of the list
(`l << x`, `l << l2`, `access_last (l)= x`, `suppress_last (l)`): they need as many nested calls as the nodes they pass. -/
theorem C147_index_exact {h : Cells T} {p : Ptr} {as : List Nat} {xs : List T} (c : Chain h p as xs) (d n : Nat)
    (hn : n < xs.length) :
    (nthF h d p n = .hang ↔ d ≤ n) ∧ (headF d h p n = .hang ↔ d ≤ n) := by
  induction c generalizing d n with
  | nil => simp at hn
  | @cons a y p as xs ha c ih =>
    cases d with
    | zero => simp [nthF, headF]
    | succ d =>
      cases n with
      | zero => simp [nthF, headF, derefA, rd_eq_ok.2 ha]
      | succ n =>
        obtain ⟨h1, h2⟩ := ih d n (by simpa using hn)
        have e1 : ((n + 1 : Nat) : Int) - 1 = n := by omega
        have e2 : ((n + 1 : Nat) : Int) ≠ 0 := by omega
        constructor
        · rw [nthF]
          simp only [derefA, rd_eq_ok.2 ha, Res.ok_bind, if_neg e2, e1, h1]
          omega
        · rw [headF, if_neg e2]
          simp only [derefA, rd_eq_ok.2 ha, Res.ok_bind, e1]
          rw [Nat.add_le_add_iff_right, ← h2]
          cases headF d h p n <;> simp

theorem store_ne_hang (s : State T) (r : Ref) (p : Ptr) : store s r p ≠ .hang := by
  cases r with
  | var i => unfold store; dsimp only; unfold wr; split <;> simp
  | nxt a =>
    unfold store; dsimp only
    rcases h : rd s.cells a with c | _ | _ | _
    · simp only [Res.ok_bind]; unfold wr; split <;> simp
    · simp
    · simp
    · exact absurd h (by unfold rd Res.ofOption; split <;> simp)

theorem C147_end_exact {s : State T} {p : Ptr} {as : List Nat} {xs : List T} (c : Chain s.cells p as xs) {r : Ref}
    (hr : load s r = .ok p) (d : Nat) (x : T) (q : Ptr) :
    (pushF x d s r = .hang ↔ d ≤ xs.length) ∧ (joinF q d s r = .hang ↔ d ≤ xs.length) ∧
    (setLastF x d s r = .hang ↔ d = 0 ∨ d < xs.length) ∧ (suppressF d s r = .hang ↔ d = 0 ∨ d < xs.length) := by
  induction c generalizing d r with
  | nil =>
    cases d with
    | zero => simp [pushF, joinF, setLastF, suppressF]
    | succ d => simp [pushF, joinF, setLastF, suppressF, hr, store_ne_hang]
  | @cons a y p as xs ha c ih =>
    cases d with
    | zero => simp [pushF, joinF, setLastF, suppressF]
    | succ d =>
      have hl : load s (.nxt a) = .ok p := by simp [load, rd_eq_ok.2 ha]
      obtain ⟨h1, h2, h3, h4⟩ := ih hl d
      refine ⟨by simp [pushF, hr, h1], by simp [joinF, hr, h2], ?_, ?_⟩
      · cases c with
        | nil =>
          have := (List.getElem?_eq_some_iff.1 ha).1
          simp [setLastF, hr, rd_eq_ok.2 ha, wr_ok this]
        | cons hb c =>
          simp only [setLastF, hr, rd_eq_ok.2 ha, Res.ok_bind, h3, List.length_cons]
          omega
      · cases c with
        | nil => simp [suppressF, hr, rd_eq_ok.2 ha, store_ne_hang]
        | cons hb c =>
          simp only [suppressF, hr, rd_eq_ok.2 ha, Res.ok_bind, h4, List.length_cons]
          omega

/-- The hypotheses are met: a list of three items, in a heap in which another list shares two of them. -/
example : let h : Cells Nat := [⟨3, none⟩, ⟨2, some 0⟩, ⟨1, some 1⟩, ⟨7, some 1⟩]
    Chain h (some 2) [2, 1, 0] [1, 2, 3] ∧ Chain h (some 3) [3, 1, 0] [7, 2, 3] ∧
    copyF 3 h (some 2) = .hang ∧ copyF 4 h (some 2) ≠ .hang :=
  ⟨.cons rfl (.cons rfl (.cons rfl .nil)), .cons rfl (.cons rfl (.cons rfl .nil)), by decide, by decide⟩

/-! ## Destroying lists -/

/-- From `p`, following `next`, one meets the nodes `as` with one handle each, and then `q`. -/
inductive Alone (h : Heap) : Ptr → List Nat → Ptr → Prop
  | nil {q} : Alone h q [] q
  | cons {a p as q} : h[a]? = some (some ⟨p, 1⟩) → Alone h p as q → Alone h (some a) (a :: as) q

/-- The rest `q` is nil or a node that something else refers to as well. -/
def Shared (h : Heap) (q : Ptr) : Prop := ∀ b, q = some b → ∃ n, h[b]? = some (some n) ∧ 2 ≤ n.cnt

theorem alone_frame {h : Heap} {p q : Ptr} {as : List Nat} (c : Alone h p as q) {b : Nat} (hb : b ∉ as) (v : Option Node) :
    Alone (h.set b v) p as q := by
  induction c with
  | nil => exact .nil
  | @cons a p as q e c ih =>
    simp only [List.mem_cons, not_or] at hb
    exact .cons (by rw [List.getElem?_set_ne hb.1]; exact e) (ih hb.2)

theorem at?_ok {h : Heap} {a : Nat} {n : Node} (e : h[a]? = some (some n)) : at? h a = .ok n := by
  simp [at?, rd_eq_ok.2 e]

/-- C147 for destroying: the nodes that only this list holds are deleted, each within the one before. If there is room for
that, they are deleted, the first other node loses one handle, and nothing else changes; otherwise the stack overflows. -/
theorem C147_destroy {h : Heap} {p q : Ptr} {as : List Nat} (c : Alone h p as q) (nd : as.Nodup) (sh : Shared h q) (d : Nat) :
    (d ≤ as.length → release d h p = .hang) ∧
    (as.length < d → ∃ h', release d h p = .ok h' ∧ ∀ b, h'[b]? =
      if b ∈ as then some none
      else if q = some b then (h[b]?).map fun o => o.map fun n => { n with cnt := n.cnt - 1 }
      else h[b]?) := by
  induction as generalizing h p d with
  | nil =>
    cases c
    refine ⟨fun hd => ?_, fun hd => ?_⟩
    · obtain rfl : d = 0 := by simpa using hd
      rfl
    · obtain ⟨d, rfl⟩ : ∃ g, d = g + 1 := ⟨d - 1, by simp at hd; omega⟩
      cases q with
      | none => exact ⟨h, rfl, by simp⟩
      | some a =>
        obtain ⟨n, hn, h2⟩ := sh a rfl
        refine ⟨h.set a (some ⟨n.next, n.cnt - 1⟩), ?_, fun b => ?_⟩
        · have : ¬ n.cnt - 1 = 0 := by omega
          simp [release, at?_ok hn, this]
        · by_cases hb : a = b
          · subst hb
            rw [List.getElem?_set_self (List.getElem?_eq_some_iff.1 hn).1, hn]
            simp
          · simp [hb]
  | cons a as ih =>
    cases c with
    | @cons _ p _ _ e c =>
      cases d with
      | zero => exact ⟨fun _ => rfl, fun hd => by simp at hd⟩
      | succ d =>
        obtain ⟨ha, nd⟩ := List.nodup_cons.1 nd
        have hal := (List.getElem?_eq_some_iff.1 e).1
        have hq : q ≠ some a := by
          intro hq
          obtain ⟨n, hn, h2⟩ := sh a hq
          rw [e] at hn
          cases hn
          simp at h2
        have sh' : Shared (h.set a (some ⟨p, 0⟩)) q := by
          intro b hb
          have : a ≠ b := fun e => hq (by rw [hb, e])
          rw [List.getElem?_set_ne this]
          exact sh b hb
        obtain ⟨h1, h2⟩ := ih (alone_frame c ha _) nd sh' d
        refine ⟨fun hd => ?_, fun hd => ?_⟩
        · simp [release, at?_ok e, h1 (by simpa using hd)]
        · obtain ⟨h', e1, e2⟩ := h2 (by simpa using hd)
          refine ⟨h'.set a none, by simp [release, at?_ok e, e1], fun b => ?_⟩
          have ea := e2 a
          rw [if_neg ha, if_neg hq, List.getElem?_set_self hal] at ea
          have hal' := (List.getElem?_eq_some_iff.1 ea).1
          by_cases hb : a = b
          · subst hb
            simp [hal']
          · rw [List.getElem?_set_ne hb, e2 b]
            have : ¬ b = a := fun e => hb e.symm
            simp [this, List.getElem?_set_ne hb]

theorem alone_append {h : Heap} {p q : Ptr} {as : List Nat} (c : Alone h p as q) (l : Heap) : Alone (h ++ l) p as q := by
  induction c with
  | nil => exact .nil
  | cons e c ih => exact .cons (by rw [List.getElem?_append_left (List.getElem?_eq_some_iff.1 e).1]; exact e) ih

theorem build_spec (n : Nat) : (build n).1.length = n ∧
    (build n).2 = (if n = 0 then none else some (n - 1)) ∧
    ∃ as, Alone (build n).1 (build n).2 as none ∧ as.Nodup ∧ ∀ a, a ∈ as ↔ a < n := by
  induction n with
  | zero => exact ⟨rfl, rfl, [], .nil, .nil, by simp⟩
  | succ n ih =>
    obtain ⟨h1, h2, as, h3, h4, h5⟩ := ih
    refine ⟨by simp [build, consD, h1], by simp [build, consD, h1], n :: as, ?_, ?_, ?_⟩
    · have := alone_append h3 [some ⟨(build n).2, 1⟩]
      simp only [build, consD, h1]
      exact .cons (by simp [h1]) this
    · exact List.nodup_cons.2 ⟨fun h => by have := (h5 n).1 h; omega, h4⟩
    · intro a
      simp only [List.mem_cons, h5]
      omega

/-- C147 is violated: whatever the size of the stack is, there are lists that can be made, by putting items in front, but
neither copied nor destroyed. Lists that fit are destroyed completely. -/
theorem C147_violated (d n : Nat) :
    (d ≤ n → release d (build n).1 (build n).2 = .hang) ∧
    (n < d → ∃ h', release d (build n).1 (build n).2 = .ok h' ∧ ∀ b < n, h'[b]? = some none) := by
  obtain ⟨h1, _, as, h3, h4, h5⟩ := build_spec n
  have hl : as.length = n := by
    have hp : as.Perm (List.range n) := (List.perm_ext_iff_of_nodup h4 List.nodup_range).2 fun a => by
      rw [h5, List.mem_range]
    rw [hp.length_eq, List.length_range]
  obtain ⟨e1, e2⟩ := C147_destroy h3 h4 (fun b hb => by cases hb) d
  rw [hl] at e1 e2
  refine ⟨e1, fun hn => ?_⟩
  obtain ⟨h', e, he⟩ := e2 hn
  exact ⟨h', e, fun b hb => by rw [he b, if_pos ((h5 b).2 hb)]⟩

/-- The hypotheses of `C147_destroy` are met by a list of two nodes before a node that another list begins with; here two
calls are needed for the nodes and one for the shared one. -/
example : let h : Heap := [some ⟨none, 2⟩, some ⟨some 0, 1⟩, some ⟨some 1, 1⟩]
    Alone h (some 2) [2, 1] (some 0) ∧ Shared h (some 0) ∧ release 2 h (some 2) = .hang ∧
    release 3 h (some 2) = .ok [some ⟨none, 1⟩, none, none] :=
  ⟨.cons rfl (.cons rfl .nil), fun b hb => by cases hb; exact ⟨_, rfl, by decide⟩, by decide, by decide⟩

end Lolly.ListDepthProps
