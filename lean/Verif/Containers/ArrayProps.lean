import Verif.Containers.ArrayLemmas

/-!
# Properties C08 (array buffers), C09 (self-append) and C10 (array laws)
-/

set_option autoImplicit false

namespace Lolly.ArrayProps

open Arr

variable {T : Type} {dv : T}

/-- The array can be read as the sequence `l`: `N (a)` is its length, and every `a[i]` with
`0 <= i < N (a)` is a legal access that gives its `i`-th element. -/
def Shows (a : Arr T) (l : List T) : Prop :=
  a.n = l.length ∧ ∀ i (h : i < l.length), a.get i = .ok l[i]

/-- All arrays of a heap, in order. -/
def ShowsAll (hp : List (Arr T)) (L : List (List T)) : Prop :=
  hp.length = L.length ∧
    ∀ (i : Nat) a l, hp[i]? = some a → L[i]? = some l → Shows a l

/-- Client commands on a heap of arrays, named by their position. -/
inductive Cmd (T : Type)
  | new (n : Nat)
  | ofList (l : List T)
  | resize (i m : Nat)
  | push (i : Nat) (x : T)
  | put (i j : Nat) (x : T)
  | append (i j : Nat)

def step (dv : T) (hp : List (Arr T)) : Cmd T → Res (List (Arr T))
  | .new n => .ok (hp ++ [Arr.new dv n])
  | .ofList l => do .ok (hp ++ [← Arr.ofList dv l])
  | .resize i m => do wr hp i (← (← rd hp i).resize dv m)
  | .push i x => do wr hp i (← (← rd hp i).push dv x)
  | .put i j x => do wr hp i (← (← rd hp i).put j x)
  | .append i j => appendTo dv hp i j

/-- The meaning of a command on sequences, together with its precondition. -/
inductive Effect (dv : T) (L : List (List T)) : Cmd T → List (List T) → Prop
  | new n : Effect dv L (.new n) (L ++ [List.replicate n dv])
  | ofList l : Effect dv L (.ofList l) (L ++ [l])
  | resize i m l l' : L[i]? = some l → l'.length = m →
      l'.take (min l.length m) = l.take (min l.length m) → Effect dv L (.resize i m) (L.set i l')
  | push i x l : L[i]? = some l → Effect dv L (.push i x) (L.set i (l ++ [x]))
  | put i j x l : L[i]? = some l → j < l.length → Effect dv L (.put i j x) (L.set i (l.set j x))
  | append i j l m : L[i]? = some l → L[j]? = some m → i ≠ j →
      Effect dv L (.append i j) (L.set i (l ++ m))

/-- A command whose handles exist, whose index is in range, and that does not append an array to
itself. -/
def Valid (L : List (List T)) : Cmd T → Prop
  | .new _ => True
  | .ofList _ => True
  | .resize i _ => i < L.length
  | .push i _ => i < L.length
  | .put i j _ => ∃ l, L[i]? = some l ∧ j < l.length
  | .append i j => i < L.length ∧ j < L.length ∧ i ≠ j

/-- Heaps reached from the empty heap, with the sequences they stand for. -/
inductive Reach (dv : T) : List (Arr T) → List (List T) → Prop
  | nil : Reach dv [] []
  | step {hp L c hp' L'} : Reach dv hp L → Valid L c → Effect dv L c L' →
      step dv hp c = .ok hp' → ShowsAll hp' L' → Reach dv hp' L'

def Good (hp : List (Arr T)) (L : List (List T)) : Prop :=
  hp.map toList = L ∧ ∀ a ∈ hp, a.WF

theorem shows_toList {a : Arr T} (w : a.WF) : Shows a a.toList :=
  ⟨w.length.symm, fun i h => get_of_toList w (by simp)⟩

theorem shows_unique {a : Arr T} {l l' : List T} (h : Shows a l) (h' : Shows a l') : l = l' := by
  apply List.ext_getElem (by rw [← h.1, ← h'.1])
  intro i h1 h2
  have := (h.2 i h1).symm.trans (h'.2 i h2)
  simpa using this

theorem good_shows {hp : List (Arr T)} {L : List (List T)} (g : Good hp L) : ShowsAll hp L := by
  obtain ⟨rfl, w⟩ := g
  refine ⟨by simp, fun i a l ha hl => ?_⟩
  simp only [List.getElem?_map, ha, Option.map_some, Option.some.injEq] at hl
  rw [← hl]
  exact shows_toList (w a (List.mem_of_getElem? ha))

theorem good_set {hp : List (Arr T)} {L : List (List T)} (g : Good hp L) (i : Nat) {a : Arr T}
    {l : List T} (w : a.WF) (h : a.toList = l) : Good (hp.set i a) (L.set i l) := by
  refine ⟨?_, fun b hb => ?_⟩
  · rw [List.map_set, g.1, h]
  · rcases List.mem_or_eq_of_mem_set hb with h | rfl
    · exact g.2 b h
    · exact w

theorem good_get {hp : List (Arr T)} {L : List (List T)} (g : Good hp L) {i : Nat}
    (h : i < L.length) : ∃ a, hp[i]? = some a ∧ a.WF ∧ L[i]? = some a.toList := by
  obtain ⟨rfl, w⟩ := g
  simp only [List.length_map] at h
  exact ⟨hp[i], by simp, w _ (List.getElem_mem h), by simp [h]⟩

theorem appendTo_distinct {hp : List (Arr T)} {L : List (List T)} (g : Good hp L) {i j : Nat}
    (hi : i < L.length) (hj : j < L.length) (hij : i ≠ j) :
    ∃ hp' l m, L[i]? = some l ∧ L[j]? = some m ∧ appendTo dv hp i j = .ok hp' ∧
      Good hp' (L.set i (l ++ m)) := by
  obtain ⟨a, ha, wa, hla⟩ := good_get g hi
  obtain ⟨b, hb, wb, hlb⟩ := good_get g hj
  obtain ⟨a1, e1, w1, n1, t1, _⟩ := Arr.resize_spec wa dv (a.n + b.n)
  have la := wa.length
  have lb := wb.length
  have l1 := w1.length
  have hil : i < hp.length := by rw [show hp.length = L.length by rw [← g.1]; simp]; exact hi
  have hb1 : (hp.set i a1)[j]? = some b := by rw [List.getElem?_set_ne hij]; exact hb
  obtain ⟨hp', e2, a2, rfl, w2, n2, hg⟩ :=
    forUp_spec (lo := 0) (hi := b.n) (s := hp.set i a1)
      (body := fun p hp => do
        let b ← rd hp j
        let x ← b.get p
        let c ← rd hp i
        let c ← c.put (p + a.n) x
        wr hp i c)
      (fun p h => ∃ c, h = hp.set i c ∧ c.WF ∧ c.n = a.n + b.n ∧
        ∀ q, q < a.n + p → c.toList[q]? = (a.toList ++ b.toList)[q]?)
      (by omega)
      ⟨a1, rfl, w1, n1, fun q hq => by
        rw [List.getElem?_append_left (by omega)]
        have := congrArg (fun l => l[q]?) t1
        simp only [List.getElem?_take] at this
        rw [if_pos (by omega), if_pos (by omega)] at this
        exact this⟩
      (by
        rintro p h _ hp2 ⟨c, rfl, wc, nc, hc⟩
        have hbc : (hp.set i c)[j]? = some b := by rw [List.getElem?_set_ne hij]; exact hb
        have hcc : (hp.set i c)[i]? = some c := List.getElem?_set_self hil
        obtain ⟨x, ex, hx⟩ := Arr.get_spec wb hp2
        obtain ⟨c', e', wc', nc', _, tc'⟩ := Arr.put_spec wc (i := p + a.n) (by omega) x
        refine ⟨hp.set i c', ?_, c', rfl, wc', by omega, ?_⟩
        · simp only [rd_eq_ok.2 hbc, Res.ok_bind, ex, rd_eq_ok.2 hcc, e']
          rw [wr_ok (by simpa using hil), List.set_set]
        · intro q hq
          rw [tc', List.getElem?_set]
          by_cases h : p + a.n = q
          · subst h
            rw [if_pos rfl, if_pos (by rw [wc.length]; omega),
              List.getElem?_append_right (by omega), show p + a.n - a.toList.length = p by omega, hx]
          · rw [if_neg h]; exact hc q (by omega))
  refine ⟨_, _, _, hla, hlb, ?_, good_set g i w2 ?_⟩
  · simp only [appendTo, rd_eq_ok.2 ha, rd_eq_ok.2 hb, Res.ok_bind, e1, wr_ok hil, rd_eq_ok.2 hb1]
    exact e2
  · apply List.ext_getElem?
    intro q
    by_cases hq : q < a.n + b.n
    · exact hg q hq
    · have := w2.length
      rw [List.getElem?_eq_none (by omega), List.getElem?_eq_none (by simp; omega)]

theorem step_good {hp : List (Arr T)} {L : List (List T)} (g : Good hp L) {c : Cmd T}
    (v : Valid L c) : ∃ hp' L', step dv hp c = .ok hp' ∧ Effect dv L c L' ∧ Good hp' L' := by
  have hlen : hp.length = L.length := by rw [← g.1]; simp
  have happ : ∀ a l, a.WF → a.toList = l → Good (hp ++ [a]) (L ++ [l]) := by
    intro a l w h
    refine ⟨by rw [List.map_append, g.1]; simp [h], fun b hb => ?_⟩
    simp only [List.mem_append, List.mem_singleton] at hb
    rcases hb with h | rfl
    · exact g.2 b h
    · exact w
  cases c with
  | new n =>
    obtain ⟨w, _, t⟩ := Arr.new_spec dv n
    exact ⟨_, _, rfl, .new n, happ _ _ w t⟩
  | ofList l =>
    obtain ⟨a, e, w, _, t⟩ := Arr.ofList_spec dv l
    exact ⟨hp ++ [a], _, by simp [step, e], .ofList l, happ _ _ w t⟩
  | resize i m =>
    obtain ⟨a, ha, w, hl⟩ := good_get g v
    obtain ⟨a', e, w', n', t', _⟩ := Arr.resize_spec w dv m
    refine ⟨hp.set i a', L.set i a'.toList, ?_, ?_, good_set g i w' rfl⟩
    · simp only [step, rd_eq_ok.2 ha, Res.ok_bind, e]
      exact wr_ok (by rw [hlen]; exact v)
    · refine .resize i m _ _ hl (by rw [w'.length, n']) ?_
      rw [w.length]; exact t'
  | push i x =>
    obtain ⟨a, ha, w, hl⟩ := good_get g v
    obtain ⟨a', e, w', n', t'⟩ := Arr.push_spec w dv x
    refine ⟨hp.set i a', _, ?_, .push i x _ hl, good_set g i w' t'⟩
    simp only [step, rd_eq_ok.2 ha, Res.ok_bind, e]
    exact wr_ok (by rw [hlen]; exact v)
  | put i j x =>
    obtain ⟨l, hl', hj⟩ := v
    have hi : i < L.length := (List.getElem?_eq_some_iff.1 hl').1
    obtain ⟨a, ha, w, hl⟩ := good_get g hi
    rw [hl] at hl'; obtain rfl := Option.some.inj hl'
    obtain ⟨a', e, w', n', _, t'⟩ := Arr.put_spec w (i := j) (by rw [← w.length]; exact hj) x
    refine ⟨hp.set i a', _, ?_, .put i j x _ hl hj, good_set g i w' t'⟩
    simp only [step, rd_eq_ok.2 ha, Res.ok_bind, e]
    exact wr_ok (by rw [hlen]; exact hi)
  | append i j =>
    obtain ⟨hp', l, m, h1, h2, e, g'⟩ := appendTo_distinct (dv := dv) g v.1 v.2.1 v.2.2
    exact ⟨hp', _, e, .append i j l m h1 h2 v.2.2, g'⟩

theorem reach_good {hp : List (Arr T)} {L : List (List T)} (r : Reach dv hp L) : Good hp L := by
  induction r with
  | nil => exact ⟨rfl, by simp⟩
  | @step hp L c hp' L' r v e s sh ih =>
    obtain ⟨hp2, L2, s2, e2, g2⟩ := step_good (dv := dv) ih v
    rw [s] at s2
    obtain rfl := Res.ok.inj s2
    suffices h : L' = L2 by rw [h]; exact g2
    have sh2 := good_shows g2
    apply List.ext_getElem (by rw [← sh.1, ← sh2.1])
    intro i h1 h2
    have hh := sh.1 ▸ h1
    exact shows_unique (sh.2 i _ _ (List.getElem?_eq_getElem hh) (List.getElem?_eq_getElem h1))
      (sh2.2 i _ _ (List.getElem?_eq_getElem hh) (List.getElem?_eq_getElem h2))

/-- C08: in any reachable heap every valid command succeeds (no access leaves its block), and has
exactly the effect it should have on the sequences. -/
theorem C08_progress {hp : List (Arr T)} {L : List (List T)} (r : Reach dv hp L) (c : Cmd T)
    (v : Valid L c) :
    ∃ hp' L', step dv hp c = .ok hp' ∧ Effect dv L c L' ∧ ShowsAll hp' L' ∧ Reach dv hp' L' := by
  obtain ⟨hp', L', s, e, g⟩ := step_good (dv := dv) (reach_good r) v
  exact ⟨hp', L', s, e, good_shows g, r.step v e s (good_shows g)⟩

/-- C08: every read of a reachable array is inside its block and gives the right element. -/
theorem C08_contents {hp : List (Arr T)} {L : List (List T)} (r : Reach dv hp L) : ShowsAll hp L :=
  good_shows (reach_good r)

/-- C08: the block is allocated exactly when the array is not empty (so the destructor, which frees
it iff `n != 0`, neither leaks nor frees NULL), and it has fewer than twice `N (a)` cells. -/
theorem C08_block {hp : List (Arr T)} {L : List (List T)} (r : Reach dv hp L) (a : Arr T)
    (ha : a ∈ hp) :
    (a.n = 0 → a.blk = none) ∧
    (a.n ≠ 0 → ∃ b, a.blk = some b ∧ a.n ≤ b.length ∧ b.length < 2 * a.n) := by
  have w := (reach_good r).2 a ha
  refine ⟨w.1.2, fun h => ⟨a.cells, w.blk (by omega), w.n_le, ?_⟩⟩
  rw [w.2]; exact Arr.roundLength_lt _ (by omega)

/-- The capacities in use: up to 5 cells exactly, then powers of two from 8. -/
def IsCapacity (n c : Nat) : Prop :=
  (n < 6 ∧ c = n) ∨ (6 ≤ n ∧ (∃ k, c = 2 ^ k) ∧ 8 ≤ c ∧ n ≤ c ∧ ∀ k, 8 ≤ 2 ^ k → n ≤ 2 ^ k → c ≤ 2 ^ k)

theorem pow2up_isPow (n k : Nat) : ∃ j, pow2up n (2 ^ k) = 2 ^ j := by
  generalize hi : 2 ^ k = i
  fun_induction pow2up n i generalizing k with
  | case1 i h ih => exact ih (k + 1) (by rw [← hi, Nat.pow_succ])
  | case2 i h => exact ⟨k, hi.symm⟩

theorem pow2up_least (n k j : Nat) (hj : 2 ^ k ≤ 2 ^ j) (hn : n ≤ 2 ^ j) :
    pow2up n (2 ^ k) ≤ 2 ^ j := by
  generalize hi : 2 ^ k = i
  fun_induction pow2up n i generalizing k with
  | case1 i h ih =>
    refine ih (k + 1) ?_ (by rw [← hi, Nat.pow_succ])
    have : k < j := by
      have : 2 ^ k < 2 ^ j := by omega
      exact (Nat.pow_lt_pow_iff_right (by omega)).1 this
    exact Nat.pow_le_pow_right (by omega) this
  | case2 i h => omega

theorem roundLength_isCapacity (n : Nat) : IsCapacity n (roundLength n) := by
  unfold roundLength
  split
  · exact .inl ⟨by omega, rfl⟩
  · refine .inr ⟨by omega, pow2up_isPow n 3, pow2up_pos n 8 (by omega), le_pow2up n 8 (by omega), ?_⟩
    intro k h1 h2; exact pow2up_least n 3 k h1 h2

/-- C08: `resize` touches the allocator exactly when the rounded capacity changes. -/
theorem C08_realloc {hp : List (Arr T)} {L : List (List T)} (r : Reach dv hp L) (a : Arr T)
    (ha : a ∈ hp) (m c c' : Nat) (hc : IsCapacity a.n c) (hc' : IsCapacity m c') :
    ∃ a', a.resize dv m = .ok a' ∧ (a'.gen = a.gen ↔ c = c') := by
  have uniq : ∀ n c, IsCapacity n c → c = roundLength n := by
    intro n c h
    have h2 := roundLength_isCapacity n
    rcases h with ⟨h, rfl⟩ | ⟨h, ⟨k, hk⟩, h3, h4, h5⟩
    · rcases h2 with ⟨_, e⟩ | ⟨_, _⟩
      · exact e.symm
      · omega
    · rcases h2 with ⟨_, _⟩ | ⟨_, ⟨k', hk'⟩, h3', h4', h5'⟩
      · omega
      · have a1 := h5 k' (by omega) (by omega)
        have a2 := h5' k (by omega) (by omega)
        omega
  obtain ⟨a', e, _, _, _, hg⟩ := Arr.resize_spec ((reach_good r).2 a ha) dv m
  refine ⟨a', e, ?_⟩
  rw [hg, uniq _ _ hc, uniq _ _ hc']
  exact eq_comm

/-- Non-vacuity: a history with growth over a capacity step, shrinking, and appending. -/
example : ∃ hp, Reach 0 hp [[7, 8, 1, 2, 3, 4, 5, 6], [1, 2, 3, 4, 5, 6]] := by
  obtain ⟨h1, L1, s1, e1, _, r1⟩ := C08_progress (dv := 0) .nil (.ofList [7, 8]) trivial
  cases e1
  obtain ⟨h2, L2, s2, e2, _, r2⟩ := C08_progress (dv := 0) r1 (.ofList [1, 2, 3, 4, 5]) trivial
  cases e2
  obtain ⟨h3, L3, s3, e3, _, r3⟩ := C08_progress (dv := 0) r2 (.push 1 6) (by simp [Valid])
  cases e3 with | push _ _ l hl => ?_
  simp at hl; subst hl
  obtain ⟨h4, L4, s4, e4, _, r4⟩ := C08_progress (dv := 0) r3 (.append 0 1) (by simp [Valid])
  cases e4 with | append _ _ l m hl hm _ => ?_
  simp at hl hm; subst hl; subst hm
  exact ⟨h4, by simpa using r4⟩

/-! ## C09 -/

/-- C09 is violated: appending a one-element array to itself writes outside its block. -/
theorem C09_violated : ∃ a : Arr Nat, Reach 0 [a] [[5]] ∧ appendTo 0 [a] 0 0 = .ub := by
  have e : Arr.ofList 0 [5] = .ok ⟨1, some [5], 0⟩ := by decide
  obtain ⟨a, e', w, _, t⟩ := Arr.ofList_spec 0 [5]
  rw [e] at e'; obtain rfl := Res.ok.inj e'
  refine ⟨⟨1, some [5], 0⟩, ?_, by decide⟩
  exact Reach.step .nil (c := .ofList [5]) trivial (.ofList [5]) (by simp [step, e])
    (good_shows ⟨by simp [t], by simpa using w⟩)

/-- C09 holds when the capacity after doubling happens to leave room for a third copy: the loop
runs twice as long as it should, but stays in the block and the excess is invisible. -/
theorem C09_partial {a : Arr T} {l : List T} (r : Reach dv [a] [l])
    (hroom : 3 * l.length ≤ roundLength (2 * l.length)) :
    ∃ a', appendTo dv [a] 0 0 = .ok [a'] ∧ Shows a' (l ++ l) := by
  have g := reach_good r
  have w := g.2 a (by simp)
  have hl : a.toList = l := by simpa using g.1
  obtain ⟨a1, e1, w1, n1, t1, _⟩ := Arr.resize_spec w dv (a.n + a.n)
  have la := w.length
  have l1 := w1.length
  have hc1 := w1.2
  by_cases h0 : a.n = 0
  · refine ⟨a1, ?_, ?_⟩
    · have : forUp 0 a1.n [a1] (fun i hp => do
          let b ← rd hp 0
          let x ← b.get i
          let c ← rd hp 0
          let c ← c.put (i + a.n) x
          wr hp 0 c) = .ok [a1] := by
        rw [n1, h0]; rfl
      simp only [appendTo, rd, List.getElem?_cons_zero, Res.ofOption_some, Res.ok_bind, e1, wr,
        List.length_cons, List.length_nil, Nat.zero_add, Nat.lt_add_one, if_true, List.set_cons_zero]
      exact this
    · have hl0 : l = [] := by rw [← hl]; exact List.length_eq_zero_iff.1 (by omega)
      subst hl0
      exact ⟨by simp; omega, fun i h => by simp at h⟩
  obtain ⟨hp', e2, a2, rfl, n2, b2, hb2, lb2, hg⟩ :=
    forUp_spec (lo := 0) (hi := a1.n) (s := [a1])
      (body := fun p hp => do
        let b ← rd hp 0
        let x ← b.get p
        let c ← rd hp 0
        let c ← c.put (p + a.n) x
        wr hp 0 c)
      (fun p h => ∃ c : Arr T, h = [c] ∧ c.n = a.n + a.n ∧ ∃ b, c.blk = some b ∧
        b.length = roundLength (a.n + a.n) ∧
        ∀ q, q < a.n + p → b[q]? = l[q % a.n]?)
      (by omega)
      ⟨a1, rfl, n1, a1.cells, w1.blk (by omega), by rw [hc1, n1], fun q hq => by
        have := congrArg (fun l => l[q]?) t1
        simp only [List.getElem?_take] at this
        rw [if_pos (by omega), if_pos (by omega), toList_get? a1 q (by omega), hl] at this
        rw [this, Nat.mod_eq_of_lt (by omega)]⟩
      (by
        rintro p h _ hp2 ⟨c, rfl, nc, b, hb, lb, hc⟩
        have hroom' : p + a.n < b.length := by
          rw [lb]; rw [show 2 * l.length = a.n + a.n by rw [← hl, la]; omega,
            show 3 * l.length = a.n + a.n + a.n by rw [← hl, la]; omega] at hroom; omega
        have hpb : p < b.length := by omega
        refine ⟨[{ c with blk := some (b.set (p + a.n) b[p]) }], ?_, _, rfl, nc, _, rfl, by simpa using lb, ?_⟩
        · simp [rd, Arr.get, hb, Arr.put, wr, hroom', hpb]
        · intro q hq
          rw [List.getElem?_set]
          by_cases h : p + a.n = q
          · subst h
            rw [if_pos rfl, if_pos hroom', ← List.getElem?_eq_getElem hpb, hc p (by omega),
              Nat.add_mod_right]
          · rw [if_neg h]; exact hc q (by omega))
  refine ⟨a2, ?_, ?_, ?_⟩
  · simp only [appendTo, rd, List.getElem?_cons_zero, Res.ofOption_some, Res.ok_bind, e1, wr,
        List.length_cons, List.length_nil, Nat.zero_add, Nat.lt_add_one, if_true, List.set_cons_zero]
    exact e2
  · simp; rw [← hl, la]; omega
  · intro i h
    have hln : l.length = a.n := by rw [← hl, la]
    simp only [List.length_append, hln] at h
    have := hg i (by omega)
    simp only [Arr.get, hb2]
    have hi : (l ++ l)[i]? = some (l ++ l)[i] := List.getElem?_eq_getElem _
    rw [rd_eq_ok, this, ← hi]
    by_cases hlt : i < a.n
    · rw [Nat.mod_eq_of_lt hlt, List.getElem?_append_left (by omega)]
    · rw [List.getElem?_append_right (by omega), hln, Nat.mod_eq_sub_mod (by omega),
        Nat.mod_eq_of_lt (by omega)]

/-- A loop is undefined if one of its rounds is, whatever the state that the rounds before leave. -/
theorem forN_ub {S : Type} {body : Nat → S → Res S} (I : Nat → S → Prop) {m n i : Nat} {s : S}
    (him : i ≤ m) (hmn : m < i + n) (h0 : I i s)
    (step : ∀ j s, i ≤ j → j < m → I j s → ∃ s', body j s = .ok s' ∧ I (j + 1) s')
    (bad : ∀ s, I m s → body m s = .ub) : forN body n i s = .ub := by
  induction n generalizing i s with
  | zero => omega
  | succ n ih =>
    rcases Nat.eq_or_lt_of_le him with rfl | hlt
    · rw [forN, bad s h0]; rfl
    · obtain ⟨s1, e1, h1⟩ := step i s (Nat.le_refl _) hlt h0
      rw [forN, e1]
      exact ih (by omega) (by omega) h1 (fun j s hj => step j s (by omega))

/-- In all other cases appending an array to itself writes outside its block. -/
theorem C09_undefined {a : Arr T} {l : List T} (r : Reach dv [a] [l])
    (hroom : ¬ 3 * l.length ≤ roundLength (2 * l.length)) : appendTo dv [a] 0 0 = .ub := by
  have g := reach_good r
  have w := g.2 a (by simp)
  have hl : a.toList = l := by simpa using g.1
  obtain ⟨a1, e1, w1, n1, _, _⟩ := Arr.resize_spec w dv (a.n + a.n)
  have la := w.length
  have hln : l.length = a.n := by rw [← hl, la]
  rw [hln, show 2 * a.n = a.n + a.n by omega] at hroom
  have hc1 := w1.2
  have hle := le_roundLength (a.n + a.n)
  have := forN_ub (n := a1.n - 0) (i := 0) (s := [a1]) (m := roundLength (a.n + a.n) - a.n)
      (body := fun p hp => do
        let b ← rd hp 0
        let x ← b.get p
        let c ← rd hp 0
        let c ← c.put (p + a.n) x
        wr hp 0 c)
      (fun _ h => ∃ c : Arr T, h = [c] ∧ ∃ b, c.blk = some b ∧ b.length = roundLength (a.n + a.n))
      (by omega) (by omega)
      ⟨a1, rfl, a1.cells, w1.blk (by omega), by rw [hc1, n1]⟩
      (by
        rintro p h _ hp2 ⟨c, rfl, b, hb, lb⟩
        have h1 : p + a.n < b.length := by omega
        have h2 : p < b.length := by omega
        refine ⟨[{ c with blk := some (b.set (p + a.n) b[p]) }], ?_, _, rfl, _, rfl, by simpa using lb⟩
        simp [rd, Arr.get, hb, Arr.put, wr, h1, h2])
      (by
        rintro h ⟨c, rfl, b, hb, lb⟩
        have h1 : ¬ roundLength (a.n + a.n) - a.n + a.n < b.length := by omega
        have h2 : roundLength (a.n + a.n) - a.n < b.length := by omega
        simp [rd, Arr.get, hb, Arr.put, wr, h1, h2])
  simp only [appendTo, rd, List.getElem?_cons_zero, Res.ofOption_some, Res.ok_bind, e1, wr,
    List.length_cons, List.length_nil, Nat.zero_add, Nat.lt_add_one, if_true, List.set_cons_zero]
  exact this

/-- Non-vacuity: five elements leave room (capacity 16), one element does not. -/
example : 3 * [1, 2, 3, 4, 5].length ≤ roundLength (2 * [1, 2, 3, 4, 5].length) ∧
    ¬ 3 * 1 ≤ roundLength (2 * 1) := by
  have : roundLength 10 = 16 := by simp [roundLength, pow2up]
  have : roundLength 2 = 2 := by simp [roundLength]
  simp; omega

/-! ## C10: the pure operations -/

/-- Arrays that clients can have: those in a reachable heap, or produced by the operations below. -/
inductive Client (dv : T) : Arr T → List T → Prop
  | mem {hp : List (Arr T)} {L : List (List T)} {i : Nat} {a l} : Reach dv hp L → hp[i]? = some a → L[i]? = some l → Client dv a l
  | cons {x b l a} : Client dv b l → Arr.cons dv x b = .ok a → Client dv a (x :: l)
  | append {a b c l m} : Client dv a l → Client dv b m → Arr.append dv a b = .ok c →
      Client dv c (l ++ m)
  | range {a l i j r} : Client dv a l → i ≤ j → j ≤ l.length →
      Arr.range dv a (i : Nat) (j : Nat) = .ok r → Client dv r ((l.take j).drop i)
  | reverse {a l r} : Client dv a l → Arr.reverse dv a = .ok r → Client dv r l.reverse
  | map {a l r op c} : Client dv a l → Arr.mapScalar dv op a c = .ok r →
      Client dv r (l.map (fun x => op x c))

theorem client_good {a : Arr T} {l : List T} (h : Client dv a l) : a.WF ∧ a.toList = l := by
  induction h with
  | @mem hp L i a l r ha hl =>
    obtain ⟨rfl, w⟩ := reach_good r
    simp only [List.getElem?_map, ha, Option.map_some, Option.some.injEq] at hl
    exact ⟨w a (List.mem_of_getElem? ha), hl⟩
  | @cons x b l a _ e ih =>
    obtain ⟨c, e', w, t⟩ := cons_spec ih.1 dv x
    rw [e] at e'; obtain rfl := Res.ok.inj e'
    exact ⟨w, by rw [t, ih.2]⟩
  | append _ _ e ih1 ih2 =>
    obtain ⟨c, e', w, t⟩ := append_spec ih1.1 ih2.1 dv
    rw [e] at e'; obtain rfl := Res.ok.inj e'
    exact ⟨w, by rw [t, ih1.2, ih2.2]⟩
  | @range a l i j r _ h1 h2 e ih =>
    obtain ⟨c, e', w, t⟩ := range_spec ih.1 dv h1 (by rw [← ih.1.length, ih.2]; exact h2)
    rw [e] at e'; obtain rfl := Res.ok.inj e'
    exact ⟨w, by rw [t, ih.2]⟩
  | reverse _ e ih =>
    obtain ⟨c, e', w, t⟩ := reverse_spec ih.1 dv
    rw [e] at e'; obtain rfl := Res.ok.inj e'
    exact ⟨w, by rw [t, ih.2]⟩
  | @map a l r op c _ e ih =>
    obtain ⟨c, e', w, t⟩ := mapScalar_spec ih.1 dv op c
    rw [e] at e'; obtain rfl := Res.ok.inj e'
    exact ⟨w, by rw [t, ih.2]⟩

/-- Whatever a client has can be read as its sequence. -/
theorem C10_contents {a : Arr T} {l : List T} (h : Client dv a l) : Shows a l := by
  obtain ⟨w, rfl⟩ := client_good h; exact shows_toList w

/-- C10: `range (a, i, j)` with `0 <= i <= j <= N (a)` is the sequence `a[i], ..., a[j-1]`. -/
theorem C10_range {a : Arr T} {l : List T} (h : Client dv a l) (i j : Nat) (hij : i ≤ j)
    (hj : j ≤ l.length) :
    ∃ r, Arr.range dv a i j = .ok r ∧ Shows r ((l.take j).drop i) ∧
      Client dv r ((l.take j).drop i) := by
  obtain ⟨w, rfl⟩ := client_good h
  obtain ⟨r, e, w', t⟩ := range_spec w dv hij (by rw [← w.length]; exact hj)
  have := Client.range h hij hj e
  exact ⟨r, e, C10_contents this, this⟩

/-- C10: out-of-range bounds throw. -/
theorem C10_range_throws (a : Arr T) (i j : Int) (h : i < 0 ∨ (a.n : Int) < j) :
    Arr.range dv a i j = .thrown := by
  unfold Arr.range; rw [if_neg (by omega)]

/-- C10, violated part: whatever the array, crossed bounds pass the assertion and ask for a block of negative size
(what comes of it depends on the size of the elements, see `C98_negative_exact`). -/
theorem C10_range_violated (a : Arr T) (i j : Int) (hi : 0 ≤ i) (hj : j ≤ a.n) (hij : j < i) :
    Arr.range dv a i j = .ub := by
  unfold Arr.range
  rw [if_pos ⟨hi, hj⟩, if_pos (by omega)]

/-- Such a call: an array of three elements and the bounds 2 and 1. -/
example : ∃ a : Arr Nat, Client 0 a [1, 2, 3] ∧ Arr.range 0 a 2 1 = .ub := by
  obtain ⟨h1, L1, s1, e1, sh, r1⟩ := C08_progress (dv := 0) .nil (.ofList [1, 2, 3]) trivial
  cases e1
  have hlen : 0 < h1.length := by rw [sh.1]; simp
  have hc := Client.mem r1 (i := 0) (List.getElem?_eq_getElem hlen) rfl
  refine ⟨h1[0], hc, ?_⟩
  have := (C10_contents hc).1
  exact C10_range_violated _ _ _ (by decide) (by rw [this]; decide) (by decide)

/-- C10: `append` is concatenation. -/
theorem C10_append {a b : Arr T} {l m : List T} (ha : Client dv a l) (hb : Client dv b m) :
    ∃ c, Arr.append dv a b = .ok c ∧ Shows c (l ++ m) ∧ Client dv c (l ++ m) := by
  obtain ⟨wa, rfl⟩ := client_good ha
  obtain ⟨wb, rfl⟩ := client_good hb
  obtain ⟨c, e, w, t⟩ := append_spec wa wb dv
  have := Client.append ha hb e
  exact ⟨c, e, C10_contents this, this⟩

/-- C10: `append (x, b)` puts `x` in front. -/
theorem C10_cons {b : Arr T} {l : List T} (hb : Client dv b l) (x : T) :
    ∃ c, Arr.cons dv x b = .ok c ∧ Shows c (x :: l) ∧ Client dv c (x :: l) := by
  obtain ⟨wb, rfl⟩ := client_good hb
  obtain ⟨c, e, w, t⟩ := cons_spec wb dv x
  have := Client.cons hb e
  exact ⟨c, e, C10_contents this, this⟩

/-- C10: `reverse` is reversal. -/
theorem C10_reverse {a : Arr T} {l : List T} (h : Client dv a l) :
    ∃ r, Arr.reverse dv a = .ok r ∧ Shows r l.reverse ∧ Client dv r l.reverse := by
  obtain ⟨w, rfl⟩ := client_good h
  obtain ⟨r, e, w', t⟩ := reverse_spec w dv
  have := Client.reverse h e
  exact ⟨r, e, C10_contents this, this⟩

/-- C10: multiplication and division by a scalar work element by element. -/
theorem C10_scalar {a : Arr T} {l : List T} (h : Client dv a l) (op : T → T → T) (c : T) :
    ∃ r, Arr.mapScalar dv op a c = .ok r ∧ Shows r (l.map (fun x => op x c)) := by
  obtain ⟨w, rfl⟩ := client_good h
  obtain ⟨r, e, w', t⟩ := mapScalar_spec w dv op c
  exact ⟨r, e, C10_contents (Client.map h e)⟩

/-- C10: membership. -/
theorem C10_contains [DecidableEq T] {a : Arr T} {l : List T} (h : Client dv a l) (x : T) :
    ∃ b, Arr.contains x a = .ok b ∧ (b = true ↔ ∃ i, ∃ h : i < l.length, l[i] = x) := by
  obtain ⟨w, rfl⟩ := client_good h
  refine ⟨_, Arr.contains_spec w x, ?_⟩
  rw [decide_eq_true_eq, List.mem_iff_getElem]

/-- C10: `==` and `!=` decide equality of the sequences. -/
theorem C10_eq [DecidableEq T] {a b : Arr T} {l m : List T} (ha : Client dv a l)
    (hb : Client dv b m) :
    ∃ e n, Arr.eqv a b = .ok e ∧ Arr.neq a b = .ok n ∧ (e = true ↔ l = m) ∧ (n = true ↔ l ≠ m) := by
  obtain ⟨wa, rfl⟩ := client_good ha
  obtain ⟨wb, rfl⟩ := client_good hb
  exact ⟨_, _, Arr.eqv_spec wa wb, Arr.neq_spec wa wb, decide_eq_true_iff, decide_eq_true_iff⟩

/-- C10: arrays that are `==` have equal hashes, for any hash of the elements. -/
theorem C10_hash [DecidableEq T] {a b : Arr T} {l m : List T} (ha : Client dv a l)
    (hb : Client dv b m) (hash : T → BitVec 32) (e : Arr.eqv a b = .ok true) :
    ∃ k, Arr.hashCode hash a = .ok k ∧ Arr.hashCode hash b = .ok k := by
  obtain ⟨wa, rfl⟩ := client_good ha
  obtain ⟨wb, rfl⟩ := client_good hb
  rw [Arr.eqv_spec wa wb] at e
  have e : a.toList = b.toList := by simpa using e
  exact ⟨_, Arr.hashCode_spec wa hash, by rw [Arr.hashCode_spec wb hash, e]⟩

/-- C10: splitting at `k` and gluing gives an array `==` to the original. -/
theorem C10_split [DecidableEq T] {a : Arr T} {l : List T} (h : Client dv a l) (k : Nat)
    (hk : k ≤ l.length) :
    ∃ p q r, Arr.range dv a (0 : Nat) k = .ok p ∧ Arr.range dv a k l.length = .ok q ∧
      Arr.append dv p q = .ok r ∧ Arr.eqv r a = .ok true := by
  obtain ⟨p, e1, _, c1⟩ := C10_range h 0 k (by omega) hk
  obtain ⟨q, e2, _, c2⟩ := C10_range h k l.length hk (by omega)
  obtain ⟨r, e3, _, c3⟩ := C10_append c1 c2
  obtain ⟨e, n, e4, _, h4, _⟩ := C10_eq c3 h
  refine ⟨p, q, r, e1, e2, e3, ?_⟩
  rw [e4, h4.2]
  simp

/-- C10: `append` is associative up to `==`, and the empty array is a unit. -/
theorem C10_append_assoc [DecidableEq T] {a b c : Arr T} {l m o : List T} (ha : Client dv a l)
    (hb : Client dv b m) (hc : Client dv c o) :
    ∃ ab bc x y, Arr.append dv a b = .ok ab ∧ Arr.append dv b c = .ok bc ∧
      Arr.append dv ab c = .ok x ∧ Arr.append dv a bc = .ok y ∧ Arr.eqv x y = .ok true := by
  obtain ⟨ab, e1, _, c1⟩ := C10_append ha hb
  obtain ⟨bc, e2, _, c2⟩ := C10_append hb hc
  obtain ⟨x, e3, _, c3⟩ := C10_append c1 hc
  obtain ⟨y, e4, _, c4⟩ := C10_append ha c2
  obtain ⟨e, n, e5, _, h5, _⟩ := C10_eq c3 c4
  exact ⟨ab, bc, x, y, e1, e2, e3, e4, by rw [e5, h5.2 (by simp)]⟩

theorem C10_append_unit [DecidableEq T] {a : Arr T} {l : List T} (h : Client dv a l) :
    ∃ x y, Arr.append dv (Arr.new dv 0) a = .ok x ∧ Arr.append dv a (Arr.new dv 0) = .ok y ∧
      Arr.eqv x a = .ok true ∧ Arr.eqv y a = .ok true := by
  have hr : Reach dv [Arr.new dv 0] [[]] :=
    Reach.step .nil (c := .new 0) trivial (.new 0) rfl
      (good_shows ⟨rfl, by simp; exact (Arr.new_spec dv 0).1⟩)
  have hn : Client dv (Arr.new dv 0) [] := .mem (i := 0) hr rfl rfl
  obtain ⟨x, e1, _, c1⟩ := C10_append hn h
  obtain ⟨y, e2, _, c2⟩ := C10_append h hn
  obtain ⟨_, _, e3, _, h3, _⟩ := C10_eq c1 h
  obtain ⟨_, _, e4, _, h4, _⟩ := C10_eq c2 h
  exact ⟨x, y, e1, e2, by rw [e3, h3.2 (by simp)], by rw [e4, h4.2 (by simp)]⟩

theorem C10_reverse_reverse [DecidableEq T] {a : Arr T} {l : List T} (h : Client dv a l) :
    ∃ r s, Arr.reverse dv a = .ok r ∧ Arr.reverse dv r = .ok s ∧ Arr.eqv s a = .ok true := by
  obtain ⟨r, e1, _, c1⟩ := C10_reverse h
  obtain ⟨s, e2, _, c2⟩ := C10_reverse c1
  obtain ⟨_, _, e3, _, h3, _⟩ := C10_eq c2 h
  exact ⟨r, s, e1, e2, by rw [e3, h3.2 (by simp)]⟩

end Lolly.ArrayProps
