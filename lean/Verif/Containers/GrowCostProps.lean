import Verif.Containers.GrowCost
import Verif.Containers.ArrayLoopProps
import Verif.Containers.HashMapRefsProps
import Verif.Strings.StrLemmas

set_option autoImplicit false

/-!
# Property C149: what growing and shrinking costs
-/

namespace Lolly.GrowCostProps

open GrowCost ArrayLoop ArrayLoopProps ArrayProps

variable {T : Type} {dv : T}

/-! ## Costs by lengths -/

/-- The lengths one after the other, and the cells touched for them. -/
def cost (cap : Nat → Nat) : Nat → List Nat → Nat
  | _, [] => 0
  | n, m :: ms => (if cap m = cap n then 0 else cap n + cap m) + cost cap m ms

/-- The lengths do not decrease. -/
def Up : Nat → List Nat → Prop
  | _, [] => True
  | n, m :: ms => n ≤ m ∧ Up m ms

def lastLen (n : Nat) (ms : List Nat) : Nat := ms.getLast?.getD n

theorem lastLen_cons (n m : Nat) (ms : List Nat) : lastLen n (m :: ms) = lastLen m ms := by
  unfold lastLen
  cases ms with
  | nil => rfl
  | cons a l => simp [List.getLast?_cons_cons]; rw [List.getLast?_eq_some_getLast (by simp)]; rfl

theorem cost_append (cap : Nat → Nat) : ∀ (ms ms' : List Nat) (n : Nat),
    cost cap n (ms ++ ms') = cost cap n ms + cost cap (lastLen n ms) ms'
  | [], ms', n => by simp [cost, lastLen]
  | m :: ms, ms', n => by
    rw [List.cons_append, cost, cost, cost_append cap ms ms' m, lastLen_cons]
    omega

/-- If a potential pays for each step upwards, it pays for all. -/
theorem cost_up {cap φ : Nat → Nat} (h : ∀ n m, n ≤ m → cap n ≠ cap m → cap n + cap m + φ (cap n) ≤ φ (cap m)) :
    ∀ (ms : List Nat) (n : Nat), Up n ms → cost cap n ms + φ (cap n) ≤ φ (cap (lastLen n ms))
  | [], n, _ => by simp [cost, lastLen]
  | m :: ms, n, u => by
    have ih := cost_up h ms m u.2
    rw [cost, lastLen_cons]
    by_cases e : cap m = cap n
    · rw [if_pos e]
      rw [e] at ih
      omega
    · rw [if_neg e]
      have := h n m u.1 (Ne.symm e)
      omega

/-- Going back and forth between two lengths. -/
def swing (n m : Nat) : Nat → List Nat
  | 0 => []
  | k + 1 => m :: n :: swing n m k

theorem cost_swing {cap : Nat → Nat} {n m : Nat} (h : cap m ≠ cap n) (k : Nat) :
    cost cap n (swing n m k) = k * (2 * (cap n + cap m)) := by
  induction k with
  | zero => simp [swing, cost]
  | succ k ih =>
    rw [swing, cost, cost, if_neg h, if_neg (Ne.symm h), ih, Nat.add_mul k 1, Nat.one_mul]
    omega

theorem pow2up_eq {n j k : Nat} (hj : j ≤ k) (h1 : n ≤ 2 ^ k) (h2 : 2 ^ k < 2 * n) : pow2up n (2 ^ j) = 2 ^ k := by
  have a := pow2up_least n j k (Nat.pow_le_pow_right (by decide) hj) h1
  obtain ⟨i, hi⟩ := pow2up_isPow n j
  have b := le_pow2up n (2 ^ j) (Nat.two_pow_pos j)
  rw [hi] at a b ⊢
  have : ¬ i < k := by
    intro hik
    have : 2 ^ (i + 1) ≤ 2 ^ k := Nat.pow_le_pow_right (by decide) hik
    rw [Nat.pow_succ] at this
    omega
  have : 2 ^ k ≤ 2 ^ i := Nat.pow_le_pow_right (by decide) (by omega)
  omega

theorem pow_two_mul_le {c c' : Nat} (h : ∃ k, c = 2 ^ k) (h' : ∃ k, c' = 2 ^ k) (hl : c < c') : 2 * c ≤ c' := by
  obtain ⟨k, rfl⟩ := h
  obtain ⟨k', rfl⟩ := h'
  have : k < k' := (Nat.pow_lt_pow_iff_right (by decide)).1 hl
  have : 2 ^ (k + 1) ≤ 2 ^ k' := Nat.pow_le_pow_right (by decide) this
  rw [Nat.pow_succ] at this
  omega

/-! ## Arrays -/

/-- The lengths of the array during a program. -/
def lens : Nat → List (Op T) → List Nat
  | _, [] => []
  | n, o :: os => len n o :: lens (len n o) os

theorem total_spec : ∀ (os : List (Op T)) {a : Arr T}, a.WF → Legal a.n os →
    ∃ b, total dv a os = .ok (cost Arr.roundLength a.n (lens a.n os), b) ∧ b.n = lastLen a.n (lens a.n os)
  | [], a, _, _ => ⟨a, rfl, rfl⟩
  | o :: os, a, w, v => by
    obtain ⟨a1, e1, w1, n1, _, _, c1⟩ := step_spec (dv := dv) w o v.1
    obtain ⟨b, e2, n2⟩ := total_spec os w1 (by rw [n1]; exact v.2)
    refine ⟨b, ?_, by rw [n2, n1, lens, lastLen_cons]⟩
    have hw : work a a1 = if Arr.roundLength (len a.n o) = Arr.roundLength a.n then 0
        else Arr.roundLength a.n + Arr.roundLength (len a.n o) := by
      unfold work
      by_cases hg : a1.gen = a.gen
      · rw [if_pos hg, if_pos (by rw [← n1]; exact c1.1 hg)]
      · rw [if_neg hg, if_neg (by rw [← n1]; exact mt c1.2 hg)]
        have h1 := w.2
        have h2 := w1.2
        unfold Arr.cells at h1 h2
        rw [h1, h2, n1]
    simp only [total, e1, Res.ok_bind, e2, hw, lens, cost, n1]

/-- What all growing up to `c` cells can cost. -/
def paid (c : Nat) : Nat := if c ≤ 5 then c * c else 3 * c + 14

theorem round_mono {n m : Nat} (h : n ≤ m) : Arr.roundLength n ≤ Arr.roundLength m := by
  rcases roundLength_isCapacity n with ⟨_, e⟩ | ⟨h1, _, _, _, h5⟩
  · have := Arr.le_roundLength m
    omega
  · rcases roundLength_isCapacity m with ⟨_, _⟩ | ⟨_, ⟨k, hk⟩, h3', h4', _⟩
    · omega
    · have := h5 k (by omega) (by omega)
      omega

theorem paid_step (n m : Nat) (h : n ≤ m) (hne : Arr.roundLength n ≠ Arr.roundLength m) :
    Arr.roundLength n + Arr.roundLength m + paid (Arr.roundLength n) ≤ paid (Arr.roundLength m) := by
  have hle := round_mono h
  unfold paid
  rcases roundLength_isCapacity n with ⟨h1, e1⟩ | ⟨h1, p1, h2, _, _⟩
  · rcases roundLength_isCapacity m with ⟨h1', e1'⟩ | ⟨h1', p1', h2', _, _⟩
    · rw [e1, e1'] at hne ⊢
      rw [if_pos (by omega), if_pos (by omega)]
      have a := Nat.mul_le_mul_right m (by omega : n + 1 ≤ m)
      have b := Nat.mul_le_mul_left n (by omega : n + 1 ≤ m)
      rw [Nat.add_mul] at a
      rw [Nat.mul_add] at b
      omega
    · rw [e1, if_pos (by omega), if_neg (by omega)]
      have := Nat.mul_le_mul (by omega : n ≤ 5) (by omega : n ≤ 5)
      omega
  · rcases roundLength_isCapacity m with ⟨h1', e1'⟩ | ⟨h1', p1', h2', _, _⟩
    · omega
    · have := pow_two_mul_le p1 p1' (by omega)
      rw [if_neg (by omega), if_neg (by omega)]
      omega

/-- C149 for arrays that only grow: whatever is appended, one element after the other or more at a time, for an array of
`n` elements at most `6 n + 14` cells are touched in total. -/
theorem C149_array_partial (os : List (Op T)) (v : Legal 0 os) (u : Up 0 (lens 0 os)) :
    ∃ w b, total dv (Arr.new dv 0) os = .ok (w, b) ∧ w ≤ 6 * b.n + 14 := by
  have w0 : (Arr.new dv 0).WF := (Arr.new_spec dv 0).1
  obtain ⟨b, e, hn⟩ := total_spec (dv := dv) os w0 v
  have := cost_up (φ := paid) paid_step _ _ u
  refine ⟨_, b, e, ?_⟩
  change cost _ 0 (lens 0 os) ≤ _
  change b.n = lastLen 0 (lens 0 os) at hn
  rw [← hn] at this
  by_cases h0 : b.n = 0
  · rw [h0] at this
    have z : Arr.roundLength 0 = 0 := by decide
    rw [z] at this
    omega
  · have hlt := Arr.roundLength_lt b.n (by omega)
    have hp : paid (Arr.roundLength b.n) ≤ 3 * Arr.roundLength b.n + 14 := by
      unfold paid
      split
      · next h5 =>
        have := Nat.mul_le_mul_left (Arr.roundLength b.n) h5
        omega
      · omega
    omega

/-- Appending and dropping elements one by one. -/
def Single : Nat → List (Op T) → Prop
  | _, [] => True
  | n, .push _ :: os => Single (n + 1) os
  | n, .resize m :: os => m + 1 = n ∧ Single m os
  | n, .write _ _ :: os => Single n os

/-- Appending `n` elements, then appending and dropping one `k` times. -/
def swingOps (x : T) (n : Nat) : Nat → List (Op T)
  | 0 => []
  | k + 1 => .push x :: .resize n :: swingOps x n k

theorem lens_append' : ∀ (os os' : List (Op T)) (n : Nat),
    lens n (os ++ os') = lens n os ++ lens (lastLen n (lens n os)) os'
  | [], _, _ => rfl
  | o :: os, os', n => by
    rw [List.cons_append, lens, lens, lens_append' os os' (len n o), lastLen_cons]
    rfl

theorem lens_swing (x : T) (n k : Nat) : lens n (swingOps x n k) = swing n (n + 1) k := by
  induction k with
  | zero => rfl
  | succ k ih => simp [swingOps, lens, len, swing, ih]

theorem lens_push (x : T) : ∀ (n i : Nat), lastLen i (lens i (List.replicate n (Op.push x))) = i + n
  | 0, i => rfl
  | n + 1, i => by
    rw [List.replicate_succ, lens, lastLen_cons]
    have := lens_push x n (i + 1)
    simp only [len]
    rw [this]
    omega

theorem legal_push (x : T) (os : List (Op T)) : ∀ (n i : Nat), Legal (i + n) os → Legal i (List.replicate n (Op.push x) ++ os)
  | 0, i, h => h
  | n + 1, i, h => by
    rw [List.replicate_succ, List.cons_append]
    exact ⟨by simp, legal_push x os n (i + 1) (by rw [Nat.add_right_comm]; exact h)⟩

theorem legal_swing (x : T) (n k : Nat) : Legal n (swingOps x n k) := by
  induction k with
  | zero => trivial
  | succ k ih => exact ⟨by simp, by simp, ih⟩

theorem single_push (x : T) (os : List (Op T)) : ∀ (n i : Nat), Single (i + n) os → Single i (List.replicate n (Op.push x) ++ os)
  | 0, i, h => h
  | n + 1, i, h => by
    rw [List.replicate_succ, List.cons_append]
    exact single_push x os n (i + 1) (by rw [Nat.add_right_comm]; exact h)

theorem single_swing (x : T) (n k : Nat) : Single n (swingOps x n k) := by
  induction k with
  | zero => trivial
  | succ k ih => exact ⟨rfl, ih⟩

theorem swing_length (x : T) (n k : Nat) : (swingOps x n k).length = 2 * k := by
  induction k with
  | zero => rfl
  | succ k ih => simp [swingOps, ih]; omega

/-- C149 is violated by arrays that grow and shrink: no number of cells per operation suffices. At a length of 8, 16, 32, ...
each element that is appended or dropped moves all others. -/
theorem C149_array_violated (x : T) (c : Nat) : ∃ os : List (Op T), Single 0 os ∧
    ∃ w b, total dv (Arr.new dv 0) os = .ok (w, b) ∧ c * os.length < w := by
  have hc : c < 2 ^ c := Nat.lt_two_pow_self
  have hn : 2 ^ (c + 3) = 8 * 2 ^ c := by rw [Nat.pow_add]; omega
  generalize hN : 8 * 2 ^ c = N at hn
  have w0 : (Arr.new dv 0).WF := (Arr.new_spec dv 0).1
  have hl := legal_push (i := 0) x (swingOps x N N) N (by rw [Nat.zero_add]; exact legal_swing x N N)
  obtain ⟨b, e, _⟩ := total_spec (dv := dv) _ w0 hl
  refine ⟨_, single_push x (swingOps x N N) N 0 (by rw [Nat.zero_add]; exact single_swing x N N), _, b, e, ?_⟩
  change _ < cost _ 0 (lens 0 _)
  rw [lens_append', cost_append, lens_push, Nat.zero_add, lens_swing, List.length_append, swing_length, List.length_replicate]
  have r1 : Arr.roundLength N = N := by
    unfold Arr.roundLength
    rw [if_neg (by omega), ← hn]
    exact pow2up_eq (j := 3) (by omega) (by omega) (by omega)
  have r2 : Arr.roundLength (N + 1) = 2 * N := by
    unfold Arr.roundLength
    rw [if_neg (by omega)]
    have : 2 ^ (c + 4) = 2 * N := by rw [Nat.pow_succ]; omega
    rw [← this]
    exact pow2up_eq (j := 3) (by omega) (by omega) (by omega)
  rw [cost_swing (by omega), r1, r2]
  have : c * (N + 2 * N) = N * (3 * c) := by
    rw [show N + 2 * N = 3 * N by omega, ← Nat.mul_assoc, Nat.mul_comm]
    congr 1
    omega
  rw [this]
  have : N * (3 * c) < N * (2 * (N + 2 * N)) := Nat.mul_lt_mul_of_pos_left (by omega) (by omega)
  omega

/-- A growing program: six elements one after the other, then a write and three more at once. -/
example : let os : List (Op Nat) := List.replicate 6 (.push 7) ++ [.write 2 5, .resize 9]
    Legal 0 os ∧ Up 0 (lens 0 os) ∧ (total 0 (Arr.new 0 0) os).bind (fun p => .ok (p.1, p.2.n)) = .ok (62, 9) :=
  ⟨by simp [Legal, len, List.replicate], by simp [Up, lens, len, List.replicate], by decide +kernel⟩

/-! ## Strings -/

def slen (n : Nat) : SOp → Nat
  | .push _ => n + 1
  | .resize m => m

def slens : Nat → List SOp → List Nat
  | _, [] => []
  | n, o :: os => slen n o :: slens (slen n o) os

theorem put_gen {s s' : Str} {i : Nat} {c : UInt8} (e : s.put i c = .ok s') : s'.gen = s.gen := by
  unfold Str.put at e
  split at e
  · obtain ⟨b, -, e⟩ := Res.bind_eq_ok.1 e
    cases e; rfl
  · cases e

theorem sstep_spec {s : Str} (w : s.WF) (o : SOp) :
    ∃ s', sstep s o = .ok s' ∧ s'.WF ∧ s'.n = slen s.n o ∧
      (s'.gen = s.gen ↔ Str.roundLength s'.n = Str.roundLength s.n) := by
  cases o with
  | push c =>
    obtain ⟨a1, e1, w1, n1, _, g1⟩ := Str.resize_spec w (s.n + 1)
    obtain ⟨a2, e2, w2, n2, _, _⟩ := Str.put_spec w1 (i := a1.n - 1) (by omega) c
    refine ⟨a2, by simp [sstep, Str.push, e1, e2], w2, by simp only [slen]; omega, ?_⟩
    rw [put_gen e2, g1, n2, n1]
  | resize m =>
    obtain ⟨a1, e1, w1, n1, _, g1⟩ := Str.resize_spec w m
    exact ⟨a1, e1, w1, n1, by rw [g1, n1]⟩

theorem stotal_spec : ∀ (os : List SOp) {s : Str}, s.WF →
    ∃ b, stotal s os = .ok (cost Str.roundLength s.n (slens s.n os), b) ∧ b.n = lastLen s.n (slens s.n os)
  | [], s, _ => ⟨s, rfl, rfl⟩
  | o :: os, s, w => by
    obtain ⟨s1, e1, w1, n1, c1⟩ := sstep_spec w o
    obtain ⟨b, e2, n2⟩ := stotal_spec os w1
    refine ⟨b, ?_, by rw [n2, n1, slens, lastLen_cons]⟩
    have hw : swork s s1 = if Str.roundLength (slen s.n o) = Str.roundLength s.n then 0
        else Str.roundLength s.n + Str.roundLength (slen s.n o) := by
      unfold swork
      by_cases hg : s1.gen = s.gen
      · rw [if_pos hg, if_pos (by rw [← n1]; exact c1.1 hg)]
      · rw [if_neg hg, if_neg (by rw [← n1]; exact mt c1.2 hg)]
        have h1 := w.2
        have h2 := w1.2
        unfold Str.cells at h1 h2
        rw [h1, h2, n1]
    simp only [stotal, e1, Res.ok_bind, e2, hw, slens, cost, n1]

/-- The capacity of a string: a multiple of four up to 20, or the smallest power of two from 32 on. -/
theorem sround_cases (n : Nat) :
    (n ≤ 20 ∧ Str.roundLength n = (n + 3) / 4 * 4) ∨
    (20 < n ∧ (∃ k, Str.roundLength n = 2 ^ k) ∧ 32 ≤ Str.roundLength n ∧
      ∀ k, 32 ≤ 2 ^ k → n ≤ 2 ^ k → Str.roundLength n ≤ 2 ^ k) := by
  unfold Str.roundLength
  dsimp only
  by_cases h : (n + 3) / 4 * 4 < 24
  · left
    rw [if_pos h]
    omega
  · right
    rw [if_neg h]
    refine ⟨by omega, pow2up_isPow _ 5, ?_, ?_⟩
    · obtain ⟨k, hk⟩ := pow2up_isPow ((n + 3) / 4 * 4) 5
      have hl := le_pow2up ((n + 3) / 4 * 4) (2 ^ 5) (by decide)
      have : pow2up ((n + 3) / 4 * 4) 32 = 2 ^ k := hk
      rw [hk] at hl
      rw [this]
      have : ¬ k < 5 := by
        intro hk5
        have : 2 ^ k ≤ 2 ^ 4 := Nat.pow_le_pow_right (by decide) (by omega)
        omega
      exact Nat.pow_le_pow_right (n := 2) (by decide) (by omega : 5 ≤ k)
    · intro k h1 h2
      refine pow2up_least _ 5 k h1 ?_
      have : 5 ≤ k := by
        apply Classical.byContradiction
        intro hk
        have : 2 ^ k ≤ 2 ^ 4 := Nat.pow_le_pow_right (by decide) (by omega)
        omega
      have : 2 ^ k = 4 * 2 ^ (k - 2) := by
        rw [show k = 2 + (k - 2) by omega, Nat.pow_add]
        simp
      omega

def spaid (c : Nat) : Nat := if c ≤ 20 then c * c / 4 else 3 * c + 56

theorem sround_mono {n m : Nat} (h : n ≤ m) : Str.roundLength n ≤ Str.roundLength m := by
  have hm := Str.le_roundLength m
  rcases sround_cases n with ⟨h1, e⟩ | ⟨h1, _, _, h5⟩
  · rcases sround_cases m with ⟨h1', e'⟩ | ⟨_, _, h3', _⟩
    · omega
    · omega
  · rcases sround_cases m with ⟨_, _⟩ | ⟨_, ⟨k, hk⟩, h3', _⟩
    · omega
    · have := h5 k (by omega) (by omega)
      omega

theorem spaid_small : ∀ i, i < 6 → ∀ j, j < 6 → i < j → 4 * i + 4 * j + (4 * i) * (4 * i) / 4 ≤ (4 * j) * (4 * j) / 4 := by
  decide

theorem spaid_step (n m : Nat) (h : n ≤ m) (hne : Str.roundLength n ≠ Str.roundLength m) :
    Str.roundLength n + Str.roundLength m + spaid (Str.roundLength n) ≤ spaid (Str.roundLength m) := by
  have hle := sround_mono h
  unfold spaid
  rcases sround_cases n with ⟨h1, e1⟩ | ⟨h1, p1, h2, _⟩
  · rcases sround_cases m with ⟨h1', e1'⟩ | ⟨h1', p1', h2', _⟩
    · rw [e1, e1'] at hne ⊢
      rw [if_pos (by omega), if_pos (by omega), Nat.mul_comm _ 4, Nat.mul_comm ((m + 3) / 4) 4]
      exact spaid_small _ (by omega) _ (by omega) (by omega)
    · rw [if_pos (by omega), if_neg (by omega)]
      have := Nat.mul_le_mul (by omega : Str.roundLength n ≤ 20) (by omega : Str.roundLength n ≤ 20)
      omega
  · rcases sround_cases m with ⟨h1', e1'⟩ | ⟨h1', p1', h2', _⟩
    · omega
    · have := pow_two_mul_le p1 p1' (by omega)
      rw [if_neg (by omega), if_neg (by omega)]
      omega

/-- C149 for strings that only grow: for a string of `n` characters at most `6 n + 71` cells are touched in total. -/
theorem C149_string_partial (os : List SOp) (u : Up 0 (slens 0 os)) :
    ∃ w b, stotal (Str.new 0) os = .ok (w, b) ∧ w ≤ 6 * b.n + 71 := by
  have w0 : (Str.new 0).WF := (Str.new_spec 0).1
  obtain ⟨b, e, hn⟩ := stotal_spec os w0
  have := cost_up (φ := spaid) spaid_step _ _ u
  refine ⟨_, b, e, ?_⟩
  change cost _ 0 (slens 0 os) ≤ _
  change b.n = lastLen 0 (slens 0 os) at hn
  rw [← hn] at this
  have hlt := Str.roundLength_lt b.n
  have hp : spaid (Str.roundLength b.n) ≤ 3 * Str.roundLength b.n + 56 := by
    unfold spaid
    split
    · next h5 =>
      have := Nat.mul_le_mul_left (Str.roundLength b.n) h5
      omega
    · omega
  omega

/-- Appending and dropping characters one by one. -/
def SSingle : Nat → List SOp → Prop
  | _, [] => True
  | n, .push _ :: os => SSingle (n + 1) os
  | n, .resize m :: os => m + 1 = n ∧ SSingle m os

def sswing (n : Nat) : Nat → List SOp
  | 0 => []
  | k + 1 => .push 120 :: .resize n :: sswing n k

theorem slens_append : ∀ (os os' : List SOp) (n : Nat),
    slens n (os ++ os') = slens n os ++ slens (lastLen n (slens n os)) os'
  | [], _, _ => rfl
  | o :: os, os', n => by
    rw [List.cons_append, slens, slens, slens_append os os' (slen n o), lastLen_cons]
    rfl

theorem slens_swing (n k : Nat) : slens n (sswing n k) = swing n (n + 1) k := by
  induction k with
  | zero => rfl
  | succ k ih => simp [sswing, slens, slen, swing, ih]

theorem slens_push : ∀ (n i : Nat), lastLen i (slens i (List.replicate n (SOp.push 120))) = i + n
  | 0, i => rfl
  | n + 1, i => by
    rw [List.replicate_succ, slens, lastLen_cons]
    have := slens_push n (i + 1)
    simp only [slen]
    rw [this]
    omega

theorem ssingle_push (os : List SOp) : ∀ (n i : Nat), SSingle (i + n) os → SSingle i (List.replicate n (SOp.push 120) ++ os)
  | 0, i, h => h
  | n + 1, i, h => by
    rw [List.replicate_succ, List.cons_append]
    exact ssingle_push os n (i + 1) (by rw [Nat.add_right_comm]; exact h)

theorem ssingle_swing (n k : Nat) : SSingle n (sswing n k) := by
  induction k with
  | zero => trivial
  | succ k ih => exact ⟨rfl, ih⟩

theorem sswing_length (n k : Nat) : (sswing n k).length = 2 * k := by
  induction k with
  | zero => rfl
  | succ k ih => simp [sswing, ih]; omega

/-- C149 is violated by strings that grow and shrink: at a length of 32, 64, 128, ... each character that is appended or
dropped moves all others. -/
theorem C149_string_violated (c : Nat) : ∃ os : List SOp, SSingle 0 os ∧
    ∃ w b, stotal (Str.new 0) os = .ok (w, b) ∧ c * os.length < w := by
  have hc : c < 2 ^ c := Nat.lt_two_pow_self
  have hn : 2 ^ (c + 5) = 32 * 2 ^ c := by rw [Nat.pow_add]; omega
  generalize hN : 2 ^ c = M at hn hc
  generalize hN' : 32 * M = N at hn
  have w0 : (Str.new 0).WF := (Str.new_spec 0).1
  obtain ⟨b, e, _⟩ := stotal_spec (List.replicate N (SOp.push 120) ++ sswing N N) w0
  refine ⟨_, ssingle_push (sswing N N) N 0 (by rw [Nat.zero_add]; exact ssingle_swing N N), _, b, e, ?_⟩
  change _ < cost _ 0 (slens 0 _)
  rw [slens_append, cost_append, slens_push, Nat.zero_add, slens_swing, List.length_append, sswing_length, List.length_replicate]
  have r1 : Str.roundLength N = N := by
    unfold Str.roundLength
    dsimp only
    rw [if_neg (by omega), show (N + 3) / 4 * 4 = N by omega, ← hn]
    exact pow2up_eq (j := 5) (by omega) (by omega) (by omega)
  have r2 : Str.roundLength (N + 1) = 2 * N := by
    unfold Str.roundLength
    dsimp only
    rw [if_neg (by omega), show (N + 1 + 3) / 4 * 4 = N + 4 by omega]
    have : 2 ^ (c + 6) = 2 * N := by rw [Nat.pow_succ]; omega
    rw [← this]
    exact pow2up_eq (j := 5) (by omega) (by omega) (by omega)
  rw [cost_swing (by omega), r1, r2]
  have : c * (N + 2 * N) = N * (3 * c) := by
    rw [show N + 2 * N = 3 * N by omega, ← Nat.mul_assoc, Nat.mul_comm]
    congr 1
    omega
  rw [this]
  have : N * (3 * c) < N * (2 * (N + 2 * N)) := Nat.mul_lt_mul_of_pos_left (by omega) (by omega)
  omega

/-- A growing program: 21 characters one after the other. -/
example : let os : List SOp := List.replicate 21 (.push 120)
    Up 0 (slens 0 os) ∧ (stotal (Str.new 0) os).bind (fun p => .ok (p.1, p.2.n)) = .ok (152, 21) :=
  ⟨by simp [Up, slens, slen, List.replicate], by decide +kernel⟩

/-! ## Hash maps -/

open HashMap MapRefsProps

variable {K V : Type} [DecidableEq K] {hash : K → BitVec 32}

theorem assign_n {h h' : HashMap K V} {x : K} {v : V} (e : h.assign hash x v = .ok h') :
    h'.n = h.n ∧ h'.size = h.size := by
  simp only [HashMap.assign, Res.bind_eq_ok] at e
  obtain ⟨l, -, a, -, e⟩ := e
  cases e; exact ⟨rfl, rfl⟩

/-- What `h(x)= v` does to the number of entries and of buckets. -/
theorem set_n {h : HashMap K V} (w : h.WF hash) (x : K) (v : V) :
    ∃ h', h.set hash x v = .ok h' ∧ h'.WF hash ∧ h'.max = h.max ∧
      h'.abs = (fun y => if y = x then some v else h.abs y) ∧
      ((h.abs x ≠ none ∧ h'.n = h.n ∧ h'.size = h.size) ∨
       (h.abs x = none ∧ h.size < h.n * h.max ∧ h'.n = h.n ∧ h'.size = h.size + 1) ∨
       (h.abs x = none ∧ h.n * h.max ≤ h.size ∧ h'.n = 2 * h.n ∧ h'.size = h.size + 1)) := by
  obtain ⟨h2, e2, w2, a2, -, m2⟩ := set_spec w x v
  refine ⟨h2, e2, w2, m2, a2, ?_⟩
  obtain ⟨h1, e1, e3⟩ := Res.bind_eq_ok.1 (show (h.touch hash x).bind (fun g => g.assign hash x v) = .ok h2 from e2)
  obtain ⟨n3, s3⟩ := assign_n e3
  rw [n3, s3]
  obtain ⟨l, f1, f2⟩ := w.findB x
  cases hx : h.abs x with
  | some u =>
    rw [HashMap.touch, f1, Res.ok_bind, f2, hx] at e1
    cases e1
    simp
  | none =>
    rw [HashMap.touch, f1, Res.ok_bind, f2, hx] at e1
    right
    obtain ⟨g, eg, -, pg, -, -⟩ := insertNew_spec w x hx
    dsimp only at e1
    rw [eg] at e1
    cases e1
    have hs : h1.size = h.size + 1 := by
      obtain ⟨g, eg', wg, pg', -, -⟩ := insertNew_spec w x hx
      rw [eg] at eg'
      cases eg'
      have := pg'.length_eq
      rw [wg.size, w.size, this]
      simp
    obtain ⟨g, e', en⟩ := insertNew_n eg
    by_cases hc : h.size ≥ h.n * h.max
    · rw [if_pos hc] at e'
      right
      refine ⟨rfl, hc, ?_, hs⟩
      rw [en, resize_n e', Nat.shiftLeft_eq]
      omega
    · rw [if_neg hc] at e'
      cases e'
      left
      exact ⟨rfl, by omega, en, hs⟩

/-- What `h->reset (x)` does to the number of entries and of buckets, when `x` is there. -/
theorem reset_sz {h : HashMap K V} (w : h.WF hash) (x : K) (hx : h.abs x ≠ none) :
    ∃ h', h.reset hash x = .ok h' ∧ h'.WF hash ∧ h'.max = h.max ∧
      h'.abs = (fun y => if y = x then none else h.abs y) ∧ h'.size = h.size - 1 ∧
      h'.n = if h.size - 1 < ((h.n / 2 : Nat) : Int) * h.max then h.n / 2 else h.n := by
  obtain ⟨h2, e2, w2, a2, -, m2⟩ := reset_spec w x
  refine ⟨h2, e2, w2, m2, a2, ?_⟩
  have hi := w.idx x
  have hc : ∀ e ∈ h.a[bidx (hash x) h.n], e.code = hash e.key := fun e he => (w.loc _ hi e he).1
  rcases removeB_spec hc x with ⟨h1, h2'⟩ | ⟨l', e', h1, h2', h3, -⟩
  · rw [w.look_bucket] at h2'
    exact absurd h2' hx
  · simp only [HashMap.reset, rd_ok hi, Res.ok_bind, h1, wr_ok hi] at e2
    simp only [Nat.shiftRight_eq_div_pow, Nat.pow_one] at e2
    split at e2
    · rename_i hs
      rw [if_pos hs]
      refine ⟨?_, resize_n e2⟩
      simp only [HashMap.resize, Res.bind_eq_ok] at e2
      obtain ⟨a, -, e2⟩ := e2
      cases e2; rfl
    · rename_i hs
      rw [if_neg hs]
      cases e2
      exact ⟨rfl, rfl⟩

/-- The invariant of a map that only grows from `n0` buckets. -/
def Grown (n0 : Nat) (h : HashMap K V) : Prop :=
  h.size ≤ h.n * h.max ∧ (h.n = n0 ∨ h.n * h.max < 2 * h.size)

theorem mtotal_up {n0 : Nat} : ∀ (kvs : List (K × V)) {h : HashMap K V}, h.WF hash → 1 ≤ h.max → Grown n0 h →
    ∃ w b, mtotal hash h (kvs.map fun p => .set p.1 p.2) = .ok (w, b) ∧ Grown n0 b ∧ b.max = h.max ∧ b.WF hash ∧
      (w : Int) + h.n * (h.max + 2) = b.n * (h.max + 2)
  | [], h, w, _, g => ⟨0, h, rfl, g, rfl, w, by simp⟩
  | (x, v) :: kvs, h, w, hm, g => by
    obtain ⟨h1, e1, w1, m1, -, c⟩ := set_n w x v
    have pos := w.pos
    have hnm : (h.n : Int) ≤ h.n * h.max := by
      have := Int.mul_le_mul_of_nonneg_left hm (Int.natCast_nonneg h.n)
      omega
    have g1 : Grown n0 h1 ∧ (mwork h h1 : Int) + h.n * (h.max + 2) = h1.n * (h.max + 2) := by
      unfold Grown mwork
      rw [m1]
      obtain ⟨ga, gb⟩ := g
      rcases c with ⟨-, cn, cs⟩ | ⟨-, c0, cn, cs⟩ | ⟨-, c0, cn, cs⟩
      · rw [if_pos cn, cn, cs]
        exact ⟨⟨ga, gb⟩, by omega⟩
      · rw [if_pos cn, cn, cs]
        refine ⟨⟨by omega, ?_⟩, by omega⟩
        rcases gb with gb | gb
        · exact .inl gb
        · exact .inr (by omega)
      · have z1 := w.size
        have z2 := w1.size
        rw [if_neg (by omega), cn, cs, Nat.min_eq_left (by omega)]
        have e2 : (((2 * h.n : Nat) : Int)) * h.max = 2 * (h.n * h.max) := by
          rw [Int.natCast_mul, Int.mul_assoc]; rfl
        have e3 : (((2 * h.n : Nat) : Int)) * (h.max + 2) = 2 * (h.n * h.max) + 4 * h.n := by
          rw [Int.mul_add, e2]; omega
        have e4 : (h.n : Int) * (h.max + 2) = h.n * h.max + 2 * h.n := by
          rw [Int.mul_add, Int.mul_comm (h.n : Int) 2]
        rw [e3, e2, e4]
        refine ⟨⟨by omega, .inr (by omega)⟩, by omega⟩
    obtain ⟨k, b, e2, gb, mb, wb, eq⟩ := mtotal_up kvs w1 (by rw [m1]; exact hm) g1.1
    rw [m1] at eq mb
    refine ⟨mwork h h1 + k, b, ?_, gb, mb, wb, ?_⟩
    · simp only [List.map_cons, mtotal, mstep, e1, Res.ok_bind, e2]
    · have := g1.2
      omega

/-- C149 for hash maps that only grow: whatever is assigned, for a map with `k` keys at most `6 k` entries and buckets are
touched by all reorganisations together. -/
theorem C149_map_partial (init : V) (n0 : Nat) (max : Int) (hn : 1 ≤ n0) (hm : 1 ≤ max) (kvs : List (K × V)) :
    ∃ w b, mtotal hash (new init n0 max) (kvs.map fun p => .set p.1 p.2) = .ok (w, b) ∧ (w : Int) ≤ 6 * b.N := by
  have hnm : (0 : Int) ≤ n0 * max := Int.mul_nonneg (by omega) (by omega)
  obtain ⟨w, b, e, g, m, wb, eq⟩ := mtotal_up (n0 := n0) (hash := hash) kvs (h := (new init n0 max : HashMap K V))
    (new_wf init n0 max hn) hm ⟨hnm, .inl rfl⟩
  refine ⟨w, b, e, ?_⟩
  change b.max = max at m
  change (w : Int) + n0 * (max + 2) = b.n * (max + 2) at eq
  have hs : b.size = b.a.flatten.length := wb.size
  change _ ≤ 6 * b.size
  rcases g.2 with h | h
  · rw [h] at eq
    omega
  · rw [m] at h
    have h1 : (b.n : Int) ≤ b.n * max := by
      have := Int.mul_le_mul_of_nonneg_left hm (Int.natCast_nonneg b.n)
      omega
    rw [Int.mul_add, Int.mul_add] at eq
    omega

/-! ### Maps that also shrink -/

/-- A map with default constructor arguments that has the keys `0 .. N-1` and `N` buckets. -/
structure Full (hash : Nat → BitVec 32) (N : Nat) (h : HashMap Nat V) : Prop where
  wf : h.WF hash
  n : h.n = N
  size : h.size = N
  max : h.max = 1
  keys : ∀ y, h.abs y ≠ none ↔ y < N

/-- Four operations that leave the keys as they are. -/
def cycle (v : V) (N : Nat) : List (MOp Nat V) := [.set N v, .reset N, .reset (N - 1), .set (N - 1) v]

theorem cycle_cost {hash : Nat → BitVec 32} {N : Nat} (hN : 1 ≤ N) (v : V) {h : HashMap Nat V} (f : Full hash N h)
    (os : List (MOp Nat V)) {w : Nat}
    (r : ∀ h', Full hash N h' → ∃ w' b', mtotal hash h' os = .ok (w', b') ∧ w ≤ w') :
    ∃ w' b', mtotal hash h (cycle v N ++ os) = .ok (w', b') ∧ 5 * N - 1 + w ≤ w' := by
  obtain ⟨h1, e1, w1, m1, a1, c1⟩ := set_n f.wf N v
  have k0 : h.abs N = none := by
    apply Classical.byContradiction
    intro k
    have := (f.keys N).1 k
    omega
  have c1 : h1.n = 2 * N ∧ h1.size = N + 1 := by
    have a := f.n
    have b := f.size
    have c := f.max
    rw [a, b, c] at c1
    rcases c1 with ⟨c, -⟩ | ⟨-, c, -⟩ | ⟨-, -, c⟩
    · exact absurd k0 c
    · omega
    · exact c
  obtain ⟨h2, e2, w2, m2, a2, s2, n2⟩ := reset_sz w1 N (by rw [a1]; simp)
  have n2 : h2.n = 2 * N := by
    rw [n2, c1.1, c1.2, m1, f.max, if_neg (by omega)]
  have k2 : h2.abs (N - 1) ≠ none := by
    rw [a2, a1]
    dsimp only
    rw [if_neg (by omega), if_neg (by omega)]
    exact (f.keys _).2 (by omega)
  obtain ⟨h3, e3, w3, m3, a3, s3, n3⟩ := reset_sz w2 (N - 1) k2
  have n3 : h3.n = N := by
    rw [n3, n2, s2, c1.2, m2, m1, f.max, if_pos (by omega)]
    omega
  have k3 : h3.abs (N - 1) = none := by rw [a3]; simp
  obtain ⟨h4, e4, w4, m4, a4, c4⟩ := set_n w3 (N - 1) v
  have c4 : h4.n = N ∧ h4.size = N := by
    rw [n3, s3, s2, c1.2, m3, m2, m1, f.max] at c4
    rcases c4 with ⟨c, -⟩ | ⟨-, c, cn, cs⟩ | ⟨-, c, -⟩
    · exact absurd k3 c
    · exact ⟨cn, by omega⟩
    · omega
  have f4 : Full hash N h4 := by
    refine ⟨w4, c4.1, c4.2, by rw [m4, m3, m2, m1, f.max], fun y => ?_⟩
    rw [a4]
    dsimp only
    by_cases y1 : y = N - 1
    · rw [if_pos y1]
      simp
      omega
    · rw [if_neg y1, a3]
      dsimp only
      rw [if_neg y1, a2]
      dsimp only
      by_cases y2 : y = N
      · rw [if_pos y2]
        simp
        omega
      · rw [if_neg y2, a1]
        dsimp only
        rw [if_neg y2]
        exact f.keys y
  obtain ⟨w', b', e5, le⟩ := r h4 f4
  refine ⟨mwork h h1 + (mwork h1 h2 + (mwork h2 h3 + (mwork h3 h4 + w'))), b', ?_, ?_⟩
  · simp only [cycle, List.cons_append, List.nil_append, mtotal, mstep, e1, e2, e3, e4, e5, Res.ok_bind]
  · have z0 := f.wf.size
    have z1 := w1.size
    have z2 := w2.size
    have z3 := w3.size
    have q0 := f.size
    have q1 := f.n
    have t1 : mwork h h1 = 3 * N := by
      unfold mwork
      rw [if_neg (by omega), Nat.min_eq_left (by omega)]
      omega
    have t3 : mwork h2 h3 = 2 * N - 1 := by
      unfold mwork
      rw [if_neg (by omega), Nat.min_eq_right (by omega)]
      omega
    omega

def cycles (v : V) (N : Nat) : Nat → List (MOp Nat V)
  | 0 => []
  | k + 1 => cycle v N ++ cycles v N k

theorem cycles_length (v : V) (N k : Nat) : (cycles v N k).length = 4 * k := by
  induction k with
  | zero => rfl
  | succ k ih => simp [cycles, cycle, ih]; omega

theorem cycles_cost {hash : Nat → BitVec 32} {N : Nat} (hN : 1 ≤ N) (v : V) : ∀ (k : Nat) (h : HashMap Nat V), Full hash N h →
    ∃ w b, mtotal hash h (cycles v N k) = .ok (w, b) ∧ k * (5 * N - 1) ≤ w
  | 0, h, _ => ⟨0, h, rfl, by simp⟩
  | k + 1, h, f => by
    obtain ⟨w, b, e, l⟩ := cycle_cost hN v f (cycles v N k) (w := k * (5 * N - 1)) (cycles_cost hN v k)
    exact ⟨w, b, e, by rw [Nat.add_mul, Nat.one_mul]; omega⟩

theorem mtotal_append {hash : Nat → BitVec 32} : ∀ (os os' : List (MOp Nat V)) (h : HashMap Nat V) {w w' : Nat} {b b' : HashMap Nat V},
    mtotal hash h os = .ok (w, b) → mtotal hash b os' = .ok (w', b') → mtotal hash h (os ++ os') = .ok (w + w', b')
  | [], os', h, w, w', b, b', e, e' => by
    cases e
    rw [Nat.zero_add]; exact e'
  | o :: os, os', h, w, w', b, b', e, e' => by
    simp only [mtotal, Res.bind_eq_ok] at e
    obtain ⟨h1, e1, ⟨k, c⟩, e2, e3⟩ := e
    cases e3
    have := mtotal_append os os' h1 e2 e'
    simp only [List.cons_append, mtotal, e1, Res.ok_bind, this, Nat.add_assoc]

/-- The keys `0 .. N-1`, one after the other. -/
def fill (v : V) : Nat → List (MOp Nat V)
  | 0 => []
  | i + 1 => fill v i ++ [.set i v]

theorem fill_length (v : V) (i : Nat) : (fill v i).length = i := by
  induction i with
  | zero => rfl
  | succ i ih => simp [fill, ih]

theorem fill_spec {hash : Nat → BitVec 32} (init v : V) : ∀ i : Nat,
    ∃ w h, mtotal hash (new init 1 1) (fill v i) = .ok (w, h) ∧ h.WF hash ∧ h.max = 1 ∧ h.size = i ∧
      (∀ y, h.abs y ≠ none ↔ y < i) ∧ i ≤ h.n ∧ (h.n = 1 ∨ h.n < 2 * i) ∧ ∃ j, h.n = 2 ^ j
  | 0 => ⟨0, _, rfl, new_wf init 1 1 (by decide), rfl, rfl, fun y => by rw [new_abs]; simp, by simp [new], .inl rfl, 0, rfl⟩
  | i + 1 => by
    obtain ⟨w, h, e, wf, m, s, k, l, u, j, hj⟩ := fill_spec (hash := hash) init v i
    obtain ⟨h1, e1, w1, m1, a1, c1⟩ := set_n wf i v
    have k0 : h.abs i = none := by
      apply Classical.byContradiction
      intro k'
      have := (k i).1 k'
      omega
    refine ⟨w + (mwork h h1 + 0), h1, mtotal_append _ _ _ e ?_, w1, m1.trans m, ?_⟩
    · simp only [mtotal, mstep, e1, Res.ok_bind]
    rw [s, m] at c1
    refine ⟨?_, ?_, ?_⟩
    · rcases c1 with ⟨c, -⟩ | ⟨-, c, cn, cs⟩ | ⟨-, c, cn, cs⟩
      · exact absurd k0 c
      · omega
      · omega
    · intro y
      rw [a1]
      dsimp only
      by_cases y1 : y = i
      · rw [if_pos y1]; simp; omega
      · rw [if_neg y1, k y]; omega
    · rcases c1 with ⟨c, -⟩ | ⟨-, c, cn, cs⟩ | ⟨-, c, cn, cs⟩
      · exact absurd k0 c
      · exact ⟨by omega, by omega, j, by rw [cn, hj]⟩
      · exact ⟨by omega, by omega, j + 1, by rw [cn, hj, Nat.pow_succ]; omega⟩

/-- C149 is violated by hash maps that grow and shrink: whatever the hash function, no number of cells per operation
suffices. With as many keys as buckets, inserting one and removing two reorganises the map twice. -/
theorem C149_map_violated (hash : Nat → BitVec 32) (init v : V) (c : Nat) : ∃ os : List (MOp Nat V),
    ∃ w b, mtotal hash (new init 1 1) os = .ok (w, b) ∧ c * os.length < w := by
  have hc : c < 2 ^ c := Nat.lt_two_pow_self
  obtain ⟨w, h, e, wf, m, s, k, l, u, j, hj⟩ := fill_spec (hash := hash) init v (2 ^ c)
  have hn : h.n = 2 ^ c := by
    rw [hj] at l u ⊢
    have h1 : c ≤ j := (Nat.pow_le_pow_iff_right (by decide)).1 l
    have h2 : ¬ c < j := by
      intro hcj
      have : 2 ^ (c + 1) ≤ 2 ^ j := Nat.pow_le_pow_right (by decide) hcj
      rw [Nat.pow_succ] at this
      omega
    rw [show j = c by omega]
  generalize hN : 2 ^ c = N at *
  obtain ⟨w', b, e', le⟩ := cycles_cost (by omega) v N h ⟨wf, hn, s, m, k⟩
  refine ⟨_, _, b, mtotal_append _ _ _ e e', ?_⟩
  rw [List.length_append, fill_length, cycles_length]
  have : c * (N + 4 * N) = N * (5 * c) := by
    rw [show N + 4 * N = 5 * N by omega, ← Nat.mul_assoc, Nat.mul_comm]
    congr 1
    omega
  rw [this]
  have : N * (5 * c) < N * (5 * N - 1) := Nat.mul_lt_mul_of_pos_left (by omega) (by omega)
  omega

/-- Five keys, one of them twice. -/
example : (mtotal (fun k : Nat => BitVec.ofNat 32 k) (new 0 1 1 : HashMap Nat Nat)
    ([(1, 5), (2, 6), (3, 7), (1, 8), (4, 9), (5, 9)].map fun p => .set p.1 p.2)).bind (fun p => .ok (p.1, p.2.N)) = .ok (21, 5) := by
  decide +kernel

end Lolly.GrowCostProps
