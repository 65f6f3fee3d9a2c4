import Verif.Containers.ProbeCost
import Verif.Containers.GrowCostProps
import Verif.Containers.HashCodes
import Verif.ListUtil

set_option autoImplicit false

/-!
# C159: what searching for a key costs
-/

namespace Lolly.ProbeCostProps

open Lolly Lolly.HashMap Lolly.ProbeCost

variable {K V : Type} [DecidableEq K] {hash : K → BitVec 32}

/-! ## One search -/

/-- The counted loop finds what the loop finds. -/
theorem C159_same (hv : BitVec 32) (x : K) (l : List (Entry K V)) : (findC hv x l).2 = findB hv x l := by
  induction l with
  | nil => rfl
  | cons e l ih =>
    rw [findC, findB]
    by_cases h1 : e.code = hv
    · by_cases h2 : e.key = x
      · rw [if_pos h1, if_pos h2, if_pos ⟨h1, h2⟩]
      · rw [if_pos h1, if_neg h2, if_neg (fun h => h2 h.2)]; exact ih
    · rw [if_neg h1, if_neg (fun h => h1 h.1)]; exact ih

theorem findC_le (hv : BitVec 32) (x : K) (l : List (Entry K V)) :
    (findC hv x l).1.rounds ≤ l.length ∧ (findC hv x l).1.compares ≤ l.countP (fun e => e.code = hv) := by
  induction l with
  | nil => simp [findC]
  | cons e l ih =>
    rw [findC, List.countP_cons]
    by_cases h1 : e.code = hv
    · by_cases h2 : e.key = x
      · simp [h1, h2]
      · simp only [h1, h2, if_true, if_false, List.length_cons, decide_true]; omega
    · simp only [h1, if_false, List.length_cons, decide_false]
      constructor
      · omega
      · have := ih.2; simpa using this

theorem findC_miss (hv : BitVec 32) (x : K) (l : List (Entry K V)) (hm : ∀ e ∈ l, e.key ≠ x) :
    (findC hv x l).1.rounds = l.length ∧ (findC hv x l).1.compares = l.countP (fun e => e.code = hv) := by
  induction l with
  | nil => simp [findC]
  | cons e l ih =>
    obtain ⟨i1, i2⟩ := ih fun e he => hm e (List.mem_cons_of_mem _ he)
    have h2 := hm e List.mem_cons_self
    rw [findC, List.countP_cons]
    by_cases h1 : e.code = hv
    · simp only [h1, h2, if_true, if_false, List.length_cons, decide_true]; omega
    · simp only [h1, if_false, List.length_cons, decide_false, i1]
      refine ⟨trivial, ?_⟩
      simpa using i2

/-- The keys that are in the bucket of `x`. -/
def nearB (hash : K → BitVec 32) (h : HashMap K V) (x : K) : Nat :=
  h.generate.countP fun y => bidx (hash y) h.n = bidx (hash x) h.n

omit [DecidableEq K] in
theorem bucket_nearB {h : HashMap K V} (w : h.WF hash) (x : K) :
    (h.a[bidx (hash x) h.n]'(w.idx x)).length = nearB hash h x := by
  have hi := w.idx x
  have hp := flatten_perm h.a _ hi
  unfold nearB generate
  rw [(hp.map (·.key)).countP_eq, List.map_append, List.countP_append, List.countP_map, List.countP_map]
  have e1 : (h.a[bidx (hash x) h.n]).countP
      ((fun y => decide (bidx (hash y) h.n = bidx (hash x) h.n)) ∘ fun e => e.key) =
      (h.a[bidx (hash x) h.n]).length := by
    rw [List.countP_eq_length]
    intro e he
    simpa using (w.loc _ hi e he).2
  have e2 : ((h.a.eraseIdx (bidx (hash x) h.n)).flatten).countP
      ((fun y => decide (bidx (hash y) h.n = bidx (hash x) h.n)) ∘ fun e => e.key) = 0 := by
    rw [List.countP_eq_zero]
    intro e he
    obtain ⟨l, hl, hel⟩ := List.mem_flatten.1 he
    obtain ⟨j, hj, rfl⟩ := List.getElem_of_mem hl
    rw [List.getElem_eraseIdx] at hel
    rw [List.length_eraseIdx] at hj
    simp only [Function.comp, decide_eq_true_eq]
    intro hq
    split at hel
    · rename_i hlt
      have := (w.loc j (by omega) e hel).2
      omega
    · rename_i hlt
      rw [if_pos hi] at hj
      have := (w.loc (j + 1) (by omega) e hel).2
      omega
  rw [e1, e2]
  rfl

theorem generate_abs {h : HashMap K V} (x : K) : x ∉ h.generate ↔ h.abs x = none := by
  unfold HashMap.abs
  rw [look_eq_none]
  rfl

/-- What a search costs in a well-formed map. -/
theorem getC_spec {h : HashMap K V} (w : h.WF hash) (x : K) :
    ∃ c v, getC hash h x = .ok (c, v) ∧ h.get hash x = .ok v ∧ c.rounds ≤ nearB hash h x ∧
      c.compares ≤ h.generate.countP (fun y => hash y = hash x) ∧
      (x ∉ h.generate → c.rounds = nearB hash h x ∧ c.compares = h.generate.countP (fun y => hash y = hash x)) := by
  have hi := w.idx x
  have hb := bucket_nearB w x
  have hcode : (h.a[bidx (hash x) h.n]).countP (fun e => e.code = hash x) =
      h.generate.countP (fun y => hash y = hash x) := by
    have hp := flatten_perm h.a _ hi
    unfold generate
    rw [(hp.map (·.key)).countP_eq, List.map_append, List.countP_append, List.countP_map, List.countP_map]
    have e2 : ((h.a.eraseIdx (bidx (hash x) h.n)).flatten).countP
        ((fun y => decide (hash y = hash x)) ∘ fun e => e.key) = 0 := by
      rw [List.countP_eq_zero]
      intro e he
      simp only [Function.comp, decide_eq_true_eq]
      intro hq
      have z := hb
      obtain ⟨l, hl, hel⟩ := List.mem_flatten.1 he
      obtain ⟨j, hj, rfl⟩ := List.getElem_of_mem hl
      rw [List.getElem_eraseIdx] at hel
      rw [List.length_eraseIdx, if_pos hi] at hj
      split at hel
      · rename_i hlt
        have := (w.loc j (by omega) e hel).2
        rw [hq] at this
        omega
      · rename_i hlt
        have := (w.loc (j + 1) (by omega) e hel).2
        rw [hq] at this
        omega
    rw [e2, Nat.add_zero]
    apply List.countP_congr
    intro e he
    have := (w.loc _ hi e he).1
    simp [this]
  refine ⟨(findC (hash x) x h.a[bidx (hash x) h.n]).1, (findB (hash x) x h.a[bidx (hash x) h.n]).getD h.init,
    ?_, ?_, ?_, ?_, ?_⟩
  · rw [getC, rd_ok hi, Res.ok_bind, ← C159_same]
  · rw [HashMap.get, rd_ok hi, Res.ok_bind]
  · rw [← hb]; exact (findC_le _ _ _).1
  · rw [← hcode]; exact (findC_le _ _ _).2
  · intro hx
    rw [← hb, ← hcode]
    apply findC_miss
    intro e he hk
    apply hx
    exact List.mem_map.2 ⟨e, List.mem_flatten.2 ⟨_, List.getElem_mem hi, he⟩, hk⟩

/-! ## Programs -/

/-- What holds in every state of a program that begins with an empty map. -/
structure Inv (hash : K → BitVec 32) (h : HashMap K V) : Prop where
  wf : h.WF hash
  max : h.max = 1
  room : h.size ≤ h.n
  pow : ∃ j, h.n = 2 ^ j

theorem reset_miss {h : HashMap K V} (w : h.WF hash) {x : K} (hx : h.abs x = none) : h.reset hash x = .ok h := by
  have hi := w.idx x
  have hc : ∀ e ∈ h.a[bidx (hash x) h.n], e.code = hash e.key := fun e he => (w.loc _ hi e he).1
  rcases removeB_spec hc x with ⟨h1, h2'⟩ | ⟨l', e', h1, h2', h3, h4⟩
  · simp only [HashMap.reset, rd_ok hi, Res.ok_bind, h1]
  · exfalso
    rw [← w.look_bucket, look_eq_none] at hx
    apply hx
    exact List.mem_map.2 ⟨e', h2'.mem_iff.2 List.mem_cons_self, h3⟩

theorem step_inv {h : HashMap K V} (w : Inv hash h) (o : Op K V) :
    ∃ t h', step hash h o = .ok (t, h') ∧ Inv hash h' := by
  have m := w.max
  have r := w.room
  obtain ⟨j, hj⟩ := w.pow
  cases o with
  | set x v =>
    obtain ⟨c, u, e1, -⟩ := getC_spec w.wf x
    obtain ⟨h', e2, w2, m2, -, cs⟩ := GrowCostProps.set_n w.wf x v
    refine ⟨c.rounds, h', ?_, w2, m2.trans m, ?_, ?_⟩
    · simp only [step, e1, Res.ok_bind, e2]
    · rw [m] at cs
      rcases cs with ⟨-, a, b⟩ | ⟨-, a, b, d⟩ | ⟨-, a, b, d⟩
      · omega
      · omega
      · have := w.wf.pos; omega
    · rcases cs with ⟨-, a, b⟩ | ⟨-, a, b, d⟩ | ⟨-, a, b, d⟩
      · exact ⟨j, by rw [a, hj]⟩
      · exact ⟨j, by rw [b, hj]⟩
      · exact ⟨j + 1, by rw [b, hj, Nat.pow_succ]; omega⟩
  | reset x =>
    obtain ⟨c, u, e1, -⟩ := getC_spec w.wf x
    by_cases hx : h.abs x = none
    · have e2 := reset_miss w.wf hx
      exact ⟨c.rounds, h, by simp only [step, e1, Res.ok_bind, e2], w⟩
    · obtain ⟨h', e2, w2, m2, -, s2, n2⟩ := GrowCostProps.reset_sz w.wf x hx
      refine ⟨c.rounds, h', by simp only [step, e1, Res.ok_bind, e2], w2, m2.trans m, ?_, ?_⟩
      · rw [n2, m, s2]
        split
        · omega
        · omega
      · rw [n2, m]
        split
        · rename_i hs
          have := w2.size
          cases j with
          | zero => rw [hj] at hs; simp at hs; omega
          | succ j => exact ⟨j, by rw [hj, Nat.pow_succ]; omega⟩
        · exact ⟨j, hj⟩

theorem run_inv : ∀ (os : List (Op K V)) {h : HashMap K V}, Inv hash h → ∃ t h', run hash h os = .ok (t, h') ∧ Inv hash h'
  | [], h, w => ⟨0, h, rfl, w⟩
  | o :: os, h, w => by
    obtain ⟨t, h1, e1, w1⟩ := step_inv w o
    obtain ⟨t', h2, e2, w2⟩ := run_inv os w1
    exact ⟨t + t', h2, by simp only [run, e1, Res.ok_bind, e2], w2⟩

omit [DecidableEq K] in
theorem new_inv (init : V) : Inv hash (new init : HashMap K V) :=
  ⟨new_wf init 1 1 (by decide), rfl, by simp [new], 0, rfl⟩

/-- The keys whose hash codes agree with that of `x` modulo the number of buckets, which is a power of two. -/
def near (hash : K → BitVec 32) (h : HashMap K V) (x : K) : Nat :=
  h.generate.countP fun y => (hash y).toNat % h.n = (hash x).toNat % h.n

omit [DecidableEq K] in
theorem near_eq {h : HashMap K V} (w : Inv hash h) (x : K) : nearB hash h x = near hash h x := by
  obtain ⟨j, hj⟩ := w.pow
  unfold near nearB bidx
  rw [hj]
  simp only [Nat.and_two_pow_sub_one_eq_mod]

/-- **C159, the cost of a search.** After any program, `h[x]` looks at no more entries than there are keys whose hash codes
agree with that of `x` modulo the number of buckets, and compares `x` with no more keys than have the hash code of `x`; if
`x` is no key, at exactly these. There are never fewer buckets than keys. -/
theorem C159_exact (init : V) (os : List (Op K V)) : ∃ t h, run hash (new init) os = .ok (t, h) ∧ h.N ≤ h.n ∧
    ∀ x, ∃ c v, getC hash h x = .ok (c, v) ∧ h.get hash x = .ok v ∧ c.rounds ≤ near hash h x ∧
      c.compares ≤ h.generate.countP (fun y => hash y = hash x) ∧
      (x ∉ h.generate → c.rounds = near hash h x ∧ c.compares = h.generate.countP (fun y => hash y = hash x)) := by
  obtain ⟨t, h, e, w⟩ := run_inv (hash := hash) os (new_inv init)
  refine ⟨t, h, e, w.room, fun x => ?_⟩
  rw [← near_eq w]
  exact getC_spec w.wf x

/-! ## Integers -/

/-- Different 32-bit words are at most 2^32. -/
theorem words_length {l : List (BitVec 32)} (hn : l.Nodup) : l.length ≤ 2 ^ 32 := by
  have h1 : (l.map BitVec.toNat).Nodup := List.Pairwise.map _ (fun a b h e => h (BitVec.eq_of_toNat_eq e)) hn
  have := nodup_subset_length h1 (l' := List.range (2 ^ 32)) fun x hx => by
    obtain ⟨y, -, rfl⟩ := List.mem_map.1 hx
    exact List.mem_range.2 y.isLt
  simpa using this

/-- Different numbers of an interval of length `L` with the same rest modulo `N`. -/
theorem rests_length {l : List Int} (hn : l.Nodup) {a : Int} {L N : Nat} (hN : 0 < N) (r : Int)
    (h1 : ∀ y ∈ l, a ≤ y ∧ y < a + L) (h2 : ∀ y ∈ l, y % N = r) : l.length ≤ (L + N - 1) / N := by
  have h0 : (N : Int) ≠ 0 := by omega
  have hm : (l.map fun y => ((y - a) / N).toNat).Nodup := by
    rw [List.nodup_iff_pairwise_ne, List.pairwise_map]
    refine List.Pairwise.imp_of_mem ?_ hn
    intro y z hy hz hne he
    apply hne
    have y1 := h1 y hy
    have z1 := h1 z hz
    have q1 : 0 ≤ (y - a) / (N : Int) := Int.ediv_nonneg (by omega) (by omega)
    have q2 : 0 ≤ (z - a) / (N : Int) := Int.ediv_nonneg (by omega) (by omega)
    have q : (y - a) / (N : Int) = (z - a) / (N : Int) := by omega
    have rr : (y - a) % (N : Int) = (z - a) % (N : Int) := by
      rw [Int.sub_emod, h2 y hy, Int.sub_emod z, h2 z hz]
    have e1 := Int.mul_ediv_add_emod (y - a) N
    have e2 := Int.mul_ediv_add_emod (z - a) N
    rw [q, rr] at e1
    omega
  have := nodup_subset_length hm (l' := List.range ((L + N - 1) / N)) fun x hx => by
    obtain ⟨y, hy, rfl⟩ := List.mem_map.1 hx
    have y1 := h1 y hy
    rw [List.mem_range]
    have q1 : 0 ≤ (y - a) / (N : Int) := Int.ediv_nonneg (by omega) (by omega)
    have q2 : (y - a) / (N : Int) < ((L + N - 1) / N : Nat) := by
      rw [Int.ediv_lt_iff_lt_mul (by omega)]
      have := Nat.div_add_mod (L + N - 1) N
      have := Nat.mod_lt (L + N - 1) hN
      have e : (((L + N - 1) / N : Nat) : Int) * N = ((N * ((L + N - 1) / N) : Nat) : Int) := by
        rw [Nat.mul_comm, Int.natCast_mul]
      rw [e]
      omega
    omega
  simpa using this

/-- The number of buckets of a map of integers. -/
theorem run_small {hash : BitVec 32 → BitVec 32} : ∀ (os : List (Op (BitVec 32) V)) {h : HashMap (BitVec 32) V}, Inv hash h →
    h.n ≤ 2 ^ 32 → ∃ t h', run hash h os = .ok (t, h') ∧ Inv hash h' ∧ h'.n ≤ 2 ^ 32
  | [], h, w, l => ⟨0, h, rfl, w, l⟩
  | o :: os, h, w, l => by
    obtain ⟨t, h1, e1, w1⟩ := step_inv w o
    have l1 : h1.n ≤ 2 ^ 32 := by
      have hs := w1.wf.size
      have hl := words_length w1.wf.nodup
      rw [List.length_map] at hl
      obtain ⟨j, hj⟩ := w1.pow
      cases o with
      | set x v =>
        simp only [step, Res.bind_eq_ok] at e1
        obtain ⟨c, -, g, eg, e1⟩ := e1
        cases e1
        obtain ⟨h', e2, w2, m2, -, cs⟩ := GrowCostProps.set_n w.wf x v
        rw [eg] at e2
        cases e2
        rw [w.max] at cs
        rcases cs with ⟨-, a, b⟩ | ⟨-, a, b, d⟩ | ⟨-, a, b, d⟩
        · omega
        · omega
        · have : h1.n < 2 ^ 33 := by omega
          rw [hj] at this ⊢
          have := (Nat.pow_lt_pow_iff_right (by decide)).1 this
          exact Nat.pow_le_pow_right (by decide) (by omega)
      | reset x =>
        simp only [step, Res.bind_eq_ok] at e1
        obtain ⟨c, -, g, eg, e1⟩ := e1
        cases e1
        by_cases hx : h.abs x = none
        · have := reset_miss w.wf hx
          rw [eg] at this
          cases this
          exact l
        · obtain ⟨h', e2, w2, m2, -, s2, n2⟩ := GrowCostProps.reset_sz w.wf x hx
          rw [eg] at e2
          cases e2
          rw [n2]
          split <;> omega
    obtain ⟨t', h2, e2, w2⟩ := run_small os w1 l1
    exact ⟨t + t', h2, by simp only [run, e1, Res.ok_bind, e2], w2⟩

theorem toInt_mod (x : BitVec 32) (j : Nat) (hj : 2 ^ j ≤ 2 ^ 32) : x.toInt % ((2 ^ j : Nat) : Int) = ((x.toNat % 2 ^ j : Nat) : Int) := by
  have hd : (2 ^ j : Nat) ∣ 2 ^ 32 := Nat.pow_dvd_pow 2 ((Nat.pow_le_pow_iff_right (by decide)).1 hj)
  have hd' : ((2 ^ j : Nat) : Int) ∣ ((2 ^ 32 : Nat) : Int) := Int.natCast_dvd_natCast.2 hd
  rw [BitVec.toInt_eq_toNat_bmod]
  have : (Int.bmod (x.toNat : Int) (2 ^ 32)) % ((2 ^ 32 : Nat) : Int) = (x.toNat : Int) % ((2 ^ 32 : Nat) : Int) := Int.bmod_emod
  rw [← Int.emod_emod_of_dvd _ hd', this, Int.emod_emod_of_dvd _ hd', Int.natCast_emod]

/-- **C159 for integers.** `hash (i)` is `i`. After any program, if the keys fill at least the `k`-th part of an interval,
every search looks at no more than `k` entries; in particular at one if they fill all of it. -/
theorem C159_int_partial (init : V) (os : List (Op (BitVec 32) V)) : ∃ t h,
    run (fun x => x) (new init) os = .ok (t, h) ∧
    ∀ (a : Int) (L k : Nat), (∀ y ∈ h.generate, a ≤ y.toInt ∧ y.toInt < a + L) → (L : Int) ≤ k * h.N →
      ∀ x, ∃ c v, getC (fun x => x) h x = .ok (c, v) ∧ h.get (fun x => x) x = .ok v ∧ c.rounds ≤ k := by
  obtain ⟨t, h, e, w, l⟩ := run_small (hash := fun x => x) os (new_inv init) (by simp [new])
  refine ⟨t, h, e, fun a L k h1 h2 x => ?_⟩
  obtain ⟨c, v, e1, e2, le, -⟩ := getC_spec w.wf x
  refine ⟨c, v, e1, e2, Nat.le_trans le ?_⟩
  rw [near_eq w]
  obtain ⟨j, hj⟩ := w.pow
  have hpos := w.wf.pos
  have hroom := w.room
  have key : near (fun x => x) h x ≤ (L + h.n - 1) / h.n := by
    have hn : ((h.generate.filter fun y => y.toNat % h.n = x.toNat % h.n).map BitVec.toInt).Nodup :=
      List.Pairwise.map _ (fun a b h e => h (BitVec.eq_of_toInt_eq e)) (List.Pairwise.filter _ w.wf.nodup)
    have := rests_length hn (a := a) (L := L) (N := h.n) hpos (((x.toNat % h.n : Nat)) : Int)
      (by
        intro y hy
        obtain ⟨z, hz, rfl⟩ := List.mem_map.1 hy
        exact h1 z (List.mem_filter.1 hz).1)
      (by
        intro y hy
        obtain ⟨z, hz, rfl⟩ := List.mem_map.1 hy
        have hz := (List.mem_filter.1 hz).2
        rw [decide_eq_true_eq] at hz
        rw [← hz]
        rw [hj] at l ⊢
        exact toInt_mod z j l)
    rw [List.length_map] at this
    unfold near
    rw [List.countP_eq_length_filter]
    exact this
  refine Nat.le_trans key ?_
  have hk : L ≤ k * h.n := by
    have : (k : Int) * h.N ≤ k * h.n := Int.mul_le_mul_of_nonneg_left hroom (by omega)
    have e : ((k * h.n : Nat) : Int) = k * h.n := Int.natCast_mul ..
    omega
  rw [Nat.div_le_iff_le_mul_add_pred hpos, Nat.mul_comm]
  omega

/-! ## Keys in one bucket -/

/-- The numbers of keys before each of `n` insertions, in all, beginning with `s`. -/
def sums (s : Nat) : Nat → Nat
  | 0 => 0
  | n + 1 => s + sums (s + 1) n

theorem sums_eq (n : Nat) : ∀ s, 2 * sums s n + n = n * (2 * s + n) := by
  induction n with
  | zero => intro s; simp [sums]
  | succ n ih =>
    intro s
    have := ih (s + 1)
    have e1 : n * (2 * (s + 1) + n) = n * (2 * s + n) + 2 * n := by
      rw [show 2 * (s + 1) + n = 2 * s + n + 2 by omega, Nat.mul_add, Nat.mul_comm n 2]
    have e2 : (n + 1) * (2 * s + (n + 1)) = n * (2 * s + n) + n + (2 * s + n + 1) := by
      rw [show 2 * s + (n + 1) = (2 * s + n) + 1 by omega, Nat.add_mul, Nat.mul_add]; omega
    simp only [sums]
    omega

theorem run_same {B : Nat} {P : K → Prop} (r : Nat → Nat)
    (hP : ∀ y, P y → ∀ j, j = 0 ∨ 2 ^ j < 2 * B → (hash y).toNat % 2 ^ j = r j) (v : V) :
    ∀ (ks : List K) {h : HashMap K V}, Inv hash h → (h.n = 1 ∨ h.n < 2 * h.size) → (∀ y ∈ ks, P y) →
      (∀ y ∈ h.generate, P y) → (∀ y ∈ ks, y ∉ h.generate) → ks.Nodup → h.generate.length + ks.length ≤ B →
      ∃ h', run hash h (ks.map fun k => .set k v) = .ok (sums h.generate.length ks.length, h') ∧ Inv hash h'
  | [], h, w, _, _, _, _, _, _ => ⟨h, rfl, w⟩
  | x :: ks, h, w, g, p1, p2, d, nd, b => by
    have gs : h.size = h.generate.length := by rw [w.wf.size, generate, List.length_map]
    obtain ⟨j, hj⟩ := w.pow
    have hlt : j = 0 ∨ 2 ^ j < 2 * B := by
      rw [List.length_cons] at b
      rcases g with g | g
      · left
        rw [hj] at g
        rcases Nat.eq_zero_or_pos j with h0 | h0
        · exact h0
        · have : 2 ^ 1 ≤ 2 ^ j := Nat.pow_le_pow_right (by decide) h0
          omega
      · right; omega
    have nx : near hash h x = h.generate.length := by
      unfold near
      rw [List.countP_eq_length]
      intro y hy
      rw [decide_eq_true_eq, hj, hP y (p2 y hy) j hlt, hP x (p1 x List.mem_cons_self) j hlt]
    have hxg : x ∉ h.generate := d x List.mem_cons_self
    obtain ⟨c, u, e1, -, -, -, ex⟩ := getC_spec w.wf x
    have hr : c.rounds = h.generate.length := by rw [(ex hxg).1, near_eq w, nx]
    obtain ⟨h1, e2, w2, m2, a2, cs⟩ := GrowCostProps.set_n w.wf x v
    have hs : step hash h (.set x v) = .ok (c.rounds, h1) := by simp only [step, e1, Res.ok_bind, e2]
    have i1 : Inv hash h1 := by
      obtain ⟨t, h', e', w'⟩ := step_inv w (.set x v)
      rw [hs] at e'
      cases e'
      exact w'
    have hx := (generate_abs x).1 hxg
    have hs1 : h1.size = h.size + 1 := by
      rcases cs with ⟨a, -⟩ | ⟨-, -, -, d⟩ | ⟨-, -, -, d⟩
      · exact absurd hx a
      · exact d
      · exact d
    have gs1 : h1.size = h1.generate.length := by rw [i1.wf.size, generate, List.length_map]
    have mem : ∀ y, y ∈ h1.generate → y = x ∨ y ∈ h.generate := by
      intro y hy
      rcases Classical.em (y = x) with q | q
      · exact .inl q
      · right
        apply Classical.byContradiction
        intro hn
        refine (generate_abs y).2 ?_ hy
        rw [a2]
        dsimp only
        rw [if_neg q]
        exact (generate_abs y).1 hn
    obtain ⟨nx1, nd1⟩ := List.nodup_cons.1 nd
    obtain ⟨h2, e3, w3⟩ := run_same r hP v ks i1
      (by
        rw [w.max] at cs
        rcases cs with ⟨a, -⟩ | ⟨-, -, cn, -⟩ | ⟨-, a, cn, -⟩
        · exact absurd hx a
        · rcases g with g | g
          · left; omega
          · right; omega
        · right; omega)
      (fun y hy => p1 y (List.mem_cons_of_mem _ hy))
      (fun y hy => by
        rcases mem y hy with q | q
        · rw [q]; exact p1 x List.mem_cons_self
        · exact p2 y q)
      (fun y hy hg => by
        rcases mem y hg with q | q
        · rw [q] at hy; exact nx1 hy
        · exact d y (List.mem_cons_of_mem _ hy) q)
      nd1 (by rw [List.length_cons] at b; omega)
    refine ⟨h2, ?_, w3⟩
    rw [show h1.generate.length = h.generate.length + 1 by omega] at e3
    simp only [List.map_cons, run, hs, Res.ok_bind, e3, hr, List.length_cons, sums]

/-- **C159 is violated by integers.** With the keys 0, 65536, 2*65536, ... every search goes through all keys: assigning
to `n` of them, for `n` up to 65536, looks at `n*(n-1)/2` entries. -/
theorem C159_int_violated (init v : V) (n : Nat) (hn : n ≤ 2 ^ 16) : ∃ t h,
    run (fun x => x) (new init) (((List.range n).map fun i => BitVec.ofNat 32 (i * 65536)).map fun k => .set k v) =
      .ok (t, h) ∧ 2 * t = n * (n - 1) := by
  have hr : ∀ i, i < n → (BitVec.ofNat 32 (i * 65536)).toNat = i * 65536 := by
    intro i hi
    rw [BitVec.toNat_ofNat, Nat.mod_eq_of_lt (by omega)]
  obtain ⟨h, e, -⟩ := run_same (hash := fun x : BitVec 32 => x) (B := n)
    (P := fun y => ∃ i, i < n ∧ y = BitVec.ofNat 32 (i * 65536)) (fun _ => 0)
    (by
      rintro y ⟨i, hi, rfl⟩ j hj
      rw [hr i hi]
      apply Nat.mod_eq_zero_of_dvd
      have : (2 ^ j : Nat) ∣ 65536 := by
        have : j ≤ 16 := by
          rcases hj with hj | hj
          · omega
          · have : 2 ^ j < 2 ^ 17 := by omega
            have := (Nat.pow_lt_pow_iff_right (by decide)).1 this
            omega
        exact Nat.pow_dvd_pow 2 this
      exact Nat.dvd_trans this (Nat.dvd_mul_left ..))
    v ((List.range n).map fun i => BitVec.ofNat 32 (i * 65536)) (new_inv init) (.inl rfl)
    (by
      intro y hy
      obtain ⟨i, hi, rfl⟩ := List.mem_map.1 hy
      exact ⟨i, List.mem_range.1 hi, rfl⟩)
    (by simp [new, generate]) (by simp [new, generate])
    (by
      rw [List.nodup_iff_pairwise_ne, List.pairwise_map]
      refine List.Pairwise.imp_of_mem ?_ List.nodup_range
      intro a b ha hb hne he
      have := congrArg BitVec.toNat he
      rw [hr a (List.mem_range.1 ha), hr b (List.mem_range.1 hb)] at this
      omega)
    (by simp [new, generate])
  refine ⟨_, h, e, ?_⟩
  have := sums_eq n 0
  rw [List.length_map, List.length_range, show (new init : HashMap (BitVec 32) V).generate.length = 0 from rfl]
  rw [Nat.mul_sub, Nat.mul_one]
  rw [Nat.mul_zero, Nat.zero_add] at this
  omega

/-! ## Strings -/

/-- `wyywmmma`, `n` times. -/
def word : Nat → Bytes
  | 0 => []
  | n + 1 => (b!"wyywmmma") ++ word n

theorem word_length (n : Nat) : (word n).length = 8 * n := by
  induction n with
  | zero => rfl
  | succ n ih => simp only [word, List.length_append, ih]; simp; omega

theorem word_code (n : Nat) : HashCodes.ofString (word n) = .ok 0#32 := by
  unfold HashCodes.ofString
  induction n with
  | zero => rfl
  | succ n ih =>
    rw [word, List.map_append]
    exact ih

/-- **C159 is violated by strings.** For every `n` there are `n` different strings of lower-case letters with the same
hash code, so that every search goes through all keys: assigning to them looks at `n*(n-1)/2` entries. -/
theorem C159_string_violated {hash : Bytes → BitVec 32} (hh : ∀ s c, HashCodes.ofString s = .ok c → hash s = c)
    (init v : V) (n : Nat) : ∃ ks : List Bytes, ks.Nodup ∧ ks.length = n ∧ (∀ s ∈ ks, ∀ c ∈ s, 97 ≤ c ∧ c ≤ 122) ∧
    ∃ t h, run hash (new init) (ks.map fun k => .set k v) = .ok (t, h) ∧ 2 * t = n * (n - 1) := by
  have hl : ∀ i, ∀ c ∈ word i, (97 : UInt8) ≤ c ∧ c ≤ 122 := by
    intro i
    induction i with
    | zero => intro c hc; cases hc
    | succ i ih =>
      intro c hc
      rw [word, List.mem_append] at hc
      rcases hc with hc | hc
      · revert c; decide
      · exact ih c hc
  have nd : ((List.range n).map word).Nodup := by
    rw [List.nodup_iff_pairwise_ne, List.pairwise_map]
    refine List.Pairwise.imp ?_ List.nodup_range
    intro a b hne he
    have := congrArg List.length he
    rw [word_length, word_length] at this
    omega
  obtain ⟨h, e, -⟩ := run_same (hash := hash) (B := n) (P := fun y => ∃ i, y = word i) (fun _ => 0)
    (by
      rintro y ⟨i, rfl⟩ j -
      rw [hh _ _ (word_code i)]
      exact Nat.zero_mod _)
    v ((List.range n).map word) (new_inv init) (.inl rfl)
    (by
      intro y hy
      obtain ⟨i, hi, rfl⟩ := List.mem_map.1 hy
      exact ⟨i, rfl⟩)
    (by simp [new, generate]) (by simp [new, generate]) nd (by simp [new, generate])
  refine ⟨_, nd, by simp, ?_, _, h, e, ?_⟩
  · intro s hs
    obtain ⟨i, -, rfl⟩ := List.mem_map.1 hs
    exact hl i
  · have := sums_eq n 0
    rw [List.length_map, List.length_range, show (new init : HashMap Bytes V).generate.length = 0 from rfl]
    rw [Nat.mul_sub, Nat.mul_one]
    rw [Nat.mul_zero, Nat.zero_add] at this
    omega

/-- The keys 0, 4, 8 are in one of four buckets. The search for 12 takes three rounds, without any comparison of keys since
the codes differ. -/
example :
    ((run (fun x : BitVec 32 => x) (new (0 : Nat)) [.set 0 7, .set 4 8, .set 8 9]).bind fun p =>
      (getC (fun x => x) p.2 12).bind fun q => .ok (p.1, q)) = .ok (3, ⟨3, 0⟩, 0) := by decide +kernel

/-- The keys -1, 0, 1 fill an interval: a search takes one round. (Two rounds were needed while there were fewer
buckets.) -/
example :
    ((run (fun x : BitVec 32 => x) (new (0 : Nat)) [.set 0 7, .set 1 8, .set (-1) 9]).bind fun p =>
      (getC (fun x => x) p.2 (-1)).bind fun q => .ok (p.1, p.2.generate.map BitVec.toInt, q)) =
      .ok (2, [0, 1, -1], ⟨1, 1⟩, 9) := by decide +kernel

/-- Some hash function meets the hypothesis of `C159_string_violated`. -/
example : ∃ hash : Bytes → BitVec 32, ∀ s c, HashCodes.ofString s = .ok c → hash s = c :=
  ⟨fun s => match HashCodes.ofString s with | .ok c => c | _ => 0, fun s c h => by simp only [h]⟩

end Lolly.ProbeCostProps
