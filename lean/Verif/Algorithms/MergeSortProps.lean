import Verif.Algorithms.MergeSortLemmas

/-!
# C13: merge_sort
-/

set_option autoImplicit false

namespace Lolly.MergeSort

variable {T U : Type}

/-- `r` is a stable sorting of `a`, by the rearrangement `p`: the element at position `k` of `r` is
the one that was at position `p[k]` of `a`; elements are in order; and elements that compare equal
stay in their original order. -/
structure StableSort (leq : T → T → Bool) (a r : List T) (p : List Nat) : Prop where
  perm : p.Perm (List.range a.length)
  moved : r.map some = p.map (fun i => a[i]?)
  sorted : ∀ (k l : Nat) (x y : T), k < l → r[k]? = some x → r[l]? = some y → leq x y = true
  stable : ∀ (k l i j : Nat) (x y : T), k < l → r[k]? = some x → r[l]? = some y → leq y x = true →
    p[k]? = some i → p[l]? = some j → i < j

/-- `r` is `a` rearranged by `p`. -/
structure Rearranged (a r : List T) (p : List Nat) : Prop where
  perm : p.Perm (List.range a.length)
  moved : r.map some = p.map (fun i => a[i]?)

/-- The elements with their positions. -/
def tag (a : List T) : List (T × Nat) := a.zipIdx

theorem tag_fst (a : List T) : (tag a).map (·.1) = a := by simp [tag]
theorem tag_snd (a : List T) : (tag a).map (·.2) = List.range a.length := by
  simp [tag, List.range_eq_range']

theorem tag_mem {a : List T} {x : T × Nat} (h : x ∈ tag a) : a[x.2]? = some x.1 := by
  have := List.mem_zipIdx_iff_getElem?.1 (show (x.1, x.2) ∈ a.zipIdx from h)
  simpa using this

theorem rearranged_tag (a : List T) (c : List (T × Nat)) (h : c.Perm (tag a)) :
    Rearranged a (c.map (·.1)) (c.map (·.2)) := by
  refine ⟨?_, ?_⟩
  · have := h.map (·.2)
    rwa [tag_snd] at this
  · rw [List.map_map, List.map_map]
    apply List.map_congr_left
    intro x hx
    exact (tag_mem (h.mem_iff.1 hx)).symm

theorem tag_pairwise (a : List T) : (tag a).Pairwise (fun x y => x.2 < y.2) := by
  rw [← List.pairwise_map (f := fun x : T × Nat => x.2) (R := (· < ·)), tag_snd]
  exact List.pairwise_lt_range

theorem stable_tag (leq : T → T → Bool) (a : List T) (c : List (T × Nat)) (h : c.Perm (tag a))
    (ho : c.Pairwise (Ord leq)) : StableSort leq a (c.map (·.1)) (c.map (·.2)) := by
  have hr := rearranged_tag a c h
  refine ⟨hr.perm, hr.moved, ?_, ?_⟩
  · intro k l x y hkl hx hy
    simp only [List.getElem?_map, Option.map_eq_some_iff] at hx hy
    obtain ⟨x', hx, rfl⟩ := hx
    obtain ⟨y', hy, rfl⟩ := hy
    obtain ⟨h1, rfl⟩ := List.getElem?_eq_some_iff.1 hx
    obtain ⟨h2, rfl⟩ := List.getElem?_eq_some_iff.1 hy
    exact (List.pairwise_iff_getElem.1 ho k l h1 h2 hkl).1
  · intro k l i j x y hkl hx hy hle hi hj
    simp only [List.getElem?_map, Option.map_eq_some_iff] at hx hy hi hj
    obtain ⟨x', hx, rfl⟩ := hx
    obtain ⟨y', hy, rfl⟩ := hy
    obtain ⟨h1, rfl⟩ := List.getElem?_eq_some_iff.1 hx
    obtain ⟨h2, rfl⟩ := List.getElem?_eq_some_iff.1 hy
    obtain ⟨i', hi, rfl⟩ := hi
    obtain ⟨j', hj, rfl⟩ := hj
    rw [hx] at hi; rw [hy] at hj
    cases hi; cases hj
    exact (List.pairwise_iff_getElem.1 ho k l h1 h2 hkl).2 hle

/-- **C13.** For a total transitive comparison, `merge_sort` never leaves the array or its buffer and
terminates, and the result is the stable sorting of the array. -/
theorem C13_sort (leq : T → T → Bool) (htot : ∀ x y, leq x y = true ∨ leq y x = true)
    (ht : ∀ x y z, leq x y = true → leq y z = true → leq x z = true) (dv : T) (a : List T) :
    ∃ r p, sort leq dv a = .ok r ∧ StableSort leq a r p := by
  refine ⟨_, (msort (leqP Nat leq) (tag a)).map (·.2), sort_eq leq dv a, ?_⟩
  have h := msort_map (fun x : T × Nat => x.1) leq (tag a)
  rw [tag_fst] at h
  rw [h]
  exact stable_tag leq a _ (msort_perm _ _) (msort_ord ht htot _ (tag_pairwise a))

/-- **C13, any comparison.** Even if the comparison is not an order, nothing outside the arrays is
touched, the function returns, and the result is a rearrangement of the array. -/
theorem C13_any_comparison (leq : T → T → Bool) (dv : T) (a : List T) :
    ∃ r p, sort leq dv a = .ok r ∧ Rearranged a r p := by
  refine ⟨_, (msort (leqP Nat leq) (tag a)).map (·.2), sort_eq leq dv a, ?_⟩
  have h := msort_map (fun x : T × Nat => x.1) leq (tag a)
  rw [tag_fst] at h
  rw [h]
  exact rearranged_tag a _ (msort_perm _ _)

/-- **C13, uniqueness.** There is only one stable sorting: the specification pins the result. -/
theorem C13_unique (leq : T → T → Bool) {a r r' : List T} {p p' : List Nat}
    (h : StableSort leq a r p) (h' : StableSort leq a r' p') : r = r' := by
  -- both rearrangements are strictly increasing for the same irreflexive, antisymmetric relation
  have key : p = p' := by
    let R : Nat → Nat → Prop := fun i j =>
      ∃ x y, a[i]? = some x ∧ a[j]? = some y ∧ leq x y = true ∧ (leq y x = true → i < j)
    have mk : ∀ {r : List T} {p : List Nat}, StableSort leq a r p → p.Pairwise R := by
      intro r p h
      rw [List.pairwise_iff_getElem]
      intro k l hk hl hkl
      have hlen : r.length = p.length := by simpa using congrArg List.length h.moved
      have e : ∀ k (hk : k < p.length), a[p[k]]? = some (r[k]'(by omega)) := by
        intro k hk
        have := congrArg (fun z => z[k]?) h.moved
        simp only [List.getElem?_map, List.getElem?_eq_getElem hk,
          List.getElem?_eq_getElem (show k < r.length by omega), Option.map_some] at this
        exact (Option.some.inj this).symm
      refine ⟨_, _, e k hk, e l hl, ?_, fun hh => ?_⟩
      · exact h.sorted k l _ _ hkl (List.getElem?_eq_getElem _) (List.getElem?_eq_getElem _)
      · exact h.stable k l _ _ _ _ hkl (List.getElem?_eq_getElem (by omega)) (List.getElem?_eq_getElem (by omega))
          hh (List.getElem?_eq_getElem hk) (List.getElem?_eq_getElem hl)
    refine List.Perm.eq_of_pairwise (le := R) ?_ (mk h) (mk h') (h.perm.trans h'.perm.symm)
    rintro i j _ _ ⟨x, y, hx, hy, h1, h2⟩ ⟨y', x', hy', hx', h3, h4⟩
    rw [hx] at hx'; rw [hy] at hy'; cases hx'; cases hy'
    have := h2 h3; have := h4 h1; omega
  subst key
  have hm : r.map some = r'.map some := h.moved.trans h'.moved.symm
  exact (List.map_inj_right (fun _ _ => Option.some.inj)).1 hm

/-- **C13, companion array.** The two-array form sorts the first array stably and applies the same
rearrangement to the second; arrays of different lengths are refused. -/
theorem C13_companion (leq : T → T → Bool) (htot : ∀ x y, leq x y = true ∨ leq y x = true)
    (ht : ∀ x y z, leq x y = true → leq y z = true → leq x z = true) (dt : T) (du : U) (a : List T)
    (b : List U) :
    (a.length = b.length → ∃ ra rb p, sort2 leq dt du a b = .ok (ra, rb) ∧ StableSort leq a ra p ∧
      Rearranged b rb p) ∧
    (a.length ≠ b.length → sort2 leq dt du a b = .thrown) := by
  constructor
  · intro hl
    let c := a.zip b
    have hca : c.map (·.1) = a := by simp [c, List.map_fst_zip, hl]
    have hcb : c.map (·.2) = b := by simp [c, List.map_snd_zip, hl]
    have hs := sort2_eq leq dt du c
    simp only [fsts, snds, hca, hcb] at hs
    -- tag the pairs with their positions
    have hm := msort_map (fun x : (T × U) × Nat => x.1) (leqP U leq) (tag c)
    rw [tag_fst] at hm
    -- and forget the companions
    let m := msort (fun x y : (T × U) × Nat => leqP U leq x.1 y.1) (tag c)
    have hA := msort_map (fun x : (T × U) × Nat => (x.1.1, x.2)) (leqP Nat leq) (tag c)
    have htag : (tag c).map (fun x : (T × U) × Nat => (x.1.1, x.2)) = tag a := by
      conv => rhs; rw [← hca]
      simp [tag, List.zipIdx_map]
    rw [htag] at hA
    have hp : m.Perm (tag c) := msort_perm _ _
    refine ⟨_, _, m.map (·.2), hs, ?_, ?_⟩
    · have hst := stable_tag leq a (msort (leqP Nat leq) (tag a)) (msort_perm _ _)
        (msort_ord ht htot _ (tag_pairwise a))
      rw [hA, List.map_map, List.map_map] at hst
      rw [hm, List.map_map]
      exact hst
    · have hr := rearranged_tag c m hp
      rw [hm]
      refine ⟨?_, ?_⟩
      · have := hr.perm
        rwa [show c.length = b.length by simp [c]; omega] at this
      · have := congrArg (List.map (Option.map Prod.snd)) hr.moved
        rw [List.map_map, List.map_map] at this
        rw [List.map_map, List.map_map]
        rw [List.map_map] at this
        have e1 : List.map (some ∘ (fun x : T × U => x.2) ∘ fun x : (T × U) × Nat => x.1) m =
            List.map ((Option.map Prod.snd ∘ some) ∘ fun x : (T × U) × Nat => x.1) m :=
          List.map_congr_left (fun _ _ => rfl)
        have e2 : List.map (fun i => b[i]?) (List.map (·.2) m) =
            List.map (Option.map Prod.snd ∘ fun i => c[i]?) (List.map (·.2) m) := by
          refine List.map_congr_left (fun i _ => ?_)
          conv => lhs; rw [← hcb]
          simp [Function.comp]
        rw [e2]
        exact e1.trans this
  · intro h
    rw [sort2, if_neg h]

theorem idInit (n : Nat) :
    (forUp 0 n (List.replicate n 0) fun i b => wr b i i) = .ok (List.range n) := by
  obtain ⟨b, e, hb⟩ := forUp_spec (lo := 0) (hi := n) (s := List.replicate n 0)
    (body := fun i b => wr b i i)
    (fun t b => b.length = n ∧ ∀ p, p < t → b[p]? = some p) (Nat.zero_le _)
    ⟨by simp, fun p h => by omega⟩
    (by
      rintro t b _ ht ⟨hl, hb⟩
      refine ⟨b.set t t, wr_ok (by omega), by simpa using hl, fun p hp => ?_⟩
      rw [List.getElem?_set]
      by_cases h : t = p
      · subst h; simp; omega
      · rw [if_neg h]; exact hb p (by omega))
  rw [e]
  congr 1
  apply List.ext_getElem?
  intro p
  by_cases hp : p < n
  · rw [hb.2 p hp, List.getElem?_range hp]
  · rw [List.getElem?_eq_none (by omega), List.getElem?_eq_none (by simp; omega)]

/-- **C13, permutation form.** `merge_sort_leq_permutation` sorts the array stably and returns the
rearrangement. -/
theorem C13_permutation (leq : T → T → Bool) (htot : ∀ x y, leq x y = true ∨ leq y x = true)
    (ht : ∀ x y z, leq x y = true → leq y z = true → leq x z = true) (dt : T) (a : List T) :
    ∃ p r, sortPermutation leq dt a = .ok (p, r) ∧ StableSort leq a r p := by
  obtain ⟨ra, rb, p, e, h1, h2⟩ := (C13_companion leq htot ht dt 0 a (List.range a.length)).1 (by simp)
  have hp : rb = p := by
    have hm := h2.moved
    have : p.map (fun i => (List.range a.length)[i]?) = p.map some := by
      refine List.map_congr_left (fun i hi => ?_)
      have := List.mem_range.1 (h1.perm.mem_iff.1 hi)
      exact List.getElem?_range this
    rw [this] at hm
    exact (List.map_inj_right (fun _ _ => Option.some.inj)).1 hm
  subst hp
  refine ⟨rb, ra, ?_, h1⟩
  simp only [sortPermutation, idInit, Res.ok_bind, e]

/-- **C13, applying a permutation.** `permute (a, b)` gives `a[b[0]], a[b[1]], …` when every index is
legal; a wrong index is out of bounds; different lengths are refused. -/
theorem C13_permute (dt : T) (a : List T) (b : List Nat) :
    (a.length = b.length → (∀ i ∈ b, i < a.length) →
      ∃ r, permute dt a b = .ok r ∧ r.map some = b.map (fun i => a[i]?)) ∧
    (a.length = b.length → (∃ i ∈ b, a.length ≤ i) → permute dt a b = .ub) ∧
    (a.length ≠ b.length → permute dt a b = .thrown) := by
  refine ⟨fun hl hb => ?_, fun hl hbad => ?_, fun h => by rw [permute, if_neg h]⟩
  · obtain ⟨r, e, hr⟩ := forUp_spec (lo := 0) (hi := a.length) (s := List.replicate a.length dt)
      (body := fun i r => do let p ← rd b i; let x ← rd a p; wr r i x)
      (fun t r => r.length = a.length ∧ ∀ k, k < t → r[k]?.map some = b[k]?.map (fun i => a[i]?))
      (Nat.zero_le _) ⟨by simp, fun k h => by omega⟩
      (by
        rintro t r _ htl ⟨hlr, hr⟩
        have htb : t < b.length := by omega
        have hx : b[t] < a.length := hb _ (List.getElem_mem htb)
        refine ⟨r.set t a[b[t]], ?_, by simpa using hlr, fun k hk => ?_⟩
        · simp only [rd_ok htb, Res.ok_bind, rd_ok hx]
          exact wr_ok (by omega)
        · rw [List.getElem?_set]
          by_cases h : t = k
          · subst h
            rw [if_pos rfl, if_pos (by omega), List.getElem?_eq_getElem htb]
            simp [List.getElem?_eq_getElem hx]
          · rw [if_neg h]; exact hr k (by omega))
    refine ⟨r, by rw [permute, if_pos hl, e], ?_⟩
    apply List.ext_getElem?
    intro k
    rw [List.getElem?_map, List.getElem?_map]
    by_cases hk : k < a.length
    · exact hr.2 k hk
    · rw [List.getElem?_eq_none (by omega), List.getElem?_eq_none (by omega)]; rfl
  · rw [permute, if_pos hl, forUp]
    have gen : ∀ n i (r : List T), i + n = b.length → r.length = a.length →
        (∃ x ∈ b.drop i, a.length ≤ x) →
        forN (fun i r => do let p ← rd b i; let x ← rd a p; wr r i x) n i r = .ub := by
      intro n
      induction n with
      | zero =>
        rintro i r hi _ ⟨x, hx, _⟩
        rw [List.drop_of_length_le (by omega)] at hx; simp at hx
      | succ n ih =>
        rintro i r hi hr ⟨x, hx, hxa⟩
        have hib : i < b.length := by omega
        rw [List.drop_eq_getElem_cons hib] at hx
        rw [forN]
        simp only [rd_ok hib, Res.ok_bind]
        by_cases hbad : b[i] < a.length
        · simp only [rd_ok hbad, Res.ok_bind, wr_ok (show i < r.length by omega)]
          refine ih _ _ (by omega) (by simpa using hr) ⟨x, ?_, hxa⟩
          rcases List.mem_cons.1 hx with rfl | h
          · omega
          · exact h
        · rw [rd_ub (by omega)]; rfl
    obtain ⟨x, hx, hxa⟩ := hbad
    exact gen _ _ _ (by omega) (by simp) ⟨x, by simpa using hx, hxa⟩

/-! ## The hypotheses are satisfiable, and the conclusions are what one expects -/

/-- Pairs compared by their first component: a total preorder that is not antisymmetric. -/
def keyLeq (x y : Nat × Nat) : Bool := decide (x.1 ≤ y.1)

example : (∀ x y, keyLeq x y = true ∨ keyLeq y x = true) ∧
    (∀ x y z, keyLeq x y = true → keyLeq y z = true → keyLeq x z = true) := by
  refine ⟨fun x y => ?_, fun x y z => ?_⟩ <;> simp [keyLeq] <;> omega

example : sort keyLeq (0, 0) [(3, 1), (1, 2), (3, 3), (2, 4), (1, 5)] =
    .ok [(1, 2), (1, 5), (2, 4), (3, 1), (3, 3)] := by
  simp [sort_eq, msort, keyLeq]

example : permute 'z' ['a', 'b', 'c'] [2, 0, 1] = .ok ['c', 'a', 'b'] := by rfl

end Lolly.MergeSort
