import Verif.Containers.SelfLoops
import Verif.Containers.HashMapProps

/-!
# C169: functions of a hash map with the map itself as argument, and `generate` with a routine that changes the map
-/

set_option autoImplicit false
set_option linter.unusedSectionVars false

namespace Lolly.SelfLoopsProps

open HashMap HashMapProps

variable {K V : Type} [DecidableEq K] [DecidableEq V] {hash : K → BitVec 32}

/-! ## Helper lemmas -/

/-- One action for an entry: the table does not grow, and if it keeps its size only the bucket of the key changes. -/
def Near (hash : K → BitVec 32) (h h' : HashMap K V) (k : K) : Prop :=
  h'.n ≤ h.n ∧ (h'.n = h.n → ∀ j : Nat, j ≠ bidx (hash k) h.n → h'.a[j]? = h.a[j]?)

theorem set_near {h : HashMap K V} (w : h.WF hash) (k : K) (v : V) (hk : (h.abs k).isSome = true)
    {h' : HashMap K V} (e : h.set hash k v = .ok h') : Near hash h h' k ∧ h'.n = h.n := by
  obtain ⟨l, h1, h2⟩ := w.findB k
  obtain ⟨v0, hv0⟩ := Option.isSome_iff_exists.1 hk
  have ht : h.touch hash k = .ok h := by simp [touch, h1, h2, hv0]
  have hi := w.idx k
  simp only [HashMap.set, ht, Res.ok_bind, assign, rd_ok hi, wr_ok hi] at e
  obtain rfl := Res.ok.inj e
  refine ⟨⟨Nat.le_refl _, fun _ j hj => ?_⟩, rfl⟩
  simp only [List.getElem?_set]
  rw [if_neg (fun h => hj h.symm)]

theorem resize_n {h h' : HashMap K V} {m : Nat} (e : h.resize hash m = .ok h') : h'.n = m := by
  unfold resize at e
  obtain ⟨a, -, e⟩ := Res.bind_eq_ok.1 e
  obtain rfl := Res.ok.inj e
  rfl

theorem reset_near {h : HashMap K V} (w : h.WF hash) (k : K)
    {h' : HashMap K V} (e : h.reset hash k = .ok h') : Near hash h h' k ∧
      (((h.n / 2 : Nat) : Int) * h.max ≤ h.size - 1 → h'.n = h.n) := by
  have hi := w.idx k
  simp only [HashMap.reset, rd_ok hi, Res.ok_bind] at e
  cases hr : removeB (hash k) k h.a[bidx (hash k) h.n] with
  | none =>
    rw [hr] at e
    obtain rfl := Res.ok.inj e
    exact ⟨⟨Nat.le_refl _, fun _ j _ => rfl⟩, fun _ => rfl⟩
  | some l' =>
    rw [hr] at e
    simp only [wr_ok hi, Res.ok_bind] at e
    have hp := w.pos
    have hsh : h.n >>> 1 = h.n / 2 := by rw [Nat.shiftRight_eq_div_pow]
    rw [hsh] at e
    split at e
    · rename_i hlt
      have := resize_n e
      exact ⟨⟨by omega, fun hc => by omega⟩, fun hc => by omega⟩
    · obtain rfl := Res.ok.inj e
      refine ⟨⟨Nat.le_refl _, fun _ j hj => ?_⟩, fun _ => rfl⟩
      simp only [List.getElem?_set]
      rw [if_neg (fun h => hj h.symm)]

/-- A loop over the entries of a bucket, with an invariant over the entries that are still to come. -/
theorem overBucket_spec {act : HashMap K V → Entry K V → Res (HashMap K V)}
    {I : HashMap K V → List (Entry K V) → Prop}
    (hI : ∀ (h : HashMap K V) (e : Entry K V) (es : List (Entry K V)), I h (e :: es) → h.WF hash ∧
      ∃ h', act h e = .ok h' ∧ Near hash h h' e.key ∧ I h' es)
    (l : List (Entry K V)) (R : List (Entry K V)) (h : HashMap K V) (i : Nat)
    (hb : ∀ e ∈ l, bidx (hash e.key) h.n = i) (hin : I h (l ++ R)) :
    ∃ h', overBucket act l h = .ok h' ∧ I h' R ∧ h'.n ≤ h.n ∧
      (h'.n = h.n → ∀ j : Nat, j ≠ i → h'.a[j]? = h.a[j]?) := by
  suffices H : ∀ (l : List (Entry K V)) (h : HashMap K V), I h (l ++ R) →
      ∃ h', overBucket act l h = .ok h' ∧ I h' R ∧ h'.n ≤ h.n ∧
        (h'.n = h.n → (∀ e ∈ l, bidx (hash e.key) h.n = i) → ∀ j : Nat, j ≠ i → h'.a[j]? = h.a[j]?) by
    obtain ⟨h', h1, h2, h3, h4⟩ := H l h hin
    exact ⟨h', h1, h2, h3, fun hn => h4 hn hb⟩
  intro l
  induction l with
  | nil => intro h hin; exact ⟨h, rfl, hin, Nat.le_refl _, fun _ _ _ _ => rfl⟩
  | cons e l ih =>
    intro h hin
    obtain ⟨-, h1, e1, ⟨n1, k1⟩, i1⟩ := hI h e (l ++ R) hin
    obtain ⟨h', e2, i2, n2, k2⟩ := ih h1 i1
    refine ⟨h', by rw [overBucket, e1]; exact e2, i2, Nat.le_trans n2 n1, fun hn hb j hj => ?_⟩
    have hn1 : h1.n = h.n := by omega
    rw [k2 (by omega) (fun e' he' => by rw [hn1]; exact hb e' (List.mem_cons_of_mem _ he')) j hj,
      k1 hn1 j (by rw [hb e List.mem_cons_self]; exact hj)]

theorem drop_congr {a b : List (List (Entry K V))} {i : Nat} (h : ∀ j : Nat, i < j → b[j]? = a[j]?) :
    b.drop (i + 1) = a.drop (i + 1) := by
  apply List.ext_getElem?
  intro j
  simp only [List.getElem?_drop]
  exact h _ (by omega)

/-- The action keeps the invariant for whatever is to come, while the table does not grow. -/
def Keeps (hash : K → BitVec 32) (act : HashMap K V → Entry K V → Res (HashMap K V))
    (I : HashMap K V → List (Entry K V) → Prop) : Prop :=
  ∀ (h : HashMap K V) (e : Entry K V) (es : List (Entry K V)), I h (e :: es) → h.WF hash ∧
      ∃ h', act h e = .ok h' ∧ Near hash h h' e.key ∧ I h' es

/-- The action succeeds for each entry that is in the map, changes nothing else and does not make the table grow. -/
def Total (hash : K → BitVec 32) (act : HashMap K V → Entry K V → Res (HashMap K V)) : Prop :=
  ∀ (h : HashMap K V) (e : Entry K V), h.WF hash → h.abs e.key = some e.im →
    ∃ h', act h e = .ok h' ∧ h'.WF hash ∧ h'.n ≤ h.n ∧ ∀ x, x ≠ e.key → h'.abs x = h.abs x

theorem overBucket_total {act : HashMap K V → Entry K V → Res (HashMap K V)} (hT : Total hash act)
    (l : List (Entry K V)) (h : HashMap K V) (w : h.WF hash) (hn : (l.map (·.key)).Nodup)
    (hl : ∀ e ∈ l, h.abs e.key = some e.im) :
    ∃ h', overBucket act l h = .ok h' ∧ h'.WF hash ∧ h'.n ≤ h.n := by
  induction l generalizing h with
  | nil => exact ⟨h, rfl, w, Nat.le_refl _⟩
  | cons e l ih =>
    rw [List.map_cons, List.nodup_cons] at hn
    obtain ⟨h1, e1, w1, n1, k1⟩ := hT h e w (hl e List.mem_cons_self)
    obtain ⟨h2, e2, w2, n2⟩ := ih h1 w1 hn.2 fun e' he' => by
      rw [k1 e'.key fun hc => hn.1 (hc ▸ List.mem_map_of_mem he')]
      exact hl e' (List.mem_cons_of_mem _ he')
    exact ⟨h2, by rw [overBucket, e1]; exact e2, w2, Nat.le_trans n2 n1⟩

theorem bucket_abs {h : HashMap K V} (w : h.WF hash) {i : Nat} (hi : i < h.a.length) :
    (h.a[i].map (·.key)).Nodup ∧ ∀ e ∈ h.a[i], h.abs e.key = some e.im := by
  have hsub : h.a[i].Sublist h.a.flatten := List.sublist_flatten_of_mem (List.getElem_mem hi)
  refine ⟨w.nodup.sublist (hsub.map _), fun e he => ?_⟩
  exact (look_eq_some w.nodup).2 ⟨e, hsub.subset he, rfl, rfl⟩

/-- A loop that still expects more buckets than there are reads outside the table. -/
theorem overCached_ub {act : HashMap K V → Entry K V → Res (HashMap K V)} (hT : Total hash act) (k i : Nat)
    (h : HashMap K V) (w : h.WF hash) (hk : 0 < k) (hn : h.n < i + k) : overCached act k i h = .ub := by
  induction k generalizing i h with
  | zero => omega
  | succ k ih =>
    rw [overCached]
    by_cases hi : i < h.a.length
    · obtain ⟨h', e1, w1, n1⟩ := overBucket_total hT h.a[i] h w (bucket_abs w hi).1 (bucket_abs w hi).2
      rw [rd_ok hi, Res.ok_bind, e1, Res.ok_bind]
      have := w.len
      exact ih (i + 1) h' w1 (by omega) (by omega)
    · rw [rd_ub (by omega)]; rfl

/-- The loop with the cached number of buckets comes to its end with all entries done, or reads outside the table. -/
theorem overCached_spec {act : HashMap K V → Entry K V → Res (HashMap K V)} {I : HashMap K V → List (Entry K V) → Prop}
    (hT : Total hash act) (hI : Keeps hash act I) (hW : ∀ (h : HashMap K V) es, I h es → h.WF hash) (k i : Nat)
    (h : HashMap K V) (hk : i + k = h.n) (hin : I h (h.a.drop i).flatten) :
    overCached act k i h = .ub ∨ ∃ h', overCached act k i h = .ok h' ∧ I h' [] := by
  induction k generalizing i h with
  | zero =>
    have w := hW _ _ hin
    rw [List.drop_eq_nil_of_le (by rw [w.len]; omega)] at hin
    exact .inr ⟨h, rfl, hin⟩
  | succ k ih =>
    have w := hW _ _ hin
    have hi : i < h.a.length := by rw [w.len]; omega
    rw [List.drop_eq_getElem_cons hi, List.flatten_cons] at hin
    obtain ⟨h', e1, i1, n1, k1⟩ := overBucket_spec hI h.a[i] _ h i (fun e he => (w.loc i hi e he).2) hin
    rw [overCached, rd_ok hi, Res.ok_bind, e1, Res.ok_bind]
    by_cases hn : h'.n = h.n
    · rw [← drop_congr fun j hj => k1 hn j (by omega)] at i1
      exact ih (i + 1) h' (by omega) i1
    · by_cases hk0 : k = 0
      · subst hk0
        rw [List.drop_eq_nil_of_le (by rw [w.len]; omega)] at i1
        exact .inr ⟨h', rfl, i1⟩
      · exact .inl (overCached_ub hT k (i + 1) h' (hW _ _ i1) (by omega) (by omega))

/-- The same loop, if the table keeps its size. -/
theorem overCached_ok {act : HashMap K V → Entry K V → Res (HashMap K V)} {I : HashMap K V → List (Entry K V) → Prop}
    (hI : Keeps hash act I) (hW : ∀ (h : HashMap K V) es, I h es → h.WF hash) (n0 : Nat)
    (hn0 : ∀ (h : HashMap K V) es, I h es → h.n = n0) (k i : Nat)
    (h : HashMap K V) (hk : i + k = n0) (hin : I h (h.a.drop i).flatten) :
    ∃ h', overCached act k i h = .ok h' ∧ I h' [] := by
  induction k generalizing i h with
  | zero =>
    have w := hW _ _ hin
    have := hn0 _ _ hin
    rw [List.drop_eq_nil_of_le (by rw [w.len]; omega)] at hin
    exact ⟨h, rfl, hin⟩
  | succ k ih =>
    have w := hW _ _ hin
    have hn := hn0 _ _ hin
    have hi : i < h.a.length := by rw [w.len]; omega
    rw [List.drop_eq_getElem_cons hi, List.flatten_cons] at hin
    obtain ⟨h', e1, i1, n1, k1⟩ := overBucket_spec hI h.a[i] _ h i (fun e he => (w.loc i hi e he).2) hin
    rw [overCached, rd_ok hi, Res.ok_bind, e1, Res.ok_bind]
    have hn' := hn0 _ _ i1
    rw [← drop_congr fun j hj => k1 (by omega) j (by omega)] at i1
    exact ih (i + 1) h' (by omega) i1

/-- The loop of `generate`, if the table keeps its size. -/
theorem generateWith_ok {act : HashMap K V → K → Res (HashMap K V)} {I : HashMap K V → List (Entry K V) → Prop}
    (hI : Keeps hash (fun h e => act h e.key) I) (hW : ∀ (h : HashMap K V) es, I h es → h.WF hash) (n0 : Nat)
    (hn0 : ∀ (h : HashMap K V) es, I h es → h.n = n0) (fuel i : Nat)
    (h : HashMap K V) (hf : n0 < i + fuel) (hi0 : i ≤ n0) (hin : I h (h.a.drop i).flatten) :
    ∃ h', generateWith act fuel i h = .ok (h', (h.a.drop i).flatten.map (·.key)) ∧ I h' [] := by
  induction fuel generalizing i h with
  | zero => omega
  | succ fuel ih =>
    have w := hW _ _ hin
    have hn := hn0 _ _ hin
    rw [generateWith]
    by_cases hlt : i < h.n
    · have hi : i < h.a.length := by rw [w.len]; omega
      rw [List.drop_eq_getElem_cons hi, List.flatten_cons] at hin ⊢
      obtain ⟨h', e1, i1, n1, k1⟩ := overBucket_spec hI h.a[i] _ h i (fun e he => (w.loc i hi e he).2) hin
      have hn' := hn0 _ _ i1
      have hd := drop_congr fun j (hj : i < j) => k1 (by omega) j (by omega)
      rw [← hd] at i1 ⊢
      obtain ⟨h2, e2, i2⟩ := ih (i + 1) h' (by omega) (by omega) i1
      refine ⟨h2, ?_, i2⟩
      rw [if_pos hlt, rd_ok hi, Res.ok_bind, e1, Res.ok_bind, e2, Res.ok_bind, List.map_append]
    · rw [List.drop_eq_nil_of_le (by rw [w.len]; omega)] at hin ⊢
      exact ⟨h, by rw [if_neg hlt]; rfl, hin⟩

/-- The action of a patch: the entry stays if `d` holds, else it is removed. -/
def Does (hash : K → BitVec 32) (act : HashMap K V → Entry K V → Res (HashMap K V)) (d : K → V → Bool) : Prop :=
  ∀ (h : HashMap K V) (e : Entry K V), h.WF hash → h.abs e.key = some e.im →
    act h e = if d e.key e.im then h.set hash e.key e.im else h.reset hash e.key

theorem Does.total {act : HashMap K V → Entry K V → Res (HashMap K V)} {d : K → V → Bool} (hd : Does hash act d) :
    Total hash act := by
  intro h e w he
  rw [hd h e w he]
  by_cases hc : d e.key e.im = true
  · rw [if_pos hc]
    obtain ⟨h', e1, w1, a1, -, -⟩ := set_spec w e.key e.im
    refine ⟨h', e1, w1, (set_near w e.key e.im (by rw [he]; rfl) e1).1.1, fun x hx => ?_⟩
    rw [a1]; exact if_neg hx
  · rw [if_neg hc]
    obtain ⟨h', e1, w1, a1, -, -⟩ := reset_spec w e.key
    refine ⟨h', e1, w1, (reset_near w e.key e1).1.1, fun x hx => ?_⟩
    rw [a1]; exact if_neg hx

/-- The invariant of the loops: the entries to come are as at the start, of the others those stay for which `d` holds. -/
def Inv (hash : K → BitVec 32) (h0 : HashMap K V) (s : Spec K V) (d : K → V → Bool) (h : HashMap K V)
    (es : List (Entry K V)) : Prop :=
  ∃ s', Built hash h s' ∧ s'.dflt = s.dflt ∧ h.max = h0.max ∧ (es.map (·.key)).Nodup ∧
    (∀ e ∈ es, s.val e.key = some e.im) ∧
    ∀ x, s'.val x = if x ∈ es.map (·.key) then s.val x else (s.val x).filter (d x)

theorem set_max {h : HashMap K V} (w : h.WF hash) {x : K} {v : V} {h' : HashMap K V} (e : h.set hash x v = .ok h') :
    h'.max = h.max := by
  obtain ⟨h1, e1, -, -, -, m⟩ := set_spec w x v
  rw [e1] at e; rw [← Res.ok.inj e]; exact m

theorem reset_max {h : HashMap K V} (w : h.WF hash) {x : K} {h' : HashMap K V} (e : h.reset hash x = .ok h') :
    h'.max = h.max := by
  obtain ⟨h1, e1, -, -, -, m⟩ := reset_spec w x
  rw [e1] at e; rw [← Res.ok.inj e]; exact m

theorem Inv.step {act : HashMap K V → Entry K V → Res (HashMap K V)} {d : K → V → Bool} (hd : Does hash act d)
    {h0 h : HashMap K V} {s : Spec K V} {e : Entry K V} {es : List (Entry K V)} (hin : Inv hash h0 s d h (e :: es)) :
    ∃ h', act h e = .ok h' ∧ Near hash h h' e.key ∧ Inv hash h0 s d h' es ∧
      (d e.key e.im = true ∨ ((h.n / 2 : Nat) : Int) * h.max ≤ h.size - 1 → h'.n = h.n) := by
  obtain ⟨s', b', hdf, hm, hn, hv, hs⟩ := hin
  obtain ⟨w, ha, -⟩ := built_inv b'
  rw [List.map_cons, List.nodup_cons] at hn
  have hsv := hv e List.mem_cons_self
  have hs' : s'.val e.key = some e.im := by rw [hs, if_pos (by simp), hsv]
  have hx : h.abs e.key = some e.im := by rw [ha, hs']
  rw [hd h e w hx]
  by_cases hc : d e.key e.im = true
  · rw [if_pos hc]
    obtain ⟨h', e1, -, -, -, m1⟩ := set_spec w e.key e.im
    have hnear := set_near w e.key e.im (by rw [hx]; rfl) e1
    refine ⟨h', e1, hnear.1, ⟨_, b'.set e.key e.im e1, hdf, m1.trans hm, hn.2,
      fun e' he' => hv e' (List.mem_cons_of_mem _ he'), fun x => ?_⟩, fun _ => hnear.2⟩
    show (if x = e.key then some e.im else s'.val x) = _
    by_cases hxe : x = e.key
    · subst hxe
      rw [if_pos rfl, if_neg hn.1, hsv, Option.filter_some, if_pos hc]
    · rw [if_neg hxe, hs]
      simp only [List.map_cons, List.mem_cons, hxe, false_or]
  · rw [if_neg hc]
    obtain ⟨h', e1, -, -, -, m1⟩ := reset_spec w e.key
    have hnear := reset_near w e.key e1
    refine ⟨h', e1, hnear.1, ⟨_, b'.reset e.key e1, hdf, m1.trans hm, hn.2,
      fun e' he' => hv e' (List.mem_cons_of_mem _ he'), fun x => ?_⟩,
      fun h => hnear.2 (h.resolve_left hc)⟩
    show (if x = e.key then none else s'.val x) = _
    by_cases hxe : x = e.key
    · subst hxe
      rw [if_pos rfl, if_neg hn.1, hsv, Option.filter_some, if_neg hc]
    · rw [if_neg hxe, hs]
      simp only [List.map_cons, List.mem_cons, hxe, false_or]

theorem Inv.start {h : HashMap K V} {s : Spec K V} (b : Built hash h s) (d : K → V → Bool) :
    Inv hash h s d h (h.a.drop 0).flatten := by
  obtain ⟨w, ha, -⟩ := built_inv b
  rw [List.drop_zero]
  refine ⟨s, b, rfl, rfl, w.nodup, fun e he => ?_, fun x => ?_⟩
  · rw [← ha]; exact (look_eq_some w.nodup).2 ⟨e, he, rfl, rfl⟩
  · by_cases hx : x ∈ h.a.flatten.map (·.key)
    · rw [if_pos hx]
    · rw [if_neg hx]
      have : s.val x = none := by rw [← ha]; exact look_eq_none.2 hx
      rw [this]; rfl

theorem Inv.wf {h0 h : HashMap K V} {s : Spec K V} {d : K → V → Bool} {es : List (Entry K V)}
    (hi : Inv hash h0 s d h es) : h.WF hash := (built_inv hi.choose_spec.1).1

theorem Inv.done {h0 h : HashMap K V} {s : Spec K V} {d : K → V → Bool} (hi : Inv hash h0 s d h []) :
    ∃ s', Built hash h s' ∧ s'.dflt = s.dflt ∧ ∀ x, s'.val x = (s.val x).filter (d x) := by
  obtain ⟨s', b', hdf, -, -, -, hs⟩ := hi
  exact ⟨s', b', hdf, fun x => by rw [hs]; simp⟩

/-- A loop with the cached number of buckets, whatever is removed. -/
theorem does_spec {act : HashMap K V → Entry K V → Res (HashMap K V)} {d : K → V → Bool} (hd : Does hash act d)
    {h : HashMap K V} {s : Spec K V} (b : Built hash h s) :
    overCached act h.n 0 h = .ub ∨ ∃ h' s', overCached act h.n 0 h = .ok h' ∧ Built hash h' s' ∧
      s'.dflt = s.dflt ∧ ∀ x, s'.val x = (s.val x).filter (d x) := by
  rcases overCached_spec (I := Inv hash h s d) hd.total
    (fun h e es hin => ⟨hin.wf, by
      obtain ⟨h', h1, h2, h3, -⟩ := hin.step hd
      exact ⟨h', h1, h2, h3⟩⟩)
    (fun h es hin => hin.wf) h.n 0 h (by omega) (Inv.start b d) with h1 | ⟨h', h1, h2⟩
  · exact .inl h1
  · obtain ⟨s', h3, h4, h5⟩ := h2.done
    exact .inr ⟨h', s', h1, h3, h4, h5⟩

/-- The entries that stay while an entry is removed: the table is still full enough. -/
theorem Inv.full {h0 h : HashMap K V} {s : Spec K V} {d : K → V → Bool} {e : Entry K V} {es : List (Entry K V)}
    (hin : Inv hash h0 s d h (e :: es)) (hc : d e.key e.im = false) (ks : List K) (hks : ks.Nodup)
    (hst : ∀ x ∈ ks, ∃ v, s.val x = some v ∧ d x v = true) : (ks.length : Int) ≤ h.size - 1 := by
  obtain ⟨s', b', -, -, hn, hv, hs⟩ := hin
  obtain ⟨w, -, -⟩ := built_inv b'
  have he := wf_enum b'
  have hsub : (e.key :: ks).length ≤ h.generate.length := by
    apply nodup_subset_length
    · refine List.nodup_cons.2 ⟨fun hx => ?_, hks⟩
      obtain ⟨v, h1, h2⟩ := hst _ hx
      rw [hv e List.mem_cons_self] at h1
      rw [← Option.some.inj h1, hc] at h2
      cases h2
    · intro x hx
      refine (he.2 x).2 ?_
      show (s'.val x).isSome = true
      rw [hs]
      rcases List.mem_cons.1 hx with rfl | hx
      · rw [if_pos (by simp), hv e List.mem_cons_self]; rfl
      · obtain ⟨v, h1, h2⟩ := hst _ hx
        rw [h1]
        split
        · rfl
        · rw [Option.filter_some, if_pos h2]; rfl
  have := w.size
  have hg : h.generate.length = h.a.flatten.length := by rw [generate, List.length_map]
  simp only [List.length_cons] at hsub
  omega

/-- The invariant together with the size of the table, for a loop in which enough entries stay. -/
theorem Inv.keeps {act : HashMap K V → Entry K V → Res (HashMap K V)} {d : K → V → Bool} (hd : Does hash act d)
    {h0 : HashMap K V} {s : Spec K V} (ks : List K) (hks : ks.Nodup)
    (hst : ∀ x ∈ ks, ∃ v, s.val x = some v ∧ d x v = true)
    (hfull : (∀ x v, s.val x = some v → d x v = true) ∨ ((h0.n / 2 : Nat) : Int) * h0.max ≤ (ks.length : Int)) :
    Keeps hash act (fun h es => Inv hash h0 s d h es ∧ h.n = h0.n) := by
  intro h e es ⟨hin, hn⟩
  obtain ⟨h', h1, h2, h3, h4⟩ := hin.step hd
  refine ⟨hin.wf, h', h1, h2, h3, ?_⟩
  rw [← hn]
  apply h4
  by_cases hc : d e.key e.im = true
  · exact .inl hc
  · right
    have hm : h.max = h0.max := by
      obtain ⟨s', -, -, hm, -⟩ := hin
      exact hm
    rcases hfull with hall | hfull
    · obtain ⟨s', -, -, -, -, hv, -⟩ := hin
      exact absurd (hall _ _ (hv e List.mem_cons_self)) hc
    · have := hin.full (by simpa using hc) ks hks hst
      rw [hn, hm]
      omega

/-- A loop with the cached number of buckets in which enough entries stay. -/
theorem does_ok {act : HashMap K V → Entry K V → Res (HashMap K V)} {d : K → V → Bool} (hd : Does hash act d)
    {h : HashMap K V} {s : Spec K V} (b : Built hash h s) (ks : List K) (hks : ks.Nodup)
    (hst : ∀ x ∈ ks, ∃ v, s.val x = some v ∧ d x v = true)
    (hfull : (∀ x v, s.val x = some v → d x v = true) ∨ ((h.n / 2 : Nat) : Int) * h.max ≤ (ks.length : Int)) :
    ∃ h' s', overCached act h.n 0 h = .ok h' ∧ Built hash h' s' ∧
      s'.dflt = s.dflt ∧ ∀ x, s'.val x = (s.val x).filter (d x) := by
  obtain ⟨h', h1, h2, -⟩ := overCached_ok (I := fun h' es => Inv hash h s d h' es ∧ h'.n = h.n)
    (Inv.keeps hd ks hks hst hfull)
    (fun h es hin => hin.1.wf) h.n (fun h es hin => hin.2) h.n 0 h (by omega) ⟨Inv.start b d, rfl⟩
  obtain ⟨s', h3, h4, h5⟩ := h2.done
  exact ⟨h', s', h1, h3, h4, h5⟩

theorem assignB_same {l : List (Entry K V)} {hv : BitVec 32} {x : K} {v : V} (h : findB hv x l = some v) :
    assignB hv x v l = l := by
  induction l with
  | nil => rfl
  | cons e l ih =>
    unfold findB at h
    unfold assignB
    split
    · rename_i hc
      rw [if_pos hc] at h
      rw [← Option.some.inj h]
    · rename_i hc
      rw [if_neg hc] at h
      rw [ih h]

/-- Assigning to a key the value that it has changes nothing. -/
theorem set_same {h : HashMap K V} (w : h.WF hash) {x : K} {v : V} (hx : h.abs x = some v) :
    h.set hash x v = .ok h := by
  obtain ⟨l, h1, h2⟩ := w.findB x
  rw [hx] at h2
  have ht : h.touch hash x = .ok h := by simp [touch, h1, h2]
  have hi := w.idx x
  have hl : h.a[bidx (hash x) h.n] = l := by rw [rd_ok hi] at h1; exact Res.ok.inj h1
  simp only [HashMap.set, ht, Res.ok_bind, assign, rd_ok hi, wr_ok hi, hl, assignB_same h2]
  rw [← hl, List.set_getElem_self]

theorem patch1_does {h base : HashMap K V} (wb : base.WF hash) (x : K) (v : V) :
    h.patch1 hash base x v = if decide (((base.abs x).getD base.init) ≠ v) then h.set hash x v else h.reset hash x := by
  rw [patch1, get_spec wb, Res.ok_bind]
  by_cases hc : (base.abs x).getD base.init = v
  · rw [if_pos hc, if_neg (by simp [hc])]
  · rw [if_neg hc, if_pos (by simp [hc])]

theorem pre_eq {h base : HashMap K V} (w : h.WF hash) {e : Entry K V} (he : h.abs e.key = some e.im) :
    (do
      let c ← h.contains hash e.key
      let y ← if c then h.get hash e.key else .ok e.im
      h.patch1 hash base e.key y : Res (HashMap K V)) = h.patch1 hash base e.key e.im := by
  rw [contains_spec w, Res.ok_bind, he]
  show (h.get hash e.key).bind _ = _
  rw [get_spec w, he]; rfl

theorem post_does {b : HashMap K V} {u : Spec K V} (hb : Built hash b u) :
    Does hash (fun h e => h.patch1 hash ((some b).getD h) e.key e.im) (fun x v => decide (u.read x ≠ v)) := by
  intro h e w he
  obtain ⟨wb, ab, ib⟩ := built_inv hb
  show h.patch1 hash b e.key e.im = _
  rw [patch1_does wb, ab, ib]; rfl

theorem pre_does {b : HashMap K V} {u : Spec K V} (hb : Built hash b u) :
    Does hash (fun h e => do
      let c ← h.contains hash e.key
      let y ← if c then h.get hash e.key else .ok e.im
      h.patch1 hash ((some b).getD h) e.key y) (fun x v => decide (u.read x ≠ v)) := by
  intro h e w he
  exact (pre_eq w he).trans (post_does hb h e w he)

theorem post_own_does :
    Does hash (fun (h : HashMap K V) e => h.patch1 hash ((none : Option (HashMap K V)).getD h) e.key e.im)
      (fun _ _ => false) := by
  intro h e w he
  show h.patch1 hash h e.key e.im = _
  rw [patch1_does w, he]
  simp

theorem pre_own_does :
    Does hash (fun (h : HashMap K V) e => do
      let c ← h.contains hash e.key
      let y ← if c then h.get hash e.key else .ok e.im
      h.patch1 hash ((none : Option (HashMap K V)).getD h) e.key y) (fun _ _ => false) := by
  intro h e w he
  exact (pre_eq w he).trans (post_own_does h e w he)

theorem filter_read (u : Spec K V) (o : Option V) (x : K) :
    o.filter (fun v => decide (u.read x ≠ v)) = match o with
      | none => none
      | some v => if u.read x = v then none else some v := by
  cases o with
  | none => rfl
  | some v =>
    rw [Option.filter_some]
    by_cases h : u.read x = v
    · simp [h]
    · simp [h]

/-! ## C169 -/

/-- C169: `h->join (h)` changes nothing. -/
theorem C169_join {h : HashMap K V} {s : Spec K V} (b : Built hash h s) : h.selfJoin hash = .ok h := by
  have w := (built_inv b).1
  obtain ⟨h', h1, h2⟩ := overCached_ok (hash := hash) (act := fun h e => h.set hash e.key e.im)
    (I := fun h' es => h' = h ∧ ∀ e ∈ es, h.abs e.key = some e.im)
    (fun h' e es hin => by
      obtain ⟨rfl, hin⟩ := hin
      refine ⟨w, h', set_same w (hin e List.mem_cons_self), ⟨Nat.le_refl _, fun _ _ _ => rfl⟩, rfl,
        fun e' he' => hin e' (List.mem_cons_of_mem _ he')⟩)
    (fun h' es hin => hin.1 ▸ w) h.n (fun h' es hin => by rw [hin.1]) h.n 0 h (by omega)
    ⟨rfl, fun e he => (look_eq_some w.nodup).2 ⟨e, by rwa [List.drop_zero] at he, rfl, rfl⟩⟩
  rw [selfJoin, h1, h2.1]

/-- C169: `h->write_back (x, h)` gives what it gives with a copy of `h`: a key that was absent is present afterwards, with
the default value, and nothing else changes. -/
theorem C169_write_back {h : HashMap K V} {s : Spec K V} (b : Built hash h s) (x : K) :
    ∃ h' s', h.selfWriteBack hash x = .ok h' ∧ Built hash h' s' ∧ s'.dflt = s.dflt ∧
      ∀ y, s'.val y = if y = x then some (s.read x) else s.val y := by
  obtain ⟨w, ha, hi⟩ := built_inv b
  obtain ⟨l, h1, h2⟩ := w.findB x
  rw [selfWriteBack, h1, Res.ok_bind, h2]
  cases hx : h.abs x with
  | some v =>
    refine ⟨h, s, rfl, b, rfl, fun y => ?_⟩
    by_cases hy : y = x
    · subst hy; rw [if_pos rfl, Spec.read, ← ha, hx]; rfl
    · rw [if_neg hy]
  | none =>
    obtain ⟨h', e1, -⟩ := touch_spec w x
    have e1' : h.insertNew hash x = .ok h' := by
      have := e1
      rw [touch, h1, Res.ok_bind, h2, hx] at this
      exact this
    have b' := b.touch x e1
    obtain ⟨w', ha', -⟩ := built_inv b'
    obtain ⟨l', h3, h4⟩ := w'.findB x
    have hx' : h'.abs x = some (s.read x) := by rw [ha']; exact if_pos rfl
    refine ⟨h', _, ?_, b', rfl, fun y => rfl⟩
    dsimp only
    rw [e1', Res.ok_bind, h3, Res.ok_bind, h4, hx']
    have hi' := w'.idx x
    have hl : h'.a[bidx (hash x) h'.n] = l' := by rw [rd_ok hi'] at h3; exact Res.ok.inj h3
    show h'.assign hash x (s.read x) = .ok h'
    rw [hx'] at h4
    simp only [assign, rd_ok hi', wr_ok hi', Res.ok_bind, hl, assignB_same h4]
    rw [← hl, List.set_getElem_self]

/-- C169: `h->post_patch (h, base)` and `h->pre_patch (h, base)` remove from `h` the entries whose value is that of `base`
and keep the others, as with a copy of `h` as patch, **or** read outside the table; there is no other outcome. -/
theorem C169_patch_partial {h b : HashMap K V} {s u : Spec K V} (bh : Built hash h s) (bb : Built hash b u) :
    (h.selfPost hash (some b) = .ub ∨ ∃ h' s', h.selfPost hash (some b) = .ok h' ∧ Built hash h' s' ∧
      s'.dflt = s.dflt ∧ ∀ x, s'.val x = match s.val x with
        | none => none
        | some v => if u.read x = v then none else some v) ∧
    (h.selfPre hash (some b) = .ub ∨ ∃ h' s', h.selfPre hash (some b) = .ok h' ∧ Built hash h' s' ∧
      s'.dflt = s.dflt ∧ ∀ x, s'.val x = match s.val x with
        | none => none
        | some v => if u.read x = v then none else some v) := by
  constructor
  · refine (does_spec (post_does bb) bh).imp id ?_
    rintro ⟨h', s', h1, h2, h3, h4⟩
    exact ⟨h', s', h1, h2, h3, fun x => (h4 x).trans (filter_read u _ x)⟩
  · refine (does_spec (pre_does bb) bh).imp id ?_
    rintro ⟨h', s', h1, h2, h3, h4⟩
    exact ⟨h', s', h1, h2, h3, fun x => (h4 x).trans (filter_read u _ x)⟩

/-- C169: they succeed if enough entries differ from `base`: `max` for each bucket of a table of half the size. -/
theorem C169_kept_partial {h b : HashMap K V} {s u : Spec K V} (bh : Built hash h s) (bb : Built hash b u)
    (ks : List K) (hks : ks.Nodup) (hst : ∀ x ∈ ks, ∃ v, s.val x = some v ∧ u.read x ≠ v)
    (hfull : ((h.n / 2 : Nat) : Int) * h.max ≤ (ks.length : Int)) :
    (∃ h' s', h.selfPost hash (some b) = .ok h' ∧ Built hash h' s' ∧
      s'.dflt = s.dflt ∧ ∀ x, s'.val x = match s.val x with
        | none => none
        | some v => if u.read x = v then none else some v) ∧
    (∃ h' s', h.selfPre hash (some b) = .ok h' ∧ Built hash h' s' ∧
      s'.dflt = s.dflt ∧ ∀ x, s'.val x = match s.val x with
        | none => none
        | some v => if u.read x = v then none else some v) := by
  have hst' : ∀ x ∈ ks, ∃ v, s.val x = some v ∧ decide (u.read x ≠ v) = true := fun x hx => by
    obtain ⟨v, h1, h2⟩ := hst x hx
    exact ⟨v, h1, by simpa using h2⟩
  constructor
  · obtain ⟨h', s', h1, h2, h3, h4⟩ := does_ok (post_does bb) bh ks hks hst' (.inr hfull)
    exact ⟨h', s', h1, h2, h3, fun x => (h4 x).trans (filter_read u _ x)⟩
  · obtain ⟨h', s', h1, h2, h3, h4⟩ := does_ok (pre_does bb) bh ks hks hst' (.inr hfull)
    exact ⟨h', s', h1, h2, h3, fun x => (h4 x).trans (filter_read u _ x)⟩

/-- C169: with `h` as patch and as base, all entries are removed, or memory outside the table is read. -/
theorem C169_both_partial {h : HashMap K V} {s : Spec K V} (bh : Built hash h s) :
    (h.selfPost hash none = .ub ∨ ∃ h' s', h.selfPost hash none = .ok h' ∧ Built hash h' s' ∧
      s'.dflt = s.dflt ∧ ∀ x, s'.val x = none) ∧
    (h.selfPre hash none = .ub ∨ ∃ h' s', h.selfPre hash none = .ok h' ∧ Built hash h' s' ∧
      s'.dflt = s.dflt ∧ ∀ x, s'.val x = none) := by
  have hf : ∀ o : Option V, o.filter (fun _ => false) = none := fun o => by cases o <;> rfl
  constructor
  · refine (does_spec post_own_does bh).imp id ?_
    rintro ⟨h', s', h1, h2, h3, h4⟩
    exact ⟨h', s', h1, h2, h3, fun x => (h4 x).trans (hf _)⟩
  · refine (does_spec pre_own_does bh).imp id ?_
    rintro ⟨h', s', h1, h2, h3, h4⟩
    exact ⟨h', s', h1, h2, h3, fun x => (h4 x).trans (hf _)⟩

/-- C169: the table shrinks while it is gone through. The keys 0, 1, 2, 3 are in four buckets and have their values in
`base` too; after the third removal the table has two buckets and the loop reads the fourth. The same happens with `h`
as its own base. -/
theorem C169_patch_violated : ∃ h b : HashMap Nat Nat, ∃ s u, Built (fun x => BitVec.ofNat 32 x) h s ∧
    Built (fun x => BitVec.ofNat 32 x) b u ∧ (∀ x, x < 4 → s.val x = some 7) ∧ u.dflt = 7 ∧
    h.selfPost (fun x => BitVec.ofNat 32 x) (some b) = .ub ∧ h.selfPre (fun x => BitVec.ofNat 32 x) (some b) = .ub ∧
    h.selfPost (fun x => BitVec.ofNat 32 x) none = .ub ∧ h.selfPre (fun x => BitVec.ofNat 32 x) none = .ub :=
  ⟨_, _, _, _, .set 3 7 (.set 2 7 (.set 1 7 (.set 0 7 (.new 0 1 1 (by decide)) rfl) rfl) rfl) rfl,
    .new 7 1 1 (by decide), by decide, rfl, rfl, rfl, rfl, rfl⟩

/-- The hypotheses of `C169_kept_partial` are met: two of the keys 0, 1, 2, 3 differ from `base`. -/
example : ∃ h b : HashMap Nat Nat, ∃ s u, Built (fun x => BitVec.ofNat 32 x) h s ∧
    Built (fun x => BitVec.ofNat 32 x) b u ∧ (∀ x ∈ [1, 3], ∃ v, s.val x = some v ∧ u.read x ≠ v) ∧
    ((h.n / 2 : Nat) : Int) * h.max ≤ (([1, 3] : List Nat).length : Int) ∧
    ∃ h', h.selfPost (fun x => BitVec.ofNat 32 x) (some b) = .ok h' ∧ h'.generate = [1, 3] :=
  ⟨_, _, _, _, .set 3 8 (.set 2 7 (.set 1 8 (.set 0 7 (.new 0 1 1 (by decide)) rfl) rfl) rfl) rfl,
    .new 7 1 1 (by decide), fun x hx => ⟨8, by revert x; decide⟩, by decide, _, rfl, rfl⟩

/-- `h` as the base of a patch is read as it was before: one step (helper). -/
theorem own_base_spec (es : List (Entry K V)) (hn : (es.map (·.key)).Nodup) {h : HashMap K V} {s : Spec K V}
    (b : Built hash h s) :
    (∃ h' s', overBucket (fun h e => h.patch1 hash h e.key e.im) es h = .ok h' ∧ Built hash h' s' ∧ s'.dflt = s.dflt ∧
      ∀ x, s'.val x = match look es x with
        | none => s.val x
        | some v => if s.read x = v then none else some v) ∧
    (∃ h' s', overBucket (fun h e => do
        let c ← h.contains hash e.key
        let y ← if c then h.get hash e.key else .ok e.im
        h.patch1 hash h e.key y) es h = .ok h' ∧ Built hash h' s' ∧ s'.dflt = s.dflt ∧
      ∀ x, s'.val x = match look es x with
        | none => s.val x
        | some v => if s.read x = (s.val x).getD v then none else some ((s.val x).getD v)) := by
  have one : ∀ {h : HashMap K V} {s : Spec K V}, Built hash h s → ∀ (k : K) (v : V),
      ∃ h' s', h.patch1 hash h k v = .ok h' ∧ Built hash h' s' ∧ s'.dflt = s.dflt ∧
        ∀ x, s'.val x = if x = k then (if s.read k = v then none else some v) else s.val x := by
    intro h s b k v
    obtain ⟨w, ha, hi⟩ := built_inv b
    rw [patch1_does w, ha, hi]
    by_cases hc : s.read k = v
    · rw [if_neg (by simpa [Spec.read] using hc)]
      obtain ⟨h', e1, -⟩ := reset_spec w k
      exact ⟨h', _, e1, b.reset k e1, rfl, fun x => by rw [if_pos hc]; rfl⟩
    · rw [if_pos (by simpa [Spec.read] using hc)]
      obtain ⟨h', e1, -⟩ := set_spec w k v
      exact ⟨h', _, e1, b.set k v e1, rfl, fun x => by rw [if_neg hc]; rfl⟩
  induction es generalizing h s with
  | nil => exact ⟨⟨h, s, rfl, b, rfl, fun x => rfl⟩, h, s, rfl, b, rfl, fun x => rfl⟩
  | cons e es ih =>
    rw [List.map_cons, List.nodup_cons] at hn
    constructor
    · obtain ⟨h1, s1, e1, b1, d1, v1⟩ := one b e.key e.im
      obtain ⟨h2, s2, e2, b2, d2, v2⟩ := (ih hn.2 b1).1
      refine ⟨h2, s2, by rw [overBucket, e1]; exact e2, b2, d2.trans d1, fun x => ?_⟩
      rw [v2, look_cons]
      by_cases hx : e.key = x
      · subst hx
        rw [if_pos rfl, look_eq_none.2 hn.1]
        dsimp only
        rw [v1, if_pos rfl]
      · rw [if_neg hx]
        have hx' : x ≠ e.key := fun h => hx h.symm
        have hr : s1.read x = s.read x := by rw [Spec.read, Spec.read, v1, if_neg hx', d1]
        rw [v1, if_neg hx', hr]
    · obtain ⟨w, ha, hi⟩ := built_inv b
      obtain ⟨h1, s1, e1, b1, d1, v1⟩ := one b e.key ((s.val e.key).getD e.im)
      obtain ⟨h2, s2, e2, b2, d2, v2⟩ := (ih hn.2 b1).2
      refine ⟨h2, s2, ?_, b2, d2.trans d1, fun x => ?_⟩
      · rw [overBucket]
        cases hx : s.val e.key with
        | none =>
          simp [contains_spec w, ha, hx, ← e2]; simp [hx] at e1; simp [e1]
        | some v =>
          simp [contains_spec w, get_spec w, ha, hx, ← e2]; simp [hx] at e1; simp [e1]
      rw [v2, look_cons]
      by_cases hx : e.key = x
      · subst hx
        rw [if_pos rfl, look_eq_none.2 hn.1]
        dsimp only
        rw [v1, if_pos rfl]
      · rw [if_neg hx]
        have hx' : x ≠ e.key := fun h => hx h.symm
        have hr : s1.read x = s.read x := by rw [Spec.read, Spec.read, v1, if_neg hx', d1]
        rw [v1, if_neg hx', hr]

/-- C169: `h->post_patch (p, h)` and `h->pre_patch (p, h)` with another map `p` give what they give with a copy of `h` as
base: an entry of `p` with the value that `h` had is removed, another one is stored; `pre_patch` prefers the value that
`h` had, which is then that of the base, so that the keys of `p` that are in `h` are removed. -/
theorem C169_base {h p : HashMap K V} {s t : Spec K V} (bh : Built hash h s) (bp : Built hash p t) :
    (∃ h' s', h.postOwnBase hash p = .ok h' ∧ Built hash h' s' ∧ s'.dflt = s.dflt ∧
      ∀ x, s'.val x = match t.val x with
        | none => s.val x
        | some v => if s.read x = v then none else some v) ∧
    (∃ h' s', h.preOwnBase hash p = .ok h' ∧ Built hash h' s' ∧ s'.dflt = s.dflt ∧
      ∀ x, s'.val x = match t.val x with
        | none => s.val x
        | some v => if (s.val x).isSome ∨ s.dflt = v then none else some v) := by
  obtain ⟨w, ha, -⟩ := built_inv bp
  obtain ⟨⟨h1, s1, e1, b1, d1, v1⟩, h2, s2, e2, b2, d2, v2⟩ := own_base_spec p.a.flatten w.nodup bh
  refine ⟨⟨h1, s1, e1, b1, d1, fun x => ?_⟩, h2, s2, e2, b2, d2, fun x => ?_⟩
  · rw [v1]; rw [← ha]; rfl
  · rw [v2]
    rw [show look p.a.flatten x = t.val x by rw [← ha]; rfl]
    cases t.val x with
    | none => rfl
    | some v =>
      dsimp only
      rw [Spec.read]
      cases s.val x with
      | none => simp
      | some y => simp

/-- C169: a routine given to `generate` may change the value of the key it is called with: it is called once for each key
present, and afterwards each key has its new value, computed from its old one. -/
theorem C169_generate_update {h : HashMap K V} {s : Spec K V} (b : Built hash h s) (g : K → V → V) (fuel : Nat)
    (hf : h.n < fuel) :
    ∃ h' ks s', generateWith (fun h k => (h.get hash k).bind fun v => h.set hash k (g k v)) fuel 0 h = .ok (h', ks) ∧
      Enumerates ks (fun x => (s.val x).isSome = true) ∧
      Built hash h' s' ∧ s'.dflt = s.dflt ∧ ∀ x, s'.val x = (s.val x).map (g x) := by
  have he := wf_enum b
  obtain ⟨h', h1, ⟨s', h2, h3, -, -, h6⟩, -⟩ := generateWith_ok (hash := hash)
    (act := fun h k => (h.get hash k).bind fun v => h.set hash k (g k v))
    (I := fun h' es => (∃ s', Built hash h' s' ∧ s'.dflt = s.dflt ∧ (es.map (·.key)).Nodup ∧
      (∀ e ∈ es, (s.val e.key).isSome = true) ∧
      ∀ x, s'.val x = if x ∈ es.map (·.key) then s.val x else (s.val x).map (g x)) ∧ h'.n = h.n)
    (by
      rintro h1 e es ⟨⟨s', b', hd, hn, hk, hv⟩, hnn⟩
      obtain ⟨w, ha, hi⟩ := built_inv b'
      refine ⟨w, ?_⟩
      rw [List.map_cons, List.nodup_cons] at hn
      obtain ⟨v, hsv⟩ := Option.isSome_iff_exists.1 (hk e List.mem_cons_self)
      have hav : h1.abs e.key = some v := by rw [ha, hv, if_pos (by simp), hsv]
      have hg := get_spec w e.key
      rw [hav] at hg
      obtain ⟨h', hs, w', -, -, -⟩ := set_spec w e.key (g e.key v)
      have hne := set_near w e.key (g e.key v) (by rw [hav]; rfl) hs
      refine ⟨h', by dsimp only; rw [hg]; exact hs, hne.1, ⟨_, b'.set e.key (g e.key v) hs, hd,
        hn.2, fun x hx => hk x (List.mem_cons_of_mem _ hx), fun x => ?_⟩, hne.2.trans hnn⟩
      show (if x = e.key then some (g e.key v) else s'.val x) = _
      by_cases hx : x = e.key
      · subst hx
        rw [if_pos rfl, if_neg hn.1, hsv]; rfl
      · rw [if_neg hx, hv]
        simp only [List.map_cons, List.mem_cons, hx, false_or])
    (fun h ks hI => (built_inv hI.1.choose_spec.1).1) h.n (fun h' es hI => hI.2) fuel 0 h (by omega) (by omega)
    ⟨⟨s, b, rfl, he.1, fun e hx => (he.2 e.key).1 (List.mem_map_of_mem hx), fun x => by
      rw [List.drop_zero]
      by_cases hx : x ∈ h.a.flatten.map (·.key)
      · rw [if_pos hx]
      · rw [if_neg hx]
        have : s.val x = none := by
          cases hs : s.val x with
          | none => rfl
          | some v => exact absurd ((he.2 x).2 (by simp only [hs]; rfl)) hx
        rw [this]; rfl⟩, rfl⟩
  exact ⟨h', _, s', h1, he, h2, h3, fun x => by rw [h6]; simp⟩

/-- C169: a routine that removes the keys for which `p` holds is called once for each key present, and exactly the other
keys stay, as long as enough keys stay that the table does not shrink. -/
theorem C169_generate_remove_partial {h : HashMap K V} {s : Spec K V} (b : Built hash h s) (p : K → Bool) (fuel : Nat)
    (hf : h.n < fuel)
    (hkeep : ((h.n / 2 : Nat) : Int) * h.max ≤ ((h.generate.filter (fun k => !p k)).length : Int)) :
    ∃ h' ks s', generateWith (fun h k => if p k then h.reset hash k else .ok h) fuel 0 h = .ok (h', ks) ∧
      Enumerates ks (fun x => (s.val x).isSome = true) ∧
      Built hash h' s' ∧ s'.dflt = s.dflt ∧ ∀ x, s'.val x = if p x then none else s.val x := by
  have he := wf_enum b
  have hd : Does hash (fun (h : HashMap K V) (e : Entry K V) => if p e.key then h.reset hash e.key else .ok h)
      (fun x _ => !p x) := by
    intro h e w hx
    cases hp : p e.key with
    | true => simp [hp]
    | false => simp [hp, set_same w hx]
  obtain ⟨h', h1, h2, -⟩ := generateWith_ok (act := fun h k => if p k then h.reset hash k else .ok h)
    (I := fun h' es => Inv hash h s (fun x _ => !p x) h' es ∧ h'.n = h.n)
    (Inv.keeps hd (h.generate.filter (fun k => !p k)) (he.1.filter _)
      (fun x hx => by
        obtain ⟨h1, h2⟩ := List.mem_filter.1 hx
        obtain ⟨v, hv⟩ := Option.isSome_iff_exists.1 ((he.2 x).1 h1)
        exact ⟨v, hv, h2⟩) (.inr hkeep))
    (fun h es hin => hin.1.wf) h.n (fun h es hin => hin.2) fuel 0 h (by omega) (by omega) ⟨Inv.start b _, rfl⟩
  obtain ⟨s', h3, h4, h5⟩ := h2.done
  refine ⟨h', _, s', h1, he, h3, h4, fun x => ?_⟩
  rw [h5]
  cases s.val x with
  | none => simp
  | some v => cases hp : p x <;> simp

/-- C169: whatever keys a routine given to `generate` removes, the loop ends, does not read outside the table, and removes
exactly those keys with which the routine was called. -/
theorem C169_generate_any_partial {h : HashMap K V} {s : Spec K V} (b : Built hash h s) (p : K → Bool) (fuel : Nat)
    (hf : h.n < fuel) :
    ∃ h' ks s', generateWith (fun h k => if p k then h.reset hash k else .ok h) fuel 0 h = .ok (h', ks) ∧
      Built hash h' s' ∧ s'.dflt = s.dflt ∧ (∀ x ∈ ks, (s.val x).isSome = true) ∧
      ∀ x, s'.val x = if x ∈ ks ∧ p x = true then none else s.val x := by
  have bucket : ∀ (l : List (Entry K V)) {h : HashMap K V} {s : Spec K V}, Built hash h s →
      ∃ h' s', overBucket (fun h e => if p e.key then h.reset hash e.key else .ok h) l h = .ok h' ∧ Built hash h' s' ∧
        s'.dflt = s.dflt ∧ h'.n ≤ h.n ∧
        ∀ x, s'.val x = if x ∈ l.map (·.key) ∧ p x = true then none else s.val x := by
    intro l
    induction l with
    | nil => intro h s b; exact ⟨h, s, rfl, b, rfl, Nat.le_refl _, fun x => by simp⟩
    | cons e l ih =>
      intro h s b
      obtain ⟨w, -, -⟩ := built_inv b
      cases hp : p e.key with
      | true =>
        obtain ⟨h1, e1, -⟩ := reset_spec w e.key
        obtain ⟨h2, s2, e2, b2, d2, n2, v2⟩ := ih (b.reset e.key e1)
        refine ⟨h2, s2, by rw [overBucket, hp, if_pos rfl, e1]; exact e2, b2, d2,
          Nat.le_trans n2 (reset_near w _ e1).1.1, fun x => ?_⟩
        rw [v2]
        show (if _ then none else if x = e.key then none else s.val x) = _
        by_cases hx : x = e.key
        · subst hx; simp [hp]
        · simp only [List.map_cons, List.mem_cons, hx, false_or, if_false]
      | false =>
        obtain ⟨h2, s2, e2, b2, d2, n2, v2⟩ := ih b
        refine ⟨h2, s2, by rw [overBucket, hp]; exact e2, b2, d2, n2, fun x => ?_⟩
        rw [v2]
        by_cases hx : x = e.key
        · subst hx; simp [hp]
        · simp only [List.map_cons, List.mem_cons, hx, false_or]
  suffices H : ∀ (fuel i : Nat) (h : HashMap K V) (s : Spec K V), Built hash h s → h.n < i + fuel → 0 < fuel →
      ∃ h' ks s', generateWith (fun h k => if p k then h.reset hash k else .ok h) fuel i h = .ok (h', ks) ∧
        Built hash h' s' ∧ s'.dflt = s.dflt ∧ (∀ x ∈ ks, (s.val x).isSome = true) ∧
        ∀ x, s'.val x = if x ∈ ks ∧ p x = true then none else s.val x from H fuel 0 h s b (by omega) (by omega)
  intro fuel
  induction fuel with
  | zero => intro i h s b hf h0; omega
  | succ fuel ih =>
    intro i h s b hf h0
    obtain ⟨w, ha, -⟩ := built_inv b
    rw [generateWith]
    by_cases hlt : i < h.n
    · have hi : i < h.a.length := by rw [w.len]; exact hlt
      obtain ⟨h1, s1, e1, b1, d1, n1, v1⟩ := bucket h.a[i] b
      obtain ⟨h2, ks, s2, e2, b2, d2, k2, v2⟩ := ih (i + 1) h1 s1 b1 (by omega) (by omega)
      refine ⟨h2, h.a[i].map (·.key) ++ ks, s2, ?_, b2, d2.trans d1, ?_, fun x => ?_⟩
      · rw [if_pos hlt, rd_ok hi, Res.ok_bind, e1, Res.ok_bind, e2]; rfl
      · intro x hx
        rcases List.mem_append.1 hx with hx | hx
        · obtain ⟨e, he, rfl⟩ := List.mem_map.1 hx
          rw [← ha, (bucket_abs w hi).2 e he]; rfl
        · have := k2 x hx
          rw [v1] at this
          split at this
          · cases this
          · exact this
      · rw [v2, v1]
        simp only [List.mem_append]
        by_cases h1 : x ∈ h.a[i].map (·.key) <;> by_cases h2 : x ∈ ks <;> by_cases h3 : p x = true <;> simp [h1, h2, h3]
    · exact ⟨h, [], s, by rw [if_neg hlt], b, rfl, fun x hx => (by cases hx), fun x => by simp⟩

/-- C169: but keys can be missed. `generate` with a routine that removes the key it is called with, over the map with keys
0, 1, 2, 3: key 3 stays in the map. -/
theorem C169_generate_remove_violated : ∃ h h' : HashMap Nat Nat, ∃ s, Built (fun x => BitVec.ofNat 32 x) h s ∧ h.N = 4 ∧
    generateWith (fun h k => h.reset (fun x => BitVec.ofNat 32 x) k) 10 0 h = .ok (h', [0, 1, 2]) ∧
    h'.contains (fun x => BitVec.ofNat 32 x) 3 = .ok true :=
  ⟨_, _, _, .set 3 7 (.set 2 7 (.set 1 7 (.set 0 7 (.new 0 1 1 (by decide)) rfl) rfl) rfl) rfl, rfl, rfl, rfl⟩

/-- C169: and a routine that adds a key can be called twice with the same key. -/
theorem C169_generate_insert_violated : ∃ h h' : HashMap Nat Nat, ∃ s, Built (fun x => BitVec.ofNat 32 x) h s ∧ h.N = 2 ∧
    generateWith (fun h _ => h.set (fun x => BitVec.ofNat 32 x) 4 0) 10 0 h = .ok (h', [2, 1, 2]) :=
  ⟨_, _, _, .set 1 7 (.set 2 7 (.new 0 2 1 (by decide)) rfl) rfl, rfl, rfl⟩

/-- The hypotheses of `C169_generate_remove_partial` are met: of the keys 0, 1, 2, 3 the keys 0 and 2 are removed. -/
example : ∃ h : HashMap Nat Nat, ∃ s, Built (fun x => BitVec.ofNat 32 x) h s ∧ h.n < 10 ∧
    ((h.n / 2 : Nat) : Int) * h.max ≤ ((h.generate.filter (fun k => !decide (k % 2 = 0))).length : Int) ∧
    ∃ h', generateWith (fun h k => if decide (k % 2 = 0) then h.reset (fun x => BitVec.ofNat 32 x) k else .ok h) 10 0 h =
      .ok (h', [0, 1, 2, 3]) ∧ h'.generate = [1, 3] :=
  ⟨_, _, .set 3 7 (.set 2 7 (.set 1 7 (.set 0 7 (.new 0 4 1 (by decide)) rfl) rfl) rfl) rfl, by decide, by decide,
    _, rfl, rfl⟩

end Lolly.SelfLoopsProps
