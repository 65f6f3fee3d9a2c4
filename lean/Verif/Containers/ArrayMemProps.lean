import Verif.Containers.ArrayMem
import Verif.Containers.ArrayProps

set_option autoImplicit false

/-!
# C98: the elements of an array are constructed and destroyed once
-/

namespace Lolly.ArrayMemProps
open ArrayMem

/-! ## Specification -/

/-- The lengths an array may be given: not negative, at most 2^30, and with memory for the cells. -/
def Possible (sz lim : Nat) (n : Int) : Prop :=
  0 ≤ n ∧ n ≤ 2 ^ 30 ∧ ∀ c, ArrayProps.IsCapacity n.toNat c → c * sz + 8 < lim

/-- How many elements are dropped when an array with room for `c` elements is given room for `d` elements without being
deleted. -/
def dropped (c d : Nat) : Nat := if d = 0 then 0 else c - d

/-- How many elements are dropped by changes of room. -/
def droppedAll : Nat → List Nat → Nat
  | _, [] => 0
  | c, d :: ds => dropped c d + droppedAll d ds

/-- `cs` are the rooms of arrays of lengths `ns`. -/
inductive Rooms : List Int → List Nat → Prop
  | nil : Rooms [] []
  | cons {n : Int} {c : Nat} {ns : List Int} {cs : List Nat} : ArrayProps.IsCapacity n.toNat c → Rooms ns cs →
      Rooms (n :: ns) (c :: cs)

/-! ## Lemmas -/

theorem construct_eq : ∀ (k i : Nat) (w : World) (c : List (Option Nat)), i + k ≤ c.length →
    construct k i w c =
      .ok (⟨w.objs + k, w.dead⟩, c.take i ++ (List.range' w.objs k).map some ++ c.drop (i + k)) := by
  intro k
  induction k with
  | zero => intro i w c h; simp [construct]
  | succ k ih =>
    intro i w c h
    simp only [construct]
    rw [wr_ok (by omega)]
    simp only [Res.ok_bind]
    rw [ih _ _ _ (by simp; omega)]
    have h1 : (c.set i (some w.objs)).take (i + 1) = c.take i ++ [some w.objs] := by
      rw [List.take_set, List.take_add_one, List.getElem?_eq_getElem (by omega)]
      rw [List.set_append_right _ _ (by simp; omega)]
      have : i - (c.take i).length = 0 := by simp; omega
      rw [this]
      rfl
    have h2 : (c.set i (some w.objs)).drop (i + 1 + k) = c.drop (i + (k + 1)) := by
      rw [List.drop_set_of_lt (by omega)]
      congr 1
      omega
    rw [h1, h2]
    simp only [List.range'_succ, List.map_cons]
    rw [show w.objs + 1 + k = w.objs + (k + 1) by omega]
    simp [List.append_assoc]

theorem destroy_eq : ∀ (k : Nat) (w : World) (ids : List Nat), k ≤ ids.length →
    destroy k w (ids.map some) = .ok ⟨w.objs, w.dead ++ (ids.take k).reverse⟩ := by
  intro k
  induction k with
  | zero => intro w ids h; simp [destroy]
  | succ k ih =>
    intro w ids h
    simp only [destroy]
    rw [rd_ok (by simp; omega)]
    simp only [Res.ok_bind, List.getElem_map]
    have h1 : ids.take (k + 1) = ids.take k ++ [ids[k]] := by
      rw [List.take_add_one, List.getElem?_eq_getElem (by omega)]; rfl
    rw [ih _ _ (by omega), h1, List.reverse_append, List.append_assoc]
    rfl

theorem bytes_eq (sz c : Nat) (h : c * sz + 8 < 2 ^ 64) : bytes sz (c : Int) = c * sz + 8 := by
  unfold bytes
  have : ((c : Int) * sz + 8) = ((c * sz + 8 : Nat) : Int) := by simp
  rw [this]
  omega

theorem room_eq (sz c : Nat) (h : 0 < sz) : room sz (c * sz + 8) = c := by
  unfold room
  rw [Nat.add_sub_cancel, Nat.mul_div_cancel _ h]

/-- The room of an array of length `n`. -/
def cap (n : Int) : Nat := Arr.roundLength n.toNat

theorem roundLength_eq {n : Int} (h0 : 0 ≤ n) (h1 : n ≤ 2 ^ 30) : roundLength n = .ok (cap n : Int) := by
  unfold roundLength cap Arr.roundLength
  by_cases h : n < 6
  · rw [if_pos h, if_pos (by omega)]
    simp [Int.toNat_of_nonneg h0]
  · rw [if_neg h, if_pos h1, if_neg (by omega)]

theorem cap_isCapacity (n : Int) : ArrayProps.IsCapacity n.toNat (cap n) := ArrayProps.roundLength_isCapacity _

theorem cap_unique {n : Int} {c : Nat} (h : ArrayProps.IsCapacity n.toNat c) : c = cap n := by
  have h2 := cap_isCapacity n
  rcases h with ⟨h, rfl⟩ | ⟨h, ⟨k, hk⟩, h3, h4, h5⟩
  · rcases h2 with ⟨_, e⟩ | ⟨_, _⟩
    · exact e.symm
    · omega
  · rcases h2 with ⟨_, _⟩ | ⟨_, ⟨k', hk'⟩, h3', h4', h5'⟩
    · omega
    · have a1 := h5 k' (by omega) (by omega)
      have a2 := h5' k (by omega) (by omega)
      omega

theorem cap_zero {n : Int} (h0 : 0 ≤ n) : cap n = 0 ↔ n = 0 := by
  rcases cap_isCapacity n with ⟨h, e⟩ | ⟨h, _, e, _⟩ <;> omega

theorem le_cap (n : Int) : n ≤ cap n := by
  rcases cap_isCapacity n with ⟨h, e⟩ | ⟨h, _, e, e', _⟩ <;> omega

theorem rooms_eq {ns : List Int} {cs : List Nat} (h : Rooms ns cs) : cs = ns.map cap := by
  induction h with
  | nil => rfl
  | cons h1 _ ih => rw [List.map_cons, ← ih, ← cap_unique h1]

/-- What holds of an array `r` in a world `w` while the objects in `lost` were dropped: its cells hold the objects `ids`. -/
structure Good (sz : Nat) (w : World) (r : Rep) (ids lost : List Nat) : Prop where
  n0 : 0 ≤ r.n
  n1 : r.n ≤ 2 ^ 30
  len : ids.length = cap r.n
  blk : r.a = if r.n = 0 then none else some ⟨cap r.n * sz + 8, cap r.n, ids.map some⟩
  perm : (lost ++ w.dead ++ ids).Perm (List.range w.objs)

theorem newArray_eq {sz lim c : Nat} {w : World} (hs : 0 < sz) (hl : lim ≤ 2 ^ 64) (hc : c * sz + 8 < lim) :
    newArray sz lim c w =
      .ok (⟨w.objs + c, w.dead⟩, ⟨c * sz + 8, c, (List.range' w.objs c).map some⟩) := by
  unfold newArray
  simp only [bytes_eq sz c (by omega)]
  rw [if_neg (by omega), if_neg (by omega), room_eq sz c hs]
  rw [construct_eq _ _ _ _ (by simp)]
  simp

theorem perm_grow {l : List Nat} {n k : Nat} (h : l.Perm (List.range n)) :
    (l ++ List.range' n k).Perm (List.range (n + k)) := by
  rw [List.range_eq_range', ← List.range'_append_1]
  rw [List.range_eq_range'] at h
  simpa using h.append_right _

theorem create_good {sz lim : Nat} {n : Int} {w : World} {lost : List Nat} (hs : 0 < sz) (hl : lim ≤ 2 ^ 64)
    (hp : Possible sz lim n) (hw : (lost ++ w.dead).Perm (List.range w.objs)) :
    ∃ w' r ids, create sz lim n w = .ok (w', r) ∧ r.n = n ∧ w'.dead = w.dead ∧ Good sz w' r ids lost := by
  obtain ⟨h0, h1, h2⟩ := hp
  by_cases hn : n = 0
  · subst hn
    exact ⟨w, ⟨0, none⟩, [], rfl, rfl, rfl, by decide, by decide, by decide, rfl, by simpa using hw⟩
  · have hc := h2 _ (cap_isCapacity n)
    refine ⟨⟨w.objs + cap n, w.dead⟩, ⟨n, some ⟨cap n * sz + 8, cap n, (List.range' w.objs (cap n)).map some⟩⟩,
      List.range' w.objs (cap n), ?_, ?_, ?_, ⟨?_, ?_, ?_, ?_, ?_⟩⟩
    · unfold create
      rw [if_neg hn, roundLength_eq h0 h1]
      simp only [Res.ok_bind]
      rw [newArray_eq hs hl hc]
      rfl
    · rfl
    · rfl
    · exact h0
    · exact h1
    · simp
    · simp [hn]
    · exact perm_grow hw

theorem resizeArray_eq {sz lim c d : Nat} {w : World} {ids : List Nat} (hs : 0 < sz) (hl : lim ≤ 2 ^ 64)
    (hi : ids.length = c) (hc : c * sz + 8 < lim) (hd : d * sz + 8 < lim) :
    resizeArray sz lim d w ⟨c * sz + 8, c, ids.map some⟩ =
      .ok (⟨w.objs + (d - c), w.dead⟩,
        ⟨d * sz + 8, d, (ids.take d ++ List.range' w.objs (d - c)).map some⟩) := by
  unfold resizeArray
  simp only [bytes_eq sz c (by omega), bytes_eq sz d (by omega)]
  rw [if_neg (by simp), if_neg (by omega), if_neg (by omega), room_eq sz d hs]
  have e1 : ((d : Int) - c).toNat = d - c := by omega
  simp only [e1, List.length_map, hi, Int.toNat_natCast]
  by_cases hdc : d ≤ c
  · have : d - c = 0 := by omega
    simp [this, construct]
  · rw [construct_eq _ _ _ _ (by simp [hi]; omega)]
    simp only [Res.ok_bind]
    have e2 : ids.take d = ids := List.take_of_length_le (by omega)
    have e3 : (ids.map some).take d = ids.map some := List.take_of_length_le (by simp; omega)
    rw [e2, e3, List.take_append_of_le_length (by simp; omega)]
    have e4 : (ids.map some).take c = ids.map some := List.take_of_length_le (by simp; omega)
    rw [e4, List.drop_of_length_le (by simp; omega)]
    simp

theorem deleteArray_eq {sz c : Nat} {w : World} {ids : List Nat} (hi : ids.length = c) (hc : c * sz + 8 < 2 ^ 64) :
    deleteArray sz w ⟨c * sz + 8, c, ids.map some⟩ = .ok ⟨w.objs, w.dead ++ ids.reverse⟩ := by
  unfold deleteArray
  simp only [Int.toNat_natCast]
  rw [destroy_eq _ _ _ (by omega)]
  simp only [Res.ok_bind, bytes_eq sz c hc]
  rw [List.take_of_length_le (by omega)]
  simp

/-- What one change of length does. -/
theorem resize_good {sz lim : Nat} {m : Int} {w : World} {r : Rep} {ids lost : List Nat} (hs : 0 < sz)
    (hl : lim ≤ 2 ^ 64) (hp : Possible sz lim m) (hr : Possible sz lim r.n) (g : Good sz w r ids lost) :
    ∃ w' r' ids' lost', resize sz lim m w r = .ok (w', r') ∧ r'.n = m ∧ Good sz w' r' ids' (lost ++ lost') ∧
      lost'.length = dropped (cap r.n) (cap m) ∧
      ∀ i, i < r.n.toNat → i < m.toNat → ids'[i]? = ids[i]? := by
  obtain ⟨h0, h1, h2⟩ := hp
  obtain ⟨_, _, h3⟩ := hr
  have hm := h2 _ (cap_isCapacity m)
  have hn := h3 _ (cap_isCapacity r.n)
  have hlr := le_cap r.n
  have hlm := le_cap m
  have z1 := cap_zero g.n0
  have z2 := cap_zero h0
  unfold resize
  rw [roundLength_eq g.n0 g.n1, roundLength_eq h0 h1]
  simp only [Res.ok_bind]
  by_cases e : cap m = cap r.n
  · rw [if_neg (by rw [e]; simp)]
    refine ⟨w, _, ids, [], rfl, rfl, ⟨h0, h1, ?_, ?_, ?_⟩, ?_, ?_⟩
    · dsimp only; rw [e]; exact g.len
    · rw [g.blk, e]
      by_cases hz : r.n = 0
      · rw [if_pos hz, if_pos (show m = 0 by omega)]
      · rw [if_neg hz, if_neg (show ¬ m = 0 by omega)]
    · simpa using g.perm
    · unfold dropped; split <;> simp [e]
    · intro i _ _; rfl
  · rw [if_pos (by omega)]
    by_cases hz : m = 0
    · have c0 : cap m = 0 := z2.mpr hz
      rw [if_neg (by rw [c0]; simp), if_pos (by intro h; apply e; omega)]
      have hb := g.blk
      rw [if_neg (by omega)] at hb
      rw [hb]
      dsimp only
      rw [deleteArray_eq g.len (by omega)]
      refine ⟨_, _, [], [], rfl, rfl, ⟨h0, h1, ?_, ?_, ?_⟩, ?_, ?_⟩
      · dsimp only; rw [c0]; rfl
      · dsimp only; rw [if_pos hz]
      · dsimp only
        simp only [List.append_nil]
        refine List.Perm.trans ?_ g.perm
        rw [← List.append_assoc]
        exact List.Perm.append_left _ (List.reverse_perm _)
      · simp [dropped, c0]
      · intro i _ hi; omega
    · have c0 : cap m ≠ 0 := fun h => hz (z2.mp h)
      rw [if_pos (by simpa using c0)]
      by_cases hy : r.n = 0
      · have c1 : cap r.n = 0 := z1.mpr hy
        rw [if_neg (by rw [c1]; simp), newArray_eq hs hl hm]
        have hids : ids = [] := List.eq_nil_of_length_eq_zero (by rw [g.len, c1])
        refine ⟨_, _, List.range' w.objs (cap m), [], rfl, rfl, ⟨h0, h1, by simp, by simp [hz], ?_⟩, ?_, ?_⟩
        · have := g.perm
          rw [hids] at this
          simpa using perm_grow (k := cap m) this
        · simp [dropped, c1]
        · intro i hi; omega
      · have c1 : cap r.n ≠ 0 := fun h => hy (z1.mp h)
        rw [if_pos (by simpa using c1), g.blk, if_neg hy]
        dsimp only
        rw [resizeArray_eq hs hl g.len hn hm]
        have hlen := g.len
        refine ⟨_, _, ids.take (cap m) ++ List.range' w.objs (cap m - cap r.n), ids.drop (cap m), rfl, rfl,
          ⟨h0, h1, ?_, ?_, ?_⟩, ?_, ?_⟩
        · simp; omega
        · simp [hz]
        · dsimp only
          have := perm_grow (k := cap m - cap r.n) g.perm
          refine List.Perm.trans ?_ this
          have e5 : ids = ids.take (cap m) ++ ids.drop (cap m) := (List.take_append_drop _ _).symm
          rw [List.perm_iff_count]
          intro a
          have e6 := congrArg (List.count a) e5
          simp only [List.count_append] at e6 ⊢
          omega
        · simp only [List.length_drop, dropped, c0, if_false]; omega
        · intro i hi hj
          rw [List.getElem?_append_left (by simp; omega), List.getElem?_take_of_lt (by omega)]

theorem resizes_good {sz lim : Nat} (hs : 0 < sz) (hl : lim ≤ 2 ^ 64) : ∀ (ms : List Int) (w : World) (r : Rep)
    (ids lost : List Nat), (∀ m ∈ ms, Possible sz lim m) → Possible sz lim r.n → Good sz w r ids lost →
    ∃ w' r' ids' lost', resizes sz lim ms w r = .ok (w', r') ∧ r'.n = ms.getLastD r.n ∧
      Good sz w' r' ids' (lost ++ lost') ∧ lost'.length = droppedAll (cap r.n) (ms.map cap) := by
  intro ms
  induction ms with
  | nil => intro w r ids lost _ _ g; exact ⟨w, r, ids, [], rfl, rfl, by simpa using g, rfl⟩
  | cons m ms ih =>
    intro w r ids lost hp hr g
    obtain ⟨w1, r1, ids1, l1, h1, h2, h3, h4, _⟩ := resize_good hs hl (hp m (by simp)) hr g
    obtain ⟨w2, r2, ids2, l2, h5, h6, h7, h8⟩ := ih w1 r1 ids1 _ (fun x hx => hp x (by simp [hx]))
      (by rw [h2]; exact hp m (by simp)) h3
    refine ⟨w2, r2, ids2, l1 ++ l2, ?_, ?_, by rw [← List.append_assoc]; exact h7, ?_⟩
    · simp only [resizes, h1, Res.ok_bind]; exact h5
    · rw [h6, h2]; cases ms <;> rfl
    · rw [List.length_append, h4, h8, h2]; rfl

theorem finish_good {sz lim : Nat} {w : World} {r : Rep} {ids lost : List Nat} (hl : lim ≤ 2 ^ 64)
    (hr : Possible sz lim r.n) (g : Good sz w r ids lost) :
    ∃ w', finish sz w r = .ok w' ∧ (lost ++ w'.dead).Perm (List.range w'.objs) := by
  obtain ⟨_, _, h3⟩ := hr
  have hn := h3 _ (cap_isCapacity r.n)
  unfold finish
  by_cases hz : r.n = 0
  · rw [if_neg (by simpa using hz)]
    have : ids = [] := List.eq_nil_of_length_eq_zero (by rw [g.len, (cap_zero g.n0).mpr hz])
    exact ⟨w, rfl, by simpa [this] using g.perm⟩
  · rw [if_pos hz, g.blk, if_neg hz]
    dsimp only
    rw [deleteArray_eq g.len (by omega)]
    refine ⟨_, rfl, List.Perm.trans ?_ g.perm⟩
    rw [← List.append_assoc]
    exact List.Perm.append_left _ (List.reverse_perm _)

/-! ## C98 -/

/-- C98: while an array lives, and whatever its lengths have been, every one of its elements is an object that was
constructed and not destroyed, and no two elements are the same object; nothing is undefined. -/
theorem C98_elements {sz lim : Nat} (hs : 0 < sz) (hl : lim ≤ 2 ^ 64) (n : Int) (ms : List Int)
    (hp : ∀ x ∈ n :: ms, Possible sz lim x) :
    ∃ w r w' r', create sz lim n ⟨0, []⟩ = .ok (w, r) ∧ resizes sz lim ms w r = .ok (w', r') ∧ r'.n = ms.getLastD n ∧
      (∀ i, i < r'.n.toNat → ∃ b o, r'.a = some b ∧ b.cells[i]? = some (some o) ∧ o < w'.objs ∧ o ∉ w'.dead) ∧
      ∀ b (i j o : Nat), r'.a = some b → b.cells[i]? = some (some o) → b.cells[j]? = some (some o) → i = j := by
  obtain ⟨w, r, ids, h1, h2, _, g⟩ := create_good (lost := []) (w := ⟨0, []⟩) hs hl (hp n (by simp)) (by simp)
  obtain ⟨w', r', ids', lost', h3, h4, g', _⟩ := resizes_good hs hl ms w r ids [] (fun m hm => hp m (by simp [hm]))
    (by rw [h2]; exact hp n (by simp)) g
  have hnd : (([] ++ lost') ++ w'.dead ++ ids').Nodup := g'.perm.nodup_iff.mpr List.nodup_range
  have hblk := g'.blk
  have hlen := g'.len
  refine ⟨w, r, w', r', h1, h3, by rw [h4, h2], ?_, ?_⟩
  · intro i hi
    rw [if_neg (by omega)] at hblk
    have hlt : i < ids'.length := by rw [hlen]; have := le_cap r'.n; omega
    refine ⟨_, ids'[i], hblk, by simp [hlt], ?_, ?_⟩
    · have : ids'[i] ∈ List.range w'.objs := g'.perm.mem_iff.mp (by simp)
      simpa using this
    · intro hd
      rw [List.nodup_append] at hnd
      exact hnd.2.2 _ (by simp [hd]) _ (List.getElem_mem hlt) rfl
  · intro b i j o hb hi hj
    by_cases hz : r'.n = 0
    · rw [if_pos hz, hb] at hblk; cases hblk
    · rw [if_neg hz, hb] at hblk
      cases hblk
      rw [List.nodup_append] at hnd
      simp only [List.getElem?_map, Option.map_eq_some_iff, Option.some.injEq, exists_eq_right] at hi hj
      exact (List.getElem?_inj (List.getElem?_eq_some_iff.mp hi).1 hnd.2.1).mp (hi.trans hj.symm)

/-- C98: a change of length keeps the elements that stay: element `i` is the same object as before. -/
theorem C98_keep {sz lim : Nat} (hs : 0 < sz) (hl : lim ≤ 2 ^ 64) (n : Int) (ms : List Int) (m : Int)
    (hp : ∀ x ∈ n :: m :: ms, Possible sz lim x) :
    ∃ w r w' r' w'' r'', create sz lim n ⟨0, []⟩ = .ok (w, r) ∧ resizes sz lim ms w r = .ok (w', r') ∧
      resize sz lim m w' r' = .ok (w'', r'') ∧
      ∀ i b b', i < r'.n.toNat → i < m.toNat → r'.a = some b → r''.a = some b' → b'.cells[i]? = b.cells[i]? := by
  obtain ⟨w, r, ids, h1, h2, _, g⟩ := create_good (lost := []) (w := ⟨0, []⟩) hs hl (hp n (by simp)) (by simp)
  obtain ⟨w', r', ids', lost', h3, h4, g', _⟩ := resizes_good hs hl ms w r ids [] (fun m hm => hp m (by simp [hm]))
    (by rw [h2]; exact hp n (by simp)) g
  have hr' : Possible sz lim r'.n := by
    rw [h4, h2]
    cases ms with
    | nil => exact hp n (by simp)
    | cons x l =>
      rw [List.getLastD_cons]
      refine hp _ ?_
      rw [List.getLastD_eq_getLast?]
      cases hx : l.getLast? with
      | none => simp
      | some y => have := List.mem_of_getLast? hx; simp [this]
  obtain ⟨w'', r'', ids'', l'', h5, h6, g'', _, hk⟩ := resize_good hs hl (hp m (by simp)) hr' g'
  refine ⟨w, r, w', r', w'', r'', h1, h3, h5, ?_⟩
  intro i b b' hi hj hb hb'
  have e1 := g'.blk
  have e2 := g''.blk
  rw [if_neg (by omega), hb] at e1
  rw [if_neg (by omega), hb'] at e2
  cases e1
  cases e2
  simp only [List.getElem?_map]
  rw [hk i hi hj]

/-- C98: at the end of the life of an array every object that was constructed has been destroyed exactly once, but for
those that were dropped because the room of the array became smaller (but not zero); blocks are given back with the sizes
with which they were taken. -/
theorem C98_life_partial {sz lim : Nat} (hs : 0 < sz) (hl : lim ≤ 2 ^ 64) (n : Int) (ms : List Int) (c : Nat)
    (cs : List Nat) (hp : ∀ x ∈ n :: ms, Possible sz lim x) (hc : Rooms (n :: ms) (c :: cs)) :
    ∃ w lost, life sz lim n ms ⟨0, []⟩ = .ok w ∧ (lost ++ w.dead).Perm (List.range w.objs) ∧
      lost.length = droppedAll c cs := by
  obtain ⟨w, r, ids, h1, h2, _, g⟩ := create_good (lost := []) (w := ⟨0, []⟩) hs hl (hp n (by simp)) (by simp)
  obtain ⟨w', r', ids', lost', h3, h4, g', h5⟩ := resizes_good hs hl ms w r ids [] (fun m hm => hp m (by simp [hm]))
    (by rw [h2]; exact hp n (by simp)) g
  have hr' : Possible sz lim r'.n := by
    rw [h4, h2]
    cases ms with
    | nil => exact hp n (by simp)
    | cons x l =>
      rw [List.getLastD_cons]
      refine hp _ ?_
      rw [List.getLastD_eq_getLast?]
      cases hx : l.getLast? with
      | none => simp
      | some y => have := List.mem_of_getLast? hx; simp [this]
  obtain ⟨w'', h6, h7⟩ := finish_good hl hr' g'
  have hcs := rooms_eq hc
  simp only [List.map_cons, List.cons.injEq] at hcs
  refine ⟨w'', lost', ?_, by simpa using h7, ?_⟩
  · simp only [life, h1, Res.ok_bind, h3, h6]
  · rw [h5, h2, hcs.1, hcs.2]

/-- C98: if the room of the array never becomes smaller, or becomes zero, all its elements are destroyed exactly once. -/
theorem C98_all_partial {sz lim : Nat} (hs : 0 < sz) (hl : lim ≤ 2 ^ 64) (n : Int) (ms : List Int) (c : Nat)
    (cs : List Nat) (hp : ∀ x ∈ n :: ms, Possible sz lim x) (hc : Rooms (n :: ms) (c :: cs)) (h0 : droppedAll c cs = 0) :
    ∃ w, life sz lim n ms ⟨0, []⟩ = .ok w ∧ w.dead.Perm (List.range w.objs) := by
  obtain ⟨w, lost, h1, h2, h3⟩ := C98_life_partial hs hl n ms c cs hp hc
  rw [h0] at h3
  have : lost = [] := List.eq_nil_of_length_eq_zero h3
  subst this
  exact ⟨w, h1, by simpa using h2⟩

/-- What one would expect of the life of any array. -/
def AllDestroyed : Prop :=
  ∀ (sz lim : Nat) (n : Int) (ms : List Int), 0 < sz → lim ≤ 2 ^ 64 → (∀ x ∈ n :: ms, Possible sz lim x) →
    ∃ w, life sz lim n ms ⟨0, []⟩ = .ok w ∧ w.dead.Perm (List.range w.objs)

theorem possible_small {n : Int} (h0 : 0 ≤ n) (h1 : n < 6) : Possible 8 1000 n := by
  refine ⟨h0, by omega, ?_⟩
  rintro c (⟨_, rfl⟩ | ⟨h, _⟩) <;> omega

/-- C98, violated: an array of three elements is shortened to one element and destroyed; two elements never are. -/
theorem C98_shrink_violated : ¬ AllDestroyed := by
  intro h
  obtain ⟨w, h1, h2⟩ := h 8 1000 3 [1] (by decide) (by decide) (by
    intro x hx
    simp only [List.mem_cons, List.not_mem_nil, or_false] at hx
    rcases hx with rfl | rfl <;> exact possible_small (by decide) (by decide))
  have h3 : life 8 1000 3 [1] ⟨0, []⟩ = .ok ⟨3, [0]⟩ := by rfl
  rw [h3] at h1
  cases h1
  have := h2.length_eq
  exact absurd this (by decide)

/-- C98 without memory: to make an array for which there is no memory throws. -/
theorem C98_no_memory {sz lim : Nat} (n : Int) (c : Nat) (w : World) (h1 : 1 ≤ n) (h2 : n ≤ 2 ^ 30)
    (hc : ArrayProps.IsCapacity n.toNat c) (hm : lim ≤ c * sz + 8) (hl : c * sz + 8 < 2 ^ 64) :
    create sz lim n w = .thrown := by
  obtain rfl := cap_unique hc
  unfold create
  rw [if_neg (by omega), roundLength_eq (by omega) h2, Res.ok_bind]
  unfold newArray
  simp only [bytes_eq sz (cap n) hl]
  rw [if_pos hm]; rfl

/-- C98 for negative lengths: they throw if the header does not make up for the elements that are missing. -/
theorem C98_negative {sz lim : Nat} (n : Int) (w : World) (hn : n < 0) (h1 : n * sz + 8 < 0) (h2 : -(2 ^ 63) ≤ n * sz)
    (hl : lim ≤ 2 ^ 63) : create sz lim n w = .thrown := by
  unfold create
  rw [if_neg (by omega), roundLength, if_pos (by omega), Res.ok_bind]
  unfold newArray
  have : lim ≤ bytes sz n := by
    unfold bytes
    omega
  simp only []
  rw [if_pos this]; rfl

example : (-1 : Int) * (16 : Nat) + 8 < 0 := by decide

/-- C98 fails for the length -1 and elements of 8 bytes: the block has no place for its own header. -/
theorem C98_negative_violated {lim : Nat} (w : World) (hl : 0 < lim) : create 8 lim (-1) w = .ub := by
  unfold create
  rw [if_neg (by omega), roundLength, if_pos (by omega), Res.ok_bind]
  unfold newArray
  have : bytes 8 (-1) = 0 := by decide
  simp only [this]
  rw [if_neg (by omega)]; rfl

/-- C98 for every negative length, whatever the elements: the program is stopped, the header is written into the shared
block of size 0, or there is an array with a negative number of elements, which then goes away without harm. -/
theorem C98_negative_exact {sz lim : Nat} (n : Int) (w : World) (hn : n < 0) (h2 : -(2 ^ 63) ≤ n * sz)
    (hs : 0 < sz) (h8 : 8 ≤ lim) (hl : lim ≤ 2 ^ 63) :
    (n * sz < -8 → create sz lim n w = .thrown) ∧ (n * sz = -8 → create sz lim n w = .ub) ∧
    (-8 < n * sz → ∃ r, create sz lim n w = .ok (w, r) ∧ r.n = n ∧ finish sz w r = .ok w) := by
  have hneg : n * (sz : Int) < 0 := Int.mul_neg_of_neg_of_pos hn (by omega)
  refine ⟨fun h => C98_negative n w hn (by omega) h2 hl, fun h => ?_, fun h => ?_⟩
  · unfold create
    rw [if_neg (by omega), roundLength, if_pos (by omega), Res.ok_bind]
    unfold newArray
    have : bytes sz n = 0 := by unfold bytes; omega
    simp only [this]
    rw [if_neg (by omega)]; rfl
  · have hb : bytes sz n < 8 ∧ bytes sz n ≠ 0 := by unfold bytes; omega
    have hr : room sz (bytes sz n) = 0 := by
      unfold room; rw [show bytes sz n - 8 = 0 by omega]; exact Nat.zero_div _
    have hz : n.toNat = 0 := by omega
    refine ⟨⟨n, some ⟨bytes sz n, n, []⟩⟩, ?_, rfl, ?_⟩
    · unfold create
      rw [if_neg (by omega), roundLength, if_pos (by omega), Res.ok_bind]
      unfold newArray
      simp only [hr, hz]
      rw [if_neg (by omega), if_neg (by omega)]; rfl
    · unfold finish
      rw [if_pos (by dsimp only; omega)]
      unfold deleteArray
      simp only [hz, destroy, Res.ok_bind, ne_eq, not_true_eq_false, if_false]

/-- All three happen: the length -1 and elements of 16, 8 and 4 bytes. -/
example : (-1 : Int) * (16 : Nat) < -8 ∧ (-1 : Int) * (8 : Nat) = -8 ∧ -8 < (-1 : Int) * (4 : Nat) := by decide

/-- C98 fails without memory: to make an array longer throws as well if it was empty or its block is small; but if the
block is large, NULL is used. -/
theorem C98_no_memory_violated {sz lim : Nat} (hs : 0 < sz) (hl : lim ≤ 2 ^ 64) (n : Int) (ms : List Int)
    (hp : ∀ x ∈ n :: ms, Possible sz lim x) (m : Int) (c d : Nat) (h1 : 1 ≤ m) (h2 : m ≤ 2 ^ 30)
    (hc : ArrayProps.IsCapacity (ms.getLastD n).toNat c) (hd : ArrayProps.IsCapacity m.toNat d)
    (hm : lim ≤ d * sz + 8) (hw : d * sz + 8 < 2 ^ 64) :
    ∃ w r w' r', create sz lim n ⟨0, []⟩ = .ok (w, r) ∧ resizes sz lim ms w r = .ok (w', r') ∧
      resize sz lim m w' r' = if c = 0 ∨ c * sz + 8 ≤ 256 then .thrown else .ub := by
  obtain ⟨w, r, ids, e1, e2, _, g⟩ := create_good (lost := []) (w := ⟨0, []⟩) hs hl (hp n (by simp)) (by simp)
  obtain ⟨w', r', ids', lost', e3, e4, g', _⟩ := resizes_good hs hl ms w r ids [] (fun m hm => hp m (by simp [hm]))
    (by rw [e2]; exact hp n (by simp)) g
  rw [e2] at e4
  refine ⟨w, r, w', r', e1, e3, ?_⟩
  rw [← e4] at hc
  obtain rfl := cap_unique hc
  obtain rfl := cap_unique hd
  have hr' : Possible sz lim r'.n := by
    rw [e4]
    rcases List.eq_nil_or_concat ms with rfl | ⟨l, x, rfl⟩
    · exact hp _ (by simp)
    · exact hp _ (by simp)
  have hroom := hr'.2.2 _ (cap_isCapacity r'.n)
  have hne : cap m ≠ cap r'.n := by intro e; rw [e] at hm; omega
  have hm0 : cap m ≠ 0 := by rw [Ne, cap_zero (by omega)]; omega
  unfold resize
  rw [roundLength_eq g'.n0 g'.n1, Res.ok_bind, roundLength_eq (by omega) h2, Res.ok_bind, if_pos (by omega),
    if_pos (by omega)]
  by_cases hz : cap r'.n = 0
  · rw [if_neg (by omega), if_pos (.inl hz)]
    unfold newArray
    simp only [bytes_eq sz (cap m) hw]
    rw [if_pos hm]; rfl
  · have hn0 : r'.n ≠ 0 := fun e => hz ((cap_zero g'.n0).2 e)
    rw [if_pos (by omega), g'.blk, if_neg hn0]
    unfold resizeArray
    simp only [bytes_eq sz (cap m) hw, bytes_eq sz (cap r'.n) (by omega)]
    rw [if_neg (by simp), if_pos hm]
    by_cases hb : cap r'.n * sz + 8 ≤ 256
    · rw [if_pos hb, if_pos (.inr hb)]; rfl
    · rw [if_neg hb, if_neg (by omega)]; rfl

/-- Such calls: 32 or 64 elements of 8 bytes, and memory for less than 1000 bytes. -/
example : (∀ x ∈ [(32 : Int)], Possible 8 1000 x) ∧ ArrayProps.IsCapacity 32 32 ∧ ArrayProps.IsCapacity 200 256 ∧
    ¬ 32 * 8 + 8 ≤ 256 ∧ 1000 ≤ 256 * 8 + 8 := by
  have pow : ∀ i k n : Nat, 2 ^ k < n → n ≤ 2 ^ i → k + 1 ≤ i := fun i k n h1 h2 => by
    have : 2 ^ k < 2 ^ i := by omega
    have := (Nat.pow_lt_pow_iff_right (a := 2) (by decide)).1 this
    omega
  have h32 : ArrayProps.IsCapacity 32 32 := .inr ⟨by decide, ⟨5, rfl⟩, by decide, by decide, fun i _ h =>
    Nat.pow_le_pow_right (n := 2) (by decide) (pow i 4 32 (by decide) h)⟩
  have h256 : ArrayProps.IsCapacity 200 256 := .inr ⟨by decide, ⟨8, rfl⟩, by decide, by decide, fun i _ h =>
    Nat.pow_le_pow_right (n := 2) (by decide) (pow i 7 200 (by decide) h)⟩
  refine ⟨fun x hx => ?_, h32, h256, by decide, by decide⟩
  obtain rfl := List.mem_singleton.1 hx
  refine ⟨by decide, by decide, fun c hc => ?_⟩
  rw [cap_unique (n := 32) hc, ← cap_unique (n := 32) h32]
  decide

/-- An array grows, is emptied and grows again. -/
example : life 8 1000 2 [3, 5, 0, 4] ⟨0, []⟩ = .ok ⟨9, [4, 3, 2, 1, 0, 8, 7, 6, 5]⟩ := by rfl

example : Rooms [2, 3, 5, 0, 4] [2, 3, 5, 0, 4] ∧ droppedAll 2 [3, 5, 0, 4] = 0 := by
  refine ⟨?_, by decide⟩
  repeat' first | exact .nil | refine .cons (.inl (by decide)) ?_

end Lolly.ArrayMemProps
