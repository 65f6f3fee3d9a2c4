import Verif.System.AllocLemmas

set_option autoImplicit false

/-!
# The operations of the allocator keep the invariant
-/

namespace Lolly.Alloc

/-- A block of a client: is it from a chunk, and which part of memory is reserved for it. -/
abbrev Slot := Bool × Region

/-- The small ones. -/
def smalls (l : List Slot) : List Region := (l.filter (·.1)).map (·.2)

/-- The large ones. -/
def larges (l : List Slot) : List Region := (l.filter (!·.1)).map (·.2)

/-- The clients own the given blocks. -/
def Own (w : World) (l : List Slot) : Prop := ∃ free C, Inv w (smalls l) (larges l) free C

/-- The contents of the blocks stay. -/
def KeepS (w w' : World) (l : List Slot) : Prop := ∀ x ∈ l, ∀ a, x.2.1 ≤ a → a < x.2.1 + x.2.2 → w'.mem a = w.mem a

theorem KeepS.trans {w1 w2 w3 : World} {l : List Slot} (h1 : KeepS w1 w2 l) (h2 : KeepS w2 w3 l) : KeepS w1 w3 l :=
  fun x hx a h3 h4 => (h2 x hx a h3 h4).trans (h1 x hx a h3 h4)

theorem KeepS.mono {w1 w2 : World} {l m : List Slot} (h : KeepS w1 w2 l) (hs : ∀ x ∈ m, x ∈ l) : KeepS w1 w2 m :=
  fun x hx => h x (hs x hx)

theorem KeepS.refl (w : World) (l : List Slot) : KeepS w w l := fun _ _ _ _ _ => rfl

theorem mem_slots {l : List Slot} {x : Slot} (h : x ∈ l) : x.2 ∈ smalls l ++ larges l := by
  obtain ⟨b, r⟩ := x
  cases b
  · exact List.mem_append_right _ (List.mem_map.2 ⟨(false, r), by simp [h], rfl⟩)
  · exact List.mem_append_left _ (List.mem_map.2 ⟨(true, r), by simp [h], rfl⟩)

theorem Keep.toS {w w' : World} {l : List Slot} (h : Keep w w' (smalls l ++ larges l)) : KeepS w w' l :=
  fun x hx => h x.2 (mem_slots hx)

@[simp] theorem smalls_true (r : Region) (l : List Slot) : smalls ((true, r) :: l) = r :: smalls l := by simp [smalls]
@[simp] theorem smalls_false (r : Region) (l : List Slot) : smalls ((false, r) :: l) = smalls l := by simp [smalls]
@[simp] theorem larges_true (r : Region) (l : List Slot) : larges ((true, r) :: l) = larges l := by simp [larges]
@[simp] theorem larges_false (r : Region) (l : List Slot) : larges ((false, r) :: l) = r :: larges l := by simp [larges]

theorem Own.perm {w : World} {l m : List Slot} (h : Own w l) (hp : l.Perm m) : Own w m := by
  obtain ⟨free, C, hi⟩ := h
  exact ⟨free, C, hi.perm ((hp.filter _).map _) ((hp.filter _).map _)⟩

theorem own_init (mem : Nat → UInt8) : Own (init mem) [] :=
  ⟨[], [], by simp [smalls, tail, init], by simp [smalls, tail, init], by simp, fun i => rfl, by simp [init, larges],
    by simp [init], by simp [init], by simp [smalls, tail, init], rfl⟩

/-- No two blocks overlap. -/
theorem Own.disj {w : World} {l : List Slot} (h : Own w l) : (l.map (·.2)).Pairwise Disj := by
  obtain ⟨free, C, hi⟩ := h
  have hb : (smalls l).Pairwise Disj := (List.pairwise_append.1 (List.pairwise_append.1 hi.disj).1).1
  have hl : (larges l).Pairwise Disj := (List.pairwise_append.1 ((pairwise_perm hi.heap).1 hi.hdisj)).2.1
  have hp : (l.map (·.2)).Perm (smalls l ++ larges l) := by
    unfold smalls larges
    rw [← List.map_append]
    refine List.Perm.map _ ?_
    exact (List.filter_append_perm (·.1) l).symm
  rw [pairwise_perm hp, List.pairwise_append]
  exact ⟨hb, hl, fun x hx y hy => hi.piece_large (by simp [hx]) hy⟩

theorem Own.disj_cons {w : World} {x : Slot} {l : List Slot} (h : Own w (x :: l)) : ∀ y ∈ l, Disj x.2 y.2 := by
  intro y hy
  exact (List.pairwise_cons.1 h.disj).1 y.2 (List.mem_map.2 ⟨y, hy, rfl⟩)

/-- What is known about one block. -/
theorem Own.block {w : World} {l : List Slot} (h : Own w l) {x : Slot} (hx : x ∈ l) :
    0 < x.2.1 ∧ x.2.1 % 8 = 0 ∧ x.2.1 + x.2.2 ≤ 2 ^ 64 ∧ 0 < x.2.2 ∧
      ∀ a n, x.2.1 ≤ a → a + n ≤ x.2.1 + x.2.2 → covered w.heap a n = true := by
  obtain ⟨free, C, hi⟩ := h
  rcases List.mem_append.1 (mem_slots hx) with h1 | h1
  · have hm : x.2 ∈ smalls l ++ free ++ tail w := by simp [h1]
    obtain ⟨h2, h3, h4, c, hc, h5, h6⟩ := hi.fits _ hm
    have h7 := hi.hok _ (hi.chunk_mem hc)
    have h8 := hi.piece_pos hm
    simp only at h7
    exact ⟨h8.1, h2, by omega, by omega, fun a n h1 h2 => hi.piece_covered hm h1 h2⟩
  · have h2 := hi.hok _ (hi.large_mem h1)
    exact ⟨h2.1, h2.2.1, h2.2.2.1, h2.2.2.2, fun a n h3 h4 => hi.large_covered h1 h3 h4⟩

/-- A change inside of one block. -/
theorem Own.frame {w : World} {x : Slot} {l : List Slot} (h : Own w (x :: l)) (m : Nat → UInt8)
    (hm : ∀ a, (a < x.2.1 ∨ x.2.1 + x.2.2 ≤ a) → m a = w.mem a) :
    Own { w with mem := m } (x :: l) ∧ KeepS w { w with mem := m } l := by
  have hd := h.disj_cons
  have hout : ∀ y : Region, Disj x.2 y → ∀ a, y.1 ≤ a → a < y.1 + y.2 → m a = w.mem a := by
    intro y hd a h1 h2
    refine hm a ?_
    unfold Disj at hd
    omega
  refine ⟨?_, fun y hy a h1 h2 => hout y.2 (hd y hy) a h1 h2⟩
  obtain ⟨free, C, hi⟩ := h
  obtain ⟨b, r⟩ := x
  refine ⟨free, C, ?_⟩
  cases b
  · rw [smalls_false, larges_false] at *
    refine ⟨hi.disj, hi.fits, hi.small, fun i => ?_, hi.heap, hi.hdisj, hi.hok, hi.sum, hi.chunks⟩
    refine (hi.chain i).congr fun a ha y h1 h2 => ?_
    have hf : (a, i) ∈ smalls l ++ free ++ tail w := by simp [mem_cls.1 ha]
    have h8 := (hi.piece_pos hf).2.2
    exact hout (a, i) (hi.piece_large hf (by simp)).symm y h1 (by simp at *; omega)
  · rw [smalls_true, larges_true] at *
    exact (hi.frame_block m hm).1

/-! ## The operations -/

theorem roundUp_eq {sz : Nat} (h : sz + 7 < 2 ^ 64) : roundUp sz = (sz + 7) / 8 * 8 := by
  rw [roundUp, Nat.mod_eq_of_lt h]

theorem roundUp_le {sz : Nat} (h : sz + 7 < 2 ^ 64) : sz ≤ roundUp sz ∧ roundUp sz < sz + 8 ∧ roundUp sz % 8 = 0 := by
  rw [roundUp_eq h]
  omega

/-- What is asked of the C library to serve a block of `s` bytes. -/
def request (s : Nat) : Nat := if s < maxFast then blockSize else s

/-- What a block of `s` bytes adds to `large_uses`. -/
def charge (s : Nat) : BitVec 32 := if s < maxFast then 0 else BitVec.ofNat 32 s

theorem Inv.setLarge {w : World} {B L free : List Region} {C : List Nat} (h : Inv w B L free C) (v : BitVec 32) :
    Inv { w with large := v } B L free C :=
  ⟨h.disj, h.fits, h.small, h.chain, h.heap, h.hdisj, h.hok, h.sum, h.chunks⟩

/-- The block for `s` bytes. -/
def slot (p s : Nat) : Slot := (decide (s < maxFast), (p, s))

theorem fastAlloc_own {w : World} {l : List Slot} (h : Own w l) {sz : Nat} {o : Ora} (h0 : 0 < sz) (h1 : sz + 7 < 2 ^ 64)
    (ho : Legal w.heap (request (roundUp sz)) o) :
    ∃ p w', fastAlloc w sz o = .ok (p, w') ∧ Own w' (slot p (roundUp sz) :: l) ∧ KeepS w w' l ∧
      w'.large = w.large + charge (roundUp sz) := by
  obtain ⟨free, C, hi⟩ := h
  have hr := roundUp_le h1
  unfold fastAlloc slot request charge at *
  dsimp only
  by_cases hs : roundUp sz < maxFast
  · rw [if_pos hs] at ho ⊢
    obtain ⟨p, w', free', C', e, hi', hk, hl⟩ := take_ok hi ho (by omega) hr.2.2 hs
    refine ⟨p, w', e, ⟨free', C', ?_⟩, hk.toS, ?_⟩
    · simpa [hs] using hi'
    · rw [if_pos hs, hl]; simp
  · rw [if_neg hs] at ho ⊢
    obtain ⟨w', e, hi', hk, hl⟩ := cMalloc_ok (hi.setLarge (w.large + BitVec.ofNat 32 (roundUp sz))) ho (by omega)
    refine ⟨o.p, w', e, ⟨free, C, ?_⟩, hk.toS, ?_⟩
    · simpa [hs] using hi'
    · rw [if_neg hs, hl]

/-- The block is fit to be freed with the size `sz`: the lists of free blocks need the exact size. -/
def FreeAs (sz : Nat) (x : Slot) : Prop := x.1 = decide (roundUp sz < maxFast) ∧ (roundUp sz < maxFast → x.2.2 = roundUp sz)

theorem fastFree_own {w : World} {l : List Slot} {x : Slot} (h : Own w (x :: l)) {sz : Nat} (hx : FreeAs sz x) (o : Ora) :
    ∃ w', fastFree w x.2.1 sz o = .ok w' ∧ Own w' l ∧ KeepS w w' l ∧ w'.large = w.large - charge (roundUp sz) := by
  obtain ⟨free, C, hi⟩ := h
  obtain ⟨b, p, n⟩ := x
  obtain ⟨hx1, hx2⟩ := hx
  simp only at hx1 hx2
  unfold fastFree charge
  dsimp only
  by_cases hs : roundUp sz < maxFast
  · rw [if_pos hs]
    rw [show b = true by rw [hx1]; simp [hs], smalls_true, larges_true, hx2 hs] at hi
    obtain ⟨w', e, hi', hk, hl, -⟩ := give_ok hi hs
    refine ⟨w', e, ⟨_, C, hi'⟩, hk.toS, ?_⟩
    rw [if_pos hs, hl]; simp
  · rw [if_neg hs]
    rw [show b = false by rw [hx1]; simp [hs], smalls_false, larges_false] at hi
    obtain ⟨w', e, hi', hk, hl⟩ := cFree_ok (hi.setLarge (w.large - BitVec.ofNat 32 (roundUp sz))) o
    refine ⟨w', e, ⟨free, C, hi'⟩, hk.toS, ?_⟩
    rw [if_neg hs, hl]

theorem memcpy_own {w : World} {x y : Slot} {l : List Slot} (h : Own w (x :: y :: l)) {n : Nat} (hx : n ≤ x.2.2) (hy : n ≤ y.2.2) :
    ∃ w', memcpy w x.2.1 y.2.1 n = .ok w' ∧ Own w' (x :: y :: l) ∧ KeepS w w' (y :: l) ∧ w'.large = w.large ∧
      ∀ i, i < n → w'.mem (x.2.1 + i) = w.mem (y.2.1 + i) := by
  have h1 := (h.block (x := x) (by simp)).2.2.2.2 x.2.1 n (Nat.le_refl _) (by omega)
  have h2 := (h.block (x := y) (by simp)).2.2.2.2 y.2.1 n (Nat.le_refl _) (by omega)
  have hd := h.disj_cons y (by simp)
  unfold Disj at hd
  obtain ⟨h3, h4⟩ := h.frame (fun a => if x.2.1 ≤ a ∧ a < x.2.1 + n then w.mem (y.2.1 + (a - x.2.1)) else w.mem a) (fun a ha => by
    rw [if_neg (by omega)])
  refine ⟨_, by rw [memcpy, if_pos ⟨h1, h2, by omega⟩], h3, h4, rfl, fun i hi => ?_⟩
  simp only
  rw [if_pos (by omega)]
  congr 1
  omega

/-- The answer of the C library in `fast_realloc`. -/
def LegalRealloc (w : World) (p old new : Nat) (o : Ora) : Prop :=
  if maxFast ≤ roundUp old ∧ maxFast ≤ roundUp new then Legal (w.heap.filter fun r => decide (r.1 ≠ p)) new o
  else Legal w.heap (request (roundUp new)) o

/-- The block after `fast_realloc`. -/
def reslot (p old new : Nat) : Slot :=
  (decide (roundUp new < maxFast), (p, if maxFast ≤ roundUp old ∧ maxFast ≤ roundUp new then new else roundUp new))

theorem fastRealloc_own {w : World} {l : List Slot} {x : Slot} (h : Own w (x :: l)) {old new : Nat} {o o2 : Ora}
    (hx : FreeAs old x) (hold : old ≤ x.2.2) (h0 : 0 < new) (h1 : new + 7 < 2 ^ 64)
    (ho : LegalRealloc w x.2.1 old new o) :
    ∃ q w', fastRealloc w x.2.1 old new o o2 = .ok (q, w') ∧ Own w' (reslot q old new :: l) ∧ KeepS w w' l ∧
      (∀ i, i < min old new → w'.mem (q + i) = w.mem (x.2.1 + i)) ∧
      w'.large = (if maxFast ≤ roundUp old ∧ maxFast ≤ roundUp new then
        w.large + (BitVec.ofNat 32 new - BitVec.ofNat 32 old) else w.large + charge (roundUp new) - charge (roundUp old)) := by
  unfold LegalRealloc fastRealloc reslot at *
  by_cases hb : maxFast ≤ roundUp old ∧ maxFast ≤ roundUp new
  · rw [if_pos hb] at ho ⊢
    rw [if_pos hb, if_pos hb]
    obtain ⟨free, C, hi⟩ := h
    obtain ⟨b, p, n⟩ := x
    obtain ⟨hx1, -⟩ := hx
    simp only at hx1 hold ho
    rw [show b = false by rw [hx1]; simp [hb.1], smalls_false, larges_false] at hi
    obtain ⟨w', e, hi', hk, hl, hc⟩ := cRealloc_ok (hi.setLarge (w.large + (BitVec.ofNat 32 new - BitVec.ofNat 32 old))) ho h0
    refine ⟨o.p, w', e, ⟨free, C, ?_⟩, hk.toS, fun i hi => hc i (by omega), hl⟩
    rw [decide_eq_false (by omega)]
    simpa using hi'
  · rw [if_neg hb] at ho ⊢
    rw [if_neg hb, if_neg hb]
    obtain ⟨q, w1, e1, h1', hk1, hl1⟩ := fastAlloc_own h h0 h1 ho
    have hn := (roundUp_le h1).1
    have hmin : (if old < new then old else new) = min old new := by split <;> omega
    obtain ⟨w2, e2, h2, hk2, hl2, hc2⟩ := memcpy_own (n := min old new) h1' (by simp only [slot]; omega) (by omega)
    obtain ⟨w3, e3, h3, hk3, hl3⟩ := fastFree_own (h2.perm (List.Perm.swap _ _ _)) hx o2
    refine ⟨q, w3, ?_, h3, ?_, fun i hi => ?_, ?_⟩
    · rw [e1, Res.ok_bind]
      dsimp only
      rw [hmin, show q = (slot q (roundUp new)).2.1 from rfl, e2, Res.ok_bind, e3, Res.ok_bind]
    · exact ((hk1.mono fun _ => List.mem_cons_of_mem _).trans (hk2.mono fun _ => List.mem_cons_of_mem _)).trans
        (hk3.mono fun _ => List.mem_cons_of_mem _)
    · rw [hk3 (slot q (roundUp new)) (by simp) (q + i) (by simp [slot]) (by simp only [slot]; omega)]
      have := hc2 i hi
      rw [show (slot q (roundUp new)).2.1 = q from rfl] at this
      rw [this]
      exact hk1 x (by simp) _ (by omega) (by omega)
    · rw [hl3, hl2, hl1]

theorem fastNew_own {w : World} {l : List Slot} (h : Own w l) {sz : Nat} {o : Ora} (h1 : sz + 15 < 2 ^ 64)
    (ho : Legal w.heap (request (roundUp (sz + 8))) o) :
    ∃ p w', fastNew w sz o = .ok (p + 8, w') ∧ Own w' (slot p (roundUp (sz + 8)) :: l) ∧ KeepS w w' l ∧
      ld w'.mem p = roundUp (sz + 8) ∧ w'.large = w.large + charge (roundUp (sz + 8)) := by
  have hr := roundUp_le (sz := sz + 8) (by omega)
  have hmid : ∃ p w1, (if roundUp (sz + 8) < maxFast then take w (roundUp (sz + 8)) o
      else (cMalloc w (roundUp (sz + 8)) o >>= fun x =>
        .ok (x.1, { x.2 with large := x.2.large + BitVec.ofNat 32 (roundUp (sz + 8)) }))) = .ok (p, w1) ∧
      Own w1 (slot p (roundUp (sz + 8)) :: l) ∧ KeepS w w1 l ∧ w1.large = w.large + charge (roundUp (sz + 8)) := by
    obtain ⟨free, C, hi⟩ := h
    unfold slot request charge at *
    by_cases hs : roundUp (sz + 8) < maxFast
    · rw [if_pos hs] at ho ⊢
      obtain ⟨p, w', free', C', e, hi', hk, hl⟩ := take_ok hi ho (by omega) hr.2.2 hs
      refine ⟨p, w', e, ⟨free', C', ?_⟩, hk.toS, ?_⟩
      · simpa [hs] using hi'
      · rw [if_pos hs, hl]; simp
    · rw [if_neg hs] at ho ⊢
      obtain ⟨w', e, hi', hk, hl⟩ := cMalloc_ok hi ho (by omega)
      refine ⟨o.p, { w' with large := w'.large + BitVec.ofNat 32 (roundUp (sz + 8)) }, by rw [e, Res.ok_bind],
        ⟨free, C, ?_⟩, hk.toS, ?_⟩
      · simpa [hs] using hi'.setLarge _
      · rw [if_neg hs]; simp only; rw [hl]
  obtain ⟨p, w1, e1, h2, hk, hl⟩ := hmid
  have hblk := h2.block (x := slot p (roundUp (sz + 8))) (by simp)
  simp only [slot] at hblk
  obtain ⟨h3, h4⟩ := h2.frame (st w1.mem p (roundUp (sz + 8))) (fun a ha => st_other (by simp only [slot] at ha; omega))
  refine ⟨p, { w1 with mem := st w1.mem p (roundUp (sz + 8)) }, ?_, h3, hk.trans h4, ld_st _ _ _ (by omega), hl⟩
  unfold fastNew
  dsimp only
  have := e1
  rw [this, Res.ok_bind]
  dsimp only
  rw [store_ok (hblk.2.2.2.2 p 8 (Nat.le_refl _) (by omega)) hblk.2.1, Res.ok_bind]

theorem fastDelete_own {w : World} {l : List Slot} {p s : Nat} (h : Own w (slot p s :: l)) (hld : ld w.mem p = s)
    (hs8 : 8 ≤ s) (o : Ora) :
    ∃ w', fastDelete w (p + 8) o = .ok w' ∧ Own w' l ∧ KeepS w w' l ∧ w'.large = w.large - charge s := by
  have hblk := h.block (x := slot p s) (by simp)
  simp only [slot] at hblk
  obtain ⟨free, C, hi⟩ := h
  unfold fastDelete
  rw [show p + 8 - 8 = p by omega]
  dsimp only
  rw [load_ok (hblk.2.2.2.2 p 8 (Nat.le_refl _) (by omega)) hblk.2.1, Res.ok_bind, hld]
  unfold slot at hi
  unfold charge
  by_cases hs : s < maxFast
  · rw [if_pos hs, if_pos hs]
    rw [decide_eq_true hs, smalls_true, larges_true] at hi
    obtain ⟨w', e, hi', hk, hl, -⟩ := give_ok hi hs
    refine ⟨w', e, ⟨_, C, hi'⟩, hk.toS, ?_⟩
    rw [hl]; simp
  · rw [if_neg hs, if_neg hs]
    rw [decide_eq_false hs, smalls_false, larges_false] at hi
    obtain ⟨w', e, hi', hk, hl⟩ := cFree_ok hi o
    refine ⟨{ w' with large := w'.large - BitVec.ofNat 32 s }, by rw [e, Res.ok_bind], ⟨free, C, hi'.setLarge _⟩, hk.toS, ?_⟩
    simp only; rw [hl]

end Lolly.Alloc
