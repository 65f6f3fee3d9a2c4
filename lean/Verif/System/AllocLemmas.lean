import Verif.System.Alloc

set_option autoImplicit false

/-!
# Lemmas about the allocator

The invariant: the chunks are partitioned into the blocks of the clients, the free blocks and the rest of the newest
chunk; each free block is in the list of its size; the large blocks are regions of their own.
-/

namespace Lolly.Alloc

/-- The two ranges have no byte in common. -/
def Disj (a b : Region) : Prop := a.1 + a.2 ≤ b.1 ∨ b.1 + b.2 ≤ a.1

theorem Disj.symm {a b : Region} (h : Disj a b) : Disj b a := Or.symm h

theorem pairwise_perm {l m : List Region} (h : l.Perm m) : l.Pairwise Disj ↔ m.Pairwise Disj :=
  h.pairwise_iff fun h => h.symm

/-! ## Words in memory -/

theorem ld_st (mem : Nat → UInt8) (a v : Nat) (hv : v < 2 ^ 64) : ld (st mem a v) a = v := by
  have h : ∀ k, k < 8 → (st mem a v (a + k)).toNat = v / 256 ^ k % 256 := by
    intro k hk
    rw [st, if_pos (by omega)]
    simp
  have h0 : (st mem a v a).toNat = v / 256 ^ 0 % 256 := h 0 (by omega)
  rw [ld, h0, h 1, h 2, h 3, h 4, h 5, h 6, h 7] <;> omega

theorem ld_congr {m m' : Nat → UInt8} {a : Nat} (h : ∀ x, a ≤ x → x < a + 8 → m' x = m x) : ld m' a = ld m a := by
  unfold ld
  rw [h a, h (a + 1), h (a + 2), h (a + 3), h (a + 4), h (a + 5), h (a + 6), h (a + 7)] <;> omega

theorem ld_lt (m : Nat → UInt8) (a : Nat) : ld m a < 2 ^ 64 := by
  unfold ld
  have := fun x => (m x).toNat_lt
  have h0 := this a
  have h1 := this (a + 1)
  have h2 := this (a + 2)
  have h3 := this (a + 3)
  have h4 := this (a + 4)
  have h5 := this (a + 5)
  have h6 := this (a + 6)
  have h7 := this (a + 7)
  omega

theorem st_other {mem : Nat → UInt8} {a v x : Nat} (h : x < a ∨ a + 8 ≤ x) : st mem a v x = mem x := by
  rw [st, if_neg (by omega)]

/-! ## Lists of free blocks -/

/-- The list of free blocks that starts at `p`. -/
def Chain (mem : Nat → UInt8) : Nat → List Nat → Prop
  | p, [] => p = 0
  | p, a :: l => p = a ∧ a ≠ 0 ∧ Chain mem (ld mem a) l

theorem Chain.congr {m m' : Nat → UInt8} {p : Nat} {l : List Nat} (h : Chain m p l)
    (hm : ∀ a ∈ l, ∀ x, a ≤ x → x < a + 8 → m' x = m x) : Chain m' p l := by
  induction l generalizing p with
  | nil => exact h
  | cons a l ih =>
    refine ⟨h.1, h.2.1, ?_⟩
    rw [ld_congr (hm a (by simp))]
    exact ih h.2.2 fun b hb => hm b (by simp [hb])

/-- The free blocks of the size `i`. -/
def cls (free : List Region) (i : Nat) : List Nat := (free.filter fun x => decide (x.2 = i)).map (·.1)

theorem cls_cons_self (p s : Nat) (free : List Region) : cls ((p, s) :: free) s = p :: cls free s := by
  simp [cls]

theorem cls_cons_ne (p s i : Nat) (free : List Region) (h : s ≠ i) : cls ((p, s) :: free) i = cls free i := by
  simp [cls, h]

theorem mem_cls {free : List Region} {i a : Nat} : a ∈ cls free i ↔ (a, i) ∈ free := by
  simp only [cls, List.mem_map, List.mem_filter, decide_eq_true_eq]
  constructor
  · rintro ⟨⟨b, j⟩, ⟨h, rfl⟩, rfl⟩; exact h
  · intro h; exact ⟨(a, i), ⟨h, rfl⟩, rfl⟩

theorem cls_split {free : List Region} {s p : Nat} {l : List Nat} (h : cls free s = p :: l) :
    ∃ f1 f2, free = f1 ++ (p, s) :: f2 ∧ cls (f1 ++ f2) s = l ∧ ∀ i, i ≠ s → cls (f1 ++ f2) i = cls free i := by
  induction free with
  | nil => simp [cls] at h
  | cons x free ih =>
    obtain ⟨a, i⟩ := x
    by_cases hi : i = s
    · subst hi
      rw [cls_cons_self] at h
      injection h with h1 h2
      subst h1
      exact ⟨[], free, rfl, h2, fun j hj => (cls_cons_ne _ _ _ _ (Ne.symm hj)).symm⟩
    · rw [cls_cons_ne _ _ _ _ hi] at h
      obtain ⟨f1, f2, rfl, h1, h2⟩ := ih h
      refine ⟨(a, i) :: f1, f2, rfl, ?_, fun j hj => ?_⟩
      · rw [List.cons_append, cls_cons_ne _ _ _ _ hi, h1]
      · by_cases hij : i = j
        · subst hij; rw [List.cons_append, cls_cons_self, cls_cons_self, h2 _ hj]
        · rw [List.cons_append, cls_cons_ne _ _ _ _ hij, cls_cons_ne _ _ _ _ hij, h2 j hj]

/-! ## The invariant -/

/-- What is left of the newest chunk. -/
def tail (w : World) : List Region := if w.remains = 0 then [] else [(w.allocMem, w.remains)]

/-- A piece of one of the chunks. -/
def Fits (C : List Nat) (x : Region) : Prop :=
  x.1 % 8 = 0 ∧ x.2 % 8 = 0 ∧ 0 < x.2 ∧ ∃ c ∈ C, c ≤ x.1 ∧ x.1 + x.2 ≤ c + blockSize

/-- `B` are the small blocks of the clients, `L` the large ones, `free` the free blocks, `C` the chunks. -/
structure Inv (w : World) (B L free : List Region) (C : List Nat) : Prop where
  disj : (B ++ free ++ tail w).Pairwise Disj
  fits : ∀ x ∈ B ++ free ++ tail w, Fits C x
  small : ∀ x ∈ free, x.2 < maxFast
  chain : ∀ i, Chain w.mem (w.table i) (cls free i)
  heap : w.heap.Perm (C.map (·, blockSize) ++ L)
  hdisj : w.heap.Pairwise Disj
  hok : ∀ r ∈ w.heap, 0 < r.1 ∧ r.1 % 8 = 0 ∧ r.1 + r.2 ≤ 2 ^ 64 ∧ 0 < r.2
  sum : ((B ++ free ++ tail w).map (·.2)).sum = blockSize * C.length
  chunks : w.chunks = C.length

/-- The bytes of the given ranges are the same. -/
def Keep (w w' : World) (l : List Region) : Prop :=
  ∀ r ∈ l, ∀ a, r.1 ≤ a → a < r.1 + r.2 → w'.mem a = w.mem a

theorem Keep.trans {w1 w2 w3 : World} {l : List Region} (h1 : Keep w1 w2 l) (h2 : Keep w2 w3 l) : Keep w1 w3 l :=
  fun r hr a h3 h4 => (h2 r hr a h3 h4).trans (h1 r hr a h3 h4)

theorem Keep.mono {w1 w2 : World} {l m : List Region} (h : Keep w1 w2 l) (hs : ∀ r ∈ m, r ∈ l) : Keep w1 w2 m :=
  fun r hr => h r (hs r hr)

theorem covered_iff (heap : List Region) (a n : Nat) :
    covered heap a n = true ↔ ∃ r ∈ heap, r.1 ≤ a ∧ a + n ≤ r.1 + r.2 := by
  simp [covered]

theorem Inv.perm {w : World} {B L free : List Region} {C : List Nat} (h : Inv w B L free C) {B' L' : List Region}
    (hB : B.Perm B') (hL : L.Perm L') : Inv w B' L' free C := by
  have hp : (B ++ free ++ tail w).Perm (B' ++ free ++ tail w) := (hB.append_right _).append_right _
  refine ⟨(pairwise_perm hp).1 h.disj, fun x hx => h.fits x (hp.mem_iff.2 hx), h.small, h.chain,
    h.heap.trans (hL.append_left _), h.hdisj, h.hok, ?_, h.chunks⟩
  rw [← h.sum]
  exact (hp.map _).sum_nat.symm

theorem Inv.chunk_mem {w : World} {B L free : List Region} {C : List Nat} (h : Inv w B L free C) {c : Nat} (hc : c ∈ C) :
    (c, blockSize) ∈ w.heap := h.heap.mem_iff.2 (List.mem_append_left _ (List.mem_map.2 ⟨c, hc, rfl⟩))

theorem Inv.large_mem {w : World} {B L free : List Region} {C : List Nat} (h : Inv w B L free C) {r : Region} (hr : r ∈ L) :
    r ∈ w.heap := h.heap.mem_iff.2 (List.mem_append_right _ hr)

theorem Inv.piece_covered {w : World} {B L free : List Region} {C : List Nat} (h : Inv w B L free C) {x : Region}
    (hx : x ∈ B ++ free ++ tail w) {a n : Nat} (h1 : x.1 ≤ a) (h2 : a + n ≤ x.1 + x.2) : covered w.heap a n = true := by
  obtain ⟨-, -, -, c, hc, h3, h4⟩ := h.fits x hx
  exact (covered_iff _ _ _).2 ⟨_, h.chunk_mem hc, by simp; omega, by simp; omega⟩

theorem Inv.large_covered {w : World} {B L free : List Region} {C : List Nat} (h : Inv w B L free C) {x : Region}
    (hx : x ∈ L) {a n : Nat} (h1 : x.1 ≤ a) (h2 : a + n ≤ x.1 + x.2) : covered w.heap a n = true :=
  (covered_iff _ _ _).2 ⟨_, h.large_mem hx, h1, h2⟩

theorem Inv.piece_large {w : World} {B L free : List Region} {C : List Nat} (h : Inv w B L free C) {x r : Region}
    (hx : x ∈ B ++ free ++ tail w) (hr : r ∈ L) : Disj x r := by
  obtain ⟨-, -, -, c, hc, h3, h4⟩ := h.fits x hx
  have := (pairwise_perm h.heap).1 h.hdisj
  have := (List.pairwise_append.1 this).2.2 (c, blockSize) (List.mem_map.2 ⟨c, hc, rfl⟩) r hr
  unfold Disj at *
  simp only at this
  omega

theorem Inv.piece_pos {w : World} {B L free : List Region} {C : List Nat} (h : Inv w B L free C) {x : Region}
    (hx : x ∈ B ++ free ++ tail w) : 0 < x.1 ∧ x.1 < 2 ^ 64 ∧ 8 ≤ x.2 := by
  obtain ⟨h0, h1, h2, c, hc, h3, h4⟩ := h.fits x hx
  have := h.hok _ (h.chunk_mem hc)
  simp only at this
  omega

theorem Inv.table_lt {w : World} {B L free : List Region} {C : List Nat} (h : Inv w B L free C) (i : Nat) :
    w.table i < 2 ^ 64 := by
  have hch := h.chain i
  cases hc : cls free i with
  | nil => rw [hc, Chain] at hch; omega
  | cons a l =>
    rw [hc] at hch
    have hm : (a, i) ∈ free := mem_cls.1 (by rw [hc]; simp)
    have := h.piece_pos (List.mem_append_left _ (List.mem_append_right _ hm))
    rw [hch.1]
    exact this.2.1

/-- When only bytes of the block `x` change, everything else stays. -/
theorem Inv.frame_block {w : World} {B L free : List Region} {C : List Nat} {x : Region} (h : Inv w (x :: B) L free C)
    (m : Nat → UInt8) (hm : ∀ a, (a < x.1 ∨ x.1 + x.2 ≤ a) → m a = w.mem a) :
    Inv { w with mem := m } (x :: B) L free C ∧ Keep w { w with mem := m } (B ++ L) := by
  obtain ⟨hx1, -⟩ := List.pairwise_cons.1 (show (x :: (B ++ free ++ tail w)).Pairwise Disj from h.disj)
  have hout : ∀ y : Region, Disj x y → ∀ a, y.1 ≤ a → a < y.1 + y.2 → m a = w.mem a := by
    intro y hd a h1 h2
    refine hm a ?_
    unfold Disj at hd
    omega
  constructor
  · refine ⟨h.disj, h.fits, h.small, fun i => ?_, h.heap, h.hdisj, h.hok, h.sum, h.chunks⟩
    refine (h.chain i).congr fun a ha y h1 h2 => ?_
    have hf := mem_cls.1 ha
    have h8 := (h.piece_pos (x := (a, i)) (by simp [hf])).2.2
    exact hout (a, i) (hx1 _ (by simp [hf])) y h1 (by simp; simp at h8; omega)
  · intro r hr a h1 h2
    rcases List.mem_append.1 hr with hr | hr
    · exact hout r (hx1 r (by simp [hr])) a h1 h2
    · exact hout r (h.piece_large (by simp) hr) a h1 h2

/-! ## Putting a block into its list -/

theorem store_ok {w : World} {a v : Nat} (hc : covered w.heap a 8 = true) (ha : a % 8 = 0) :
    store w a v = .ok { w with mem := st w.mem a v } := by
  rw [store, if_pos ⟨hc, ha⟩]

theorem load_ok {w : World} {a : Nat} (hc : covered w.heap a 8 = true) (ha : a % 8 = 0) : load w a = .ok (ld w.mem a) := by
  rw [load, if_pos ⟨hc, ha⟩]

theorem give_ok {w : World} {B L free : List Region} {C : List Nat} {p s : Nat} (h : Inv w ((p, s) :: B) L free C)
    (hs : s < maxFast) : ∃ w', give w p s = .ok w' ∧ Inv w' B L ((p, s) :: free) C ∧ Keep w w' (B ++ L) ∧
      w'.large = w.large ∧ w'.remains = w.remains ∧ w'.allocMem = w.allocMem ∧ w'.heap = w.heap ∧ w'.chunks = w.chunks := by
  have hmem : (p, s) ∈ (p, s) :: B ++ free ++ tail w := by simp
  have hpos := h.piece_pos hmem
  have hfit := h.fits _ hmem
  simp only at hpos
  have hcov : covered w.heap p 8 = true := h.piece_covered hmem (by simp) (by simp; omega)
  obtain ⟨h1, hk⟩ := h.frame_block (st w.mem p (w.table s)) (fun a ha => st_other (by simp at ha; omega))
  refine ⟨{ w with mem := st w.mem p (w.table s), table := fun j => if j = s then p else w.table j }, ?_, ?_, hk, rfl, rfl, rfl,
    rfl, rfl⟩
  · rw [give, tab, if_pos hs, Res.ok_bind, store_ok hcov hfit.1, Res.ok_bind, setTab, if_pos hs]
  · have hp : ((p, s) :: B ++ free ++ tail w).Perm (B ++ (p, s) :: free ++ tail w) := by
      refine List.Perm.append_right _ ?_
      exact List.perm_middle.symm
    refine ⟨(pairwise_perm hp).1 h.disj, fun x hx => h.fits x (hp.mem_iff.2 hx), fun x hx => ?_, fun i => ?_, h.heap,
      h.hdisj, h.hok, ?_, h.chunks⟩
    · rcases List.mem_cons.1 hx with rfl | hx
      · exact hs
      · exact h.small x hx
    · by_cases hi : i = s
      · subst hi
        rw [cls_cons_self]
        refine ⟨by simp, by omega, ?_⟩
        rw [ld_st _ _ _ (h.table_lt i)]
        exact h1.chain i
      · rw [cls_cons_ne _ _ _ _ (Ne.symm hi)]
        simp only [if_neg hi]
        exact h1.chain i
    · rw [← h.sum]
      exact (hp.map _).sum_nat.symm

/-! ## New chunks -/

/-- The answer of the C library to a request for `n` bytes: memory that is not in use. -/
def Legal (heap : List Region) (n : Nat) (o : Ora) : Prop :=
  0 < o.p ∧ o.p % 8 = 0 ∧ o.p + n ≤ 2 ^ 64 ∧ ∀ r ∈ heap, Disj (o.p, n) r

/-- When the bytes outside of the heap change, everything stays. -/
theorem Inv.frame_heap {w : World} {B L free : List Region} {C : List Nat} (h : Inv w B L free C) (m : Nat → UInt8)
    (hm : ∀ a, covered w.heap a 1 = true → m a = w.mem a) :
    Inv { w with mem := m } B L free C ∧ Keep w { w with mem := m } (B ++ L) := by
  constructor
  · refine ⟨h.disj, h.fits, h.small, fun i => ?_, h.heap, h.hdisj, h.hok, h.sum, h.chunks⟩
    refine (h.chain i).congr fun a ha y h1 h2 => hm y ?_
    have hx : (a, i) ∈ B ++ free ++ tail w := by simp [mem_cls.1 ha]
    have := (h.piece_pos hx).2.2
    exact h.piece_covered hx h1 (by simp at *; omega)
  · intro r hr a h1 h2
    refine hm a ?_
    rcases List.mem_append.1 hr with hr | hr
    · exact h.piece_covered (by simp [hr]) h1 (by omega)
    · exact h.large_covered hr h1 (by omega)

theorem give_remains (w : World) (p s r : Nat) :
    give { w with remains := r } p s = (give w p s >>= fun w' => .ok { w' with remains := r }) := by
  unfold give tab store setTab
  by_cases h1 : s < maxFast
  · by_cases h2 : covered w.heap p 8 ∧ p % 8 = 0
    · simp [h1, h2]
    · simp only [if_pos h1, Res.ok_bind, if_neg h2]; rfl
  · simp [h1]

theorem newChunk_ok {w : World} {B L free : List Region} {C : List Nat} (h : Inv w B L free C) {o : Ora}
    (ho : Legal w.heap blockSize o) (hr : w.remains < maxFast) :
    ∃ w' free', newChunk w o = .ok w' ∧ Inv w' B L free' (o.p :: C) ∧ Keep w w' (B ++ L) ∧ w'.large = w.large ∧
      w'.remains = blockSize := by
  -- what is left becomes a free block
  have hleft : ∃ w1 free1, (if 0 < w.remains then give w w.allocMem w.remains else .ok w) = .ok w1 ∧
      Inv { w1 with remains := 0 } B L free1 C ∧ Keep w w1 (B ++ L) ∧ w1.large = w.large ∧ w1.heap = w.heap ∧ w1.chunks = w.chunks := by
    by_cases h0 : w.remains = 0
    · refine ⟨w, free, by rw [if_neg (by omega)], ?_, fun _ _ _ _ _ => rfl, rfl, rfl, rfl⟩
      have : { w with remains := 0 } = w := by cases w; simp_all
      rw [this]; exact h
    · have ht : tail w = [(w.allocMem, w.remains)] := by rw [tail, if_neg h0]
      have hp : (B ++ free ++ tail w).Perm ((w.allocMem, w.remains) :: B ++ free ++ tail { w with remains := 0 }) := by
        rw [ht, show tail { w with remains := 0 } = [] from rfl, List.append_nil]
        exact List.perm_append_comm
      have hinv : Inv { w with remains := 0 } ((w.allocMem, w.remains) :: B) L free C :=
        ⟨(pairwise_perm hp).1 h.disj, fun x hx => h.fits x (hp.mem_iff.2 hx), h.small, h.chain, h.heap, h.hdisj, h.hok, by
          rw [← h.sum]; exact (hp.map _).sum_nat.symm, h.chunks⟩
      obtain ⟨w1, e1, h1, hk, hl, hrem, -, hh, hch⟩ := give_ok hinv hr
      refine ⟨{ w1 with remains := w.remains }, (w.allocMem, w.remains) :: free, ?_, ?_, hk, hl, hh, hch⟩
      · rw [if_pos (by omega)]
        have := give_remains { w with remains := 0 } w.allocMem w.remains w.remains
        rw [e1] at this
        exact this
      · have : { { w1 with remains := w.remains } with remains := 0 } = w1 := by
          have : w1.remains = 0 := hrem
          cases w1; simp_all
        rw [this]; exact h1
  obtain ⟨w1, free1, e1, h1, hk1, hl1, hh1, hc1⟩ := hleft
  have e1' : newChunk w o = (cMalloc w1 blockSize o >>= fun x =>
      .ok { x.2 with allocMem := x.1, remains := blockSize, chunks := x.2.chunks + 1 }) := by
    rw [newChunk, e1, Res.ok_bind]
  obtain ⟨ho1, ho2, ho3, ho4⟩ := ho
  obtain ⟨h2, hk2⟩ := h1.frame_heap (fun a => if covered w1.heap a 1 then w1.mem a else o.junk a) (fun a ha => by
    rw [if_pos ha])
  rw [cMalloc, if_neg (by omega), Res.ok_bind] at e1'
  refine ⟨_, free1, e1', ?_, hk1.trans hk2, hl1, rfl⟩
  have htail : ∀ x : Region, x ∈ B ++ free1 → Fits C x ∧ Disj (o.p, blockSize) x := by
    intro x hx
    have hf := h2.fits x (List.mem_append_left _ hx)
    refine ⟨hf, ?_⟩
    obtain ⟨-, -, -, c, hc, h3, h4⟩ := hf
    have := ho4 (c, blockSize) (hh1 ▸ h2.chunk_mem hc)
    unfold Disj at *
    simp only at *
    omega
  have hd := h2.disj
  have hs := h2.sum
  have htl : tail { { w1 with remains := 0 } with mem := fun a => if covered w1.heap a 1 then w1.mem a else o.junk a } = [] := rfl
  simp only [htl, List.append_nil] at hd hs
  refine ⟨?_, ?_, h2.small, h2.chain, ?_, ?_, ?_, ?_, ?_⟩
  · show (B ++ free1 ++ [(o.p, blockSize)]).Pairwise Disj
    rw [List.pairwise_append]
    refine ⟨hd, by simp, fun x hx y hy => ?_⟩
    simp only [List.mem_cons, List.not_mem_nil, or_false] at hy
    subst hy
    exact (htail x hx).2.symm
  · show ∀ x ∈ B ++ free1 ++ [(o.p, blockSize)], Fits (o.p :: C) x
    intro x hx
    rcases List.mem_append.1 hx with hx | hx
    · obtain ⟨h3, h4, h5, c, hc, h6⟩ := (htail x hx).1
      exact ⟨h3, h4, h5, c, by simp [hc], h6⟩
    · simp only [List.mem_cons, List.not_mem_nil, or_false] at hx
      subst hx
      exact ⟨ho2, by simp [blockSize], by simp [blockSize], o.p, by simp, by simp, by simp⟩
  · show ((o.p, blockSize) :: w1.heap).Perm _
    exact h2.heap.cons _
  · show ((o.p, blockSize) :: w1.heap).Pairwise Disj
    exact List.pairwise_cons.2 ⟨fun r hr => ho4 r (hh1 ▸ hr), h2.hdisj⟩
  · show ∀ r ∈ (o.p, blockSize) :: w1.heap, _
    intro r hr
    rcases List.mem_cons.1 hr with rfl | hr
    · exact ⟨ho1, ho2, ho3, by simp [blockSize]⟩
    · exact h2.hok r hr
  · show ((B ++ free1 ++ [(o.p, blockSize)]).map (·.2)).sum = _
    rw [List.map_append, List.sum_append_nat, hs]
    simp [Nat.mul_add]
  · show w1.chunks + 1 = _
    have := h2.chunks
    simp only at this
    simp [this]

/-! ## Taking a block -/

theorem enlarge_ok {w : World} {B L free : List Region} {C : List Nat} (h : Inv w B L free C) {o : Ora} {s : Nat}
    (ho : Legal w.heap blockSize o) (hs0 : 0 < s) (hs8 : s % 8 = 0) (hs : s < maxFast) :
    ∃ p w' free' C', enlarge w s o = .ok (p, w') ∧ Inv w' ((p, s) :: B) L free' C' ∧ Keep w w' (B ++ L) ∧
      w'.large = w.large := by
  have hstep : ∃ w1 free1 C1, (if w.remains < s then newChunk w o else .ok w) = .ok w1 ∧ Inv w1 B L free1 C1 ∧
      Keep w w1 (B ++ L) ∧ w1.large = w.large ∧ s ≤ w1.remains := by
    by_cases hr : w.remains < s
    · obtain ⟨w1, free1, e1, h1, hk, hl, hrem⟩ := newChunk_ok h ho (by omega)
      refine ⟨w1, free1, _, by rw [if_pos hr, e1], h1, hk, hl, ?_⟩
      rw [hrem]
      simp only [maxFast, blockSize] at *
      omega
    · exact ⟨w, free, C, by rw [if_neg hr], h, fun _ _ _ _ _ => rfl, rfl, by omega⟩
  obtain ⟨w1, free1, C1, e1, h1, hk, hl, hrem⟩ := hstep
  refine ⟨w1.allocMem, { w1 with allocMem := w1.allocMem + s, remains := w1.remains - s }, free1, C1, ?_, ?_, hk, hl⟩
  · rw [enlarge, e1, Res.ok_bind]
  · have ht : tail w1 = [(w1.allocMem, w1.remains)] := by rw [tail, if_neg (by omega)]
    have ht' : ∀ x ∈ tail { w1 with allocMem := w1.allocMem + s, remains := w1.remains - s },
        x = (w1.allocMem + s, w1.remains - s) ∧ 0 < w1.remains - s := by
      intro x hx
      unfold tail at hx
      split at hx
      · simp at hx
      · next hne =>
        simp only [List.mem_cons, List.not_mem_nil, or_false] at hx
        simp only at hne
        exact ⟨hx, by omega⟩
    have hd := h1.disj
    have hf := h1.fits
    have hsum := h1.sum
    rw [ht] at hd hf hsum
    obtain ⟨hd1, -, hd2⟩ := List.pairwise_append.1 hd
    have hmid := hf (w1.allocMem, w1.remains) (by simp)
    obtain ⟨ha, hb, hc, c, hcC, hc1, hc2⟩ := hmid
    simp only at ha hb hc hc1 hc2
    refine ⟨?_, ?_, h1.small, h1.chain, h1.heap, h1.hdisj, h1.hok, ?_, h1.chunks⟩
    · rw [List.cons_append, List.cons_append, List.pairwise_cons, List.pairwise_append]
      refine ⟨fun y hy => ?_, hd1, ?_, fun x hx y hy => ?_⟩
      · rcases List.mem_append.1 hy with hy | hy
        · have := hd2 y hy _ (by simp : (w1.allocMem, w1.remains) ∈ _)
          unfold Disj at *
          simp only at *
          omega
        · obtain ⟨rfl, -⟩ := ht' y hy
          left; simp
      · unfold tail; split <;> simp
      · obtain ⟨rfl, -⟩ := ht' y hy
        have := hd2 x hx _ (by simp : (w1.allocMem, w1.remains) ∈ _)
        unfold Disj at *
        simp only at *
        omega
    · intro x hx
      rw [List.cons_append, List.cons_append] at hx
      rcases List.mem_cons.1 hx with rfl | hx
      · exact ⟨ha, hs8, hs0, c, hcC, hc1, by simp; omega⟩
      · rcases List.mem_append.1 hx with hx | hx
        · exact hf x (by simp at hx ⊢; rcases hx with hx | hx <;> simp [hx])
        · obtain ⟨rfl, h0⟩ := ht' x hx
          exact ⟨by simp; omega, by simp; omega, h0, c, hcC, by simp; omega, by simp; omega⟩
    · rw [← hsum]
      have : ((tail { w1 with allocMem := w1.allocMem + s, remains := w1.remains - s }).map (·.2)).sum = w1.remains - s := by
        unfold tail
        split
        · next h => simp only at h; simp [h]
        · simp
      rw [List.cons_append, List.cons_append, List.map_cons, List.sum_cons, List.map_append, List.sum_append_nat, this,
        List.map_append, List.sum_append_nat]
      simp
      omega

theorem take_ok {w : World} {B L free : List Region} {C : List Nat} (h : Inv w B L free C) {o : Ora} {s : Nat}
    (ho : Legal w.heap blockSize o) (hs0 : 0 < s) (hs8 : s % 8 = 0) (hs : s < maxFast) :
    ∃ p w' free' C', take w s o = .ok (p, w') ∧ Inv w' ((p, s) :: B) L free' C' ∧ Keep w w' (B ++ L) ∧
      w'.large = w.large := by
  rw [take, tab, if_pos hs, Res.ok_bind]
  by_cases hp : w.table s = 0
  · rw [if_pos hp]; exact enlarge_ok h ho hs0 hs8 hs
  · rw [if_neg hp]
    have hch := h.chain s
    cases hc : cls free s with
    | nil => rw [hc, Chain] at hch; exact absurd hch hp
    | cons a l =>
      rw [hc] at hch
      obtain ⟨hc1, hc2, hc3⟩ := hch
      rw [hc1]
      obtain ⟨f1, f2, rfl, hcs, hco⟩ := cls_split hc
      have hmem : (a, s) ∈ B ++ (f1 ++ (a, s) :: f2) ++ tail w := by simp
      have hpos := h.piece_pos hmem
      have hfit := h.fits _ hmem
      simp only at hpos
      rw [load_ok (h.piece_covered hmem (by simp) (by simp; omega)) hfit.1, Res.ok_bind, setTab, if_pos hs, Res.ok_bind]
      refine ⟨a, _, f1 ++ f2, C, rfl, ?_, fun _ _ _ _ _ => rfl, rfl⟩
      have hpm : (B ++ (f1 ++ (a, s) :: f2) ++ tail w).Perm ((a, s) :: B ++ (f1 ++ f2) ++ tail w) := by
        refine List.Perm.append_right _ ?_
        rw [← List.append_assoc]
        refine List.perm_middle.trans ?_
        simp
      refine ⟨(pairwise_perm hpm).1 h.disj, fun x hx => h.fits x (hpm.mem_iff.2 hx), fun x hx => h.small x ?_,
        fun i => ?_, h.heap, h.hdisj, h.hok, ?_, h.chunks⟩
      · simp at hx ⊢; rcases hx with hx | hx <;> simp [hx]
      · by_cases hi : i = s
        · subst hi
          simp only [if_true]
          rw [hcs]; exact hc3
        · simp only [if_neg hi]
          rw [hco i hi]; exact h.chain i
      · rw [← h.sum]
        exact (hpm.map _).sum_nat.symm

/-! ## Large blocks -/

theorem cMalloc_ok {w : World} {B L free : List Region} {C : List Nat} (h : Inv w B L free C) {o : Ora} {n : Nat}
    (ho : Legal w.heap n o) (hn : 0 < n) : ∃ w', cMalloc w n o = .ok (o.p, w') ∧ Inv w' B ((o.p, n) :: L) free C ∧
      Keep w w' (B ++ L) ∧ w'.large = w.large := by
  obtain ⟨ho1, ho2, ho3, ho4⟩ := ho
  obtain ⟨h2, hk2⟩ := h.frame_heap (fun a => if covered w.heap a 1 then w.mem a else o.junk a) (fun a ha => by rw [if_pos ha])
  refine ⟨{ w with
    heap := (o.p, n) :: w.heap
    mem := fun a => if covered w.heap a 1 then w.mem a else o.junk a }, by rw [cMalloc, if_neg (by omega)], ?_, hk2, rfl⟩
  refine ⟨h2.disj, h2.fits, h2.small, h2.chain, ?_, ?_, ?_, h2.sum, h2.chunks⟩
  · show ((o.p, n) :: w.heap).Perm _
    exact (h2.heap.cons _).trans List.perm_middle.symm
  · show ((o.p, n) :: w.heap).Pairwise Disj
    exact List.pairwise_cons.2 ⟨ho4, h2.hdisj⟩
  · show ∀ r ∈ (o.p, n) :: w.heap, _
    intro r hr
    rcases List.mem_cons.1 hr with rfl | hr
    · exact ⟨ho1, ho2, ho3, hn⟩
    · exact h2.hok r hr

/-- Removing the region at `p`. -/
theorem filter_region {heap rest : List Region} {p n : Nat} (hp : heap.Perm ((p, n) :: rest)) (hd : heap.Pairwise Disj)
    (hpos : ∀ r ∈ heap, 0 < r.2) : (heap.filter fun r => decide (r.1 ≠ p)).Perm rest := by
  have h1 := hp.filter fun r => decide (r.1 ≠ p)
  rw [List.filter_cons, if_neg (by simp)] at h1
  refine h1.trans (List.Perm.of_eq ?_)
  rw [List.filter_eq_self]
  intro r hr
  have hd' := (List.pairwise_cons.1 ((pairwise_perm hp).1 hd)).1 r hr
  have h0 := hpos r (hp.mem_iff.2 (by simp [hr]))
  have hn := hpos (p, n) (hp.mem_iff.2 (by simp))
  unfold Disj at hd'
  simp only at hd' hn
  simp
  omega

theorem Inv.drop_large {w : World} {B L free : List Region} {C : List Nat} {p n : Nat}
    (h : Inv w B ((p, n) :: L) free C) : Inv { w with heap := w.heap.filter fun r => decide (r.1 ≠ p) } B L free C := by
  have hp : w.heap.Perm ((p, n) :: (C.map (·, blockSize) ++ L)) := h.heap.trans List.perm_middle
  have hf := filter_region hp h.hdisj (fun r hr => (h.hok r hr).2.2.2)
  exact ⟨h.disj, h.fits, h.small, h.chain, hf, h.hdisj.filter _, fun r hr => h.hok r (List.mem_filter.1 hr).1, h.sum,
    h.chunks⟩

theorem cFree_ok {w : World} {B L free : List Region} {C : List Nat} {p n : Nat} (h : Inv w B ((p, n) :: L) free C) (o : Ora) :
    ∃ w', cFree w p o = .ok w' ∧ Inv w' B L free C ∧ Keep w w' (B ++ L) ∧ w'.large = w.large := by
  have hd := h.drop_large
  obtain ⟨h2, hk2⟩ := hd.frame_heap (fun a => if covered (w.heap.filter fun r => decide (r.1 ≠ p)) a 1 then w.mem a else o.junk a)
    (fun a ha => if_pos ha)
  refine ⟨_, ?_, h2, hk2, rfl⟩
  rw [cFree, if_pos]
  rw [List.any_eq_true]
  exact ⟨(p, n), h.large_mem (by simp), by simp⟩

theorem find_region {heap : List Region} {p n : Nat} (hm : (p, n) ∈ heap) (hd : heap.Pairwise Disj)
    (hpos : ∀ r ∈ heap, 0 < r.2) : (heap.find? fun r => decide (r.1 = p)) = some (p, n) := by
  induction heap with
  | nil => simp at hm
  | cons r heap ih =>
    obtain ⟨h1, h2⟩ := List.pairwise_cons.1 hd
    rw [List.find?_cons]
    rcases List.mem_cons.1 hm with rfl | hm
    · simp
    · have : r.1 ≠ p := by
        have := h1 _ hm
        have h3 := hpos r (by simp)
        have h4 := hpos _ (List.mem_cons_of_mem _ hm)
        unfold Disj at this
        simp only at this h4
        omega
      simp only [this, decide_false]
      exact ih hm h2 fun r hr => hpos r (by simp [hr])

theorem cRealloc_ok {w : World} {B L free : List Region} {C : List Nat} {p m n : Nat} (h : Inv w B ((p, m) :: L) free C)
    {o : Ora} (ho : Legal (w.heap.filter fun r => decide (r.1 ≠ p)) n o) (hn : 0 < n) :
    ∃ w', cRealloc w p n o = .ok (o.p, w') ∧ Inv w' B ((o.p, n) :: L) free C ∧ Keep w w' (B ++ L) ∧ w'.large = w.large ∧
      ∀ i, i < min m n → w'.mem (o.p + i) = w.mem (p + i) := by
  have hd := h.drop_large
  obtain ⟨ho1, ho2, ho3, ho4⟩ := ho
  have hout : ∀ a, covered (w.heap.filter fun r => decide (r.1 ≠ p)) a 1 = true → ¬ (o.p ≤ a ∧ a < o.p + min m n) := by
    intro a ha
    obtain ⟨r, hr, h1, h2⟩ := (covered_iff _ _ _).1 ha
    have := ho4 r hr
    unfold Disj at this
    simp only at this
    omega
  obtain ⟨h2, hk2⟩ := hd.frame_heap (fun a =>
          if o.p ≤ a ∧ a < o.p + min m n then w.mem (p + (a - o.p))
          else if covered (w.heap.filter fun r => decide (r.1 ≠ p)) a 1 then w.mem a else o.junk a)
    (fun a ha => by rw [if_neg (hout a ha), if_pos ha])
  refine ⟨{ w with
        heap := (o.p, n) :: w.heap.filter fun r => decide (r.1 ≠ p)
        mem := fun a =>
          if o.p ≤ a ∧ a < o.p + min m n then w.mem (p + (a - o.p))
          else if covered (w.heap.filter fun r => decide (r.1 ≠ p)) a 1 then w.mem a else o.junk a }, ?_, ?_, hk2, rfl, ?_⟩
  · rw [cRealloc, find_region (n := m) (h.large_mem (by simp)) h.hdisj (fun r hr => (h.hok r hr).2.2.2)]
    dsimp only
    rw [if_neg (by omega)]
  · refine ⟨h2.disj, h2.fits, h2.small, h2.chain, ?_, ?_, ?_, h2.sum, h2.chunks⟩
    · exact (h2.heap.cons _).trans List.perm_middle.symm
    · exact List.pairwise_cons.2 ⟨ho4, h2.hdisj⟩
    · intro r hr
      rcases List.mem_cons.1 hr with rfl | hr
      · exact ⟨ho1, ho2, ho3, hn⟩
      · exact h2.hok r hr
  · intro i hi
    simp only
    rw [if_pos (by omega)]
    congr 1
    omega

end Lolly.Alloc
