import Verif.System.AllocRun

set_option autoImplicit false

/-!
# The statistics of the allocator
-/

namespace Lolly.Alloc

theorem computeFree_chain {w : World} {l : List Nat} {p f : Nat} (h : Chain w.mem p l)
    (hc : ∀ a ∈ l, covered w.heap a 8 = true ∧ a % 8 = 0) (hf : l.length < f) : computeFree w f p = .ok l.length := by
  induction l generalizing p f with
  | nil =>
    cases f with
    | zero => simp at hf
    | succ f => rw [computeFree, if_pos (show p = 0 from h)]; rfl
  | cons a l ih =>
    cases f with
    | zero => simp at hf
    | succ f =>
      obtain ⟨h1, h2, h3⟩ := h
      subst h1
      rw [computeFree, if_neg h2, load_ok (hc _ (by simp)).1 (hc _ (by simp)).2, Res.ok_bind,
        ih h3 (fun a ha => hc a (by simp [ha])) (by simpa using hf), Res.ok_bind]
      rfl

/-- The bytes in the free blocks with a size from `i` to `i + 8 * n`. -/
def band (free : List Region) (i n : Nat) : Nat := ((free.filter fun x => decide (i ≤ x.2 ∧ x.2 < i + 8 * n)).map (·.2)).sum

theorem band_succ (free : List Region) (h8 : ∀ x ∈ free, x.2 % 8 = 0) (i n : Nat) (hi : i % 8 = 0) :
    band free i (n + 1) = i * (cls free i).length + band free (i + 8) n := by
  induction free with
  | nil => simp [band, cls]
  | cons x free ih =>
    obtain ⟨a, s⟩ := x
    have ih := ih fun y hy => h8 y (by simp [hy])
    have hs := h8 (a, s) (by simp)
    simp only at hs
    unfold band at *
    by_cases hsi : s = i
    · subst hsi
      rw [cls_cons_self, List.filter_cons, if_pos (by simp), List.filter_cons, if_neg (by simp; omega)]
      simp only [List.map_cons, List.sum_cons, List.length_cons]
      rw [ih, Nat.mul_succ s]
      omega
    · rw [cls_cons_ne _ _ _ _ hsi, List.filter_cons, List.filter_cons]
      by_cases hb : i + 8 ≤ s ∧ s < i + 8 + 8 * n
      · rw [if_pos (by simp; omega), if_pos (by simp; omega)]
        simp only [List.map_cons, List.sum_cons]
        omega
      · rw [if_neg (by simp; omega), if_neg (by simp; omega)]
        exact ih

theorem cls_le_band {free : List Region} (h8 : ∀ x ∈ free, x.2 % 8 = 0) {i : Nat} (n : Nat) (hi : i % 8 = 0) :
    i * (cls free i).length ≤ band free i (n + 1) := by
  rw [band_succ free h8 i n hi]; omega

theorem freeBytes_ok {w : World} {free : List Region} {f : Nat} (hch : ∀ i, Chain w.mem (w.table i) (cls free i))
    (hc : ∀ x ∈ free, covered w.heap x.1 8 = true ∧ x.1 % 8 = 0) (h8 : ∀ x ∈ free, x.2 % 8 = 0) (hf : free.length < f)
    (n i : Nat) (hi : i % 8 = 0) (acc : Nat) (hb : acc + band free i n ≤ 2147483647) :
    freeBytes w f n i acc = .ok ((acc + band free i n : Nat) : Int) := by
  induction n generalizing i acc with
  | zero =>
    have : band free i 0 = 0 := by
      unfold band
      rw [List.filter_eq_nil_iff.2 (by simp)]
      rfl
    rw [freeBytes, this, Nat.add_zero]
  | succ n ih =>
    rw [band_succ free h8 i n hi] at hb
    have hlen : (cls free i).length < f := by
      refine Nat.lt_of_le_of_lt ?_ hf
      rw [cls, List.length_map]
      exact List.length_filter_le _ _
    rw [freeBytes, computeFree_chain (hch i) (fun a ha => hc (a, i) (mem_cls.1 ha)) hlen, Res.ok_bind]
    rw [show ((i : Int) * ((cls free i).length : Nat)) = ((i * (cls free i).length : Nat) : Int) by simp]
    rw [int32, if_pos (by omega), Res.ok_bind, int32, if_pos (by omega), Res.ok_bind]
    rw [show ((acc : Int) + ((i * (cls free i).length : Nat) : Int)) = ((acc + i * (cls free i).length : Nat) : Int) by omega]
    rw [ih (i + 8) (by omega) _ (by omega), band_succ free h8 i n hi]
    congr 2
    omega

theorem band_all {free : List Region} (h8 : ∀ x ∈ free, 8 ≤ x.2 ∧ x.2 < maxFast) : band free 8 32 = (free.map (·.2)).sum := by
  unfold band
  rw [List.filter_eq_self.2]
  intro x hx
  have := h8 x hx
  simp only [maxFast] at this
  simp
  omega

theorem sum_smalls (Z : List (Blk × SBlk)) (w : World) (hg : ∀ z ∈ Z, Good w z.1 z.2) :
    ((smalls (Z.map fun z => slotOf z.1)).map (·.2)).sum + ((Z.map (·.1)).map bill).sum = ((Z.map (·.2)).map foot).sum := by
  induction Z with
  | nil => rfl
  | cons z Z ih =>
    have ih := ih fun y hy => hg y (by simp [hy])
    have h := hg z (by simp)
    obtain ⟨b, s⟩ := z
    have hfoot : foot s = (if b.isNew then roundUp (b.req + 8) else roundUp b.req) := by
      have hk := h.kind
      have hl := h.len
      unfold foot
      simp only at hk hl
      rw [← hk, ← hl]
      cases hn : b.isNew
      · have := (h.old hn).2.2
        rw [if_neg (by simp), if_neg (by simp), roundUp_eq this]
      · have := (h.new hn).2.2.2
        simp only at this
        rw [if_pos rfl, if_pos rfl, roundUp_eq (by omega)]
    simp only [List.map_cons, List.sum_cons]
    rw [hfoot]
    cases hn : b.isNew
    · have ho := (h.old hn).1
      simp only [FreeAs] at ho
      simp only [bill, hn, Bool.false_eq_true, if_false]
      by_cases hs : roundUp b.req < maxFast
      · rw [if_pos hs]
        have h1 : slotOf b = (true, (slotOf b).2) := Prod.ext (by rw [ho.1]; simp [hs]) rfl
        rw [h1, smalls_true, List.map_cons, List.sum_cons, ho.2 hs]
        omega
      · rw [if_neg hs]
        have h1 : slotOf b = (false, (slotOf b).2) := Prod.ext (by rw [ho.1]; simp [hs]) rfl
        rw [h1, smalls_false]
        omega
    · have hw := (h.new hn).2.1
      simp only at hw
      simp only [bill, hn, if_true]
      have hsl : slotOf b = slot (b.addr - 8) (roundUp (b.req + 8)) := by simp [slotOf, hn, hw]
      rw [hsl]
      by_cases hs : roundUp (b.req + 8) < maxFast
      · rw [if_pos hs, slot, decide_eq_true hs, smalls_true, List.map_cons, List.sum_cons]
        simp only
        omega
      · rw [if_neg hs, slot, decide_eq_false hs, smalls_false]
        omega

theorem memUsed_rel {P : Prog} {S : List SBlk} {d : Int} (h : Rel P S) (hb : Billed P d) (hc : blockSize * P.w.chunks ≤ 2147483647)
    (hd : -2147483648 ≤ d) (ht : ((S.map foot).sum : Nat) + d ≤ 2147483647) :
    ∃ f0, ∀ f, f0 ≤ f → memUsed P.w f = .ok (((S.map foot).sum : Nat) + d) := by
  obtain ⟨Z, hl, rfl, ⟨free, C, hi⟩, hg⟩ := h
  have hsum := sum_smalls Z P.w hg
  refine ⟨free.length + 1, fun f hf => ?_⟩
  have hfit : ∀ x ∈ free, x ∈ smalls (Z.map fun z => slotOf z.1) ++ free ++ tail P.w := fun x hx => by simp [hx]
  have hpos : ∀ x ∈ free, 8 ≤ x.2 ∧ x.2 < maxFast := fun x hx => ⟨(hi.piece_pos (hfit x hx)).2.2, hi.small x hx⟩
  have hall := band_all hpos
  have hinv := hi.sum
  have htail : ((tail P.w).map (·.2)).sum = P.w.remains := by
    unfold tail; split <;> simp_all
  simp only [List.map_append, List.sum_append_nat] at hinv
  rw [htail, ← hi.chunks] at hinv
  rw [memUsed, show ((blockSize : Int) * (P.w.chunks : Int)) = ((blockSize * P.w.chunks : Nat) : Int) by simp]
  rw [int32, if_pos (by omega), Res.ok_bind]
  rw [freeBytes_ok hi.chain (fun x hx => ⟨hi.piece_covered (hfit x hx) (Nat.le_refl _) (by have := (hpos x hx).1; omega),
    (hi.fits x (hfit x hx)).1⟩) (fun x hx => (hi.fits x (hfit x hx)).2.1) (by omega) 32 8 (by omega) _ (by omega), Res.ok_bind]
  have hlarge : P.w.large.toInt = ((P.live.map bill).sum : Nat) + d := by
    rw [hb, hl, ← BitVec.ofInt_natCast, ← BitVec.ofInt_add, BitVec.toInt_ofInt]
    simp only [Int.bmod]
    omega
  rw [hlarge, int32, if_pos (by omega), Res.ok_bind, int32, if_pos (by rw [hl]; omega)]
  congr 1
  rw [hl]
  omega

theorem errors_calm {ops : List Op} {S : List SBlk} (h : Calms S ops) : errors S ops = 0 := by
  induction ops generalizing S with
  | nil => rfl
  | cons op ops ih =>
    have h0 : error S op = 0 := by
      unfold error
      split
      · next k n o o2 =>
        split
        · next s hs =>
          split
          · next hb =>
            have h8 := h.1 s hs hb.1 hb.2
            unfold slack
            omega
          · rfl
        · rfl
      · rfl
    rw [errors, h0]
    cases e : sstep S op with
    | none => rfl
    | some S' => rw [Option.elim_some, ih (h.2 S' e)]; rfl

end Lolly.Alloc
