import Verif.System.AllocOwn
import Verif.System.AllocSpec

set_option autoImplicit false

/-!
# Histories of the allocator
-/

namespace Lolly.Alloc

/-- The part of memory that is reserved for a block. -/
def slotOf (b : Blk) : Slot :=
  if b.isNew then slot (b.addr - 8) b.cap else (decide (roundUp b.req < maxFast), (b.addr, b.cap))

/-- A block of the program and the block of the specification. -/
structure Good (w : World) (b : Blk) (s : SBlk) : Prop where
  kind : b.isNew = s.isNew
  len : b.req = s.data.length
  data : ∀ i v, s.data[i]? = some (some v) → w.mem (b.addr + i) = v
  new : b.isNew = true → 8 ≤ b.addr ∧ b.cap = roundUp (b.req + 8) ∧ ld w.mem (b.addr - 8) = b.cap ∧ b.req + 15 < 2 ^ 64
  old : b.isNew = false → FreeAs b.req (slotOf b) ∧ b.req ≤ b.cap ∧ b.req + 7 < 2 ^ 64

theorem Good.sub {w : World} {b : Blk} {s : SBlk} (h : Good w b s) :
    (slotOf b).2.1 ≤ b.addr ∧ b.addr + b.req ≤ (slotOf b).2.1 + (slotOf b).2.2 ∧
      (b.isNew = true → (slotOf b).2.1 + 8 = b.addr ∧ 8 ≤ (slotOf b).2.2) := by
  unfold slotOf
  cases hn : b.isNew
  · have := h.old hn
    refine ⟨by simp, by simp; omega, by simp⟩
  · have := h.new hn
    have hr := roundUp_le (sz := b.req + 8) (by omega)
    refine ⟨by simp [slot], by simp [slot]; omega, by simp [slot]; omega⟩

theorem Good.congr {w w' : World} {b : Blk} {s : SBlk} (h : Good w b s)
    (hm : ∀ a, (slotOf b).2.1 ≤ a → a < (slotOf b).2.1 + (slotOf b).2.2 → w'.mem a = w.mem a) : Good w' b s := by
  have hsub := h.sub
  refine ⟨h.kind, h.len, fun i v hi => ?_, fun hn => ?_, h.old⟩
  · have hlt : i < s.data.length := by
      rcases List.getElem?_eq_some_iff.1 hi with ⟨h, -⟩; exact h
    rw [hm _ (by omega) (by have := h.len; omega)]
    exact h.data i v hi
  · obtain ⟨h1, h2, h3, h4⟩ := h.new hn
    have := hsub.2.2 hn
    refine ⟨h1, h2, ?_, h4⟩
    rw [← h3]
    exact ld_congr fun x hx1 hx2 => hm x (by omega) (by omega)

/-- The program and the specification. -/
def Rel (P : Prog) (S : List SBlk) : Prop :=
  ∃ Z : List (Blk × SBlk), P.live = Z.map (·.1) ∧ S = Z.map (·.2) ∧ Own P.w (Z.map fun z => slotOf z.1) ∧
    ∀ z ∈ Z, Good P.w z.1 z.2

/-- What the live blocks have added to `large_uses`. -/
def bill (b : Blk) : Nat :=
  if roundUp (if b.isNew then b.req + 8 else b.req) < maxFast then 0 else roundUp (if b.isNew then b.req + 8 else b.req)

def Billed (P : Prog) (d : Int) : Prop := P.w.large = BitVec.ofNat 32 ((P.live.map bill).sum) + BitVec.ofInt 32 d

theorem charge_eq (s : Nat) : charge s = BitVec.ofNat 32 (if s < maxFast then 0 else s) := by
  unfold charge; split <;> rfl

theorem split_at {α : Type} {l : List α} {k : Nat} {a : α} (h : l[k]? = some a) :
    ∃ l1 l2, l = l1 ++ a :: l2 ∧ l1.length = k := by
  obtain ⟨hk, rfl⟩ := List.getElem?_eq_some_iff.1 h
  refine ⟨l.take k, l.drop (k + 1), ?_, by rw [List.length_take]; omega⟩
  rw [List.getElem_cons_drop]
  simp

theorem erase_mid {α : Type} (l1 l2 : List α) (a : α) {k : Nat} (h : l1.length = k) :
    (l1 ++ a :: l2).eraseIdx k = l1 ++ l2 := by
  subst h
  rw [List.eraseIdx_append_of_length_le (Nat.le_refl _)]
  simp

theorem set_mid {α : Type} (l1 l2 : List α) (a b : α) {k : Nat} (h : l1.length = k) :
    (l1 ++ a :: l2).set k b = l1 ++ b :: l2 := by
  subst h
  rw [List.set_append_right _ _ (Nat.le_refl _)]
  simp

theorem get_mid {α : Type} (l1 l2 : List α) (a : α) {k : Nat} (h : l1.length = k) :
    (l1 ++ a :: l2)[k]? = some a := by
  subst h
  simp

theorem Legal_of {heap : List Region} {n : Nat} {o : Ora} (h : FreshMem heap n o.p) : Legal heap n o :=
  ⟨h.1, h.2.1, h.2.2.1, h.2.2.2⟩

theorem small_iff {n : Nat} (h : n + 7 < 2 ^ 64) : roundUp n < maxFast ↔ n ≤ 256 := by
  rw [roundUp_eq h, maxFast]
  omega

theorem request_eq {n : Nat} (h : n + 7 < 2 ^ 64) : request (roundUp n) = asked n := by
  unfold request asked
  by_cases hn : n ≤ 256
  · rw [if_pos ((small_iff h).2 hn), if_pos hn]; rfl
  · rw [if_neg (fun hc => hn ((small_iff h).1 hc)), if_neg hn, roundUp_eq h]

/-- The parts of a relation when the block number `k` is looked at. -/
theorem Rel.at {P : Prog} {S : List SBlk} (h : Rel P S) {k : Nat} {s : SBlk} (hk : S[k]? = some s) :
    ∃ (Z1 Z2 : List (Blk × SBlk)) (b : Blk), Z1.length = k ∧ P.live = Z1.map (·.1) ++ b :: Z2.map (·.1) ∧
      S = Z1.map (·.2) ++ s :: Z2.map (·.2) ∧ P.live[k]? = some b ∧
      Own P.w (slotOf b :: (Z1 ++ Z2).map fun z => slotOf z.1) ∧ Good P.w b s ∧ ∀ z ∈ Z1 ++ Z2, Good P.w z.1 z.2 := by
  obtain ⟨Z, hl, hS, ho, hg⟩ := h
  subst hS
  rw [List.getElem?_map] at hk
  cases hz : Z[k]? with
  | none => rw [hz] at hk; simp at hk
  | some z =>
    rw [hz] at hk
    simp only [Option.map_some, Option.some.injEq] at hk
    subst hk
    obtain ⟨Z1, Z2, rfl, hlen⟩ := split_at hz
    refine ⟨Z1, Z2, z.1, hlen, by simpa using hl, by simp, ?_, ?_, hg z (by simp), fun y hy => hg y ?_⟩
    · rw [hl, List.map_append, List.map_cons]
      exact get_mid _ _ _ (by simpa using hlen)
    · refine ho.perm ?_
      rw [List.map_append, List.map_cons, List.map_append]
      exact List.perm_middle
    · simp only [List.mem_append, List.mem_cons] at hy ⊢
      rcases hy with hy | hy <;> simp [hy]

theorem Rel.drop {Z1 Z2 : List (Blk × SBlk)} {w w' : World} (ho : Own w' ((Z1 ++ Z2).map fun z => slotOf z.1))
    (hk : KeepS w w' ((Z1 ++ Z2).map fun z => slotOf z.1)) (hg : ∀ z ∈ Z1 ++ Z2, Good w z.1 z.2) :
    Rel ⟨w', Z1.map (·.1) ++ Z2.map (·.1)⟩ (Z1.map (·.2) ++ Z2.map (·.2)) := by
  refine ⟨Z1 ++ Z2, by simp, by simp, ho, fun z hz => (hg z hz).congr ?_⟩
  exact hk (slotOf z.1) (List.mem_map.2 ⟨z, hz, rfl⟩)

theorem Rel.put {Z1 Z2 : List (Blk × SBlk)} {w w' : World} {b : Blk} {s : SBlk}
    (ho : Own w' (slotOf b :: (Z1 ++ Z2).map fun z => slotOf z.1))
    (hk : KeepS w w' ((Z1 ++ Z2).map fun z => slotOf z.1)) (hg : ∀ z ∈ Z1 ++ Z2, Good w z.1 z.2) (hb : Good w' b s) :
    Rel ⟨w', Z1.map (·.1) ++ b :: Z2.map (·.1)⟩ (Z1.map (·.2) ++ s :: Z2.map (·.2)) := by
  refine ⟨Z1 ++ (b, s) :: Z2, by simp, by simp, ?_, fun z hz => ?_⟩
  · refine ho.perm ?_
    rw [List.map_append, List.map_append, List.map_cons]
    exact List.perm_middle.symm
  · by_cases hzz : z ∈ Z1 ++ Z2
    · exact (hg z hzz).congr (hk (slotOf z.1) (List.mem_map.2 ⟨z, hzz, rfl⟩))
    · have : z = (b, s) := by
        simp only [List.mem_append, List.mem_cons] at hz hzz
        rcases hz with hz | hz | hz
        · exact absurd (Or.inl hz) hzz
        · exact hz
        · exact absurd (Or.inr hz) hzz
      subst this
      exact hb

theorem sum_mid (l1 l2 : List Blk) (b : Blk) : ((l1 ++ b :: l2).map bill).sum = ((l1 ++ l2).map bill).sum + bill b := by
  simp only [List.map_append, List.map_cons, List.sum_append_nat, List.sum_cons]
  omega

theorem bill_old {b : Blk} (h : b.isNew = false) : charge (roundUp b.req) = BitVec.ofNat 32 (bill b) := by
  rw [charge_eq, bill, h]; rfl

theorem bill_new {b : Blk} (h : b.isNew = true) : charge (roundUp (b.req + 8)) = BitVec.ofNat 32 (bill b) := by
  rw [charge_eq, bill, h]; rfl

theorem add_bill (a c : Nat) (d : BitVec 32) : BitVec.ofNat 32 a + d + BitVec.ofNat 32 c = BitVec.ofNat 32 (a + c) + d := by
  rw [BitVec.ofNat_add, BitVec.add_assoc, BitVec.add_comm d, BitVec.add_assoc]

theorem sub_bill (a c : Nat) (d : BitVec 32) : BitVec.ofNat 32 (a + c) + d - BitVec.ofNat 32 c = BitVec.ofNat 32 a + d := by
  rw [← add_bill, BitVec.add_sub_cancel]

theorem slack_gap (x : Nat) : slack x = (((x + 7) / 8 * 8 : Nat) : Int) - x := by
  unfold slack
  omega

theorem regroup (a o n : Nat) (d : Int) :
    BitVec.ofNat 32 (a + (o + 7) / 8 * 8) + BitVec.ofInt 32 d + (BitVec.ofNat 32 n - BitVec.ofNat 32 o) =
      BitVec.ofNat 32 (a + (n + 7) / 8 * 8) + BitVec.ofInt 32 (d + (slack o - slack n)) := by
  rw [slack_gap, slack_gap]
  simp only [← BitVec.ofInt_natCast, BitVec.sub_eq_add_neg, ← BitVec.ofInt_neg, ← BitVec.ofInt_add]
  congr 1
  omega

theorem replicate_none {n i : Nat} {v : UInt8} : ¬ (List.replicate n (none : Option UInt8))[i]? = some (some v) := by
  rw [List.getElem?_replicate]
  split <;> simp

/-- One operation. -/
theorem step_rel {P : Prog} {S S' : List SBlk} {op : Op} (h : Rel P S) (hs : sstep S op = some S') (hl : LibOk P op) :
    ∃ P', step P op = .ok P' ∧ Rel P' S' ∧ ∀ d, Billed P d → Billed P' (d + error S op) := by
  cases op with
  | alloc sz o =>
    simp only [sstep] at hs
    split at hs
    next hsz =>
      injection hs with hs
      subst hs
      obtain ⟨Z, hlv, hS, ho, hg⟩ := h
      have hleg : Legal P.w.heap (request (roundUp sz)) o := by
        rw [request_eq hsz.2]; exact Legal_of hl
      obtain ⟨p, w', e, ho', hk, hlg⟩ := fastAlloc_own ho hsz.1 hsz.2 hleg
      have hb : Good w' ⟨p, sz, false, roundUp sz⟩ ⟨false, List.replicate sz none⟩ :=
        ⟨rfl, by simp, fun i v hi => absurd hi replicate_none, by simp, fun _ => ⟨⟨rfl, fun _ => rfl⟩, (roundUp_le hsz.2).1, hsz.2⟩⟩
      have hrel := Rel.put (Z1 := Z) (Z2 := []) (b := ⟨p, sz, false, roundUp sz⟩) (s := ⟨false, List.replicate sz none⟩)
        (by simpa [slotOf, slot] using ho') (by simpa using hk) (by simpa using hg) hb
      refine ⟨⟨w', P.live ++ [⟨p, sz, false, roundUp sz⟩]⟩, ?_, ?_, fun d hbl => ?_⟩
      · simp only [step]; rw [e, Res.ok_bind]
      · rw [hlv, hS]; exact hrel
      · unfold Billed at hbl ⊢
        simp only [error, Int.add_zero]
        rw [sum_mid, List.append_nil, hlg, hbl, ← add_bill,
          show charge (roundUp sz) = BitVec.ofNat 32 (bill ⟨p, sz, false, roundUp sz⟩) from
            bill_old (b := ⟨p, sz, false, roundUp sz⟩) rfl]
    next => simp at hs
  | free k o =>
    simp only [sstep] at hs
    cases hk : S[k]? with
    | none => rw [hk] at hs; simp at hs
    | some s =>
      rw [hk] at hs
      obtain ⟨Z1, Z2, b, hlen, hlv, hS, hPk, ho, hg, hgs⟩ := h.at hk
      simp only at hs
      split at hs
      · simp at hs
      · next hn =>
        injection hs with hs
        subst hs
        have hbn : b.isNew = false := by rw [hg.kind]; simpa using hn
        have haddr : (slotOf b).2.1 = b.addr := by simp [slotOf, hbn]
        obtain ⟨w', e, ho', hkp, hlg⟩ := fastFree_own ho (hg.old hbn).1 o
        rw [haddr] at e
        refine ⟨⟨w', P.live.eraseIdx k⟩, ?_, ?_, fun d hbl => ?_⟩
        · simp only [step, hPk, hbn]
          rw [e]; rfl
        · rw [hlv, hS, erase_mid _ _ _ (by simpa using hlen), erase_mid _ _ _ (by simpa using hlen)]
          exact Rel.drop ho' hkp hgs
        · unfold Billed at hbl ⊢
          simp only [error, Int.add_zero]
          rw [hlv] at hbl ⊢
          rw [erase_mid _ _ _ (by simpa using hlen), hlg, hbl, sum_mid, bill_old hbn, sub_bill]
  | realloc k n o o2 =>
    simp only [sstep] at hs
    cases hk : S[k]? with
    | none => rw [hk] at hs; simp at hs
    | some s =>
      rw [hk] at hs
      obtain ⟨Z1, Z2, b, hlen, hlv, hS, hPk, ho, hg, hgs⟩ := h.at hk
      simp only at hs
      split at hs
      · simp at hs
      · next hn =>
        injection hs with hs
        subst hs
        obtain ⟨hn1, hn2, hn3⟩ : s.isNew = false ∧ 0 < n ∧ n + 7 < 2 ^ 64 := by
          refine ⟨?_, ?_, ?_⟩
          · cases h : s.isNew <;> simp [h] at hn ⊢
          · omega
          · omega
        have hbn : b.isNew = false := by rw [hg.kind]; exact hn1
        have hcap := hg.old hbn
        have haddr : (slotOf b).2.1 = b.addr := by simp [slotOf, hbn]
        have hcp : (slotOf b).2.2 = b.cap := by simp [slotOf, hbn]
        have hbig : (maxFast ≤ roundUp b.req ∧ maxFast ≤ roundUp n) ↔ (256 < b.req ∧ 256 < n) := by
          have h1 := small_iff hcap.2.2
          have h2 := small_iff hn3
          omega
        have hleg : LegalRealloc P.w (slotOf b).2.1 b.req n o := by
          have := hl b hPk
          unfold LegalRealloc
          rw [haddr]
          by_cases hc : 256 < b.req ∧ 256 < n
          · rw [if_pos (hbig.2 hc)]; rw [if_pos hc] at this; exact Legal_of this
          · rw [if_neg (fun h => hc (hbig.1 h)), request_eq hn3]; rw [if_neg hc] at this; exact Legal_of this
        obtain ⟨q, w', e, ho', hkp, hcont, hlg⟩ := fastRealloc_own (o2 := o2) ho hcap.1 (by rw [hcp]; exact hcap.2.1) hn2 hn3 hleg
        rw [haddr] at e hcont
        let b' : Blk := ⟨q, n, false, if maxFast ≤ roundUp b.req ∧ maxFast ≤ roundUp n then n else roundUp n⟩
        have hb' : Good w' b' ⟨false, s.data.take n ++ List.replicate (n - s.data.length) none⟩ := by
          refine ⟨rfl, ?_, fun i v hi => ?_, by simp [b'], fun _ => ⟨⟨rfl, fun hlt => ?_⟩, ?_, hn3⟩⟩
          · simp [b']; omega
          · by_cases hin : i < (s.data.take n).length
            · rw [List.getElem?_append_left hin] at hi
              rw [List.length_take] at hin
              rw [List.getElem?_take_of_lt (by omega)] at hi
              show w'.mem (q + i) = v
              rw [hcont i (by rw [hg.len]; omega)]
              exact hg.data i v hi
            · rw [List.getElem?_append_right (by omega)] at hi
              exact absurd hi replicate_none
          · have hlt' : roundUp n < maxFast := hlt
            have hnb : ¬ (maxFast ≤ roundUp b.req ∧ maxFast ≤ roundUp n) := by omega
            simp [slotOf, b', hnb]
          · simp only [b']
            have := (roundUp_le hn3).1
            split <;> omega
        refine ⟨⟨w', P.live.set k b'⟩, ?_, ?_, fun d hbl => ?_⟩
        · simp only [step, hPk, hbn]
          rw [e]; rfl
        · rw [hlv, hS, set_mid _ _ _ _ (by simpa using hlen), set_mid _ _ _ _ (by simpa using hlen)]
          exact Rel.put ho' hkp hgs hb'
        · unfold Billed at hbl ⊢
          simp only
          rw [hlv] at hbl ⊢
          rw [set_mid _ _ _ _ (by simpa using hlen), hlg, hbl, sum_mid, sum_mid]
          by_cases hc : maxFast ≤ roundUp b.req ∧ maxFast ≤ roundUp n
          · rw [if_pos hc]
            have her : error S (.realloc k n o o2) = slack b.req - slack n := by
              simp only [error, hk]
              rw [← hg.len, if_pos (hbig.1 hc)]
            rw [her]
            have e1 : bill b = roundUp b.req := by simp [bill, hbn]; omega
            have e2 : bill b' = roundUp n := by simp [bill, b']; omega
            rw [e1, e2, roundUp_eq hcap.2.2, roundUp_eq hn3]
            exact regroup ..
          · have her : error S (.realloc k n o o2) = 0 := by
              simp only [error, hk]
              rw [← hg.len, if_neg (fun h => hc (hbig.2 h))]
            rw [her, Int.add_zero]
            rw [if_neg hc, bill_old hbn, show charge (roundUp n) = BitVec.ofNat 32 (bill b') from bill_old (b := b') rfl]
            rw [show ((Z1.map (·.1) ++ Z2.map (·.1)).map bill).sum + bill b = bill b + ((Z1.map (·.1) ++ Z2.map (·.1)).map bill).sum from
              Nat.add_comm _ _]
            rw [add_bill, Nat.add_assoc, Nat.add_comm (bill b), sub_bill]
  | new sz o =>
    simp only [sstep] at hs
    split at hs
    next hsz =>
      injection hs with hs
      subst hs
      obtain ⟨Z, hlv, hS, ho, hg⟩ := h
      have hleg : Legal P.w.heap (request (roundUp (sz + 8))) o := by
        rw [request_eq (by omega)]; exact Legal_of hl
      obtain ⟨p, w', e, ho', hk, hld, hlg⟩ := fastNew_own ho hsz hleg
      have hsl : slotOf ⟨p + 8, sz, true, roundUp (sz + 8)⟩ = slot p (roundUp (sz + 8)) := by simp [slotOf]
      have hb : Good w' ⟨p + 8, sz, true, roundUp (sz + 8)⟩ ⟨true, List.replicate sz none⟩ :=
        ⟨rfl, by simp, fun i v hi => absurd hi replicate_none,
          fun _ => ⟨by simp, rfl, by simpa using hld, hsz⟩, by simp⟩
      have hrel := Rel.put (Z1 := Z) (Z2 := []) (b := ⟨p + 8, sz, true, roundUp (sz + 8)⟩) (s := ⟨true, List.replicate sz none⟩)
        (by rw [hsl]; simpa using ho') (by simpa using hk) (by simpa using hg) hb
      refine ⟨⟨w', P.live ++ [⟨p + 8, sz, true, roundUp (sz + 8)⟩]⟩, ?_, ?_, fun d hbl => ?_⟩
      · simp only [step]; rw [e, Res.ok_bind]
      · rw [hlv, hS]; exact hrel
      · unfold Billed at hbl ⊢
        simp only [error, Int.add_zero]
        rw [sum_mid, List.append_nil, hlg, hbl, ← add_bill,
          show charge (roundUp (sz + 8)) = BitVec.ofNat 32 (bill ⟨p + 8, sz, true, roundUp (sz + 8)⟩) from
            bill_new (b := ⟨p + 8, sz, true, roundUp (sz + 8)⟩) rfl]
    next => simp at hs
  | del k o =>
    simp only [sstep] at hs
    cases hk : S[k]? with
    | none => rw [hk] at hs; simp at hs
    | some s =>
      rw [hk] at hs
      obtain ⟨Z1, Z2, b, hlen, hlv, hS, hPk, ho, hg, hgs⟩ := h.at hk
      simp only at hs
      split at hs
      · next hn =>
        injection hs with hs
        subst hs
        have hbn : b.isNew = true := by rw [hg.kind]; exact hn
        obtain ⟨h1, h2, h3, h4⟩ := hg.new hbn
        have hsl : slotOf b = slot (b.addr - 8) b.cap := by simp [slotOf, hbn]
        rw [hsl] at ho
        have := roundUp_le (sz := b.req + 8) (by omega)
        obtain ⟨w', e, ho', hkp, hlg⟩ := fastDelete_own ho h3 (by omega) o
        rw [show b.addr - 8 + 8 = b.addr by omega] at e
        refine ⟨⟨w', P.live.eraseIdx k⟩, ?_, ?_, fun d hbl => ?_⟩
        · simp only [step, hPk, hbn]
          rw [if_pos trivial, e]; rfl
        · rw [hlv, hS, erase_mid _ _ _ (by simpa using hlen), erase_mid _ _ _ (by simpa using hlen)]
          exact Rel.drop ho' hkp hgs
        · unfold Billed at hbl ⊢
          simp only [error, Int.add_zero]
          rw [hlv] at hbl ⊢
          rw [erase_mid _ _ _ (by simpa using hlen), hlg, hbl, sum_mid, h2, bill_new hbn, sub_bill]
      · simp at hs
  | write k off v =>
    simp only [sstep] at hs
    cases hk : S[k]? with
    | none => rw [hk] at hs; simp at hs
    | some s =>
      rw [hk] at hs
      obtain ⟨Z1, Z2, b, hlen, hlv, hS, hPk, ho, hg, hgs⟩ := h.at hk
      simp only at hs
      split at hs
      · next hoff =>
        injection hs with hs
        subst hs
        have hsub := hg.sub
        have hl' := hg.len
        have hcov := (ho.block (x := slotOf b) (by simp)).2.2.2.2 (b.addr + off) 1 (by omega) (by omega)
        obtain ⟨ho', hkp⟩ := ho.frame (fun a => if a = b.addr + off then v else P.w.mem a) (fun a ha => by
          rw [if_neg (by omega)])
        have hb : Good { P.w with mem := fun a => if a = b.addr + off then v else P.w.mem a } b ⟨s.isNew, s.data.set off (some v)⟩ := by
          refine ⟨hg.kind, by simpa using hg.len, fun i u hi => ?_, fun hn => ?_, hg.old⟩
          · rw [List.getElem?_set] at hi
            by_cases hio : off = i
            · rw [if_pos hio, if_pos (by omega)] at hi
              simp only [Option.some.injEq] at hi
              simp only
              rw [if_pos (by omega), hi]
            · rw [if_neg hio] at hi
              simp only
              rw [if_neg (by omega)]
              exact hg.data i u hi
          · obtain ⟨h1, h2, h3, h4⟩ := hg.new hn
            refine ⟨h1, h2, ?_, h4⟩
            rw [← h3]
            refine ld_congr fun x hx1 hx2 => ?_
            simp only
            rw [if_neg (by omega)]
        refine ⟨⟨{ P.w with mem := fun a => if a = b.addr + off then v else P.w.mem a }, P.live⟩, ?_, ?_, fun d hbl => by simp only [error, Int.add_zero]; exact hbl⟩
        · simp only [step, hPk]
          rw [if_pos ⟨by omega, hcov⟩]
        · rw [hlv, hS, set_mid _ _ _ _ (by simpa using hlen)]
          exact Rel.put ho' hkp hgs hb
      · simp at hs

theorem run_rel {P : Prog} {S S' : List SBlk} {ops : List Op} (h : Rel P S) (hs : srun S ops = some S') (hl : LibOks P ops) :
    ∃ P', run P ops = .ok P' ∧ Rel P' S' ∧ ∀ d, Billed P d → Billed P' (d + errors S ops) := by
  induction ops generalizing P S with
  | nil =>
    injection hs with hs
    subst hs
    exact ⟨P, rfl, h, fun d hb => by rw [errors, Int.add_zero]; exact hb⟩
  | cons op ops ih =>
    rw [srun] at hs
    cases h1 : sstep S op with
    | none => rw [h1] at hs; simp at hs
    | some S1 =>
      rw [h1] at hs
      obtain ⟨P1, e1, hr1, hb1⟩ := step_rel h h1 hl.1
      obtain ⟨P2, e2, hr2, hb2⟩ := ih hr1 hs (hl.2 P1 e1)
      refine ⟨P2, by rw [run, e1, Res.ok_bind, e2], hr2, fun d hb => ?_⟩
      have := hb2 _ (hb1 d hb)
      rw [errors, h1]
      rwa [Int.add_assoc] at this

theorem rel_init (mem : Nat → UInt8) : Rel ⟨init mem, []⟩ [] := ⟨[], rfl, rfl, own_init mem, by simp⟩

theorem Rel.sound {P : Prog} {S : List SBlk} (h : Rel P S) : Sound P S := by
  obtain ⟨Z, hl, rfl, ho, hg⟩ := h
  have hget : ∀ (k : Nat) (b : Blk) (s : SBlk), P.live[k]? = some b → (Z.map (·.2))[k]? = some s → Good P.w b s := by
    intro k b s h1 h2
    rw [hl, List.getElem?_map] at h1
    rw [List.getElem?_map] at h2
    cases hz : Z[k]? with
    | none => rw [hz] at h1; simp at h1
    | some z =>
      rw [hz] at h1 h2
      simp only [Option.map_some, Option.some.injEq] at h1 h2
      subst h1 h2
      exact hg z (List.mem_of_getElem? hz)
  refine ⟨by simp [hl], fun k b s h1 h2 => ⟨(hget k b s h1 h2).kind, (hget k b s h1 h2).len⟩,
    fun k b s h1 h2 => (hget k b s h1 h2).data, fun b hb => ?_, fun b hb => ?_, ?_⟩
  · rw [hl] at hb
    obtain ⟨z, hz, rfl⟩ := List.mem_map.1 hb
    have hsub := (hg z hz).sub
    have := (ho.block (List.mem_map.2 ⟨z, hz, rfl⟩)).2.2.2.2 z.1.addr z.1.req hsub.1 hsub.2.1
    exact (covered_iff _ _ _).1 this
  · rw [hl] at hb
    obtain ⟨z, hz, rfl⟩ := List.mem_map.1 hb
    have hsub := (hg z hz).sub
    have hb := ho.block (List.mem_map.2 ⟨z, hz, rfl⟩)
    refine ⟨by omega, ?_⟩
    cases hn : z.1.isNew
    · have : (slotOf z.1).2.1 = z.1.addr := by simp [slotOf, hn]
      rw [← this]; exact hb.2.1
    · have := (hsub.2.2 hn).1
      omega
  · have hd := ho.disj
    have key : ∀ (j k : Nat) (b c : Blk), j < k → P.live[j]? = some b → P.live[k]? = some c →
        ∀ x, b.addr ≤ x → x < b.addr + b.req → ¬ (c.addr ≤ x ∧ x < c.addr + c.req) := by
      intro j k b c hjk hb hc x h1 h2
      rw [hl, List.getElem?_map] at hb hc
      cases hzj : Z[j]? with
      | none => rw [hzj] at hb; simp at hb
      | some y =>
      cases hzk : Z[k]? with
      | none => rw [hzk] at hc; simp at hc
      | some z =>
      rw [hzj] at hb
      rw [hzk] at hc
      simp only [Option.map_some, Option.some.injEq] at hb hc
      subst hb hc
      obtain ⟨hj, ej⟩ := List.getElem?_eq_some_iff.1 hzj
      obtain ⟨hk, ek⟩ := List.getElem?_eq_some_iff.1 hzk
      have := List.pairwise_iff_getElem.1 hd j k (by simpa using hj) (by simpa using hk) hjk
      simp only [List.getElem_map, ej, ek] at this
      have hy := (hg y (List.mem_of_getElem? hzj)).sub
      have hz := (hg z (List.mem_of_getElem? hzk)).sub
      unfold Disj at this
      omega
    intro j k b c hjk hb hc x h1 h2 h3
    rcases Nat.lt_or_gt_of_ne hjk with h | h
    · exact key j k b c h hb hc x h1 h2 h3
    · exact key k j c b h hc hb x h3.1 h3.2 ⟨h1, h2⟩

end Lolly.Alloc
