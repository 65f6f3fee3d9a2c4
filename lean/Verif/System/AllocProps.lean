import Verif.System.AllocUsed

set_option autoImplicit false

/-!
# Properties of the allocator: C52, C53, C54
-/

namespace Lolly.AllocProps
open Lolly.Alloc

/-- The start of every program; `mem` is what happens to be in memory. -/
def start (mem : Nat → UInt8) : Prog := ⟨init mem, []⟩

/-! ## C52 -/

/-- **C52.** Let a client do anything with `fast_alloc`, `fast_free`, `fast_realloc`, `fast_new`, `fast_delete` and with
the bytes of its blocks that the specification allows, with positive sizes. As long as the C library has memory left,
nothing undefined happens; the live blocks have the sizes asked for, are aligned, lie in memory that was obtained from
the C library, do not overlap, and hold what the client has written; `fast_realloc` keeps the common part. -/
theorem C52_blocks (mem : Nat → UInt8) (ops : List Op) (S : List SBlk) (hS : srun [] ops = some S)
    (hl : LibOks (start mem) ops) : ∃ P, run (start mem) ops = .ok P ∧ Sound P S := by
  obtain ⟨P, e, hr, -⟩ := run_rel (rel_init mem) hS hl
  exact ⟨P, e, hr.sound⟩

/-- `fast_alloc` and `fast_new` never answer with `NULL`: without memory the program ends. -/
theorem C52_no_memory (w : World) (sz : Nat) (o : Ora) (ho : o.p = 0) (hs : 256 < sz) (hb : sz + 15 < 2 ^ 64) :
    fastAlloc w sz o = .thrown ∧ fastNew w sz o = .thrown := by
  constructor
  · unfold fastAlloc
    dsimp only
    rw [if_neg (by rw [small_iff (by omega)]; omega), cMalloc, if_pos ho]
  · unfold fastNew
    dsimp only
    rw [if_neg (by rw [small_iff (by omega)]; omega), cMalloc, if_pos ho]
    rfl

/-- But `fast_realloc` of a large block does: the failure of `realloc` is not looked at, and the statistics are changed
all the same. -/
theorem C52_realloc_null :
    ∃ (w : World) (p : Nat) (w' : World), fastAlloc (init fun _ => 0) 300 ⟨8, fun _ => 0⟩ = .ok (p, w) ∧
      fastRealloc w p 300 400 ⟨0, fun _ => 0⟩ ⟨0, fun _ => 0⟩ = .ok (0, w') ∧ w'.large ≠ w.large :=
  ⟨_, _, _, rfl, rfl, by decide⟩

theorem libOks_cons {P P1 : Prog} {op : Op} {ops : List Op} (h : step P op = .ok P1) (h1 : LibOk P op) (h2 : LibOks P1 ops) :
    LibOks P (op :: ops) :=
  ⟨h1, fun P' h' => by rw [h] at h'; injection h' with h'; subst h'; exact h2⟩

instance (heap : List Region) (n p : Nat) : Decidable (FreshMem heap n p) := by
  unfold FreshMem; infer_instance

instance (P : Prog) (op : Op) : Decidable (LibOk P op) := by
  cases op <;> unfold LibOk
  case realloc k n o _ =>
    cases h : P.live[k]? with
    | none => exact .isTrue (by intro b hb; rw [h] at hb; cases hb)
    | some b =>
      by_cases hb : 256 < b.req ∧ 256 < n
      · exact decidable_of_iff (FreshMem (P.w.heap.filter fun r => decide (r.1 ≠ b.addr)) n o.p)
          ⟨fun h1 b' hb' => by rw [h] at hb'; injection hb' with hb'; subst hb'; rw [if_pos hb]; exact h1,
            fun h1 => by have := h1 b h; rwa [if_pos hb] at this⟩
      · exact decidable_of_iff (FreshMem P.w.heap (asked n) o.p)
          ⟨fun h1 b' hb' => by rw [h] at hb'; injection hb' with hb'; subst hb'; rw [if_neg hb]; exact h1,
            fun h1 => by have := h1 b h; rwa [if_neg hb] at this⟩
  all_goals infer_instance

/-- A history: two blocks from a chunk, one of them written and then enlarged to a block of its own, which is enlarged
again; a block of `fast_new`; the place of the first block is used again. -/
def sample : List Op :=
  let o : Ora := ⟨65536, fun _ => 1⟩
  let u : Ora := ⟨1048576, fun _ => 3⟩
  [.alloc 20 o, .alloc 5 u, .write 0 3 7, .realloc 0 300 ⟨16, fun _ => 2⟩ u, .realloc 0 1000 ⟨262144, fun _ => 2⟩ u,
    .new 16 u, .free 1 u, .alloc 8 u]

def summary : Res Prog → Option (List Nat × Nat)
  | .ok P => some (P.live.map (·.addr), P.live.foldl (fun n b => n * 256 + (P.w.mem (b.addr + 3)).toNat) 0)
  | _ => none

example : srun [] sample ≠ none := by decide
example : LibOks (start fun _ => 0) sample := by
  refine libOks_cons rfl ?_ (libOks_cons rfl ?_ (libOks_cons rfl ?_ (libOks_cons rfl ?_ (libOks_cons rfl ?_
    (libOks_cons rfl ?_ (libOks_cons rfl ?_ (libOks_cons rfl ?_ trivial)))))))
  all_goals decide

example : summary (run (start fun _ => 0) sample) = some ([262144, 65544, 65560], 7 * 65536 + 256) := by decide

/-! ## C53 -/

/-- **C53 does not hold.** At the start of a program `fast_alloc (0)` answers with `NULL`, and `fast_free (NULL, 0)`
writes to the address 0. -/
theorem C53_violated (mem : Nat → UInt8) (o o2 : Ora) :
    ∃ w, fastAlloc (init mem) 0 o = .ok (0, w) ∧ fastFree w 0 0 o2 = .ub :=
  ⟨_, rfl, rfl⟩

/-- **C53 does not hold**, later either: the block of size 0 is at the place of the next block, and freeing it changes
that one. -/
theorem C53_live_violated :
    ∃ P Q b, run (start fun _ => 0) [.alloc 8 ⟨8, fun _ => 0⟩, .alloc 0 ⟨8, fun _ => 0⟩, .alloc 8 ⟨8, fun _ => 0⟩,
        .write 2 0 7] = .ok P ∧
      step P (.free 1 ⟨8, fun _ => 0⟩) = .ok Q ∧ P.live[2]? = some b ∧ Q.live[1]? = some b ∧
      P.w.mem b.addr = 7 ∧ Q.w.mem b.addr = 0 :=
  ⟨_, _, _, rfl, rfl, rfl, rfl, rfl, by decide⟩

/-- **C53, the part that holds.** When the present chunk is not used up and no block of size 0 was asked for before,
freeing the block of size 0 at once changes no live block. What is missing: see above. -/
theorem C53_partial (mem : Nat → UInt8) (ops : List Op) (S : List SBlk) (hS : srun [] ops = some S)
    (hl : LibOks (start mem) ops) :
    ∃ P, run (start mem) ops = .ok P ∧ (0 < P.w.remains → ∀ o o2, ∃ p w w', fastAlloc P.w 0 o = .ok (p, w) ∧
      fastFree w p 0 o2 = .ok w' ∧ ∀ b ∈ P.live, ∀ i, i < b.req → w'.mem (b.addr + i) = P.w.mem (b.addr + i)) := by
  obtain ⟨P, e, ⟨Z, hlv, -, ⟨free, C, hi⟩, hg⟩, -⟩ := run_rel (rel_init mem) hS hl
  refine ⟨P, e, fun hr o o2 => ?_⟩
  have hfree : cls free 0 = [] := by
    cases h : cls free 0 with
    | nil => rfl
    | cons a l =>
      have : (a, 0) ∈ free := mem_cls.1 (by rw [h]; simp)
      have := (hi.piece_pos (x := (a, 0)) (by simp [this])).2.2
      simp at this
  have ht : P.w.table 0 = 0 := by
    have := hi.chain 0
    rw [hfree] at this
    exact this
  have htl : tail P.w = [(P.w.allocMem, P.w.remains)] := by rw [tail, if_neg (by omega)]
  have hmem : (P.w.allocMem, P.w.remains) ∈ smalls (Z.map fun z => slotOf z.1) ++ free ++ tail P.w := by simp [htl]
  have hpos := hi.piece_pos hmem
  have hfit := hi.fits _ hmem
  have hcov : covered P.w.heap P.w.allocMem 8 = true :=
    hi.piece_covered hmem (Nat.le_refl _) (by simp only at *; omega)
  refine ⟨P.w.allocMem, P.w, { P.w with
    mem := st P.w.mem P.w.allocMem 0, table := fun j => if j = 0 then P.w.allocMem else P.w.table j }, ?_, ?_, ?_⟩
  · show take P.w 0 o = _
    rw [take, tab, if_pos (by simp [maxFast]), Res.ok_bind, if_pos ht, enlarge, if_neg (by omega)]
    rfl
  · show give P.w P.w.allocMem 0 = _
    rw [give, tab, if_pos (by simp [maxFast]), Res.ok_bind, store_ok hcov hfit.1, Res.ok_bind, setTab, if_pos (by simp [maxFast]), ht]
  · intro b hb i hi'
    rw [hlv] at hb
    obtain ⟨z, hz, rfl⟩ := List.mem_map.1 hb
    refine st_other ?_
    have hsub := (hg z hz).sub
    have hd : Disj (P.w.allocMem, P.w.remains) (slotOf z.1).2 := by
      rcases List.mem_append.1 (mem_slots (List.mem_map.2 ⟨z, hz, rfl⟩ : slotOf z.1 ∈ Z.map fun z => slotOf z.1)) with h1 | h1
      · have := hi.disj
        rw [htl] at this
        exact ((List.pairwise_append.1 this).2.2 _ (List.mem_append_left _ h1) _ (by simp)).symm
      · exact hi.piece_large hmem h1
    unfold Disj at hd
    simp only at hd hpos
    omega

example : ∃ P, run (start fun _ => 0) sample = .ok P ∧ 0 < P.w.remains := ⟨_, rfl, by decide⟩

/-! ## C54 -/

/-- **C54, for every history.** `mem_used ()` is the sum of the sizes of the live blocks, each rounded up to a multiple of eight
(eight bytes more for `fast_new`), and the errors of the history: a reallocation from more than 256 bytes to more than 256 bytes
adds what the old size lacks to a multiple of eight and subtracts what the new size lacks, and this stays after the block is
freed. (If all memory ever obtained in chunks and the result are numbers of type `int`.) -/
theorem C54_exact (mem : Nat → UInt8) (ops : List Op) (S : List SBlk) (hS : srun [] ops = some S)
    (hl : LibOks (start mem) ops) :
    ∃ P, run (start mem) ops = .ok P ∧ (65536 * P.w.chunks ≤ 2147483647 → -2147483648 ≤ errors [] ops →
      ((S.map foot).sum : Nat) + errors [] ops ≤ 2147483647 →
      ∃ f0, ∀ f, f0 ≤ f → memUsed P.w f = .ok (((S.map foot).sum : Nat) + errors [] ops)) := by
  obtain ⟨P, e, hr, hb⟩ := run_rel (rel_init mem) hS hl
  have hb := hb 0 rfl
  rw [Int.zero_add] at hb
  exact ⟨P, e, fun h1 h2 h3 => memUsed_rel hr hb h1 h2 h3⟩

/-- So after everything was freed `mem_used ()` is what it was at the start (which is 0) exactly if the errors of the
reallocations cancel out. -/
theorem C54_baseline_exact (mem : Nat → UInt8) (ops : List Op) (hS : srun [] ops = some [])
    (hl : LibOks (start mem) ops) :
    ∃ P, run (start mem) ops = .ok P ∧ (65536 * P.w.chunks ≤ 2147483647 → -2147483648 ≤ errors [] ops →
      errors [] ops ≤ 2147483647 →
      ∃ f0, ∀ f, f0 ≤ f → (memUsed P.w f = memUsed (start mem).w f ↔ errors [] ops = 0)) := by
  obtain ⟨P, e, h⟩ := C54_exact mem ops [] hS hl
  refine ⟨P, e, fun h1 h2 h3 => ?_⟩
  obtain ⟨f0, hf⟩ := h h1 h2 (by simpa using h3)
  obtain ⟨P0, e0, h0⟩ := C54_exact mem [] [] rfl trivial
  injection e0 with e0
  subst e0
  obtain ⟨f1, hf1⟩ := h0 (by simp [start, init]) (by simp [errors]) (by simp [errors])
  refine ⟨max f0 f1, fun f hm => ?_⟩
  rw [hf f (by omega), hf1 f (by omega)]
  simp [errors]

/-- **C54, the part that holds.** `mem_used ()` is exactly the sum of the sizes of the live blocks, each rounded up to a
multiple of eight (eight bytes more for `fast_new`), whatever happened before, if large blocks are only reallocated to
large sizes with the same rest modulo eight, and if all memory ever obtained in chunks and the sum are less than 2 GiB.
What is missing: other reallocations, see below. -/
theorem C54_partial (mem : Nat → UInt8) (ops : List Op) (S : List SBlk) (hS : srun [] ops = some S)
    (hl : LibOks (start mem) ops) (hc : Calms [] ops) :
    ∃ P, run (start mem) ops = .ok P ∧ (65536 * P.w.chunks ≤ 2147483647 → (S.map foot).sum ≤ 2147483647 →
      ∃ f0, ∀ f, f0 ≤ f → memUsed P.w f = .ok ((S.map foot).sum : Nat)) := by
  obtain ⟨P, e, h⟩ := C54_exact mem ops S hS hl
  rw [errors_calm hc] at h
  refine ⟨P, e, fun h1 h2 => ?_⟩
  obtain ⟨f0, hf⟩ := h h1 (by decide) (by omega)
  exact ⟨f0, fun f hle => by rw [hf f hle, Int.add_zero]⟩

/-- In particular: after everything was freed `mem_used ()` is what it was at the start. -/
theorem C54_baseline_partial (mem : Nat → UInt8) (ops : List Op) (hS : srun [] ops = some [])
    (hl : LibOks (start mem) ops) (hc : Calms [] ops) :
    ∃ P, run (start mem) ops = .ok P ∧ (65536 * P.w.chunks ≤ 2147483647 →
      ∃ f0, ∀ f, f0 ≤ f → memUsed P.w f = .ok 0 ∧ memUsed (start mem).w f = .ok 0) := by
  obtain ⟨P, e, h⟩ := C54_partial mem ops [] hS hl hc
  refine ⟨P, e, fun h1 => ?_⟩
  obtain ⟨f0, hf⟩ := h h1 (by simp)
  obtain ⟨P0, e0, h0⟩ := C54_partial mem [] [] rfl trivial trivial
  injection e0 with e0
  subst e0
  obtain ⟨f1, hf1⟩ := h0 (by simp [start, init]) (by simp)
  exact ⟨max f0 f1, fun f hm => ⟨hf f (by omega), hf1 f (by omega)⟩⟩

/-- **C54 does not hold** in general: after a block of 300 bytes was reallocated to 400 bytes and freed, four bytes are
still counted as used. -/
theorem C54_violated :
    ∃ P, run (start fun _ => 0) [.alloc 300 ⟨8, fun _ => 0⟩, .realloc 0 400 ⟨8, fun _ => 0⟩ ⟨8, fun _ => 0⟩,
        .free 0 ⟨8, fun _ => 0⟩] = .ok P ∧ P.live = [] ∧
      memUsed (start fun _ => 0).w 1 = .ok 0 ∧ memUsed P.w 1 = .ok 4 :=
  ⟨_, rfl, rfl, by decide, by decide⟩

/-- ... nor need the result be positive: after a block of 304 bytes was reallocated to 300 bytes and freed, `mem_used ()` is -4. -/
theorem C54_negative_violated :
    ∃ P, run (start fun _ => 0) [.alloc 304 ⟨8, fun _ => 0⟩, .realloc 0 300 ⟨8, fun _ => 0⟩ ⟨8, fun _ => 0⟩,
        .free 0 ⟨8, fun _ => 0⟩] = .ok P ∧ P.live = [] ∧ memUsed P.w 1 = .ok (-4) :=
  ⟨_, rfl, rfl, by decide⟩

example : errors [] [.alloc 304 ⟨8, fun _ => 0⟩, .realloc 0 300 ⟨8, fun _ => 0⟩ ⟨8, fun _ => 0⟩, .free 0 ⟨8, fun _ => 0⟩] = -4 := by
  decide +kernel
example : errors [] [.alloc 300 ⟨8, fun _ => 0⟩, .realloc 0 400 ⟨8, fun _ => 0⟩ ⟨8, fun _ => 0⟩, .realloc 0 261 ⟨8, fun _ => 0⟩ ⟨8, fun _ => 0⟩] = 1 := by
  decide +kernel

/-- A history to which the theorem applies. -/
def calmSample : List Op :=
  let o : Ora := ⟨65536, fun _ => 1⟩
  let u : Ora := ⟨1048576, fun _ => 3⟩
  [.alloc 20 o, .alloc 5 u, .realloc 0 300 ⟨16, fun _ => 2⟩ u, .realloc 0 404 ⟨262144, fun _ => 2⟩ u, .free 1 u, .free 0 u]

theorem calms_cons {S S1 : List SBlk} {op : Op} {ops : List Op} (h : sstep S op = some S1) (h1 : Calm S op) (h2 : Calms S1 ops) :
    Calms S (op :: ops) :=
  ⟨h1, fun S' h' => by rw [h] at h'; injection h' with h'; subst h'; exact h2⟩

example : srun [] calmSample = some [] := rfl
example : Calms [] calmSample := by
  refine calms_cons rfl trivial (calms_cons rfl trivial (calms_cons
    (S1 := [⟨false, (List.replicate 20 none).take 300 ++ List.replicate (300 - 20) none⟩, ⟨false, List.replicate 5 none⟩])
    rfl ?_ (calms_cons rfl ?_ (calms_cons rfl trivial (calms_cons rfl trivial trivial)))))
  all_goals
    intro s hs
    injection hs with hs
    subst hs
    simp only [List.length_append, List.length_take, List.length_replicate]
    omega
example : LibOks (start fun _ => 0) calmSample := by
  refine libOks_cons rfl ?_ (libOks_cons rfl ?_ (libOks_cons rfl ?_ (libOks_cons rfl ?_ (libOks_cons rfl ?_
    (libOks_cons rfl ?_ trivial)))))
  all_goals decide

end Lolly.AllocProps
