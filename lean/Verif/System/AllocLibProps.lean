import Verif.System.AllocLibRun
import Verif.System.AllocProps

set_option autoImplicit false

/-!
# Property of the allocators of jemalloc and mimalloc: C133
-/

namespace Lolly.AllocLibProps
open Lolly.Alloc Lolly.AllocLib
open Lolly.AllocProps (start)

/-- **C133.** Let a client do anything with `fast_alloc`, `fast_free`, `fast_realloc`, `fast_new`, `fast_delete` and with
the bytes of its blocks that the specification allows; blocks of no bytes are fine. As long as the library has memory
left, nothing undefined happens; the live blocks have the sizes asked for, are aligned, lie in memory that the library
has handed out, do not overlap, and hold what the client has written; `fast_realloc` keeps the common part. -/
theorem C133_blocks (L : Lib) (mem : Nat → UInt8) (ops : List Op) (S : List SBlk) (hS : srun0 [] ops = some S)
    (hl : LibOks0 L (start mem) ops) : ∃ P, AllocLib.run L (start mem) ops = .ok P ∧ Sound P S := by
  obtain ⟨P, Z, e, r⟩ := run_rel (L := L) (Z := []) ⟨⟨by simp, by simp [start, init], by simp⟩, rfl, rfl⟩ hS hl
  exact ⟨P, e, r.sound⟩

/-- All memory that the library still has lent is that of live blocks; a client that has given everything back leaves
nothing behind. (The default allocator keeps its chunks.) -/
theorem C133_returned (L : Lib) (mem : Nat → UInt8) (ops : List Op) (S : List SBlk) (hS : srun0 [] ops = some S)
    (hl : LibOks0 L (start mem) ops) : ∃ P, AllocLib.run L (start mem) ops = .ok P ∧
      (∀ r ∈ P.w.heap, ∃ b ∈ P.live, r = (b.addr, max b.req 1)) ∧ (S = [] → P.w.heap = []) := by
  obtain ⟨P, Z, e, r⟩ := run_rel (L := L) (Z := []) ⟨⟨by simp, by simp [start, init], by simp⟩, rfl, rfl⟩ hS hl
  have h1 : ∀ r ∈ P.w.heap, ∃ b ∈ P.live, r = (b.addr, max b.req 1) := by
    intro x hx
    obtain ⟨z, hz, ez⟩ := r.inv.only x hx
    exact ⟨z.1, by rw [r.left]; exact List.mem_map_of_mem hz, ez⟩
  refine ⟨P, e, h1, ?_⟩
  intro hn
  have hz : Z = [] := by
    have := r.right
    rw [hn] at this
    simpa using this.symm
  apply List.eq_nil_iff_forall_not_mem.mpr
  intro x hx
  obtain ⟨z, hz', -⟩ := r.inv.only x hx
  rw [hz] at hz'
  cases hz'

theorem sstep_sstep0 {S S' : List SBlk} {op : Op} (h : sstep S op = some S') : sstep0 S op = some S' := by
  cases op with
  | alloc sz o =>
    unfold sstep at h; unfold sstep0
    dsimp only at h ⊢
    split at h
    · rw [if_pos (by omega)]; exact h
    · cases h
  | new sz o =>
    unfold sstep at h; unfold sstep0
    dsimp only at h ⊢
    split at h
    · rw [if_pos (by omega)]; exact h
    · cases h
  | free k o => exact h
  | del k o => exact h
  | write k off v => exact h
  | realloc k n o o2 =>
    unfold sstep at h; unfold sstep0
    dsimp only at h ⊢
    split at h
    · rename_i s hk
      split at h
      · cases h
      · rename_i hn
        rw [hk]
        dsimp only
        rw [if_neg]
        · exact h
        · rintro (h1 | h1 | h1)
          · exact hn (.inl h1)
          · exact hn (.inr (.inl h1))
          · exact hn (.inr (.inr (by omega)))
    · cases h

/-- Clients of the default allocator need not be changed: whatever they may do there, they may do here, with the same
blocks. -/
theorem C133_portable (S S' : List SBlk) (ops : List Op) (h : srun S ops = some S') : srun0 S ops = some S' := by
  induction ops generalizing S with
  | nil => exact h
  | cons op ops ih =>
    unfold srun at h
    split at h
    · rename_i S1 h1
      unfold srun0
      rw [sstep_sstep0 h1]
      exact ih S1 h
    · cases h

/-- With jemalloc, and with mimalloc after `mem_init`, no function answers with `NULL`: without memory the program ends,
also in `fast_realloc`. -/
theorem C133_no_memory (L : Lib) (hL : L = .je ∨ L = .mi true) (P : Prog) (sz k : Nat) (b : Blk) (o o2 : Ora)
    (ho : o.p = 0) (hk : P.live[k]? = some b) (hb : b.isNew = false) :
    AllocLib.step L P (.alloc sz o) = .thrown ∧ AllocLib.step L P (.new sz o) = .thrown ∧
      AllocLib.step L P (.realloc k sz o o2) = .thrown := by
  have ha : L.aborts = true := by rcases hL with rfl | rfl <;> rfl
  have h1 : ∀ n, alloc L P.w n o = .thrown := by
    intro n
    unfold alloc cMalloc
    rw [if_neg (by simp [ha]), if_pos ho]
  have h2 : realloc L P.w b.addr sz o = .thrown := by
    unfold realloc
    split
    · exact h1 sz
    · rw [if_pos ⟨ho, ha⟩]
  refine ⟨?_, ?_, ?_⟩
  · unfold AllocLib.step; dsimp only; rw [h1]; rfl
  · unfold AllocLib.step; dsimp only; rw [h1]; rfl
  · unfold AllocLib.step; dsimp only; rw [hk]; dsimp only; rw [hb, if_neg (by simp), h2]; rfl

/-- With mimalloc before `mem_init` they do. -/
theorem C133_early (w : World) (sz : Nat) (o : Ora) (ho : o.p = 0) : alloc (.mi false) w sz o = .ok (0, w) := by
  unfold alloc
  rw [if_pos ⟨ho, rfl⟩]

/-! ## Examples -/

theorem libOks0_cons {L : Lib} {P P1 : Prog} {op : Op} {ops : List Op} (h : AllocLib.step L P op = .ok P1) (h1 : LibOk0 P op)
    (h2 : LibOks0 L P1 ops) : LibOks0 L P (op :: ops) :=
  ⟨h1, fun P' h' => by rw [h] at h'; injection h' with h'; subst h'; exact h2⟩

/-- A block of no bytes, a block that is written and enlarged in place, a block of `fast_new`; the first one is given
back and its place is used again. -/
def sample : List Op :=
  [.alloc 0 ⟨16, fun _ => 1⟩, .alloc 20 ⟨32, fun _ => 1⟩, .write 1 3 7, .realloc 1 300 ⟨32, fun _ => 2⟩ ⟨0, fun _ => 0⟩,
    .new 16 ⟨1024, fun _ => 3⟩, .free 0 ⟨0, fun _ => 4⟩, .alloc 8 ⟨16, fun _ => 5⟩]

example : (srun0 [] sample).isSome = true := by decide

example : LibOks0 .je (start fun _ => 0) sample := by
  repeat (first
    | refine libOks0_cons rfl ?_ ?_
    | exact trivial
    | (show FreshMem _ _ _; decide)
    | (intro b hb; injection hb with hb; subst hb; decide))

/-- What is in the fourth byte of each block in the end. -/
def fourth : Res Prog → List (Nat × UInt8)
  | .ok P => P.live.map fun b => (b.addr, P.w.mem (b.addr + 3))
  | _ => []

example : fourth (AllocLib.run .je (start fun _ => 0) sample) = [(32, 7), (1024, 3), (16, 5)] := by decide

/-- A client that gives everything back. -/
example : (srun0 [] [.alloc 0 ⟨16, fun _ => 1⟩, .new 3 ⟨32, fun _ => 1⟩, .free 0 ⟨0, fun _ => 1⟩, .del 0 ⟨0, fun _ => 1⟩]).map
    List.length = some 0 := by decide

end Lolly.AllocLibProps
