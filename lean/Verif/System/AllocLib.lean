import Verif.System.AllocSpec

set_option autoImplicit false

/-!
# The allocators of jemalloc and mimalloc

System/Memory/impl/je_malloc.cpp and System/Memory/impl/mi_malloc.cpp hand everything to the library. The library answers as
in Alloc.lean; a block of size 0 has an address of its own, so that the library uses one byte for it. The statistics are
not modelled: `mem_used` gives 0 with jemalloc (je_malloc.cpp:72-76) and what mimalloc says for the heap of the thread.
-/

namespace Lolly.AllocLib

open Lolly.Alloc

/-- The library; for mimalloc whether `mem_init` has registered the function that ends the program when an error occurs
(mi_malloc.cpp:74-102). -/
inductive Lib
  | je
  | mi (registered : Bool)

/-- Does the program end when there is no memory? `safe_malloc` and `fast_realloc` of je_malloc.cpp:23-32, 44-53;
`mem_err_handler` of mi_malloc.cpp:74-97. -/
def Lib.aborts : Lib → Bool
  | .je => true
  | .mi r => r

/-- `fast_alloc` and `fast_new` (je_malloc.cpp:34-37, 55-58; mi_malloc.cpp:23-26, 38-41). -/
def alloc (L : Lib) (w : World) (n : Nat) (o : Ora) : Res (Nat × World) :=
  if o.p = 0 ∧ L.aborts = false then .ok (0, w) else cMalloc w (max n 1) o

/-- `fast_free` and `fast_delete` (je_malloc.cpp:39-42, 60-63; mi_malloc.cpp:28-31, 43-46); the size is not looked at. -/
def free (w : World) (p : Nat) (o : Ora) : Res World := if p = 0 then .ok w else cFree w p o

/-- `fast_realloc` (je_malloc.cpp:44-53; mi_malloc.cpp:33-36); the old size is not looked at. -/
def realloc (L : Lib) (w : World) (p n : Nat) (o : Ora) : Res (Nat × World) :=
  if p = 0 then alloc L w n o
  else if o.p = 0 ∧ L.aborts = true then .thrown
  else cRealloc w p (max n 1) o

/-- One operation, as in Alloc.lean. -/
def step (L : Lib) (P : Prog) : Op → Res Prog
  | .alloc sz o => do
    let (p, w) ← alloc L P.w sz o
    .ok ⟨w, P.live ++ [⟨p, sz, false, sz⟩]⟩
  | .free k o =>
    match P.live[k]? with
    | some b =>
      if b.isNew then .ub
      else do
        let w ← free P.w b.addr o
        .ok ⟨w, P.live.eraseIdx k⟩
    | none => .ub
  | .realloc k n o _ =>
    match P.live[k]? with
    | some b =>
      if b.isNew then .ub
      else do
        let (p, w) ← realloc L P.w b.addr n o
        .ok ⟨w, P.live.set k ⟨p, n, false, n⟩⟩
    | none => .ub
  | .new sz o => do
    let (p, w) ← alloc L P.w sz o
    .ok ⟨w, P.live ++ [⟨p, sz, true, sz⟩]⟩
  | .del k o =>
    match P.live[k]? with
    | some b =>
      if b.isNew then do
        let w ← free P.w b.addr o
        .ok ⟨w, P.live.eraseIdx k⟩
      else .ub
    | none => .ub
  | .write k off v =>
    match P.live[k]? with
    | some b =>
      if off < b.req ∧ covered P.w.heap (b.addr + off) 1 then
        .ok ⟨{ P.w with mem := fun a => if a = b.addr + off then v else P.w.mem a }, P.live⟩
      else .ub
    | none => .ub

/-- A history. -/
def run (L : Lib) (P : Prog) : List Op → Res Prog
  | [] => .ok P
  | op :: l => do
    let P ← step L P op
    run L P l

end Lolly.AllocLib
