import Verif.Basic

set_option autoImplicit false

/-!
# Threads that use the library at the same time

Neither the counts of handles (`ref_count`, Kernel/Abstractions/classdef.hpp:25, 50) nor the free lists of the allocator
(`alloc_table`, `alloc_mem`, System/Memory/impl/fast_alloc.cpp:25-26) are atomic, and nothing is locked: threads can take
turns between any two accesses to memory. A schedule is a list of the threads that make the next step. Each access is one
step, in the order of the program (weaker orders of memory are left out); what only concerns the thread itself happens
along with it.
-/

namespace Lolly.Threads

/-! ## Counts of handles -/

namespace Counts

/-- What a thread does: copying its `k`-th handle, or letting it go. -/
inductive Call where
  | copy (k : Nat)
  | drop (k : Nat)
  deriving DecidableEq

/-- Between the reading of a count and its writing back. -/
inductive Pc where
  | idle
  | inc (o : Nat) (v : Int)
  | dec (o : Nat) (v : Int)
  deriving DecidableEq

structure Thread where
  own : List Nat
  todo : List Call
  pc : Pc
  deriving DecidableEq

/-- The count of each object, whether it has been destroyed, and the threads. -/
structure St where
  cnt : Nat → Int
  dead : Nat → Bool
  threads : List Thread

def upd {α : Type} (f : Nat → α) (o : Nat) (v : α) : Nat → α := fun x => if x = o then v else f x

/-- One step of a thread, with the counts it sees: `INC_COUNT` (classdef.hpp:74-75) and `DEC_COUNT` (classdef.hpp:84-89)
read the count, write it back, and destroy the object if it is 0. An object that was destroyed must not be touched. -/
def act (s : St) (t : Thread) : Res (St × Thread) :=
  match t.pc with
  | .idle =>
    match t.todo with
    | [] => .ok (s, t)
    | .copy k :: c => do
      let o ← rd t.own k
      if s.dead o then .ub else .ok (s, { t with todo := c, pc := .inc o (s.cnt o) })
    | .drop k :: c => do
      let o ← rd t.own k
      if s.dead o then .ub else .ok (s, { own := t.own.eraseIdx k, todo := c, pc := .dec o (s.cnt o) })
  | .inc o v =>
    if s.dead o then .ub
    else .ok ({ s with cnt := upd s.cnt o (v + 1) }, { t with own := t.own ++ [o], pc := .idle })
  | .dec o v =>
    if s.dead o then .ub
    else if v - 1 = 0 then .ok ({ s with cnt := upd s.cnt o (v - 1), dead := upd s.dead o true }, { t with pc := .idle })
    else .ok ({ s with cnt := upd s.cnt o (v - 1) }, { t with pc := .idle })

/-- Thread `i` makes a step. -/
def step (s : St) (i : Nat) : Res St := do
  let t ← rd s.threads i
  let (s, t) ← act s t
  .ok { s with threads := s.threads.set i t }

def run (s : St) : List Nat → Res St
  | [] => .ok s
  | i :: is => do
    let s ← step s i
    run s is

end Counts

/-! ## The free list of one size -/

namespace Free

/-- What a thread does: `fast_alloc`, `fast_free` of its `k`-th block, writing the first word of its `k`-th block. -/
inductive Call where
  | alloc
  | free (k : Nat)
  | write (k : Nat) (w : Option Nat)
  deriving DecidableEq

/-- Where a thread is in `fast_alloc` or `fast_free`. -/
inductive Pc where
  | idle
  | head (p : Option Nat)
  | next (p : Nat) (n : Option Nat)
  | mem (p : Nat)
  | freeing (p : Nat) (h : Option Nat)
  | linked (p : Nat)
  deriving DecidableEq

structure Thread where
  own : List Nat
  todo : List Call
  pc : Pc
  deriving DecidableEq

/-- The head of the list, the first word of each block, and the blocks that were ever cut from the chunk. Blocks are
numbered; new chunks are left out. -/
structure St where
  head : Option Nat
  word : Nat → Option Nat
  mem : Nat
  threads : List Thread

/-- One step of a thread: `fast_alloc` (fast_alloc.cpp:81-92) with `enlarge_malloc` (fast_alloc.cpp:75-78) and `fast_free`
(fast_alloc.cpp:101-111). Where the end of the used part of the chunk is moved, reading and writing it is one step. -/
def act (s : St) (t : Thread) : Res (St × Thread) :=
  match t.pc with
  | .idle =>
    match t.todo with
    | [] => .ok (s, t)
    | .alloc :: c => .ok (s, { t with todo := c, pc := .head s.head })
    | .free k :: c => do
      let p ← rd t.own k
      .ok (s, { own := t.own.eraseIdx k, todo := c, pc := .freeing p s.head })
    | .write k w :: c => do
      let p ← rd t.own k
      .ok ({ s with word := Counts.upd s.word p w }, { t with todo := c })
  | .head none => .ok (s, { t with pc := .mem s.mem })
  | .head (some p) => .ok (s, { t with pc := .next p (s.word p) })
  | .next p n => .ok ({ s with head := n }, { t with own := t.own ++ [p], pc := .idle })
  | .mem p => .ok ({ s with mem := s.mem + 1 }, { t with own := t.own ++ [p], pc := .idle })
  | .freeing p h => .ok ({ s with word := Counts.upd s.word p h }, { t with pc := .linked p })
  | .linked p => .ok ({ s with head := some p }, { t with pc := .idle })

/-- Thread `i` makes a step. -/
def step (s : St) (i : Nat) : Res St := do
  let t ← rd s.threads i
  let (s, t) ← act s t
  .ok { s with threads := s.threads.set i t }

def run (s : St) : List Nat → Res St
  | [] => .ok s
  | i :: is => do
    let s ← step s i
    run s is

end Free

end Lolly.Threads
