import Verif.Containers.ArrayLoop
import Verif.Containers.HashMap
import Verif.Strings.Str

set_option autoImplicit false

/-!
# What growing and shrinking costs

How many cells `array_rep<T>::resize` (Kernel/Containers/array.ipp:35-55) and `string_rep::resize`
(Kernel/Types/string.cpp:38-54) touch when they allocate, move or free a block: those of the old block and those of the new
one. `gen` tells whether they did. The same for `hashmap_rep<T,U>::resize` (Kernel/Containers/hashmap.ipp:47-63): the
entries that are moved and the new buckets.
-/

namespace Lolly.GrowCost

variable {T : Type}

/-- The cells touched by a call that made `a'` of `a`. -/
def work (a a' : Arr T) : Nat :=
  if a'.gen = a.gen then 0 else (a.blk.getD []).length + (a'.blk.getD []).length

/-- The cells touched by a program. -/
def total (dv : T) : Arr T → List (ArrayLoop.Op T) → Res (Nat × Arr T)
  | a, [] => .ok (0, a)
  | a, o :: os => do
    let a' ← ArrayLoop.step dv a o
    let (w, b) ← total dv a' os
    .ok (work a a' + w, b)

/-- What is done to a string: `s << c` (string.cpp:139-144) and `s->resize (m)`. -/
inductive SOp
  | push (c : UInt8)
  | resize (m : Nat)

def sstep (s : Str) : SOp → Res Str
  | .push c => s.push c
  | .resize m => s.resize m

def swork (s s' : Str) : Nat :=
  if s'.gen = s.gen then 0 else (s.blk.getD []).length + (s'.blk.getD []).length

def stotal : Str → List SOp → Res (Nat × Str)
  | s, [] => .ok (0, s)
  | s, o :: os => do
    let s' ← sstep s o
    let (w, b) ← stotal s' os
    .ok (swork s s' + w, b)

variable {K V : Type}

/-- What is done to a hash map: `h(x)= v` and `h->reset (x)`. -/
inductive MOp (K V : Type)
  | set (x : K) (v : V)
  | reset (x : K)

/-- The entries that are moved and the new buckets; `resize` is called with another number of buckets only. The entry that
is added after the call, or the one that was removed before, does not count. -/
def mwork (h h' : HashMap K V) : Nat :=
  if h'.n = h.n then 0 else min h.a.flatten.length h'.a.flatten.length + h'.n

variable [DecidableEq K] (hash : K → BitVec 32)

def mstep (h : HashMap K V) : MOp K V → Res (HashMap K V)
  | .set x v => h.set hash x v
  | .reset x => h.reset hash x

def mtotal : HashMap K V → List (MOp K V) → Res (Nat × HashMap K V)
  | h, [] => .ok (0, h)
  | h, o :: os => do
    let h' ← mstep hash h o
    let (w, b) ← mtotal h' os
    .ok (mwork h h' + w, b)

end Lolly.GrowCost
