import Verif.Algorithms.MergeSort

set_option autoImplicit false

/-!
# merge_sort with comparisons that have effects

The same functions as in `MergeSort.lean` (Kernel/Algorithms/merge_sort.hpp), now with a comparison that may have a state
of its own, answer differently each time and throw an exception, and with the number of comparisons. What counts when it
throws is the array at that moment, so outcomes carry the state. The comparison gets references to elements
(merge_sort.hpp:22); it is taken not to change them.
-/

namespace Lolly.SortSteps

variable {T U σ : Type}

/-- Outcomes of a computation on states `S`. -/
inductive Out (S α : Type)
  | ret (s : S) (x : α)
  | thrown (s : S)
  | ub
  | hang
  deriving DecidableEq

def Out.bind {S α β : Type} : Out S α → (S → α → Out S β) → Out S β
  | .ret s x, f => f s x
  | .thrown s, _ => .thrown s
  | .ub, _ => .ub
  | .hang, _ => .hang

/-- A comparison: two elements and its own state give an answer, or `none` for an exception, and the next state. -/
abbrev Cmp (σ T : Type) := T → T → σ → Option Bool × σ

/-- The array, the buffer, the state of the comparison and the number of comparisons so far. -/
structure St (σ T : Type) where
  a : List T
  buf : List T
  env : σ
  cmps : Nat
  deriving DecidableEq

/-- `LEQ::leq (a[i], a[j])`. -/
def cmp (leq : Cmp σ T) (i j : Nat) (st : St σ T) : Out (St σ T) Bool :=
  match st.a[i]?, st.a[j]? with
  | some x, some y =>
    match leq x y st.env with
    | (some b, env) => .ret { st with env := env, cmps := st.cmps + 1 } b
    | (none, env) => .thrown { st with env := env, cmps := st.cmps + 1 }
  | _, _ => .ub

/-- A statement that changes the buffer only. -/
def onBuf (st : St σ T) : Res (List T) → Out (St σ T) Unit
  | .ok b => .ret { st with buf := b } ()
  | .thrown => .thrown st
  | .ub => .ub
  | .hang => .hang

/-- A statement that changes the array only. -/
def onA (st : St σ T) : Res (List T) → Out (St σ T) Unit
  | .ok a => .ret { st with a := a } ()
  | .thrown => .thrown st
  | .ub => .ub
  | .hang => .hang

/-- The merging loop (merge_sort.hpp:41-43). -/
def mergeLoop (leq : Cmp σ T) (middle e : Nat) : Nat → Nat → Nat → Nat → St σ T → Out (St σ T) (Nat × Nat × Nat)
  | 0, _, _, _, _ => .hang
  | f + 1, i, j, k, st =>
    if i < middle ∧ j < e then
      (cmp leq i j st).bind fun st b =>
        if b then (onBuf st (rd st.a i >>= fun x => wr st.buf k x)).bind fun st _ =>
          mergeLoop leq middle e f (i + 1) j (k + 1) st
        else (onBuf st (rd st.a j >>= fun x => wr st.buf k x)).bind fun st _ =>
          mergeLoop leq middle e f i (j + 1) (k + 1) st
    else .ret st (i, j, k)

/-- `merge_sort_sub` (merge_sort.hpp:25-49). -/
def sub (leq : Cmp σ T) (s e : Nat) (st : St σ T) : Out (St σ T) Unit :=
  if e - s ≤ 1 then .ret st ()
  else if e - s = 2 then
    (cmp leq s (s + 1) st).bind fun st b =>
      if !b then
        (onBuf st (rd st.a s >>= fun x => wr st.buf s x)).bind fun st _ =>
        (onA st (rd st.a (s + 1) >>= fun x => wr st.a s x)).bind fun st _ =>
        onA st (rd st.buf s >>= fun x => wr st.a (s + 1) x)
      else .ret st ()
  else
    (sub leq s ((s + e) / 2) st).bind fun st _ =>
    (sub leq ((s + e) / 2) e st).bind fun st _ =>
    (mergeLoop leq ((s + e) / 2) e (e - s + 1) s ((s + e) / 2) s st).bind fun st r =>
    (onA st (MergeSort.leftover st.a r.1 ((s + e) / 2) r.2.2)).bind fun st _ =>
    onA st (MergeSort.copyBack st.a st.buf s r.2.2)
termination_by e - s
decreasing_by all_goals omega

/-- `merge_sort_leq` (merge_sort.hpp:51-56). `dv` is `T ()`. -/
def sort (leq : Cmp σ T) (dv : T) (a : List T) (env : σ) : Out (St σ T) Unit :=
  sub leq 0 a.length ⟨a, List.replicate a.length dv, env, 0⟩

/-! ## The form with a companion array (merge_sort.hpp:68-115) -/

structure St2 (σ T U : Type) where
  a : List T
  b : List U
  ma : List T
  mb : List U
  env : σ
  cmps : Nat

def cmp2 (leq : Cmp σ T) (i j : Nat) (st : St2 σ T U) : Out (St2 σ T U) Bool :=
  match st.a[i]?, st.a[j]? with
  | some x, some y =>
    match leq x y st.env with
    | (some b, env) => .ret { st with env := env, cmps := st.cmps + 1 } b
    | (none, env) => .thrown { st with env := env, cmps := st.cmps + 1 }
  | _, _ => .ub

def onBuf2 (st : St2 σ T U) : Res (List T × List U) → Out (St2 σ T U) Unit
  | .ok m => .ret { st with ma := m.1, mb := m.2 } ()
  | .thrown => .thrown st
  | .ub => .ub
  | .hang => .hang

def onA2 (st : St2 σ T U) : Res (List T × List U) → Out (St2 σ T U) Unit
  | .ok m => .ret { st with a := m.1, b := m.2 } ()
  | .thrown => .thrown st
  | .ub => .ub
  | .hang => .hang

/-- The two assignments of the merging loop (merge_sort.hpp:90-91, 94-95). -/
def move2 (st : St2 σ T U) (k i : Nat) : Res (List T × List U) := do
  let u ← rd st.b i
  let mb ← wr st.mb k u
  let x ← rd st.a i
  let ma ← wr st.ma k x
  .ok (ma, mb)

/-- The merging loop (merge_sort.hpp:88-96). -/
def mergeLoop2 (leq : Cmp σ T) (middle e : Nat) :
    Nat → Nat → Nat → Nat → St2 σ T U → Out (St2 σ T U) (Nat × Nat × Nat)
  | 0, _, _, _, _ => .hang
  | f + 1, i, j, k, st =>
    if i < middle ∧ j < e then
      (cmp2 leq i j st).bind fun st b =>
        if b then (onBuf2 st (move2 st k i)).bind fun st _ => mergeLoop2 leq middle e f (i + 1) j (k + 1) st
        else (onBuf2 st (move2 st k j)).bind fun st _ => mergeLoop2 leq middle e f i (j + 1) (k + 1) st
    else .ret st (i, j, k)

/-- The exchange of two neighbours (merge_sort.hpp:75-80): buffers and arrays. -/
def swap2 (st : St2 σ T U) (s : Nat) : Res ((List T × List U) × (List T × List U)) := do
  let x ← rd st.a s
  let ma ← wr st.ma s x
  let y ← rd st.a (s + 1)
  let a ← wr st.a s y
  let z ← rd ma s
  let a ← wr a (s + 1) z
  let u ← rd st.b s
  let mb ← wr st.mb s u
  let v ← rd st.b (s + 1)
  let b ← wr st.b s v
  let w ← rd mb s
  let b ← wr b (s + 1) w
  .ok ((ma, mb), (a, b))

/-- `merge_sort_sub` on two arrays (merge_sort.hpp:68-106). -/
def sub2 (leq : Cmp σ T) (s e : Nat) (st : St2 σ T U) : Out (St2 σ T U) Unit :=
  if e - s ≤ 1 then .ret st ()
  else if e - s = 2 then
    (cmp2 leq s (s + 1) st).bind fun st b =>
      if !b then
        match swap2 st s with
        | .ok (m, c) => .ret { st with ma := m.1, mb := m.2, a := c.1, b := c.2 } ()
        | .thrown => .thrown st
        | .ub => .ub
        | .hang => .hang
      else .ret st ()
  else
    (sub2 leq s ((s + e) / 2) st).bind fun st _ =>
    (sub2 leq ((s + e) / 2) e st).bind fun st _ =>
    (mergeLoop2 leq ((s + e) / 2) e (e - s + 1) s ((s + e) / 2) s st).bind fun st r =>
    (onA2 st (MergeSort.leftover2 st.a st.b r.1 ((s + e) / 2) r.2.2)).bind fun st _ =>
    onA2 st (MergeSort.copyBack2 st.a st.ma st.b st.mb s r.2.2)
termination_by e - s
decreasing_by all_goals omega

/-- `merge_sort_leq` on two arrays (merge_sort.hpp:108-115); the assertion throws before anything is compared. -/
def sort2 (leq : Cmp σ T) (dt : T) (du : U) (a : List T) (b : List U) (env : σ) : Out (St2 σ T U) Unit :=
  let st : St2 σ T U := ⟨a, b, List.replicate a.length dt, List.replicate b.length du, env, 0⟩
  if a.length = b.length then sub2 leq 0 a.length st else .thrown st

end Lolly.SortSteps
