import Verif.System.Timer
import Verif.Algorithms.MergeSortProps

set_option autoImplicit false

/-!
# C57: nested timers count outermost intervals
-/

namespace Lolly.TimerProps

open Lolly.Timer

/-! ## Specification -/

/-- The calls that concern the task. -/
def calls (k : Bytes) (h : List (Bytes × Ev)) : List Ev := (h.filter fun p => p.1 == k).map (·.2)

/-- Starts and ends that match, nested to the depth `d` at most. -/
inductive Balanced : Nat → List Ev → Prop
  | nil {d : Nat} : Balanced d []
  | cons {d : Nat} {t0 t1 : Int} {a b : List Ev} :
    Balanced d a → Balanced (d + 1) b → Balanced (d + 1) (.start t0 :: (a ++ .cumul t1 :: b))

/-- Not so deep that the level overflows. -/
def Nested (a : List Ev) : Prop := ∃ d, d + 1 < 2 ^ 32 ∧ Balanced d a

/-- An outermost interval: from `t0` to `t1`, with what happened inside. -/
structure Interval where
  t0 : Int
  inner : List Ev
  t1 : Int

def Interval.calls (i : Interval) : List Ev := .start i.t0 :: (i.inner ++ [.cumul i.t1])

/-- The length of all intervals together. -/
def total (l : List Interval) : Int := (l.map fun i => i.t1 - i.t0).sum

/-! ## One task -/

/-- What the state says about one task. -/
structure View where
  level : UInt32
  nr : UInt32
  cumul : Option UInt32
  last : UInt32

def look (m : Map) (k : Bytes) : Option UInt32 := (m.find? fun p => p.1 == k).map (·.2)

def view (s : State) (k : Bytes) : View := ⟨get s.level k, get s.nr k, look s.cumul k, get s.last k⟩

def vstep (v : View) : Ev → View
  | .start now => { v with last := if v.level = 0 then u32 now else v.last, level := v.level + 1 }
  | .cumul now =>
    if v.level - 1 = 0 then ⟨0, v.nr + 1, some (v.cumul.getD 0 + (u32 now - v.last)), 0⟩
    else { v with level := v.level - 1 }
  | .reset => ⟨0, 0, none, 0⟩

theorem look_put_self (m : Map) (k : Bytes) (x : UInt32) : look (put m k x) k = some x := by
  unfold look put
  split
  · next h =>
    induction m with
    | nil => simp at h
    | cons p m ih =>
      by_cases hp : p.1 = k
      · simp [hp]
      · have hm : m.any (fun p => p.1 == k) = true := by simpa [hp] using h
        rw [List.map_cons, List.find?_cons_of_neg]
        · exact ih hm
        · simp [hp]
  · next h =>
    have : m.find? (fun p => p.1 == k) = none := by
      rw [List.find?_eq_none]
      intro p hp hk
      exact h (List.any_eq_true.2 ⟨p, hp, hk⟩)
    simp [List.find?_append, this]

theorem look_put_ne (m : Map) {k j : Bytes} (hj : j ≠ k) (x : UInt32) : look (put m j x) k = look m k := by
  unfold look put
  split
  · congr 1
    rw [List.find?_map]
    have : ((fun p : Bytes × UInt32 => p.1 == k) ∘ fun p => if p.1 == j then (j, x) else p) = fun p => p.1 == k := by
      funext p
      simp only [Function.comp]
      by_cases hp : p.1 = j
      · simp [hp]
      · simp [hp]
    rw [this]
    cases h : m.find? (fun p => p.1 == k) with
    | none => rfl
    | some p =>
      have hp : p.1 = k := by simpa using List.find?_some h
      have : ¬ p.1 = j := fun h => hj (h.symm.trans hp)
      simp [this]
  · rw [List.find?_append]
    simp [hj]

theorem look_reset_self (m : Map) (k : Bytes) : look (reset m k) k = none := by
  unfold look reset
  rw [Option.map_eq_none_iff, List.find?_eq_none]
  intro p hp
  have := (List.mem_filter.1 hp).2
  simpa using this

theorem look_reset_ne (m : Map) {k j : Bytes} (hj : j ≠ k) : look (reset m j) k = look m k := by
  unfold look reset
  rw [List.find?_filter]
  congr 1
  congr 1
  funext p
  by_cases hp : p.1 = k
  · have : ¬ k = j := fun h => hj h.symm
    simp [hp, this]
  · simp [hp]

theorem get_eq (m : Map) (k : Bytes) : get m k = (look m k).getD 0 := rfl

theorem view_step_self (s : State) (k : Bytes) (e : Ev) : view (step s k e) k = vstep (view s k) e := by
  cases e with
  | start now =>
    simp only [step, timerStart, view, vstep]
    split
    · next h => simp [get_eq, look_put_self] at h ⊢; simp [h]
    · next h => simp [get_eq, look_put_self] at h ⊢; simp [h]
  | cumul now =>
    simp only [step, timerCumul, view, vstep]
    have h : get (put s.level k (get s.level k - 1)) k = get s.level k - 1 := by simp [get_eq, look_put_self]
    rw [h]
    split
    · next h0 => simp [get_eq, look_put_self, look_reset_self] at h0 ⊢; simp [h0]
    · next h0 => simp [get_eq, look_put_self] at h0 ⊢; simp [h0]
  | reset => simp [step, timerReset, view, vstep, get_eq, look_reset_self]

theorem view_step_ne (s : State) {k j : Bytes} (hj : j ≠ k) (e : Ev) : view (step s j e) k = view s k := by
  cases e with
  | start now =>
    simp only [step, timerStart, view]
    split
    · simp [get_eq, look_put_ne _ hj]
    · simp [get_eq, look_put_ne _ hj]
  | cumul now =>
    simp only [step, timerCumul, view]
    split
    · simp [get_eq, look_put_ne _ hj, look_reset_ne _ hj]
    · simp [get_eq, look_put_ne _ hj]
  | reset => simp [step, timerReset, view, get_eq, look_reset_ne _ hj]

theorem view_run (s : State) (k : Bytes) (h : List (Bytes × Ev)) : view (run s h) k = (calls k h).foldl vstep (view s k) := by
  induction h generalizing s with
  | nil => rfl
  | cons p h ih =>
    obtain ⟨j, e⟩ := p
    rw [run, ih]
    by_cases hj : j = k
    · subst hj
      rw [view_step_self]
      simp [calls]
    · rw [view_step_ne s hj]
      simp [calls, hj]

theorem level_ne {v : UInt32} {d : Nat} (h0 : 0 < v.toNat) (h : v.toNat + d + 1 < 2 ^ 32) :
    (v + 1).toNat = v.toNat + 1 ∧ v ≠ 0 ∧ v + 1 - 1 = v := by
  refine ⟨?_, ?_, by simp⟩
  · rw [UInt32.toNat_add]
    simp
    omega
  · intro hv
    subst hv
    simp at h0

theorem balanced_id {d : Nat} {a : List Ev} (h : Balanced d a) {v : View} (h0 : 0 < v.level.toNat)
    (hd : v.level.toNat + d < 2 ^ 32) : a.foldl vstep v = v := by
  induction h generalizing v with
  | nil => rfl
  | @cons d t0 t1 a b ha hb iha ihb =>
    obtain ⟨h1, h2, h3⟩ := level_ne (v := v.level) (d := d) h0 (by omega)
    have e1 : vstep v (.start t0) = { v with level := v.level + 1 } := by simp [vstep, h2]
    rw [List.foldl_cons, e1, List.foldl_append, iha (by simp only; omega) (by simp only; omega), List.foldl_cons]
    have e2 : vstep { v with level := v.level + 1 } (.cumul t1) = v := by
      simp only [vstep, h3]
      rw [if_neg h2]
    rw [e2]
    exact ihb h0 hd

/-- One outermost interval. -/
theorem interval_view {i : Interval} (hi : Nested i.inner) {v : View} (h0 : v.level = 0) :
    i.calls.foldl vstep v = ⟨0, v.nr + 1, some (v.cumul.getD 0 + (u32 i.t1 - u32 i.t0)), 0⟩ := by
  obtain ⟨d, hd, hb⟩ := hi
  have e1 : vstep v (.start i.t0) = { v with last := u32 i.t0, level := 1 } := by simp [vstep, h0]
  rw [Interval.calls, List.foldl_cons, e1, List.foldl_append, balanced_id hb (by simp) (by simp; omega)]
  simp [vstep]

theorem u32_zero : u32 0 = 0 := rfl

theorem u32_sub (a b : Int) : u32 a - u32 b = u32 (a - b) := by
  simp only [u32]
  rw [Int.sub_eq_add_neg, UInt32.ofInt_add, UInt32.ofInt_neg, UInt32.sub_eq_add_neg]

theorem u32_add (a b : Int) : u32 a + u32 b = u32 (a + b) := by
  simp [u32, UInt32.ofInt_add]

theorem intervals_view (l : List Interval) (hl : ∀ i ∈ l, Nested i.inner) {v : View} (h0 : v.level = 0) :
    (l.flatMap Interval.calls).foldl vstep v =
      if l = [] then v else ⟨0, v.nr + u32 l.length, some (v.cumul.getD 0 + u32 (total l)), 0⟩ := by
  induction l generalizing v with
  | nil => rfl
  | cons i l ih =>
    rw [List.flatMap_cons, List.foldl_append, interval_view (hl i (by simp)) h0, ih (fun j hj => hl j (by simp [hj])) rfl]
    by_cases hn : l = []
    · subst hn
      simp only [List.cons_ne_nil, if_false, if_true, total, u32_sub]
      simp
      rfl
    · rw [if_neg hn, if_neg (by simp)]
      congr 1
      · rw [UInt32.add_assoc]
        congr 1
        have : (1 : UInt32) = u32 1 := by simp [u32]
        rw [this, u32_add]
        congr 1
        simp; omega
      · congr 1
        simp only [Option.getD_some, total, List.map_cons, List.sum_cons]
        rw [UInt32.add_assoc, u32_sub, u32_add]

/-! ## Theorems -/

/-- If the calls for a task form outermost intervals, nested less than 2^32 deep, then its accumulated time is the
length of these intervals and its count is their number (modulo 2^32), whatever is done with other tasks. -/
theorem C57_intervals (h : List (Bytes × Ev)) (k : Bytes) (l : List Interval)
    (hl : ∀ i ∈ l, Nested i.inner) (hk : calls k h = l.flatMap Interval.calls) :
    get (run init h).cumul k = u32 (total l) ∧ get (run init h).nr k = u32 l.length ∧ get (run init h).level k = 0 := by
  have hv := view_run init k h
  rw [hk, intervals_view l hl rfl] at hv
  have h1 : get (run init h).cumul k = (view (run init h) k).cumul.getD 0 := rfl
  have h2 : get (run init h).nr k = (view (run init h) k).nr := rfl
  have h3 : get (run init h).level k = (view (run init h) k).level := rfl
  rw [h1, h2, h3, hv]
  by_cases hn : l = []
  · subst hn; simp [view, Timer.get, look, init, total, u32_zero]
  · rw [if_neg hn]; simp [view, Timer.get, look, init]

/-- While an interval is running it does not count. -/
theorem C57_running (h : List (Bytes × Ev)) (k : Bytes) (l : List Interval) (t0 : Int) (a : List Ev)
    (hl : ∀ i ∈ l, Nested i.inner) (ha : Nested a)
    (hk : calls k h = l.flatMap Interval.calls ++ .start t0 :: a) :
    get (run init h).cumul k = u32 (total l) ∧ get (run init h).nr k = u32 l.length ∧ get (run init h).level k = 1 ∧
      get (run init h).last k = u32 t0 := by
  have hv := view_run init k h
  rw [hk, List.foldl_append, intervals_view l hl rfl, List.foldl_cons] at hv
  obtain ⟨d, hd, hb⟩ := ha
  have h1 : get (run init h).cumul k = (view (run init h) k).cumul.getD 0 := rfl
  have h2 : get (run init h).nr k = (view (run init h) k).nr := rfl
  have h3 : get (run init h).level k = (view (run init h) k).level := rfl
  have h4 : get (run init h).last k = (view (run init h) k).last := rfl
  rw [h1, h2, h3, h4, hv]
  by_cases hn : l = []
  · subst hn
    rw [if_pos rfl]
    rw [balanced_id hb (by simp [vstep, view, Timer.get, init]) (by simp [vstep, view, Timer.get, init]; omega)]
    simp [vstep, view, Timer.get, look, init, total, u32_zero]
  · rw [if_neg hn]
    rw [balanced_id hb (by simp [vstep]) (by simp [vstep]; omega)]
    simp [vstep, view, Timer.get, look, init]

/-- After `timer_reset` the task is as new: what came before does not matter. -/
theorem C57_reset (h1 h2 : List (Bytes × Ev)) (k : Bytes) :
    view (run init (h1 ++ (k, .reset) :: h2)) k = view (run init h2) k := by
  have e : calls k (h1 ++ (k, .reset) :: h2) = calls k h1 ++ .reset :: calls k h2 := by simp [calls]
  rw [view_run, view_run, e, List.foldl_append, List.foldl_cons]
  congr 1

/-- The line for a task: the length of its intervals in decimal, and their number if there are several. It is left out
when the time is below the threshold. -/
theorem C57_line (h : List (Bytes × Ev)) (k : Bytes) (l : List Interval) (hl : ∀ i ∈ l, Nested i.inner)
    (hk : calls k h = l.flatMap Interval.calls) (T : Nat) (hT : total l = T) (hT' : T < 2 ^ 32) (hn : l.length < 2 ^ 32)
    (threshold : UInt32) :
    benchPrint (run init h) k threshold =
      if T < threshold.toNat then []
      else (b!"Task '") ++ k.filter (· ≠ 0) ++ (b!"' took ") ++ Conv.natDec T ++ (b!" ms") ++
        (if 1 < l.length then (b!" (") ++ Conv.natDec l.length ++ (b!" invocations)") else []) ++ (b!"\n") := by
  obtain ⟨h1, h2, -⟩ := C57_intervals h k l hl hk
  have key : ∀ n : Nat, n < 2 ^ 32 → (u32 (n : Int)).toNat = n := by
    intro n hn
    simp only [u32, UInt32.ofInt, UInt32.toNat_ofNat']
    omega
  have e1 : (get (run init h).cumul k).toNat = T := by rw [h1, hT, key T hT']
  have e2 : (get (run init h).nr k).toNat = l.length := by rw [h2, key _ hn]
  simp only [benchPrint, UInt32.lt_iff_toNat_lt, GT.gt, e1, e2]
  rfl

theorem nodup_put {m : Map} (hm : (m.map (·.1)).Nodup) (k : Bytes) (x : UInt32) : ((put m k x).map (·.1)).Nodup := by
  unfold put
  split
  · have : (m.map fun p => if p.1 == k then (k, x) else p).map (·.1) = m.map (·.1) := by
      rw [List.map_map]
      congr 1
      funext p
      simp only [Function.comp]
      split
      · next h => simpa using Eq.symm (by simpa using h)
      · rfl
    rw [this]
    exact hm
  · next h =>
    rw [List.map_append]
    refine List.nodup_append.2 ⟨hm, by simp, ?_⟩
    intro a ha b hb hab
    simp at hb
    obtain ⟨p, hp, hpa⟩ := List.mem_map.1 ha
    exact h (List.any_eq_true.2 ⟨p, hp, by simp [hpa, hab, hb]⟩)

theorem nodup_run (h : List (Bytes × Ev)) {s : State} (hs : (s.cumul.map (·.1)).Nodup) : ((run s h).cumul.map (·.1)).Nodup := by
  induction h generalizing s with
  | nil => exact hs
  | cons p h ih =>
    obtain ⟨j, e⟩ := p
    refine ih ?_
    cases e with
    | start now =>
      simp only [step, timerStart]
      split <;> exact hs
    | cumul now =>
      simp only [step, timerCumul]
      split
      · exact nodup_put hs _ _
      · exact hs
    | reset =>
      refine List.Nodup.sublist ?_ hs
      exact List.Sublist.map _ (List.filter_sublist ..)

theorem mem_keys (m : Map) (k : Bytes) : k ∈ m.map (·.1) ↔ look m k ≠ none := by
  unfold look
  rw [Ne, Option.map_eq_none_iff, List.find?_eq_none]
  simp

/-- The report: one line for each task that has finished an outermost interval since it was last reset (here: the calls
since then are `since`), in the order of the names. -/
theorem C57_report (h : List (Bytes × Ev)) :
    ∃ ks : List Bytes, benchPrintAll (run init h) = .ok (ks.flatMap fun k => benchPrint (run init h) k 0) ∧ ks.Nodup ∧
      ks.Pairwise (fun a b => StrProps.lexLE a b = true) ∧
      ∀ k l, (∀ i ∈ l, Nested i.inner) →
        (∃ before, calls k h = before ++ .reset :: l.flatMap Interval.calls) ∨ calls k h = l.flatMap Interval.calls →
        (k ∈ ks ↔ l ≠ []) := by
  obtain ⟨ks, p, e, hp⟩ := MergeSort.C13_sort StrProps.lexLE StrProps.lexLE_total
    (fun x y z => StrProps.lexLE_trans x y z) [] ((run init h).cumul.map (·.1))
  have hperm : ks.Perm ((run init h).cumul.map (·.1)) := by
    have h1 := MergeSort.sort_eq StrProps.lexLE [] ((run init h).cumul.map (·.1))
    rw [e] at h1
    injection h1 with h1
    rw [h1]
    exact MergeSort.msort_perm _ _
  refine ⟨ks, ?_, ?_, ?_, ?_⟩
  · simp only [benchPrintAll, collect]
    rw [e, Res.ok_bind]
  · exact hperm.nodup_iff.2 (nodup_run h (by simp [init]))
  · rw [List.pairwise_iff_getElem]
    intro i j hi hj hij
    exact hp.sorted i j _ _ hij (List.getElem?_eq_getElem hi) (List.getElem?_eq_getElem hj)
  · intro k l hl hk
    rw [hperm.mem_iff, mem_keys]
    have hv := view_run init k h
    have hc : look (run init h).cumul k = (view (run init h) k).cumul := rfl
    rw [hc, hv]
    rcases hk with ⟨before, hk⟩ | hk
    · rw [hk, List.foldl_append, List.foldl_cons, intervals_view l hl rfl]
      by_cases hn : l = []
      · simp [hn, vstep]
      · simp [hn]
    · rw [hk, intervals_view l hl rfl]
      by_cases hn : l = []
      · simp [hn, view, look, init]
      · simp [hn]

/-- A task with two outermost intervals, the first with an inner one, mixed with another task. -/
example : calls (b!"a") [(b!"a", .start 10), (b!"b", .start 11), (b!"a", .start 12), (b!"a", .cumul 15), (b!"a", .cumul 20),
      (b!"a", .start 30), (b!"b", .cumul 31), (b!"a", .cumul 33)] =
    [Interval.mk 10 [.start 12, .cumul 15] 20, ⟨30, [], 33⟩].flatMap Interval.calls := rfl

example : Nested [.start 12, .cumul 15] :=
  ⟨1, by decide, Balanced.cons (a := []) (b := []) .nil .nil⟩

example : (run init [(b!"a", .start 10), (b!"b", .start 11), (b!"a", .start 12), (b!"a", .cumul 15),
      (b!"a", .cumul 20), (b!"a", .start 30), (b!"b", .cumul 31), (b!"a", .cumul 33)]).cumul = [(b!"a", 13), (b!"b", 20)] := by
  decide +kernel

end Lolly.TimerProps
