import Verif.Containers.RelHashMap
import Verif.Containers.HashMapProps

/-!
# Properties C06 (relative hashmaps) and C07 (memoised functions)

A relative hashmap is specified by a stack of abstract maps (`HashMapProps.Spec`), innermost first;
`vis` is the binding visible through the stack.
-/

set_option linter.unusedSectionVars false

namespace Lolly.RelHashMapProps

open HashMapProps HashMap

variable {K V : Type} [DecidableEq K] [DecidableEq V] {hash : K → BitVec 32}

/-- Layer-wise `Built`: each layer is the result of some history of hashmap operations. -/
inductive Layers (hash : K → BitVec 32) : RelHashMap K V → List (Spec K V) → Prop
  | nil : Layers hash [] []
  | cons {h s H S} : Built hash h s → Layers hash H S → Layers hash (h :: H) (s :: S)

/-- The binding visible through a stack of layers: that of the innermost layer having one. -/
def vis : List (Spec K V) → K → Option V
  | [], _ => none
  | s :: S, x => (s.val x).or (vis S x)

/-- The default of the outermost layer. -/
def outerDflt (s : Spec K V) : List (Spec K V) → V
  | [] => s.dflt
  | s' :: S => outerDflt s' S

theorem layers_isEmpty {H : RelHashMap K V} {S : List (Spec K V)} (l : Layers hash H S) :
    H.isEmpty = S.isEmpty := by cases l <;> rfl

/-- C06, reads: `H[x]` is the value of the innermost layer that contains `x`, else the default of
the outermost layer. -/
theorem C06_get {H : RelHashMap K V} {s : Spec K V} {S : List (Spec K V)}
    (l : Layers hash H (s :: S)) (x : K) :
    RelHashMap.get hash H x = .ok ((vis (s :: S) x).getD (outerDflt s S)) := by
  induction S generalizing H s with
  | nil =>
    cases l with
    | cons b l' =>
      cases l'
      simp [RelHashMap.get, C01_contains b, C01_get b, vis, outerDflt, Spec.read]
  | cons s' S ih =>
    cases l with
    | @cons h _ H _ b l' =>
      have he := layers_isEmpty l'
      simp only [RelHashMap.get, C01_contains b, C01_get b, Res.ok_bind, he, List.isEmpty_cons,
        Bool.or_false, ih l']
      cases hx : s.val x <;> simp [vis, hx, outerDflt, Spec.read]

/-- C06, membership. -/
theorem C06_contains {H : RelHashMap K V} {s : Spec K V} {S : List (Spec K V)}
    (l : Layers hash H (s :: S)) (x : K) :
    RelHashMap.contains hash H x = .ok (vis (s :: S) x).isSome := by
  induction S generalizing H s with
  | nil =>
    cases l with
    | cons b l' =>
      cases l'
      cases hx : s.val x <;> simp [RelHashMap.contains, C01_contains b, vis, hx]
  | cons s' S ih =>
    cases l with
    | @cons h _ H _ b l' =>
      have he := layers_isEmpty l'
      simp only [RelHashMap.contains, C01_contains b, Res.ok_bind, he, List.isEmpty_cons, ih l']
      cases hx : s.val x <;> simp [vis, hx]

/-- Auxiliary: effect of `H(x)` on the layers. -/
theorem touch_layers {H : RelHashMap K V} {s : Spec K V} {S : List (Spec K V)}
    (l : Layers hash H (s :: S)) (x : K) :
    ∃ H' h', RelHashMap.touch hash H x = .ok H' ∧ H' = h' :: H.tail ∧
      Built hash h' (s.upd x (some ((vis (s :: S) x).getD s.dflt))) ∧
      Layers hash H.tail S := by
  cases l with
  | @cons h _ H _ b l' =>
    cases hx : s.val x with
    | some v =>
      obtain ⟨h', e', w', a', i', _⟩ := touch_spec (built_inv b).1 x
      have b' := Built.touch x b e'
      refine ⟨_, h', ?_, rfl, ?_, l'⟩
      · simp [RelHashMap.touch, C01_contains b, hx, e']
      · simpa [vis, hx, Spec.read] using b'
    | none =>
      cases l' with
      | nil =>
        obtain ⟨h', e', w', a', i', _⟩ := touch_spec (built_inv b).1 x
        have b' := Built.touch x b e'
        refine ⟨_, h', ?_, rfl, ?_, .nil⟩
        · simp [RelHashMap.touch, C01_contains b, hx, e']
        · simpa [vis, hx, Spec.read] using b'
      | @cons h2 s2 H2 S2 b2 l2 =>
        have lc := Layers.cons b2 l2
        cases hv : vis (s2 :: S2) x with
        | none =>
          obtain ⟨h', e', w', a', i', _⟩ := touch_spec (built_inv b).1 x
          have b' := Built.touch x b e'
          refine ⟨_, h', ?_, rfl, ?_, lc⟩
          · simp [RelHashMap.touch, C01_contains b, hx, C06_contains lc, hv, e']
          · rw [vis, hv, hx]; simpa [hx, Spec.read] using b'
        | some v =>
          obtain ⟨h1, e1, _⟩ := set_spec (built_inv b).1 x v
          have b1 := Built.set x v b e1
          obtain ⟨h', e', _⟩ := touch_spec (built_inv b1).1 x
          have b' := Built.touch x b1 e'
          refine ⟨_, h', ?_, rfl, ?_, lc⟩
          · simp [RelHashMap.touch, C01_contains b, hx, C06_contains lc, hv, e', e1, C06_get lc]
          · rw [vis, hv, hx]
            have : ((s.upd x (some v)).upd x (some ((s.upd x (some v)).read x))) =
                s.upd x (some v) := by
              simp only [Spec.upd, Spec.read, if_true, Option.getD_some]
              congr 1; funext y; by_cases hy : y = x <;> simp [hy]
            rw [this] at b'; simpa using b'

/-- C06, writes: `H(x)=v` changes the innermost layer only, and there only the binding of `x`. -/
theorem C06_set {H : RelHashMap K V} {s : Spec K V} {S : List (Spec K V)}
    (l : Layers hash H (s :: S)) (x : K) (v : V) :
    ∃ H', RelHashMap.set hash H x v = .ok H' ∧ H'.tail = H.tail ∧
      Layers hash H' (s.upd x (some v) :: S) := by
  obtain ⟨H1, h1, e1, rfl, b1, l1⟩ := touch_layers l x
  obtain ⟨h2, e2, w2, a2, i2, m2⟩ := assign_spec (built_inv b1).1 x v
  obtain ⟨h3, e3, w3, a3, i3, m3⟩ := set_spec (built_inv b1).1 x v
  have b3 := Built.set x v b1 e3
  have e4 : h2 = h3 := by
    have ht : h1.touch hash x = .ok h1 := by
      have hb := (built_inv b1)
      obtain ⟨l, r1, r2⟩ := hb.1.findB x
      simp only [touch, r1, Res.ok_bind, r2, hb.2.1, Spec.upd, if_true]
    rw [HashMap.set, ht, Res.ok_bind, e2] at e3
    exact Res.ok.inj e3
  subst e4
  refine ⟨h2 :: H.tail, by simp [RelHashMap.set, e1, e2], rfl, .cons ?_ l1⟩
  have : (s.upd x (some ((vis (s :: S) x).getD s.dflt))).upd x (some v) = s.upd x (some v) := by
    simp only [Spec.upd]; congr 1; funext y; by_cases hy : y = x <;> simp [hy]
  rw [this] at b3; exact b3

/-- C06: what a write makes visible. -/
theorem C06_set_visible {H : RelHashMap K V} {s : Spec K V} {S : List (Spec K V)}
    (l : Layers hash H (s :: S)) (x : K) (v : V) :
    ∃ H', RelHashMap.set hash H x v = .ok H' ∧ RelHashMap.get hash H' x = .ok v ∧
      RelHashMap.contains hash H' x = .ok true ∧
      ∀ y, y ≠ x → RelHashMap.get hash H' y = RelHashMap.get hash H y ∧
        RelHashMap.contains hash H' y = RelHashMap.contains hash H y := by
  obtain ⟨H', e, _, l'⟩ := C06_set l x v
  refine ⟨H', e, ?_, ?_, fun y hy => ?_⟩
  · rw [C06_get l']; simp [vis, Spec.upd]
  · rw [C06_contains l']; simp [vis, Spec.upd]
  · have hd : outerDflt (s.upd x (some v)) S = outerDflt s S := by cases S <;> rfl
    rw [C06_get l', C06_get l, C06_contains l', C06_contains l, hd]
    simp [vis, Spec.upd, hy]

/-- C06: `extend` makes no visible difference. -/
theorem C06_extend {H : RelHashMap K V} {s : Spec K V} {S : List (Spec K V)}
    (l : Layers hash H (s :: S)) :
    ∃ H', RelHashMap.extend H = .ok H' ∧ H'.tail = H ∧
      Layers hash H' (⟨s.dflt, fun _ => none⟩ :: s :: S) ∧
      ∀ x, RelHashMap.get hash H' x = RelHashMap.get hash H x ∧
        RelHashMap.contains hash H' x = RelHashMap.contains hash H x := by
  cases l with
  | @cons h _ H _ b l' =>
    have l := Layers.cons b l'
    have hi := (built_inv b).2.2
    have l2 : Layers hash (HashMap.new h.init :: h :: H) (⟨s.dflt, fun _ => none⟩ :: s :: S) := by
      rw [hi]; exact .cons (.new s.dflt 1 1 (Nat.le_refl 1)) l
    refine ⟨_, rfl, rfl, l2, fun x => ?_⟩
    rw [C06_get l2, C06_get l, C06_contains l2, C06_contains l]
    simp [vis, outerDflt]

/-- C06, errors: a single layer can be neither shortened nor merged. -/
theorem C06_single_throws (h : HashMap K V) :
    RelHashMap.shorten [h] = .thrown ∧ RelHashMap.merge hash [h] = .thrown := ⟨rfl, rfl⟩

theorem joinEntries_built {h g : HashMap K V} {s t : Spec K V} (bh : Built hash h s)
    (bg : Built hash g t) : ∃ h', h.joinEntries hash g.a.flatten = .ok h' ∧
      Built hash h' { s with val := fun x => (t.val x).or (s.val x) } := by
  obtain ⟨h', e, _⟩ := join_spec (built_inv bh).1 (built_inv bg).1
  exact ⟨h', e, Built.join bh bg e⟩

/-- C06, `change`: the entries of `CH` override those of the innermost layer; other layers are
untouched. -/
theorem C06_change {H : RelHashMap K V} {s t : Spec K V} {S : List (Spec K V)} {CH : HashMap K V}
    (l : Layers hash H (s :: S)) (bc : Built hash CH t) :
    ∃ H', RelHashMap.change hash H CH = .ok H' ∧ H'.tail = H.tail ∧
      Layers hash H' ({ s with val := fun x => (t.val x).or (s.val x) } :: S) := by
  cases l with
  | @cons h _ H _ b l' =>
    obtain ⟨h', e, b'⟩ := joinEntries_built b bc
    exact ⟨h' :: H, by simp [RelHashMap.change, e], rfl, .cons b' l'⟩

/-- C06, `merge`: with at least two layers, merging removes one layer and makes no visible
difference; the layers below the second are untouched. -/
theorem C06_merge {H : RelHashMap K V} {s s' : Spec K V} {S : List (Spec K V)}
    (l : Layers hash H (s :: s' :: S)) :
    ∃ H', RelHashMap.merge hash H = .ok H' ∧ H'.length + 1 = H.length ∧
      H'.tail = H.tail.tail ∧
      Layers hash H' ({ s' with val := fun x => (s.val x).or (s'.val x) } :: S) ∧
      ∀ x, RelHashMap.get hash H' x = RelHashMap.get hash H x ∧
        RelHashMap.contains hash H' x = RelHashMap.contains hash H x := by
  cases l with
  | @cons h _ H _ b l' =>
    cases l' with
    | @cons h' _ H _ b' l'' =>
      have l := Layers.cons b (Layers.cons b' l'')
      obtain ⟨h2, e, b2⟩ := joinEntries_built b' b
      have l2 := Layers.cons b2 l''
      refine ⟨h2 :: H, by simp [RelHashMap.merge, RelHashMap.change, RelHashMap.shorten, e],
        by simp, rfl, l2, fun x => ?_⟩
      have hd : outerDflt { s' with val := fun x => (s.val x).or (s'.val x) } S =
          outerDflt s' S := by cases S <;> rfl
      rw [C06_get l2, C06_get l, C06_contains l2, C06_contains l, hd]
      simp [vis, outerDflt, Option.or_assoc]

/-- Commands of a client on one relative hashmap. -/
inductive Cmd (K V : Type)
  | set (x : K) (v : V)
  | extend
  | shorten
  | merge

def run (hash : K → BitVec 32) : RelHashMap K V → List (Cmd K V) → Res (RelHashMap K V)
  | H, [] => .ok H
  | H, .set x v :: cs => do run hash (← RelHashMap.set hash H x v) cs
  | H, .extend :: cs => do run hash (← RelHashMap.extend H) cs
  | H, .shorten :: cs => do run hash (← RelHashMap.shorten H) cs
  | H, .merge :: cs => do run hash (← RelHashMap.merge hash H) cs

/-- Nesting depth after a history started at depth `d`; `none` if it ever closes a level that was
open before, i.e. when at depth 1. -/
def depth : Nat → List (Cmd K V) → Option Nat
  | d, [] => some d
  | d, .set _ _ :: cs => depth d cs
  | d, .extend :: cs => depth (d + 1) cs
  | d, .shorten :: cs => if d ≤ 1 then none else depth (d - 1) cs
  | d, .merge :: cs => if d ≤ 1 then none else depth (d - 1) cs

theorem run_frame (cs : List (Cmd K V)) (base : RelHashMap K V) (SB : List (Spec K V))
    (d d' : Nat) (hd : 1 ≤ d) (hdep : depth d cs = some d')
    (L : RelHashMap K V) (SL : List (Spec K V)) (ll : Layers hash (L ++ base) (SL ++ SB))
    (hL : L.length = d) (hSL : SL.length = d) :
    ∃ L' SL', run hash (L ++ base) cs = .ok (L' ++ base) ∧ L'.length = d' ∧ SL'.length = d' ∧
      1 ≤ d' ∧ Layers hash (L' ++ base) (SL' ++ SB) := by
  induction cs generalizing d L SL with
  | nil =>
    simp only [depth, Option.some.injEq] at hdep; subst hdep
    exact ⟨L, SL, rfl, hL, hSL, hd, ll⟩
  | cons c cs ih =>
    obtain ⟨s, SL', rfl⟩ : ∃ s SL', SL = s :: SL' := by
      cases SL with
      | nil => simp at hSL; omega
      | cons s SL' => exact ⟨s, SL', rfl⟩
    obtain ⟨h, L', rfl⟩ : ∃ h L', L = h :: L' := by
      cases L with
      | nil => simp at hL; omega
      | cons s SL' => exact ⟨s, SL', rfl⟩
    cases c with
    | set x v =>
      obtain ⟨H', e, ht, l'⟩ := C06_set ll x v
      have hH' : ∃ h', H' = (h' :: L') ++ base := by
        cases l' with
        | @cons h' _ T _ _ _ => exact ⟨h', by simp at ht; simp [ht]⟩
      obtain ⟨h', rfl⟩ := hH'
      obtain ⟨L2, SL2, r⟩ := ih d hd hdep (h' :: L') (_ :: SL') l' (by simpa using hL)
        (by simpa using hSL)
      refine ⟨L2, SL2, ?_, r.2⟩
      rw [run, e]; exact r.1
    | extend =>
      obtain ⟨H', e, ht, l', _⟩ := C06_extend ll
      have hH' : ∃ h', H' = (h' :: h :: L') ++ base := by
        cases l' with
        | @cons h' _ T _ _ _ => exact ⟨h', by simp at ht; simp [ht]⟩
      obtain ⟨h', rfl⟩ := hH'
      obtain ⟨L2, SL2, r⟩ := ih (d + 1) (by omega) hdep (h' :: h :: L') (_ :: s :: SL') l'
        (by simpa using hL) (by simpa using hSL)
      refine ⟨L2, SL2, ?_, r.2⟩
      rw [run, e]; exact r.1
    | shorten =>
      simp only [depth] at hdep
      split at hdep
      · simp at hdep
      · rename_i hd1
        have hl' : Layers hash (L' ++ base) (SL' ++ SB) := by cases ll; assumption
        obtain ⟨h2, L'', rfl⟩ : ∃ h L'', L' = h :: L'' := by
          cases L' with
          | nil => simp at hL; omega
          | cons s SL' => exact ⟨s, SL', rfl⟩
        obtain ⟨L2, SL2, r⟩ := ih (d - 1) (by omega) hdep (h2 :: L'') SL' hl'
          (by simp at hL ⊢; omega) (by simp at hSL; omega)
        refine ⟨L2, SL2, ?_, r.2⟩
        simp only [run, List.cons_append, RelHashMap.shorten, Res.ok_bind]; exact r.1
    | merge =>
      simp only [depth] at hdep
      split at hdep
      · simp at hdep
      · rename_i hd1
        obtain ⟨s2, SL2, rfl⟩ : ∃ s SL2, SL' = s :: SL2 := by
          cases SL' with
          | nil => simp at hSL; omega
          | cons s SL' => exact ⟨s, SL', rfl⟩
        obtain ⟨h2, L'', rfl⟩ : ∃ h L'', L' = h :: L'' := by
          cases L' with
          | nil => simp at hL; omega
          | cons s SL' => exact ⟨s, SL', rfl⟩
        obtain ⟨H', e, _, ht, l', _⟩ := C06_merge ll
        have hH' : ∃ h', H' = (h' :: L'') ++ base := by
          cases l' with
          | @cons h' _ T _ _ _ => exact ⟨h', by simp at ht; simp [ht]⟩
        obtain ⟨h', rfl⟩ := hH'
        obtain ⟨L2, SL2, r⟩ := ih (d - 1) (by omega) hdep (h' :: L'') (_ :: SL2) l'
          (by simp at hL ⊢; omega) (by simp at hSL ⊢; omega)
        refine ⟨L2, SL2, ?_, r.2⟩
        rw [run, e]; exact r.1

/-- C06, discard: after `extend`, any history of writes and properly nested levels (`extend`,
`shorten`, `merge`) runs without error, and `shorten` then restores the relative hashmap exactly as
it was before `extend`. -/
theorem C06_discard {H : RelHashMap K V} {s : Spec K V} {S : List (Spec K V)}
    (l : Layers hash H (s :: S)) (cs : List (Cmd K V)) (hcs : depth 1 cs = some 1) :
    ∃ H', run hash H (.extend :: cs) = .ok H' ∧ RelHashMap.shorten H' = .ok H := by
  obtain ⟨H1, e1, ht, l1, _⟩ := C06_extend l
  obtain ⟨h1, rfl⟩ : ∃ h1, H1 = h1 :: H := by
    cases l1 with
    | @cons h' _ T _ _ _ => exact ⟨h', by simp at ht; simp [ht]⟩
  obtain ⟨L', SL', r, hl, _⟩ := run_frame cs H (s :: S) 1 1 (Nat.le_refl 1) hcs [h1] [_] l1 rfl rfl
  obtain ⟨h2, rfl⟩ := List.length_eq_one_iff.1 hl
  refine ⟨h2 :: H, by simp only [run, e1, Res.ok_bind]; exact r, ?_⟩
  cases l; rfl

/-- C06, confirm: after `extend` and any such history, `merge` makes no visible difference. -/
theorem C06_confirm {H : RelHashMap K V} {s : Spec K V} {S : List (Spec K V)}
    (l : Layers hash H (s :: S)) (cs : List (Cmd K V)) (hcs : depth 1 cs = some 1) :
    ∃ H' H'', run hash H (.extend :: cs) = .ok H' ∧ RelHashMap.merge hash H' = .ok H'' ∧
      H''.length = H.length ∧
      ∀ x, RelHashMap.get hash H'' x = RelHashMap.get hash H' x ∧
        RelHashMap.contains hash H'' x = RelHashMap.contains hash H' x := by
  obtain ⟨H1, e1, ht, l1, _⟩ := C06_extend l
  obtain ⟨h1, rfl⟩ : ∃ h1, H1 = h1 :: H := by
    cases l1 with
    | @cons h' _ T _ _ _ => exact ⟨h', by simp at ht; simp [ht]⟩
  obtain ⟨L', SL', r, hl, hsl, _, ll⟩ :=
    run_frame cs H (s :: S) 1 1 (Nat.le_refl 1) hcs [h1] [_] l1 rfl rfl
  obtain ⟨h2, rfl⟩ := List.length_eq_one_iff.1 hl
  obtain ⟨s2, rfl⟩ := List.length_eq_one_iff.1 hsl
  obtain ⟨H'', e2, hlen, _, _, hv⟩ := C06_merge ll
  refine ⟨_, H'', by simp only [run, e1, Res.ok_bind]; exact r, e2, ?_, hv⟩
  simp only [List.length_append, List.length_cons, List.length_nil] at hlen; omega

/-- Non-vacuity: a nested history. -/
example : depth 1 ([.set 1 2, .extend, .set 3 4, .merge, .extend, .set 1 9, .shorten] :
    List (Cmd Nat Nat)) = some 1 ∧
    Layers (fun x => BitVec.ofNat 32 x) [HashMap.new (K := Nat) 0] [⟨0, fun _ => none⟩] :=
  ⟨rfl, .cons (.new 0 1 1 (Nat.le_refl 1)) .nil⟩

/-! ### find_changes and find_differences -/

theorem agreeing_spec {H : RelHashMap K V} {s : Spec K V} {S : List (Spec K V)}
    (l : Layers hash H (s :: S)) (es acc : List (Entry K V)) :
    RelHashMap.agreeing hash H es acc = .ok ((es.filter fun e =>
      decide ((vis (s :: S) e.key).getD (outerDflt s S) = e.im)).reverse ++ acc) := by
  induction es generalizing acc with
  | nil => simp [RelHashMap.agreeing]
  | cons e es ih =>
    simp only [RelHashMap.agreeing, C06_get l, Res.ok_bind, ih]
    by_cases h : (vis (s :: S) e.key).getD (outerDflt s S) = e.im <;> simp [h]

theorem removeAll_spec (es : List (Entry K V)) {CH : HashMap K V} {t : Spec K V}
    (b : Built hash CH t) : ∃ CH', RelHashMap.removeAll hash es CH = .ok CH' ∧
      Built hash CH' { t with val := fun x => if x ∈ es.map (·.key) then none else t.val x } := by
  induction es generalizing CH t with
  | nil => exact ⟨CH, rfl, by simpa using b⟩
  | cons e es ih =>
    obtain ⟨c, e1, _⟩ := reset_spec (built_inv b).1 e.key
    obtain ⟨c', e2, b2⟩ := ih (Built.reset e.key b e1)
    refine ⟨c', by simp [RelHashMap.removeAll, e1, e2], ?_⟩
    have : (fun x => if x ∈ es.map (·.key) then none else (t.upd e.key none).val x) =
        (fun x => if x ∈ (e :: es).map (·.key) then none else t.val x) := by
      funext x
      by_cases h1 : x ∈ es.map (·.key)
      · simp only [List.map_cons, List.mem_cons, h1, or_true, if_true]
      · by_cases h2 : x = e.key <;> simp [h1, h2, Spec.upd]
    rw [this] at b2; exact b2

theorem findChanges_spec {H : RelHashMap K V} {s t : Spec K V} {S : List (Spec K V)}
    {CH : HashMap K V} (l : Layers hash H (s :: S)) (b : Built hash CH t) :
    ∃ CH', RelHashMap.findChanges hash H CH = .ok CH' ∧
      Built hash CH' ⟨t.dflt, fun x =>
        (t.val x).filter fun v => decide ((vis (s :: S) x).getD (outerDflt s S) ≠ v)⟩ := by
  obtain ⟨w, a, i⟩ := built_inv b
  obtain ⟨c, e, bc⟩ := removeAll_spec ((CH.a.flatten.filter fun e =>
      decide ((vis (s :: S) e.key).getD (outerDflt s S) = e.im)).reverse ++ []) b
  refine ⟨c, ?_, ?_⟩
  · cases l with
    | cons b1 l1 =>
      simp only [RelHashMap.findChanges, agreeing_spec (.cons b1 l1), Res.ok_bind]
      exact e
  · refine cast ?_ bc
    congr 2
    funext x
    rw [← a]
    cases hx : CH.abs x with
    | none => simp
    | some v =>
      have hm : x ∈ (((CH.a.flatten.filter fun (e : Entry K V) =>
          decide ((vis (s :: S) e.key).getD (outerDflt s S) = e.im)).reverse ++ []).map
          (fun (e : Entry K V) => e.key)) ↔
          (vis (s :: S) x).getD (outerDflt s S) = v := by
        rw [List.append_nil]
        simp only [List.mem_map, List.mem_reverse, List.mem_filter, decide_eq_true_iff]
        constructor
        · rintro ⟨e, ⟨he, h1⟩, rfl⟩
          have : CH.abs e.key = some e.im := (look_eq_some w.nodup).2 ⟨e, he, rfl, rfl⟩
          rw [hx] at this; rw [h1]; exact (Option.some.inj this).symm
        · intro hv
          obtain ⟨e, he, hk, hi⟩ := (look_eq_some w.nodup).1 hx
          exact ⟨e, ⟨he, by rw [hk, hi]; exact hv⟩, hk⟩
      by_cases hv : (vis (s :: S) x).getD (outerDflt s S) = v
      · simp only [hm, hv, if_true, Option.filter]; simp
      · simp only [hm, hv, if_false, Option.filter]; simp [hv]

/-- C06, `find_changes (CH)`: `CH` keeps exactly its entries that differ from the visible value,
with their values. -/
theorem C06_find_changes {H : RelHashMap K V} {s t : Spec K V} {S : List (Spec K V)}
    {CH : HashMap K V} (l : Layers hash H (s :: S)) (b : Built hash CH t) :
    ∃ CH', RelHashMap.findChanges hash H CH = .ok CH' ∧ ∀ x,
      (CH'.contains hash x = .ok true ↔
        CH.contains hash x = .ok true ∧ CH.get hash x ≠ RelHashMap.get hash H x) ∧
      (CH'.contains hash x = .ok true → CH'.get hash x = CH.get hash x) := by
  obtain ⟨c, e, bc⟩ := findChanges_spec l b
  refine ⟨c, e, fun x => ?_⟩
  rw [C01_contains bc, C01_contains b, C01_get bc, C01_get b, C06_get l]
  cases hx : t.val x with
  | none => simp [hx]
  | some v =>
    by_cases hv : (vis (s :: S) x).getD (outerDflt s S) = v
    · simp [hx, hv, Spec.read, Option.filter]
    · have hv' : ¬ v = (vis (s :: S) x).getD (outerDflt s S) := fun e => hv e.symm
      simp [hx, hv, hv', Spec.read, Option.filter]

theorem missing_spec {CH : HashMap K V} {t : Spec K V} (b : Built hash CH t)
    (es acc : List (Entry K V)) : RelHashMap.missing hash CH es acc =
      .ok ((es.filter fun e => (t.val e.key).isNone).reverse ++ acc) := by
  induction es generalizing acc with
  | nil => simp [RelHashMap.missing]
  | cons e es ih =>
    simp only [RelHashMap.missing, C01_contains b, Res.ok_bind, ih]
    cases ht : t.val e.key <;> simp [ht]

theorem addAll_spec {H : RelHashMap K V} {s : Spec K V} {S : List (Spec K V)}
    (l : Layers hash H (s :: S)) (es : List (Entry K V)) {CH : HashMap K V} {t : Spec K V}
    (b : Built hash CH t) : ∃ CH', RelHashMap.addAll hash H es CH = .ok CH' ∧
      Built hash CH' ⟨t.dflt, fun x => if x ∈ es.map (·.key) then
        some ((vis (s :: S) x).getD (outerDflt s S)) else t.val x⟩ := by
  induction es generalizing CH t with
  | nil => exact ⟨CH, rfl, by simpa using b⟩
  | cons e es ih =>
    obtain ⟨c, e1, _⟩ := set_spec (built_inv b).1 e.key ((vis (s :: S) e.key).getD (outerDflt s S))
    obtain ⟨c', e2, b2⟩ := ih (Built.set e.key _ b e1)
    refine ⟨c', by simp [RelHashMap.addAll, C06_get l, e1, e2], ?_⟩
    refine cast ?_ b2
    congr 2
    funext x
    by_cases h1 : x ∈ es.map (·.key)
    · simp only [List.map_cons, List.mem_cons, h1, or_true, if_true]
    · by_cases h2 : x = e.key <;> simp [h1, h2, Spec.upd]

/-- C06, `find_differences (CH)` with at least two layers: for keys of the innermost layer that
`CH` does not mention, the value below that layer is added; then the entries that agree with the
visible values are dropped. So afterwards `CH` maps exactly the keys of the old `CH` or of the
innermost layer whose old `CH` value, or else value below, differs from the visible one. -/
theorem C06_find_differences {h : HashMap K V} {H : RelHashMap K V} {s s' t : Spec K V}
    {S : List (Spec K V)} {CH : HashMap K V} (bh : Built hash h s) (l : Layers hash H (s' :: S))
    (b : Built hash CH t) :
    ∃ CH', RelHashMap.findDifferences hash (h :: H) CH = .ok CH' ∧ ∀ x v,
      (CH'.contains hash x = .ok true ∧ CH'.get hash x = .ok v) ↔
      (RelHashMap.get hash (h :: H) x ≠ .ok v ∧
        ((CH.contains hash x = .ok true ∧ CH.get hash x = .ok v) ∨
         (CH.contains hash x = .ok false ∧ h.contains hash x = .ok true ∧
          RelHashMap.get hash H x = .ok v))) := by
  have ll := Layers.cons bh l
  obtain ⟨c1, e1, b1⟩ := addAll_spec l ((h.a.flatten.filter fun e =>
    (t.val e.key).isNone).reverse ++ []) b
  obtain ⟨c2, e2, b2⟩ := findChanges_spec ll b1
  have hd : outerDflt s (s' :: S) = outerDflt s' S := rfl
  refine ⟨c2, by simp [RelHashMap.findDifferences, missing_spec b] at e1 ⊢; simp [e1, e2], ?_⟩
  intro x v
  have hm : x ∈ (((h.a.flatten.filter fun (e : Entry K V) => (t.val e.key).isNone).reverse ++ []).map
      (fun (e : Entry K V) => e.key)) ↔
      (s.val x).isSome = true ∧ t.val x = none := by
    rw [List.append_nil, List.map_reverse, List.mem_reverse]
    have he : x ∈ h.a.flatten.map (·.key) ↔ (s.val x).isSome = true := (wf_enum bh).2 x
    rw [← he]
    simp only [List.mem_map, List.mem_filter, Option.isNone_iff_eq_none]
    constructor
    · rintro ⟨e, ⟨h1, h2⟩, rfl⟩; exact ⟨⟨e, h1, rfl⟩, h2⟩
    · rintro ⟨⟨e, h1, rfl⟩, h2⟩; exact ⟨e, ⟨h1, h2⟩, rfl⟩
  rw [C01_contains b2, C01_get b2, C06_get ll, C06_get l, C01_contains b, C01_get b,
    C01_contains bh]
  dsimp only [Spec.read]
  rw [hd]
  cases ht : t.val x with
  | some w =>
    have hm' : ¬ x ∈ (((h.a.flatten.filter fun (e : Entry K V) => (t.val e.key).isNone).reverse ++ []).map
        (fun (e : Entry K V) => e.key)) := by rw [hm, ht]; simp
    simp only [hm', if_false]
    by_cases hv : (vis (s :: s' :: S) x).getD (outerDflt s' S) = w
    · simp only [hv, Option.filter]; simp
    · simp only [Option.filter, ne_eq, hv]; simp
      rintro rfl; exact hv
  | none =>
    cases hs : s.val x with
    | none =>
      have hm' : ¬ x ∈ (((h.a.flatten.filter fun (e : Entry K V) => (t.val e.key).isNone).reverse ++ []).map
        (fun (e : Entry K V) => e.key)) := by rw [hm, hs]; simp
      simp only [hm', if_false]; simp
    | some z =>
      have hm' : x ∈ (((h.a.flatten.filter fun (e : Entry K V) => (t.val e.key).isNone).reverse ++ []).map
        (fun (e : Entry K V) => e.key)) := by rw [hm, hs, ht]; simp
      simp only [hm', if_true, Option.filter]
      by_cases hv : (vis (s :: s' :: S) x).getD (outerDflt s' S) =
          (vis (s' :: S) x).getD (outerDflt s' S)
      · simp only [hv]; simp
      · simp only [ne_eq, hv]; simp
        rintro rfl; exact hv

/-! ## C07 -/

theorem hashfunc_inv (f : K → V) (xs : List K) {r : HashMap K V} {s : Spec K V}
    (b : Built hash r s) (hs : ∀ x v, s.val x = some v → v = f x) :
    ∃ cs, hashfuncRun hash f r xs = .ok (xs.map f, cs) ∧ cs.Nodup ∧
      ∀ x ∈ cs, s.val x = none ∧ x ∈ xs := by
  induction xs generalizing r s with
  | nil => exact ⟨[], rfl, by simp, by simp⟩
  | cons x xs ih =>
    cases hx : s.val x with
    | some v =>
      obtain ⟨cs, e, hn, hc⟩ := ih b hs
      refine ⟨cs, ?_, hn, fun y hy => ⟨(hc y hy).1, List.mem_cons_of_mem _ (hc y hy).2⟩⟩
      have := hs x v hx
      simp [hashfuncRun, hashfuncApply, C01_contains b, C01_get b, hx, Spec.read, e, this]
    | none =>
      obtain ⟨r', e', _⟩ := set_spec (built_inv b).1 x (f x)
      obtain ⟨cs, e, hn, hc⟩ := ih (Built.set x (f x) b e') (by
        intro y v hy
        simp only [Spec.upd] at hy
        by_cases h : y = x
        · simp [h] at hy; rw [h]; exact hy.symm
        · simp [h] at hy; exact hs y v hy)
      have hnx : x ∉ cs := by
        intro h; have := (hc x h).1; simp [Spec.upd] at this
      refine ⟨x :: cs, ?_, List.nodup_cons.2 ⟨hnx, hn⟩, ?_⟩
      · simp [hashfuncRun, hashfuncApply, C01_contains b, hx, e', e]
      · intro y hy
        rcases List.mem_cons.1 hy with rfl | hy'
        · exact ⟨hx, List.mem_cons_self⟩
        · have := hc y hy'
          refine ⟨?_, List.mem_cons_of_mem _ this.2⟩
          have h1 := this.1
          have hne : y ≠ x := by rintro rfl; exact hnx hy'
          simpa [Spec.upd, hne] using h1

/-- C07: for every function, default value and sequence of queries on a fresh `hashfunc`, every
query returns `f x`, and the function is called at most once per argument, only on queried
arguments. -/
theorem C07_memo (f : K → V) (init : V) (xs : List K) :
    ∃ calls, hashfuncRun hash f (HashMap.new init) xs = .ok (xs.map f, calls) ∧ calls.Nodup ∧
      ∀ x ∈ calls, x ∈ xs := by
  obtain ⟨cs, e, hn, hc⟩ := hashfunc_inv (hash := hash) f xs (.new init 1 1 (Nat.le_refl 1))
    (by simp)
  exact ⟨cs, e, hn, fun x hx => (hc x hx).2⟩

/-- Non-vacuity: repeated queries of a function whose result is the default. -/
example : hashfuncRun (fun x => BitVec.ofNat 32 x) (fun x => x % 2) (HashMap.new 0) [4, 5, 4, 5, 4] =
    .ok ([0, 1, 0, 1, 0], [4, 5]) := rfl

end Lolly.RelHashMapProps
