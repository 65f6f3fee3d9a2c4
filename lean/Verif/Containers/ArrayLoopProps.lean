import Verif.Containers.ArrayLoop
import Verif.Containers.ArrayProps

set_option autoImplicit false

/-!
# Property C145: references to elements of arrays, and loops over arrays
-/

namespace Lolly.ArrayLoopProps

open Arr ArrayProps ArrayLoop

variable {T : Type} {dv : T}

/-! ## What is done, on sequences -/

/-- The length afterwards. -/
def len : Nat → Op T → Nat
  | n, .write _ _ => n
  | n, .push _ => n + 1
  | _, .resize m => m

/-- Only elements that exist are written. -/
def Legal : Nat → List (Op T) → Prop
  | _, [] => True
  | n, o :: os => (∀ i x, o = .write i x → i < n) ∧ Legal (len n o) os

/-- All lengths on the way have a property. -/
def Lens (P : Nat → Prop) : Nat → List (Op T) → Prop
  | n, [] => P n
  | n, o :: os => P n ∧ Lens P (len n o) os

/-- The effect on the sequence; elements that `resize` adds can have any value. -/
inductive Eff : List T → Op T → List T → Prop
  | write l i x : i < l.length → Eff l (.write i x) (l.set i x)
  | push l x : Eff l (.push x) (l ++ [x])
  | resize l m l' : l'.length = m → l'.take (min l.length m) = l.take (min l.length m) → Eff l (.resize m) l'

inductive Effs : List T → List (Op T) → List T → Prop
  | nil l : Effs l [] l
  | cons {l o l' os l''} : Eff l o l' → Effs l' os l'' → Effs l (o :: os) l''

/-- Rounds of a loop from index `i` on: round `i` sees the element that the array has then at index `i`, if it has one
there, and then its body is done. -/
inductive Visits : Nat → List T → List (List (Op T)) → List T → List T → Prop
  | nil i l : Visits i l [] [] l
  | cons {i l os l' bodies x xs l''} : (∀ y, l[i]? = some y → x = y) → Effs l os l' →
      Visits (i + 1) l' bodies xs l'' → Visits i l (os :: bodies) (x :: xs) l''

/-! ## Lemmas -/

theorem capacity_unique {n c : Nat} (h : IsCapacity n c) : c = roundLength n := by
  have h2 := roundLength_isCapacity n
  rcases h with ⟨h, rfl⟩ | ⟨h, ⟨k, hk⟩, h3, h4, h5⟩
  · rcases h2 with ⟨_, e⟩ | ⟨_, _⟩
    · exact e.symm
    · omega
  · rcases h2 with ⟨_, _⟩ | ⟨_, ⟨k', hk'⟩, h3', h4', h5'⟩
    · omega
    · have a1 := h5 k' (by omega) (by omega)
      have a2 := h5' k (by omega) (by omega)
      omega

theorem resize_gen {a a' : Arr T} {m : Nat} (e : a.resize dv m = .ok a') : a.gen ≤ a'.gen := by
  unfold Arr.resize at e
  simp only at e
  split at e
  · split at e
    · split at e
      · split at e
        · cases e; simp
        · cases e
      · cases e; simp
    · cases e; simp
  · cases e; simp

theorem step_spec {a : Arr T} (w : a.WF) (o : Op T) (v : ∀ i x, o = .write i x → i < a.n) :
    ∃ a', step dv a o = .ok a' ∧ a'.WF ∧ a'.n = len a.n o ∧ Eff a.toList o a'.toList ∧ a.gen ≤ a'.gen ∧
      (a'.gen = a.gen ↔ roundLength a'.n = roundLength a.n) := by
  cases o with
  | write i x =>
    obtain ⟨a', e, w', n', g, t⟩ := put_spec w (v i x rfl) x
    refine ⟨a', e, w', n', ?_, by omega, by simp [g, n']⟩
    rw [t]
    exact .write _ _ _ (by rw [w.length]; exact v i x rfl)
  | push x =>
    obtain ⟨a1, e1, w1, n1, t1, g1⟩ := resize_spec w dv (a.n + 1)
    obtain ⟨a2, e2, w2, n2, g2, t2⟩ := put_spec w1 (i := a1.n - 1) (by omega) x
    obtain ⟨a', e, w', n', t'⟩ := push_spec w dv x
    have : a.push dv x = .ok a2 := by simp [Arr.push, e1, e2]
    rw [this] at e
    cases e
    refine ⟨a2, this, w', n', by rw [t']; exact .push _ _, ?_, ?_⟩
    · have := resize_gen e1; omega
    · rw [g2, g1, n']
  | resize m =>
    obtain ⟨a', e, w', n', t', g'⟩ := resize_spec w dv m
    refine ⟨a', e, w', n', .resize _ _ _ (by rw [w'.length, n']) (by rw [w.length]; exact t'), resize_gen e, ?_⟩
    rw [g', n']

theorem run_spec : ∀ (os : List (Op T)) {a : Arr T}, a.WF → Legal a.n os →
    ∃ a', run dv a os = .ok a' ∧ a'.WF ∧ Effs a.toList os a'.toList ∧ a.gen ≤ a'.gen ∧
      (a'.gen = a.gen ↔ Lens (fun m => roundLength m = roundLength a.n) a.n os)
  | [], a, w, _ => ⟨a, rfl, w, .nil _, Nat.le_refl _, by simp [Lens]⟩
  | o :: os, a, w, v => by
    obtain ⟨a1, e1, w1, n1, f1, g1, c1⟩ := step_spec (dv := dv) w o v.1
    obtain ⟨a2, e2, w2, f2, g2, c2⟩ := run_spec os w1 (by rw [n1]; exact v.2)
    refine ⟨a2, by simp [run, e1, e2], w2, .cons f1 f2, by omega, ?_⟩
    have l0 : ∀ P : Nat → Prop, Lens P (len a.n o) os → P (len a.n o) := by
      intro P h
      cases os with
      | nil => exact h
      | cons => exact h.1
    constructor
    · intro h
      have h1 : a1.gen = a.gen := by omega
      refine ⟨rfl, ?_⟩
      have := c2.1 (by omega)
      rw [c1.1 h1, n1] at this
      exact this
    · rintro ⟨_, h⟩
      have h1 := l0 _ h
      rw [← n1] at h1
      have h2 := c1.2 h1
      rw [c2.2 (by rw [h1, n1]; exact h), h2]

theorem lens_append (P : Nat → Prop) : ∀ (os os' : List (Op T)) (n : Nat), Lens P n (os ++ os') →
    Lens P n os
  | [], os', n, h => by
    cases os' with
    | nil => exact h
    | cons => exact h.1
  | _ :: os, os', _, h => ⟨h.1, lens_append P os os' _ h.2⟩

theorem lens_append_right (P : Nat → Prop) : ∀ (os os' : List (Op T)) (n : Nat), Lens P n (os ++ os') →
    Lens P (os.foldl len n) os'
  | [], _, _, h => h
  | _ :: os, os', _, h => lens_append_right P os os' _ h.2

theorem legal_append : ∀ (os os' : List (Op T)) (n : Nat), Legal n (os ++ os') →
    Legal n os ∧ Legal (os.foldl len n) os'
  | [], _, _, h => ⟨trivial, h⟩
  | _ :: os, os', _, h => ⟨⟨h.1, (legal_append os os' _ h.2).1⟩, (legal_append os os' _ h.2).2⟩

theorem run_n : ∀ (os : List (Op T)) {a a' : Arr T}, a.WF → Legal a.n os → run dv a os = .ok a' →
    a'.n = os.foldl len a.n
  | [], _, _, _, _, e => by cases e; rfl
  | o :: os, a, a', w, v, e => by
    obtain ⟨a1, e1, w1, n1, _⟩ := step_spec (dv := dv) w o v.1
    simp only [run, e1, Res.ok_bind] at e
    rw [run_n os w1 (by rw [n1]; exact v.2) e, n1]
    rfl

theorem lens_mono {P Q : Nat → Prop} (h : ∀ n, P n → Q n) : ∀ (os : List (Op T)) (n : Nat), Lens P n os → Lens Q n os
  | [], _, l => h _ l
  | _ :: os, _, l => ⟨h _ l.1, lens_mono h os _ l.2⟩

theorem lens_head {P : Nat → Prop} : ∀ {os : List (Op T)} {n : Nat}, Lens P n os → P n
  | [], _, h => h
  | _ :: _, _, h => h.1

theorem lens_last {P : Nat → Prop} : ∀ {os : List (Op T)} {n : Nat}, Lens P n os → P (os.foldl len n)
  | [], _, h => h
  | _ :: os, _, h => lens_last (os := os) h.2

theorem reach_wf {hp : List (Arr T)} {L : List (List T)} (r : Reach dv hp L) {k : Nat} {a : Arr T} {l : List T}
    (ha : hp[k]? = some a) (hl : L[k]? = some l) : a.WF ∧ a.toList = l := by
  have g := reach_good r
  refine ⟨g.2 a (List.mem_of_getElem? ha), ?_⟩
  rw [← g.1, List.getElem?_map, ha] at hl
  exact Option.some.inj hl

theorem get_cell {a : Arr T} (w : a.WF) {i : Nat} (h : i < roundLength a.n) :
    ∃ x, a.get i = .ok x ∧ ∀ y, a.toList[i]? = some y → x = y := by
  have h0 : 0 < a.n := by
    rcases Nat.eq_zero_or_pos a.n with e | e
    · rw [roundLength_eq_zero.2 e] at h; omega
    · exact e
  have hc : i < a.cells.length := by rw [w.2]; exact h
  have hg : a.get i = .ok a.cells[i] := by simp [Arr.get, w.blk h0, rd_ok hc]
  refine ⟨a.cells[i], hg, fun y hy => ?_⟩
  have := get_of_toList w hy
  rw [hg] at this
  exact Res.ok.inj this

/-! ## C145 -/

/-- C145: a reference to `a[i]` stays valid as long as all lengths of the array have one capacity: it is `a[i]`, for
reading and for writing, if the array has such an element. -/
theorem C145_reference_partial {hp : List (Arr T)} {L : List (List T)} (r : Reach dv hp L) {k : Nat} {a : Arr T}
    {l : List T} (ha : hp[k]? = some a) (hl : L[k]? = some l) {i c : Nat} (hi : i < l.length) (os : List (Op T))
    (v : Legal l.length os) (hc : Lens (IsCapacity · c) l.length os) :
    ∃ p a' l', ref a i = .ok p ∧ run dv a os = .ok a' ∧ Effs l os l' ∧ Shows a' l' ∧
      ∀ h : i < l'.length, load a' p = .ok l'[i] ∧
        ∀ x, ∃ a'', store a' p x = .ok a'' ∧ Shows a'' (l'.set i x) := by
  obtain ⟨w, rfl⟩ := reach_wf r ha hl
  have hn := w.length
  rw [hn] at hi v hc
  obtain ⟨a', e, w', f, _, g⟩ := run_spec (dv := dv) os w v
  have hg : a'.gen = a.gen := g.2 (lens_mono (fun m h => by
    rw [← capacity_unique h, capacity_unique (lens_head (P := (IsCapacity · c)) hc)]) os _ hc)
  refine ⟨⟨a.gen, i⟩, a', a'.toList, ?_, e, f, shows_toList w', fun h => ⟨?_, fun x => ?_⟩⟩
  · have := w.n_le
    simp only [ref, w.blk (by omega)]
    rw [if_pos (by omega)]
  · simp only [load, hg, if_true]
    exact get_of_toList w' (by simp)
  · rw [w'.length] at h
    obtain ⟨a2, e2, w2, _, _, t2⟩ := put_spec w' h x
    refine ⟨a2, by simp only [store, hg, if_true]; exact e2, ?_⟩
    rw [← t2]
    exact shows_toList w2

/-- C145: once the array has had a length of another capacity, the reference must not be used any more. -/
theorem C145_reference_dangling {hp : List (Arr T)} {L : List (List T)} (r : Reach dv hp L) {k : Nat} {a : Arr T}
    {l : List T} (ha : hp[k]? = some a) (hl : L[k]? = some l) {i c : Nat} (hi : i < l.length) (os : List (Op T))
    (v : Legal l.length os) (h0 : IsCapacity l.length c) (hc : ¬ Lens (IsCapacity · c) l.length os) :
    ∃ p a', ref a i = .ok p ∧ run dv a os = .ok a' ∧ load a' p = .ub ∧ ∀ x, store a' p x = .ub := by
  obtain ⟨w, rfl⟩ := reach_wf r ha hl
  have hn := w.length
  rw [hn] at hi v hc h0
  obtain ⟨a', e, w', f, _, g⟩ := run_spec (dv := dv) os w v
  have hg : a.gen ≠ a'.gen := fun h => hc (lens_mono (fun m h => by
    have := roundLength_isCapacity m
    rwa [h, ← capacity_unique h0] at this) os _ (g.1 h.symm))
  refine ⟨⟨a.gen, i⟩, a', ?_, e, ?_, fun x => ?_⟩
  · have := w.n_le
    simp only [ref, w.blk (by omega)]
    rw [if_pos (by omega)]
  · simp only [load, hg, if_false]
  · simp only [store, hg, if_false]

theorem rounds_spec {c n g : Nat} : ∀ (bodies : List (List (Op T))) {a : Arr T} {i : Nat}, a.WF → a.gen = g →
    n ≤ c → i + bodies.length = n → Legal a.n bodies.flatten →
    Lens (fun m => roundLength m = c) a.n bodies.flatten →
    ∃ xs a', rounds dv ⟨g, n⟩ a ⟨g, i⟩ bodies = .ok (xs, a') ∧ a'.WF ∧ Visits i a.toList bodies xs a'.toList
  | [], a, i, w, _, _, hi, _, _ => by
    obtain rfl : i = n := by simpa using hi
    refine ⟨[], a, ?_, w, .nil _ _⟩
    unfold rounds
    rw [if_pos rfl]
  | os :: bodies, a, i, w, hg, hn, hi, v, lc => by
    simp only [List.length_cons] at hi
    rw [List.flatten_cons] at v lc
    obtain ⟨x, ex, hx⟩ := get_cell w (i := i) (by have := lens_head lc; omega)
    obtain ⟨v1, v2⟩ := legal_append _ _ _ v
    obtain ⟨a1, e1, w1, f1, _, g1⟩ := run_spec (dv := dv) os w v1
    have n1 := run_n os w v1 e1
    have hg1 := g1.2 (lens_mono (fun m h => by rw [h, lens_head lc]) os _ (lens_append _ _ _ _ lc))
    obtain ⟨xs, a2, e2, w2, f2⟩ := rounds_spec (g := g) (i := i + 1) bodies w1 (by omega) hn (by omega)
      (by rw [n1]; exact v2) (by rw [n1]; exact lens_append_right _ _ _ _ lc)
    refine ⟨x :: xs, a2, ?_, w2, .cons hx f1 f2⟩
    unfold rounds
    rw [if_neg (by simp; omega)]
    simp only [load, hg, if_true, ex, Res.ok_bind, e1, e2]

/-- C145: as long as all lengths of the array have one capacity, a loop has as many rounds as the array had elements when
it started, and each round sees the element that the array has then at its index. -/
theorem C145_loop_partial {hp : List (Arr T)} {L : List (List T)} (r : Reach dv hp L) {k : Nat} {a : Arr T} {l : List T}
    (ha : hp[k]? = some a) (hl : L[k]? = some l) {c : Nat} (bodies : List (List (Op T)))
    (hb : bodies.length = l.length) (v : Legal l.length bodies.flatten)
    (hc : Lens (IsCapacity · c) l.length bodies.flatten) :
    ∃ xs a' l', loop dv a bodies = .ok (xs, a') ∧ Visits 0 l bodies xs l' ∧ Shows a' l' := by
  obtain ⟨w, rfl⟩ := reach_wf r ha hl
  have hn := w.length
  rw [hn] at hb v hc
  have c0 := capacity_unique (lens_head (P := (IsCapacity · c)) hc)
  obtain ⟨xs, a', e, w', f⟩ := rounds_spec (dv := dv) (c := c) (n := a.n) (i := 0) bodies w rfl
    (by rw [c0]; exact le_roundLength _) (by omega) v (lens_mono (fun m h => (capacity_unique h).symm) _ _ hc)
  exact ⟨xs, a', a'.toList, e, f, shows_toList w'⟩

theorem rounds_dangling {n g : Nat} : ∀ (bodies : List (List (Op T))) {a : Arr T} {i : Nat}, a.gen ≠ g →
    i + bodies.length = n → bodies ≠ [] → rounds dv ⟨g, n⟩ a ⟨g, i⟩ bodies = .ub
  | [], _, _, _, _, h => absurd rfl h
  | os :: bodies, a, i, hg, hi, _ => by
    simp only [List.length_cons] at hi
    unfold rounds
    rw [if_neg (by simp; omega)]
    simp only [load, if_neg (Ne.symm hg)]
    rfl

theorem rounds_ub {c n g : Nat} : ∀ (done rest : List (List (Op T))) {a : Arr T} {i : Nat}, a.WF → a.gen = g →
    n ≤ c → i + done.length + rest.length = n → rest ≠ [] → Legal a.n done.flatten → roundLength a.n = c →
    ¬ Lens (fun m => roundLength m = c) a.n done.flatten →
    rounds dv ⟨g, n⟩ a ⟨g, i⟩ (done ++ rest) = .ub
  | [], _, a, _, _, _, _, _, _, _, h0, lc => absurd h0 lc
  | os :: done, rest, a, i, w, hg, hn, hi, hr, v, h0, lc => by
    simp only [List.length_cons] at hi
    rw [List.flatten_cons] at v lc
    obtain ⟨x, ex, hx⟩ := get_cell w (i := i) (by omega)
    obtain ⟨v1, v2⟩ := legal_append _ _ _ v
    obtain ⟨a1, e1, w1, f1, _, g1⟩ := run_spec (dv := dv) os w v1
    have n1 := run_n os w v1 e1
    rw [List.cons_append]
    unfold rounds
    rw [if_neg (by simp; omega)]
    simp only [load, hg, if_true, ex, Res.ok_bind, e1]
    by_cases hg1 : a1.gen = g
    · have l1 := g1.1 (by omega)
      rw [h0] at l1
      have h1 : roundLength a1.n = c := by rw [n1]; exact lens_last l1
      rw [rounds_ub done rest w1 hg1 hn (i := i + 1) (by omega) hr (by rw [n1]; exact v2) h1 ?_]
      · rfl
      · intro h
        apply lc
        have key : ∀ (os os' : List (Op T)) (m : Nat), Lens (fun m => roundLength m = c) m os →
            Lens (fun m => roundLength m = c) (os.foldl len m) os' → Lens (fun m => roundLength m = c) m (os ++ os') := by
          intro os
          induction os with
          | nil => intro _ _ _ h; exact h
          | cons o os ih => intro os' m h h'; exact ⟨h.1, ih os' _ h.2 h'⟩
        exact key _ _ _ l1 (by rw [← n1]; exact h)
    · rw [rounds_dangling (dv := dv) (done ++ rest) hg1 (by simp; omega) (by simp [hr])]
      rfl

/-- C145: a loop whose body gives the array a length of another capacity before the last round reads memory that was
freed. -/
theorem C145_loop_dangling {hp : List (Arr T)} {L : List (List T)} (r : Reach dv hp L) {k : Nat} {a : Arr T} {l : List T}
    (ha : hp[k]? = some a) (hl : L[k]? = some l) {c : Nat} (done rest : List (List (Op T)))
    (hb : done.length + rest.length = l.length) (hr : rest ≠ []) (v : Legal l.length done.flatten)
    (h0 : IsCapacity l.length c) (hc : ¬ Lens (IsCapacity · c) l.length done.flatten) :
    loop dv a (done ++ rest) = .ub := by
  obtain ⟨w, rfl⟩ := reach_wf r ha hl
  have hn := w.length
  rw [hn] at hb v hc h0
  have c0 := capacity_unique h0
  refine rounds_ub (c := c) done rest w rfl (by rw [c0]; exact le_roundLength _) (by omega) hr v c0.symm
    fun h => hc (lens_mono (fun m h => by
      have := roundLength_isCapacity m
      rwa [h] at this) _ _ h)

/-- C145 is violated: appending one element to an array of three makes a reference to its first element invalid and
breaks a loop over it; a loop that drops the last two of eight elements still visits them. -/
theorem C145_violated :
    (∃ a : Arr Nat, ofList 0 [1, 2, 3] = .ok a ∧ ∃ p a', ref a 0 = .ok p ∧ a.push 0 4 = .ok a' ∧ a'.get 0 = .ok 1 ∧
      load a' p = .ub) ∧
    (∃ a : Arr Nat, ofList 0 [1, 2, 3] = .ok a ∧ loop 0 a [[.push 4], [], []] = .ub) ∧
    (∃ a a' : Arr Nat, ofList 0 [1, 2, 3, 4, 5, 6, 7, 8] = .ok a ∧
      loop 0 a [[.resize 6], [], [], [], [], [], [], []] = .ok ([1, 2, 3, 4, 5, 6, 7, 8], a') ∧ a'.n = 6) := by
  refine ⟨⟨⟨3, some [1, 2, 3], 0⟩, rfl, ⟨0, 0⟩, ⟨4, some [1, 2, 3, 4], 1⟩, by decide +kernel⟩,
    ⟨⟨3, some [1, 2, 3], 0⟩, rfl, by decide +kernel⟩, ?_⟩
  exact ⟨⟨8, some [1, 2, 3, 4, 5, 6, 7, 8], 0⟩, ⟨6, some [1, 2, 3, 4, 5, 6, 7, 8], 0⟩, by decide +kernel⟩

/-- The hypotheses are met: an array of six elements has capacity eight; one can append two elements in a loop over it,
which sees an element written by an earlier round, and a reference to its second element stays valid. -/
example : ∃ hp a, Reach 0 hp [[1, 2, 3, 4, 5, 6]] ∧ hp[0]? = some a ∧
    (let bodies : List (List (Op Nat)) := [[.push 7], [.write 2 9], [], [.push 8], [], []]
     Legal 6 bodies.flatten ∧ Lens (IsCapacity · 8) 6 bodies.flatten ∧ ∃ a', loop 0 a bodies = .ok ([1, 2, 9, 4, 5, 6], a')) ∧
    ¬ Lens (IsCapacity · 8) 6 [.push 7, .push 8, .push 9] ∧ Legal 6 [.push 7, .push 8, .push 9] := by
  have c6 : IsCapacity 6 8 := (show roundLength 6 = 8 by decide +kernel) ▸ roundLength_isCapacity 6
  have c7 : IsCapacity 7 8 := (show roundLength 7 = 8 by decide +kernel) ▸ roundLength_isCapacity 7
  have c8 : IsCapacity 8 8 := by
    have := roundLength_isCapacity 8
    rwa [show roundLength 8 = 8 by decide +kernel] at this
  obtain ⟨hp, L, s, e, _, r⟩ := C08_progress (dv := 0) .nil (.ofList [1, 2, 3, 4, 5, 6]) trivial
  cases e
  have h : step 0 ([] : List (Arr Nat)) (.ofList [1, 2, 3, 4, 5, 6]) =
      .ok [⟨6, some [1, 2, 3, 4, 5, 6, 0, 0], 0⟩] := by decide +kernel
  rw [h] at s
  cases s
  refine ⟨_, _, r, rfl, ⟨?_, ?_, ?_⟩, ?_, ?_⟩
  · simp [Legal, len]
  · simp [Lens, len, c6, c7, c8]
  · exact ⟨⟨8, some [1, 2, 9, 4, 5, 6, 7, 8], 0⟩, by decide +kernel⟩
  · intro h
    exact absurd (capacity_unique h.2.2.2) (by decide +kernel)
  · simp [Legal, len]

end Lolly.ArrayLoopProps
