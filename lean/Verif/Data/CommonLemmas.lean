import Verif.Data.FastSearchLemmas

/-!
# Lemmas on `get_longest_common`
-/

set_option autoImplicit false

namespace Lolly.FastSearch

open Lolly.HashMap

variable {s1 s2 : Bytes}

/-- The two ranges are inside of the strings, have the same length and the same contents. -/
structure Common (s1 s2 : Bytes) (y : Best) : Prop where
  le1 : y.b1 ≤ y.e1
  in1 : y.e1 ≤ s1.length
  le2 : y.b2 ≤ y.e2
  in2 : y.e2 ≤ s2.length
  len : y.e1 - y.b1 = y.e2 - y.b2
  same : ∀ j, j < y.e1 - y.b1 → s1[y.b1 + j]? = s2[y.b2 + j]?

/-- Moreover the position `p1` of the first range corresponds to `p2` in the second one. -/
structure Through (s1 s2 : Bytes) (p1 p2 : Nat) (y : Best) : Prop extends Common s1 s2 y where
  ge : y.b1 ≤ p1
  le : p1 ≤ y.e1
  al : p1 + y.b2 = p2 + y.b1

/-- `b` is as good as `c`: longer, or as long and more to the left. -/
def Ge (b c : Best) : Prop :=
  c.e1 - c.b1 < b.e1 - b.b1 ∨ (c.e1 - c.b1 = b.e1 - b.b1 ∧
    (b.b1 < c.b1 ∨ (b.b1 = c.b1 ∧ b.b2 ≤ c.b2)))

theorem Ge.refl (b : Best) : Ge b b := by unfold Ge; omega
theorem Ge.trans {a b c : Best} (h : Ge a b) (g : Ge b c) : Ge a c := by unfold Ge at *; omega
theorem Ge.len {a b : Best} (h : Ge a b) : b.e1 - b.b1 ≤ a.e1 - a.b1 := by unfold Ge at *; omega

theorem better_iff (b c : Best) : better b c = true ↔ ¬ Ge b c := by
  unfold better Ge
  simp only [Bool.or_eq_true, Bool.and_eq_true, decide_eq_true_iff]
  omega

theorem pick_ge (b c : Best) : Ge (if better b c then c else b) b ∧ Ge (if better b c then c else b) c := by
  have hb := better_iff b c
  by_cases h : better b c = true
  · rw [if_pos h]
    refine ⟨?_, Ge.refl c⟩
    have := hb.1 h
    unfold Ge at *; omega
  · rw [if_neg h]
    exact ⟨Ge.refl b, Classical.byContradiction fun hn => h (hb.2 hn)⟩

/-- The best range through some pair of corresponding positions (or an empty one). -/
def Good (s1 s2 : Bytes) (b : Best) : Prop :=
  Common s1 s2 b ∧ (b.e1 - b.b1 = 0 ∨
    ∃ p1 p2, Through s1 s2 p1 p2 b ∧ ∀ y, Through s1 s2 p1 p2 y → Ge b y)

theorem extendLeft_spec (p1 p2 : Nat) (h1 : p1 ≤ s1.length) (h2 : p2 ≤ s2.length) :
    ∃ k, extendLeft s1 s2 p1 p2 = .ok (p1 - k, p2 - k) ∧ k ≤ p1 ∧ k ≤ p2 ∧
      (∀ j, j < k → s1[p1 - 1 - j]? = s2[p2 - 1 - j]?) ∧
      ∀ m, m ≤ p1 → m ≤ p2 → (∀ j, j < m → s1[p1 - 1 - j]? = s2[p2 - 1 - j]?) → m ≤ k := by
  induction p1 generalizing p2 with
  | zero =>
    refine ⟨0, ?_, by omega, by omega, fun j hj => by omega, fun m hm => by omega⟩
    rw [extendLeft] <;> simp
  | succ p1 ih =>
    cases p2 with
    | zero =>
      refine ⟨0, ?_, by omega, by omega, fun j hj => by omega, fun m _ hm => by omega⟩
      rw [extendLeft]; simp
      simp
    | succ p2 =>
      rw [extendLeft, rd_ok (show p1 < s1.length by omega), Res.ok_bind,
        rd_ok (show p2 < s2.length by omega), Res.ok_bind]
      by_cases he : s1[p1] = s2[p2]
      · rw [if_pos he]
        obtain ⟨k, e, k1, k2, h3, h4⟩ := ih p2 (by omega) (by omega)
        have h0 : s1[p1]? = s2[p2]? := by
          rw [List.getElem?_eq_getElem (by omega), List.getElem?_eq_getElem (by omega), he]
        refine ⟨k + 1, ?_, by omega, by omega, ?_, ?_⟩
        · rw [e, Nat.add_sub_add_right, Nat.add_sub_add_right]
        · intro j hj
          by_cases hj0 : j = 0
          · subst hj0; exact h0
          · have := h3 (j - 1) (by omega)
            rw [show p1 + 1 - 1 - j = p1 - 1 - (j - 1) by omega, show p2 + 1 - 1 - j = p2 - 1 - (j - 1) by omega]
            exact this
        · intro m m1 m2 hm
          by_cases hm0 : m = 0
          · omega
          · have := h4 (m - 1) (by omega) (by omega) (fun j hj => by
              have := hm (j + 1) (by omega)
              rw [show p1 + 1 - 1 - (j + 1) = p1 - 1 - j by omega, show p2 + 1 - 1 - (j + 1) = p2 - 1 - j by omega] at this
              exact this)
            omega
      · rw [if_neg he]
        refine ⟨0, rfl, by omega, by omega, fun j hj => by omega, fun m m1 m2 hm => ?_⟩
        apply Classical.byContradiction
        intro hn
        have := hm 0 (by omega)
        simp only [Nat.add_sub_cancel, Nat.sub_zero] at this
        rw [List.getElem?_eq_getElem (by omega), List.getElem?_eq_getElem (by omega)] at this
        exact he (Option.some.inj this)

theorem extendRight_spec (p1 p2 : Nat) (h1 : p1 ≤ s1.length) (h2 : p2 ≤ s2.length) :
    ∃ k, extendRight s1 s2 p1 p2 = .ok (p1 + k, p2 + k) ∧ p1 + k ≤ s1.length ∧ p2 + k ≤ s2.length ∧
      (∀ j, j < k → s1[p1 + j]? = s2[p2 + j]?) ∧
      ∀ m, p1 + m ≤ s1.length → p2 + m ≤ s2.length → (∀ j, j < m → s1[p1 + j]? = s2[p2 + j]?) → m ≤ k := by
  generalize hn : s1.length - p1 = n
  induction n generalizing p1 p2 with
  | zero =>
    rw [extendRight, if_neg (by omega)]
    exact ⟨0, rfl, by omega, by omega, fun j hj => by omega, fun m hm => by omega⟩
  | succ n ih =>
    rw [extendRight]
    by_cases hc : p1 < s1.length ∧ p2 < s2.length
    · rw [if_pos hc, rd_ok hc.1, Res.ok_bind, rd_ok hc.2, Res.ok_bind]
      by_cases he : s1[p1]'hc.1 = s2[p2]'hc.2
      · rw [if_pos he]
        obtain ⟨k, e, k1, k2, h3, h4⟩ := ih (p1 + 1) (p2 + 1) (by omega) (by omega) (by omega)
        have h0 : s1[p1]? = s2[p2]? := by
          rw [List.getElem?_eq_getElem hc.1, List.getElem?_eq_getElem hc.2, he]
        refine ⟨k + 1, ?_, by omega, by omega, ?_, ?_⟩
        · rw [e, show p1 + (k + 1) = p1 + 1 + k by omega, show p2 + (k + 1) = p2 + 1 + k by omega]
        · intro j hj
          by_cases hj0 : j = 0
          · subst hj0; exact h0
          · have := h3 (j - 1) (by omega)
            rw [show p1 + j = p1 + 1 + (j - 1) by omega, show p2 + j = p2 + 1 + (j - 1) by omega]
            exact this
        · intro m m1 m2 hm
          by_cases hm0 : m = 0
          · omega
          · have := h4 (m - 1) (by omega) (by omega) (fun j hj => by
              have := hm (j + 1) (by omega)
              rw [show p1 + (j + 1) = p1 + 1 + j by omega, show p2 + (j + 1) = p2 + 1 + j by omega] at this
              exact this)
            omega
      · rw [if_neg he]
        refine ⟨0, rfl, by omega, by omega, fun j hj => by omega, fun m m1 m2 hm => ?_⟩
        apply Classical.byContradiction
        intro hn
        have := hm 0 (by omega)
        simp only [Nat.add_zero] at this
        rw [List.getElem?_eq_getElem hc.1, List.getElem?_eq_getElem hc.2] at this
        exact he (Option.some.inj this)
    · rw [if_neg hc]
      exact ⟨0, rfl, by omega, by omega, fun j hj => by omega, fun m m1 m2 hm => by omega⟩

/-- The maximal extension of a pair of positions is as good as any common range through it. -/
theorem extend_spec (p1 p2 : Nat) (h1 : p1 ≤ s1.length) (h2 : p2 ≤ s2.length) :
    ∃ l r, extendLeft s1 s2 p1 p2 = .ok l ∧ extendRight s1 s2 p1 p2 = .ok r ∧
      Through s1 s2 p1 p2 ⟨l.1, r.1, l.2, r.2⟩ ∧
      ∀ y, Through s1 s2 p1 p2 y → Ge ⟨l.1, r.1, l.2, r.2⟩ y := by
  obtain ⟨k, ek, k1, k2, k3, k4⟩ := extendLeft_spec (s1 := s1) (s2 := s2) p1 p2 h1 h2
  obtain ⟨q, eq, q1, q2, q3, q4⟩ := extendRight_spec (s1 := s1) (s2 := s2) p1 p2 h1 h2
  refine ⟨_, _, ek, eq, ⟨⟨by simp; omega, q1, by simp; omega, q2, by simp; omega, ?_⟩, by simp, by simp, by simp; omega⟩, ?_⟩
  · intro j hj
    simp only at hj ⊢
    by_cases hjk : j < k
    · have := k3 (k - 1 - j) (by omega)
      rw [show p1 - 1 - (k - 1 - j) = p1 - k + j by omega, show p2 - 1 - (k - 1 - j) = p2 - k + j by omega] at this
      exact this
    · have := q3 (j - k) (by omega)
      rw [show p1 + (j - k) = p1 - k + j by omega, show p2 + (j - k) = p2 - k + j by omega] at this
      exact this
  · intro y hy
    have l1 := hy.le1; have l2 := hy.in1; have l3 := hy.le2; have l4 := hy.in2; have l5 := hy.len
    have g1 := hy.ge; have g2 := hy.le; have g3 := hy.al
    have a1 := k4 (p1 - y.b1) (by omega) (by omega) (fun j hj => by
      have := hy.same (p1 - y.b1 - 1 - j) (by omega)
      rw [show y.b1 + (p1 - y.b1 - 1 - j) = p1 - 1 - j by omega,
        show y.b2 + (p1 - y.b1 - 1 - j) = p2 - 1 - j by omega] at this
      exact this)
    have a2 := q4 (y.e1 - p1) (by omega) (by omega) (fun j hj => by
      have := hy.same (p1 - y.b1 + j) (by omega)
      rw [show y.b1 + (p1 - y.b1 + j) = p1 + j by omega,
        show y.b2 + (p1 - y.b1 + j) = p2 + j by omega] at this
      exact this)
    unfold Ge
    simp only
    omega

theorem loop2_spec (p1 : Nat) (h1 : p1 ≤ s1.length) (ps : List Nat) (h2 : ∀ p ∈ ps, p ≤ s2.length)
    (b : Best) (hb : Good s1 s2 b) :
    ∃ b', loop2 s1 s2 p1 ps b = .ok b' ∧ Good s1 s2 b' ∧ Ge b' b ∧
      ∀ p2 ∈ ps, ∀ y, Through s1 s2 p1 p2 y → Ge b' y := by
  induction ps generalizing b with
  | nil => exact ⟨b, rfl, hb, Ge.refl b, by simp⟩
  | cons p2 ps ih =>
    obtain ⟨l, r, e1, e2, T, M⟩ := extend_spec (s1 := s1) (s2 := s2) p1 p2 h1 (h2 p2 (by simp))
    rw [loop2, e1, Res.ok_bind, e2, Res.ok_bind]
    obtain ⟨g1, g2⟩ := pick_ge b ⟨l.1, r.1, l.2, r.2⟩
    have hg : Good s1 s2 (if better b ⟨l.1, r.1, l.2, r.2⟩ then ⟨l.1, r.1, l.2, r.2⟩ else b) := by
      split
      · exact ⟨T.toCommon, .inr ⟨p1, p2, T, M⟩⟩
      · exact hb
    obtain ⟨b', e, G, H1, H2⟩ := ih (fun p hp => h2 p (by simp [hp])) _ hg
    refine ⟨b', e, G, H1.trans g1, fun q hq y hy => ?_⟩
    rcases List.mem_cons.1 hq with rfl | hq
    · exact (H1.trans g2).trans (M y hy)
    · exact H2 q hq y hy

theorem loop1_spec (ps2 : List Nat) (h2 : ∀ p ∈ ps2, p ≤ s2.length) (ps : List Nat)
    (h1 : ∀ p ∈ ps, p ≤ s1.length) (b : Best) (hb : Good s1 s2 b) :
    ∃ b', loop1 s1 s2 ps2 ps b = .ok b' ∧ Good s1 s2 b' ∧ Ge b' b ∧
      (b'.e1 - b'.b1 = 0 → ∀ p1 ∈ ps, ∀ p2 ∈ ps2, ∀ y, Through s1 s2 p1 p2 y → Ge b' y) ∧
      (b.e1 - b.b1 = 0 → ps ≠ [] → ∃ p1 ∈ ps, ∀ p2 ∈ ps2, ∀ y, Through s1 s2 p1 p2 y → Ge b' y) := by
  induction ps generalizing b with
  | nil => exact ⟨b, rfl, hb, Ge.refl b, by simp, by simp⟩
  | cons p1 ps ih =>
    rw [loop1]
    have ih := fun b hb => ih (fun p hp => h1 p (by simp [hp])) b hb
    by_cases hc : b.b1 ≤ p1 ∧ p1 < b.e1
    · rw [if_pos hc]
      obtain ⟨b', e, G, H1, H2, H3⟩ := ih b hb
      have := H1.len
      exact ⟨b', e, G, H1, fun h => by omega, fun h => by omega⟩
    · rw [if_neg hc]
      obtain ⟨b1, e1, G1, K1, K2⟩ := loop2_spec p1 (h1 p1 (by simp)) ps2 h2 b hb
      obtain ⟨b', e, G, H1, H2, H3⟩ := ih b1 G1
      refine ⟨b', by rw [e1]; exact e, G, H1.trans K1, fun h q hq => ?_, fun _ _ => ?_⟩
      · rcases List.mem_cons.1 hq with rfl | hq
        · exact fun p2 hp2 y hy => H1.trans (K2 p2 hp2 y hy)
        · exact H2 h q hq
      · exact ⟨p1, by simp, fun p2 hp2 y hy => H1.trans (K2 p2 hp2 y hy)⟩

/-- The codes at which both levels have positions. -/
theorem keyLoop_spec {a1 a2 : Index} {f1 f2 : Nat → BitVec 32} {m1 m2 : Nat} (H1 : Holds a1 f1 m1)
    (H2 : Holds a2 f2 m2) (l1 : m1 ≤ s1.length) (l2 : m2 ≤ s2.length) (hs : List (BitVec 32)) (b : Best)
    (hb : Good s1 s2 b) :
    ∃ b', keyLoop s1 s2 a1 a2 hs b = .ok b' ∧ Good s1 s2 b' ∧ Ge b' b ∧
      (b'.e1 - b'.b1 = 0 → ∀ p1, p1 < m1 → f1 p1 ∈ hs → ∀ p2, p2 < m2 → f2 p2 = f1 p1 →
        ∀ y, Through s1 s2 p1 p2 y → Ge b' y) ∧
      (b.e1 - b.b1 = 0 → (∃ p1 p2, p1 < m1 ∧ f1 p1 ∈ hs ∧ p2 < m2 ∧ f2 p2 = f1 p1) →
        ∃ p1, p1 < m1 ∧ ∀ p2, p2 < m2 → f2 p2 = f1 p1 → ∀ y, Through s1 s2 p1 p2 y → Ge b' y) := by
  induction hs generalizing b with
  | nil => exact ⟨b, rfl, hb, Ge.refl b, by simp, by simp⟩
  | cons h hs ih =>
    rw [keyLoop, H1.get, Res.ok_bind, H2.get, Res.ok_bind]
    by_cases hc : (posOf f1 m1 h).length = 0 ∨ (posOf f2 m2 h).length = 0
    · rw [if_pos hc]
      have none : ∀ p1 p2, p1 < m1 → p2 < m2 → f1 p1 = h → f2 p2 = f1 p1 → False := by
        intro p1 p2 h1 h2 e1 e2
        have i1 : p1 ∈ posOf f1 m1 h := mem_posOf.2 ⟨h1, e1⟩
        have i2 : p2 ∈ posOf f2 m2 h := mem_posOf.2 ⟨h2, by rw [e2, e1]⟩
        have := List.length_pos_of_mem i1
        have := List.length_pos_of_mem i2
        omega
      obtain ⟨b', e, G, K1, K2, K3⟩ := ih b hb
      refine ⟨b', e, G, K1, fun h0 p1 hp1 hm p2 hp2 he => ?_, fun h0 ⟨p1, p2, hp1, hm, hp2, he⟩ => ?_⟩
      · rcases List.mem_cons.1 hm with hm | hm
        · exact (none p1 p2 hp1 hp2 hm he).elim
        · exact K2 h0 p1 hp1 hm p2 hp2 he
      · rcases List.mem_cons.1 hm with hm | hm
        · exact (none p1 p2 hp1 hp2 hm he).elim
        · exact K3 h0 ⟨p1, p2, hp1, hm, hp2, he⟩
    · rw [if_neg hc]
      obtain ⟨b1, e1, G1, L1, L2, L3⟩ := loop1_spec (s1 := s1) (s2 := s2) (posOf f2 m2 h)
        (fun p hp => by have := (mem_posOf.1 hp).1; omega) (posOf f1 m1 h)
        (fun p hp => by have := (mem_posOf.1 hp).1; omega) b hb
      obtain ⟨b', e, G, K1, K2, K3⟩ := ih b1 G1
      refine ⟨b', by rw [e1]; exact e, G, K1.trans L1, fun h0 p1 hp1 hm p2 hp2 he y hy => ?_, fun h0 _ => ?_⟩
      · rcases List.mem_cons.1 hm with hm | hm
        · have := K1.len
          exact K1.trans (L2 (by omega) p1 (mem_posOf.2 ⟨hp1, hm⟩) p2 (mem_posOf.2 ⟨hp2, by rw [he, hm]⟩) y hy)
        · exact K2 h0 p1 hp1 hm p2 hp2 he y hy
      · obtain ⟨p1, hp1, H⟩ := L3 h0 (by intro e; rw [e] at hc; simp at hc)
        obtain ⟨g1, g2⟩ := mem_posOf.1 hp1
        exact ⟨p1, g1, fun p2 hp2 he y hy => K1.trans (H p2 (mem_posOf.2 ⟨hp2, by rw [he, g2]⟩) y hy)⟩

theorem commonLevel_spec {a1 a2 : Index} {f1 f2 : Nat → BitVec 32} {m1 m2 : Nat} (H1 : Holds a1 f1 m1)
    (H2 : Holds a2 f2 m2) (l1 : m1 ≤ s1.length) (l2 : m2 ≤ s2.length) (b : Best) (hb : Good s1 s2 b) :
    ∃ b', commonLevel s1 s2 a1 a2 b = .ok b' ∧ Good s1 s2 b' ∧ Ge b' b ∧
      (b'.e1 - b'.b1 = 0 → ∀ p1, p1 < m1 → ∀ p2, p2 < m2 → f2 p2 = f1 p1 →
        ∀ y, Through s1 s2 p1 p2 y → Ge b' y) ∧
      (b.e1 - b.b1 = 0 → (∃ p1 p2, p1 < m1 ∧ p2 < m2 ∧ f2 p2 = f1 p1) →
        ∃ p1, p1 < m1 ∧ ∀ p2, p2 < m2 → f2 p2 = f1 p1 → ∀ y, Through s1 s2 p1 p2 y → Ge b' y) := by
  have w := H1.1
  have hne : a1.a ≠ [] := by
    intro e; have h1 := w.len; have h2 := w.pos; rw [e] at h1; simp at h1; omega
  obtain ⟨it, e1, e2⟩ := Iter.drain_new a1.a hne (a1.a.flatten.length + 1) (by omega)
  have keys : ∀ p1, p1 < m1 → f1 p1 ∈ a1.a.flatten.map (·.key) := by
    intro p1 hp1
    have hm : p1 ∈ posOf f1 m1 (f1 p1) := mem_posOf.2 ⟨hp1, rfl⟩
    have hne' : posOf f1 m1 (f1 p1) ≠ [] := List.ne_nil_of_mem hm
    have ha := H1.2.2 (f1 p1)
    rw [if_neg hne'] at ha
    apply Classical.byContradiction
    intro hn
    rw [HashMap.abs, look_eq_none.2 hn] at ha
    cases ha
  obtain ⟨b', e, G, K1, K2, K3⟩ := keyLoop_spec H1 H2 l1 l2 (a1.a.flatten.map (·.key)) b hb
  refine ⟨b', by unfold commonLevel; rw [e1, Res.ok_bind, e2, Res.ok_bind]; exact e, G, K1,
    fun h0 p1 hp1 => K2 h0 p1 hp1 (keys p1 hp1), fun h0 ⟨p1, p2, h1, h2, h3⟩ => ?_⟩
  exact K3 h0 ⟨p1, p2, h1, keys p1 h1, h2, h3⟩

/-- The code of level `k` at position `i`. -/
def codeAt (s : Bytes) (k i : Nat) : BitVec 32 := fastHash ((s.drop i).take (2 ^ k))

theorem levelLoop_spec {S1 S2 : Searcher} (e1 : S1.s = s1) (e2 : S2.s = s2)
    (L1 : ∀ j h, S1.a[j]? = some h → LevelOk s1 j h) (L2 : ∀ j h, S2.a[j]? = some h → LevelOk s2 j h)
    (i : Nat) (h1 : i ≤ S1.a.length) (h2 : i ≤ S2.a.length) (b : Best) (hb : Good s1 s2 b) :
    ∃ b', levelLoop S1 S2 i b = .ok b' ∧ Good s1 s2 b' ∧ Ge b' b ∧
      (b'.e1 - b'.b1 = 0 → ∀ k, k < i → ∀ p1, p1 < s1.length + 1 - 2 ^ k → ∀ p2, p2 < s2.length + 1 - 2 ^ k →
        codeAt s2 k p2 = codeAt s1 k p1 → ∀ y, Through s1 s2 p1 p2 y → Ge b' y) ∧
      (b.e1 - b.b1 = 0 → ∀ k, k + 1 = i → (∃ p1 p2, p1 < s1.length + 1 - 2 ^ k ∧ p2 < s2.length + 1 - 2 ^ k ∧
          codeAt s2 k p2 = codeAt s1 k p1) →
        ∃ p1, p1 < s1.length + 1 - 2 ^ k ∧ ∀ p2, p2 < s2.length + 1 - 2 ^ k →
          codeAt s2 k p2 = codeAt s1 k p1 → ∀ y, Through s1 s2 p1 p2 y → Ge b' y) := by
  induction i generalizing b with
  | zero => exact ⟨b, rfl, hb, Ge.refl b, fun _ k hk => by omega, fun _ k hk => by omega⟩
  | succ i ih =>
    have g1 := L1 i _ (List.getElem?_eq_getElem (by omega : i < S1.a.length))
    have g2 := L2 i _ (List.getElem?_eq_getElem (by omega : i < S2.a.length))
    have hpos : 1 ≤ 2 ^ i := Nat.one_le_two_pow
    obtain ⟨b1, f1, G1, K1, K2, K3⟩ := commonLevel_spec (s1 := s1) (s2 := s2) g1 g2 (by omega) (by omega) b hb
    obtain ⟨b', f, G, M1, M2, M3⟩ := ih (by omega) (by omega) b1 G1
    refine ⟨b', ?_, G, M1.trans K1, ?_, ?_⟩
    · rw [levelLoop, rd_ok (by omega : i < S1.a.length), Res.ok_bind, rd_ok (by omega : i < S2.a.length),
        Res.ok_bind, e1, e2, f1]
      exact f
    · intro h0 k hk p1 hp1 p2 hp2 hc y hy
      by_cases hki : k = i
      · subst hki
        have := M1.len
        exact M1.trans (K2 (by omega) p1 hp1 p2 hp2 hc y hy)
      · exact M2 h0 k (by omega) p1 hp1 p2 hp2 hc y hy
    · intro h0 k hk ⟨p1, p2, hp1, hp2, hc⟩
      obtain rfl : k = i := by omega
      obtain ⟨q, hq, H⟩ := K3 h0 ⟨p1, p2, hp1, hp2, hc⟩
      exact ⟨q, hq, fun p2 hp2 hc y hy => M1.trans (H p2 hp2 hc y hy)⟩

end Lolly.FastSearch
