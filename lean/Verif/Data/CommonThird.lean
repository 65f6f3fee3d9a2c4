import Verif.Data.CommonLemmas

/-!
# The last level of `get_longest_common`: how much shorter than the longest the result can be
-/

set_option autoImplicit false

namespace Lolly.FastSearch

open Lolly.HashMap

variable {s1 s2 : Bytes}

/-- On pairs of positions with the same character, the best range either stays or contains the
position. -/
theorem loop2_contains (p1 : Nat) (h1 : p1 < s1.length) (ps : List Nat)
    (h2 : ∀ p ∈ ps, p < s2.length ∧ s1[p1]? = s2[p]?) (b b' : Best)
    (e : loop2 s1 s2 p1 ps b = .ok b') : b' = b ∨ (b'.b1 ≤ p1 ∧ p1 < b'.e1) := by
  induction ps generalizing b with
  | nil => exact .inl (Res.ok.inj e).symm
  | cons p2 ps ih =>
    obtain ⟨g1, g2⟩ := h2 p2 (by simp)
    obtain ⟨k, ek, k1, k2, -, -⟩ := extendLeft_spec (s1 := s1) (s2 := s2) p1 p2 (by omega) (by omega)
    obtain ⟨q, eq, q1, q2, -, q4⟩ := extendRight_spec (s1 := s1) (s2 := s2) p1 p2 (by omega) (by omega)
    have hq := q4 1 (by omega) (by omega) (fun j hj => by
      obtain rfl : j = 0 := by omega
      exact g2)
    rw [loop2, ek, Res.ok_bind, eq, Res.ok_bind] at e
    have := ih (fun p hp => h2 p (by simp [hp])) _ e
    rcases this with h | h
    · split at h
      · right; rw [h]; simp only; omega
      · exact .inl h
    · exact .inr h

/-- A position of the common range `y` that was passed by although `y` was not found: it lies in the
range `b0`, or close enough to an end of `y` to lie in a range of length `n` that sticks out of `y`. -/
def Passed (y b0 : Best) (n x : Nat) : Prop :=
  (b0.b1 ≤ x ∧ x < b0.e1) ∨ x + 2 ≤ y.b1 + n ∨ y.e1 + 1 ≤ x + n

theorem Passed.mono {y b0 : Best} {n m x : Nat} (h : Passed y b0 n x) (hm : n ≤ m) : Passed y b0 m x := by
  unfold Passed at *; omega

/-- The state of the last level with respect to a common range `y` and the range `b0` at its start;
`D` are the positions already visited. -/
def Third (y b0 b : Best) (D : Nat → Prop) : Prop :=
  y.e1 - y.b1 ≤ b.e1 - b.b1 ∨
    ((b = b0 ∨ b.b1 < y.b1 ∨ y.e1 < b.e1) ∧
      ∀ x, D x → y.b1 ≤ x → x < y.e1 → Passed y b0 (b.e1 - b.b1) x)

theorem loop1_third {y b0 : Best} (hy : Common s1 s2 y) (D : Nat → Prop) (ps2 : List Nat) (ps : List Nat)
    (h1 : ∀ p ∈ ps, p < s1.length) (h2 : ∀ p ∈ ps, ∀ q ∈ ps2, q < s2.length ∧ s1[p]? = s2[q]?)
    (h3 : ∀ p ∈ ps, y.b1 ≤ p → p < y.e1 → p - y.b1 + y.b2 ∈ ps2)
    (b b' : Best) (hb : Good s1 s2 b) (I : Third y b0 b D) (e : loop1 s1 s2 ps2 ps b = .ok b') :
    Third y b0 b' fun x => D x ∨ x ∈ ps := by
  induction ps generalizing b D with
  | nil =>
    obtain rfl := Res.ok.inj e
    rcases I with I | ⟨I1, I2⟩
    · exact .inl I
    · exact .inr ⟨I1, fun x hx => I2 x (by simpa using hx)⟩
  | cons p ps ih =>
    have step : ∀ b1, Good s1 s2 b1 → Third y b0 b1 (fun x => D x ∨ x = p) → loop1 s1 s2 ps2 ps b1 = .ok b' →
        Third y b0 b' fun x => D x ∨ x ∈ p :: ps := by
      intro b1 G1 I1 e1
      have := ih (fun x => D x ∨ x = p) (fun q hq => h1 q (by simp [hq])) (fun q hq => h2 q (by simp [hq]))
        (fun q hq => h3 q (by simp [hq])) b1 G1 I1 e1
      rcases this with h | ⟨h, h'⟩
      · exact .inl h
      · refine .inr ⟨h, fun x hx => h' x ?_⟩
        rcases hx with hx | hx
        · exact .inl (.inl hx)
        · rcases List.mem_cons.1 hx with rfl | hx
          · exact .inl (.inr rfl)
          · exact .inr hx
    have l1 := hb.1.le1
    rw [loop1] at e
    by_cases hc : b.b1 ≤ p ∧ p < b.e1
    · rw [if_pos hc] at e
      refine step b hb ?_ e
      rcases I with I | ⟨I1, I2⟩
      · exact .inl I
      · refine .inr ⟨I1, fun x hx hx1 hx2 => ?_⟩
        rcases hx with hx | rfl
        · exact I2 x hx hx1 hx2
        · rcases I1 with rfl | I1 | I1
          · exact .inl hc
          · unfold Passed; omega
          · unfold Passed; omega
    · rw [if_neg hc] at e
      have hp := h1 p (by simp)
      obtain ⟨b1, e1, G1, K1, K2⟩ := loop2_spec (s1 := s1) (s2 := s2) p (by omega) ps2
        (fun q hq => by have := (h2 p (by simp) q hq).1; omega) b hb
      rw [e1, Res.ok_bind] at e
      refine step b1 G1 ?_ e
      by_cases hpy : y.b1 ≤ p ∧ p < y.e1
      · refine .inl (K2 _ (h3 p (by simp) hpy.1 hpy.2) y ⟨hy, hpy.1, by omega, by omega⟩).len
      · have kl := K1.len
        rcases I with I | ⟨I1, I2⟩
        · exact .inl (by omega)
        · refine .inr ⟨?_, fun x hx hx1 hx2 => ?_⟩
          · rcases loop2_contains p hp ps2 (fun q hq => h2 p (by simp) q hq) b b1 e1 with h | h
            · rw [h]; exact I1
            · right; omega
          · rcases hx with hx | rfl
            · exact (I2 x hx hx1 hx2).mono kl
            · exact absurd ⟨hx1, hx2⟩ hpy

theorem codeAt_zero {s : Bytes} {i : Nat} (h : i < s.length) : codeAt s 0 i = byteCode (s[i]'h) := by
  unfold codeAt
  rw [List.drop_eq_getElem_cons h]
  simp only [Nat.pow_zero, List.take_succ_cons, List.take_zero, fastHash_single]

theorem byteCode_inj {a b : UInt8} (h : byteCode a = byteCode b) : a = b := by
  unfold byteCode at h
  have := congrArg BitVec.toNat h
  have h1 := a.toBitVec.isLt
  have h2 := b.toBitVec.isLt
  simp only [BitVec.toNat_setWidth] at this
  rw [Nat.mod_eq_of_lt (by omega), Nat.mod_eq_of_lt (by omega)] at this
  exact UInt8.toNat_inj.1 this

theorem keyLoop_third {y b0 : Best} (hy : Common s1 s2 y) {a1 a2 : Index} (H1 : LevelOk s1 0 a1)
    (H2 : LevelOk s2 0 a2) (hs : List (BitVec 32)) (D : Nat → Prop) (b b' : Best) (hb : Good s1 s2 b)
    (I : Third y b0 b D) (e : keyLoop s1 s2 a1 a2 hs b = .ok b') :
    Third y b0 b' fun x => D x ∨ (x < s1.length ∧ codeAt s1 0 x ∈ hs) := by
  induction hs generalizing b D with
  | nil =>
    obtain rfl := Res.ok.inj e
    rcases I with I | ⟨I1, I2⟩
    · exact .inl I
    · exact .inr ⟨I1, fun x hx => I2 x (by simpa using hx)⟩
  | cons h hs ih =>
    have l1 := hy.le1; have l2 := hy.in1; have l3 := hy.le2; have l4 := hy.in2; have l5 := hy.len
    have mem1 : ∀ p, p ∈ posOf (codeAt s1 0) (s1.length + 1 - 2 ^ 0) h ↔ p < s1.length ∧ codeAt s1 0 p = h := by
      intro p; rw [mem_posOf, Nat.pow_zero, Nat.add_sub_cancel]
    have mem2 : ∀ p, p ∈ posOf (codeAt s2 0) (s2.length + 1 - 2 ^ 0) h ↔ p < s2.length ∧ codeAt s2 0 p = h := by
      intro p; rw [mem_posOf, Nat.pow_zero, Nat.add_sub_cancel]
    have inside : ∀ p, p < s1.length → codeAt s1 0 p = h → y.b1 ≤ p → p < y.e1 →
        p - y.b1 + y.b2 ∈ posOf (codeAt s2 0) (s2.length + 1 - 2 ^ 0) h := by
      intro p hp hc hp1 hp2
      have hq : p - y.b1 + y.b2 < s2.length := by omega
      rw [mem2]
      refine ⟨hq, ?_⟩
      have hs := hy.same (p - y.b1) (by omega)
      rw [show y.b1 + (p - y.b1) = p by omega, show y.b2 + (p - y.b1) = p - y.b1 + y.b2 by omega,
        List.getElem?_eq_getElem hp, List.getElem?_eq_getElem hq] at hs
      rw [codeAt_zero hq, ← Option.some.inj hs, ← codeAt_zero hp, hc]
    have g1 : a1.get hashInt h = .ok (posOf (codeAt s1 0) (s1.length + 1 - 2 ^ 0) h) := H1.get h
    have g2 : a2.get hashInt h = .ok (posOf (codeAt s2 0) (s2.length + 1 - 2 ^ 0) h) := H2.get h
    have step : ∀ b1, Good s1 s2 b1 →
        Third y b0 b1 (fun x => D x ∨ (x < s1.length ∧ codeAt s1 0 x = h)) →
        keyLoop s1 s2 a1 a2 hs b1 = .ok b' →
        Third y b0 b' fun x => D x ∨ (x < s1.length ∧ codeAt s1 0 x ∈ h :: hs) := by
      intro b1 G1 I1 e1
      rcases ih _ b1 G1 I1 e1 with k | ⟨k, k'⟩
      · exact .inl k
      · refine .inr ⟨k, fun x hx => k' x ?_⟩
        rcases hx with hx | ⟨hx, hc⟩
        · exact .inl (.inl hx)
        · rcases List.mem_cons.1 hc with hc | hc
          · exact .inl (.inr ⟨hx, hc⟩)
          · exact .inr ⟨hx, hc⟩
    rw [keyLoop, g1, Res.ok_bind, g2, Res.ok_bind] at e
    by_cases hc : (posOf (codeAt s1 0) (s1.length + 1 - 2 ^ 0) h).length = 0 ∨
        (posOf (codeAt s2 0) (s2.length + 1 - 2 ^ 0) h).length = 0
    · rw [if_pos hc] at e
      refine step b hb ?_ e
      rcases I with I | ⟨I1, I2⟩
      · exact .inl I
      · refine .inr ⟨I1, fun x hx hx1 hx2 => ?_⟩
        rcases hx with hx | ⟨hx, hxc⟩
        · exact I2 x hx hx1 hx2
        · have i1 := List.length_pos_of_mem ((mem1 x).2 ⟨hx, hxc⟩)
          have i2 := List.length_pos_of_mem (inside x hx hxc hx1 hx2)
          omega
    · rw [if_neg hc] at e
      obtain ⟨b1, e1, G1, -⟩ := loop1_spec (s1 := s1) (s2 := s2) (posOf (codeAt s2 0) (s2.length + 1 - 2 ^ 0) h)
        (fun p hp => by have := ((mem2 p).1 hp).1; omega) (posOf (codeAt s1 0) (s1.length + 1 - 2 ^ 0) h)
        (fun p hp => by have := ((mem1 p).1 hp).1; omega) b hb
      rw [e1, Res.ok_bind] at e
      refine step b1 G1 ?_ e
      have := loop1_third hy D _ _ (fun p hp => ((mem1 p).1 hp).1) (fun p hp q hq => ?_)
        (fun p hp => inside p ((mem1 p).1 hp).1 ((mem1 p).1 hp).2) b b1 hb I e1
      · rcases this with k | ⟨k, k'⟩
        · exact .inl k
        · exact .inr ⟨k, fun x hx => k' x (hx.imp id (mem1 x).2)⟩
      · obtain ⟨p1, p2⟩ := (mem1 p).1 hp
        obtain ⟨q1, q2⟩ := (mem2 q).1 hq
        refine ⟨q1, ?_⟩
        rw [codeAt_zero p1] at p2
        rw [codeAt_zero q1] at q2
        rw [List.getElem?_eq_getElem p1, List.getElem?_eq_getElem q1, byteCode_inj (p2.trans q2.symm)]

/-- A range of length `n` and the two ends cover at most `3 * n - 2` positions. -/
theorem third_end {y b0 b : Best} (h0 : b0.e1 - b0.b1 ≤ b.e1 - b.b1) (hn : 0 < b.e1 - b.b1)
    (h : Third y b0 b fun _ => True) :
    y.e1 - y.b1 + 2 ≤ 3 * (b.e1 - b.b1) := by
  rcases h with h | ⟨-, h⟩
  · omega
  · apply Classical.byContradiction
    intro hc
    have a := h (y.b1 + (b.e1 - b.b1) - 1) trivial (by omega) (by omega)
    have c := h (y.e1 - (b.e1 - b.b1)) trivial (by omega) (by omega)
    unfold Passed at a c
    omega

theorem commonLevel_third {y : Best} (hy : Common s1 s2 y) {a1 a2 : Index} (H1 : LevelOk s1 0 a1)
    (H2 : LevelOk s2 0 a2) (b b' : Best) (hb : Good s1 s2 b) (hg : Ge b' b)
    (e : commonLevel s1 s2 a1 a2 b = .ok b') (hn : 0 < b'.e1 - b'.b1) :
    y.e1 - y.b1 + 2 ≤ 3 * (b'.e1 - b'.b1) := by
  have w := H1.1
  have hne : a1.a ≠ [] := by
    intro e; have h1 := w.len; have h2 := w.pos; rw [e] at h1; simp at h1; omega
  obtain ⟨it, e1, e2⟩ := Iter.drain_new a1.a hne (a1.a.flatten.length + 1) (by omega)
  have keys : ∀ p1, p1 < s1.length → codeAt s1 0 p1 ∈ a1.a.flatten.map (·.key) := by
    intro p1 hp1
    have hm : p1 ∈ posOf (codeAt s1 0) (s1.length + 1 - 2 ^ 0) (codeAt s1 0 p1) := mem_posOf.2 ⟨by simp; omega, rfl⟩
    have ha : a1.abs (codeAt s1 0 p1) = if posOf (codeAt s1 0) (s1.length + 1 - 2 ^ 0) (codeAt s1 0 p1) = [] then none
        else some (posOf (codeAt s1 0) (s1.length + 1 - 2 ^ 0) (codeAt s1 0 p1)) := H1.2.2 (codeAt s1 0 p1)
    rw [if_neg (List.ne_nil_of_mem hm)] at ha
    apply Classical.byContradiction
    intro hn
    rw [HashMap.abs, look_eq_none.2 hn] at ha
    cases ha
  unfold commonLevel at e
  rw [e1, Res.ok_bind, e2, Res.ok_bind] at e
  have := keyLoop_third hy H1 H2 _ (fun _ => False) b b' hb
    (.inr ⟨.inl rfl, fun x hx => hx.elim⟩ : Third y b b _) e
  refine third_end hg.len hn ?_
  rcases this with k | ⟨k, k'⟩
  · exact .inl k
  · refine .inr ⟨k, fun x _ h1 h2 => k' x (.inr ?_) h1 h2⟩
    have := hy.in1
    exact ⟨by omega, keys x (by omega)⟩

theorem levelLoop_third {y : Best} (hy : Common s1 s2 y) {S1 S2 : Searcher} (e1 : S1.s = s1) (e2 : S2.s = s2)
    (L1 : ∀ j h, S1.a[j]? = some h → LevelOk s1 j h) (L2 : ∀ j h, S2.a[j]? = some h → LevelOk s2 j h)
    (i : Nat) (h1 : i < S1.a.length) (h2 : i < S2.a.length) (b b' : Best) (hb : Good s1 s2 b)
    (e : levelLoop S1 S2 (i + 1) b = .ok b') (hn : 0 < b'.e1 - b'.b1) :
    y.e1 - y.b1 + 2 ≤ 3 * (b'.e1 - b'.b1) := by
  induction i generalizing b with
  | zero =>
    have g1 := L1 0 _ (List.getElem?_eq_getElem h1)
    have g2 := L2 0 _ (List.getElem?_eq_getElem h2)
    obtain ⟨b1, f1, G1, K1, -⟩ := commonLevel_spec (s1 := s1) (s2 := s2) g1 g2 (by omega) (by omega) b hb
    rw [levelLoop, rd_ok h1, Res.ok_bind, rd_ok h2, Res.ok_bind, e1, e2, f1, Res.ok_bind, levelLoop] at e
    obtain rfl := Res.ok.inj e
    exact commonLevel_third hy g1 g2 b b1 hb K1 f1 hn
  | succ i ih =>
    have g1 := L1 (i + 1) _ (List.getElem?_eq_getElem h1)
    have g2 := L2 (i + 1) _ (List.getElem?_eq_getElem h2)
    have hpos : 1 ≤ 2 ^ (i + 1) := Nat.one_le_two_pow
    obtain ⟨b1, f1, G1, K1, -⟩ := commonLevel_spec (s1 := s1) (s2 := s2) g1 g2 (by omega) (by omega) b hb
    rw [levelLoop, rd_ok h1, Res.ok_bind, rd_ok h2, Res.ok_bind, e1, e2, f1, Res.ok_bind] at e
    exact ih (by omega) (by omega) b1 G1 e

end Lolly.FastSearch
