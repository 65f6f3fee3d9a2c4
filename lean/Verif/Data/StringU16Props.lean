import Verif.Data.StringU16

/-!
# C44, C78: 16-bit strings and views
-/

set_option autoImplicit false

namespace Lolly.U16Props

open Lolly.U16

/-! ## Specification -/

/-- `l` is what reading the string shows: its length, and each element. -/
def Shows (u : Rep) (l : List UInt16) : Prop :=
  u.n = l.length ∧ ∀ i x, l[i]? = some x → U16.get u i = .ok x

/-- What each call does to the contents. -/
def Effect (l : List UInt16) (lb : List UInt16) : Op → List UInt16 → Prop
  | .resize m, l' => l'.length = m ∧ l'.take (min l.length m) = l.take (min l.length m)
  | .reserve _, l' => l' = l
  | .expand d, l' => (l'.length : Int) = l.length + d ∧
      l'.take (min l.length l'.length) = l.take (min l.length l'.length)
  | .put i x, l' => l' = l.set i x
  | .push x, l' => l' = l ++ [x]
  | .append _, l' => l' = l ++ lb
  | .appendSelf, l' => l' = l ++ l

/-- Calls with a meaning: indices inside, no negative length, and no `reserve (0)` on a string that is
not empty. -/
def Valid (u : Rep) : Op → Prop
  | .put i _ => i < u.n
  | .expand d => 0 ≤ (u.n : Int) + d
  | .reserve m => m = 0 → u.n = 0
  | _ => True

/-- All strings that can be obtained, with the number of blocks lost on the way. The flag says whether
`reserve` may be called on an empty string. -/
inductive Reach (any : Prop) : Rep → Nat → Prop
  | empty : Reach any U16.empty 0
  | new (n : Nat) : Reach any (U16.new n) 0
  | ofList (l : List UInt16) (u : Rep) : ofList l = .ok u → Reach any u 0
  | ofChar (c : UInt16) (u : Rep) : ofChar c = .ok u → Reach any u 0
  | ofCharN (c : UInt16) (n : Nat) (u : Rep) : ofCharN c n = .ok u → Reach any u 0
  | concat (a : Rep) (k : Nat) (b : List UInt16) (u : Rep) : Reach any a k → concat a b = .ok u → Reach any u 0
  | append (u u' b : Rep) (k i j : Nat) : Reach any u k → Reach any b i →
      exec u (.append b) = .ok (u', j) → Reach any u' (k + j)
  | step (u u' : Rep) (k j : Nat) (op : Op) : Reach any u k → Valid u op → (∀ b, op ≠ .append b) →
      (∀ m, op = .reserve m → any ∨ u.n ≠ 0) → exec u op = .ok (u', j) → Reach any u' (k + j)

/-! ## Proofs -/

/-- The cells of the block. -/
def cells (u : Rep) : List UInt16 :=
  match u.a with
  | .block c => c
  | _ => []

def toList (u : Rep) : List UInt16 := (cells u).take u.n

/-- The pointer is NULL exactly if the capacity is zero, the block has the size recorded, and the string
fits. -/
def Inv (u : Rep) : Prop :=
  (u.n ≤ u.aN ∧ roundLength u.aN = u.aN) ∧ ((u.aN = 0 ∧ u.a = .null) ∨ (u.aN ≠ 0 ∧ ∃ c, u.a = .block c ∧ c.length = u.aN))

theorem Inv.len {u : Rep} (h : Inv u) : (cells u).length = u.aN := by
  rcases h.2 with ⟨h1, h2⟩ | ⟨h1, c, h2, h3⟩
  · simp [cells, h1, h2]
  · simp [cells, h2, h3]

theorem Inv.listLen {u : Rep} (h : Inv u) : (toList u).length = u.n := by
  have := h.len; have := h.1.1
  simp [toList]; omega

theorem Inv.blk {u : Rep} (h : Inv u) (h0 : u.aN ≠ 0) : u.a = .block (cells u) := by
  rcases h.2 with ⟨h1, h2⟩ | ⟨h1, c, h2, h3⟩
  · exact absurd h1 h0
  · simp [cells, h2]

theorem Inv.null {u : Rep} (h : Inv u) (h0 : u.aN = 0) : u.a = .null := by
  rcases h.2 with ⟨h1, h2⟩ | ⟨h1, c, h2, h3⟩
  · exact h2
  · exact absurd h0 h1

theorem pow2up_mono (n m i : Nat) (h : n ≤ m) : pow2up n i ≤ pow2up m i := by
  fun_induction pow2up n i with
  | case1 i hi ih =>
    rw [pow2up.eq_def m i, dif_pos (by omega)]
    exact ih
  | case2 i hi =>
    by_cases h0 : 0 < i
    · exact pow2up_pos m i h0
    · rw [pow2up.eq_def, dif_neg (by omega)]; omega

theorem le_round (n : Nat) : n ≤ roundLength n := Str.le_roundLength n
theorem round_mono (n m : Nat) (h : n ≤ m) : roundLength n ≤ roundLength m := by
  unfold roundLength Str.roundLength
  dsimp only
  have h' : (n + 3) / 4 * 4 ≤ (m + 3) / 4 * 4 := by omega
  generalize (n + 3) / 4 * 4 = a at *
  generalize (m + 3) / 4 * 4 = b at *
  have := pow2up_mono a b 32 h'
  have := le_pow2up b 32 (by omega)
  have := pow2up_mono 0 b 32 (by omega)
  have : pow2up 0 32 = 32 := by rw [pow2up]; simp
  split <;> split <;> omega

theorem pow2up_pow2up (n i : Nat) (h : i % 4 = 0) :
    pow2up (pow2up n i) i = pow2up n i ∧ pow2up n i % 4 = 0 := by
  fun_induction pow2up n i with
  | case1 i hi ih =>
    obtain ⟨h1, h2⟩ := ih (by omega)
    refine ⟨?_, h2⟩
    have := le_pow2up n (i * 2) (by omega)
    rw [pow2up.eq_def _ i, dif_pos (by omega)]
    exact h1
  | case2 i hi =>
    refine ⟨?_, h⟩
    rw [pow2up.eq_def, dif_neg (by omega)]

theorem round_round (n : Nat) : roundLength (roundLength n) = roundLength n := by
  unfold roundLength Str.roundLength
  dsimp only
  by_cases h : (n + 3) / 4 * 4 < 24
  · rw [if_pos h, if_pos (by omega)]; omega
  · rw [if_neg h]
    have h1 := le_pow2up ((n + 3) / 4 * 4) 32 (by omega)
    obtain ⟨h2, h3⟩ := pow2up_pow2up ((n + 3) / 4 * 4) 32 (by decide)
    rw [show (pow2up ((n + 3) / 4 * 4) 32 + 3) / 4 * 4 = pow2up ((n + 3) / 4 * 4) 32 by omega,
      if_neg (by omega), h2]

theorem round_zero {n : Nat} : roundLength n = 0 ↔ n = 0 := Str.roundLength_eq_zero

theorem shows_of_inv {u : Rep} (h : Inv u) : Shows u (toList u) := by
  refine ⟨h.listLen.symm, fun i x hx => ?_⟩
  have hi : i < u.n := by
    have := h.listLen
    by_cases hi : i < (toList u).length
    · omega
    · rw [List.getElem?_eq_none (by omega)] at hx; cases hx
  have := h.1.1
  unfold U16.get
  rw [h.blk (by omega)]
  rw [toList, List.getElem?_take, if_pos hi] at hx
  exact rd_eq_ok.2 hx

theorem shows_unique {u : Rep} {l l' : List UInt16} (h : Shows u l) (h' : Shows u l') : l = l' := by
  apply List.ext_getElem?
  intro i
  by_cases hi : i < l.length
  · have hi' : i < l'.length := by rw [← h'.1, h.1]; exact hi
    have a := h.2 i l[i] (List.getElem?_eq_getElem hi)
    have b := h'.2 i l'[i] (List.getElem?_eq_getElem hi')
    rw [a] at b
    rw [List.getElem?_eq_getElem hi, List.getElem?_eq_getElem hi', Res.ok.inj b]
  · have hi' : ¬ i < l'.length := by rw [← h'.1, h.1]; exact hi
    rw [List.getElem?_eq_none (by omega), List.getElem?_eq_none (by omega)]

theorem new_inv (n : Nat) : Inv (new n) ∧ toList (new n) = List.replicate n 0 := by
  unfold new
  by_cases h : n = 0
  · subst h
    refine ⟨⟨⟨by simp, round_round 0⟩, .inl ⟨round_zero.2 rfl, by simp⟩⟩, ?_⟩
    simp [toList, cells]
  · have hr := le_round n
    have hz : roundLength n ≠ 0 := fun e => h (round_zero.1 e)
    refine ⟨⟨⟨hr, round_round n⟩, .inr ⟨hz, _, by simp [h, newArray]; rfl, by simp⟩⟩, ?_⟩
    simp [toList, cells, h, newArray, Nat.min_eq_left hr]

theorem put_spec {u : Rep} (h : Inv u) {i : Nat} (hi : i < u.n) (x : UInt16) :
    ∃ u', put u i x = .ok u' ∧ Inv u' ∧ u'.n = u.n ∧ u'.aN = u.aN ∧ toList u' = (toList u).set i x := by
  have hn := h.1.1
  have hrr := h.1.2
  have hl := h.len
  have hb := h.blk (by omega)
  refine ⟨{ u with a := .block ((cells u).set i x) }, ?_, ⟨⟨hn, hrr⟩, .inr ⟨show u.aN ≠ 0 by omega, _, rfl, by simpa using hl⟩⟩, rfl, rfl, ?_⟩
  · unfold put
    rw [hb]
    simp only
    rw [wr_ok (show i < (cells u).length by omega)]; rfl
  · simp [toList, cells, List.take_set]

theorem resizeCells_take (n m : Nat) (c : List UInt16) (h : n ≤ m) (hn : n ≤ c.length) :
    (c.take m ++ List.replicate (m - c.length) 0).take n = c.take n := by
  rw [List.take_append, List.take_take, Nat.min_eq_left h]
  have : n - (c.take m).length = 0 := by rw [List.length_take]; omega
  rw [this]; simp

theorem reserve_spec {u : Rep} (h : Inv u) (m : Nat) (hm : m = 0 → u.n = 0) :
    ∃ u', reserve u m = .ok (u', 0) ∧ Inv u' ∧ u'.n = u.n ∧ toList u' = toList u ∧ (m ≤ u'.aN) ∧
      (m = 0 → u'.aN = 0) ∧ (m ≠ 0 → u'.aN ≠ 0) := by
  have hn := h.1.1
  have hrr := h.1.2
  have hl := h.len
  have hr := le_round m
  unfold reserve
  by_cases h0 : m = 0
  · have hn0 := hm h0
    rw [if_neg (by simp [h0])]
    by_cases ha : u.aN = 0
    · rw [if_neg (by simp [ha])]
      exact ⟨u, rfl, h, rfl, rfl, by omega, fun _ => ha, fun e => absurd h0 e⟩
    · rw [if_pos ha, h.blk ha]
      refine ⟨_, rfl, ⟨⟨by simp [hn0], round_round 0⟩, .inl ⟨rfl, rfl⟩⟩, rfl, ?_, by simp [h0], fun _ => rfl, fun e => absurd h0 e⟩
      simp [toList, hn0]
  · rw [if_pos h0]
    have hz : roundLength m ≠ 0 := fun e => h0 (round_zero.1 e)
    by_cases ha : u.aN = 0
    · rw [if_pos ha, h.null ha]
      refine ⟨_, rfl, ⟨⟨show u.n ≤ roundLength m by omega, round_round m⟩, .inr ⟨hz, _, rfl, by simp⟩⟩, rfl, ?_, hr, fun e => absurd e h0, fun _ => hz⟩
      have : u.n = 0 := by omega
      simp [toList, this]
    · rw [if_neg ha]
      by_cases hlt : u.aN < m
      · rw [if_pos hlt, h.blk ha]
        refine ⟨⟨u.n, roundLength m, .block ((cells u).take (roundLength m) ++ List.replicate (roundLength m - (cells u).length) 0)⟩,
          rfl, ⟨⟨show u.n ≤ roundLength m by omega, round_round m⟩, .inr ⟨hz, _, rfl, by simp; omega⟩⟩, rfl, ?_, hr, fun e => absurd e h0, fun _ => hz⟩
        exact resizeCells_take u.n _ _ (by omega) (by omega)
      · rw [if_neg hlt]
        exact ⟨u, rfl, h, rfl, rfl, by omega, fun e => absurd e h0, fun _ => ha⟩

/-- The reservation on a string whose length was already changed. -/
theorem expand_spec {u : Rep} (h : Inv u) (d : Int) (hd : 0 ≤ (u.n : Int) + d) :
    ∃ u', expand u d = .ok (u', 0) ∧ Inv u' ∧ (u'.n : Int) = u.n + d ∧
      (toList u').take (min u.n u'.n) = (toList u).take (min u.n u'.n) ∧ (u'.n = 0 → u'.aN = 0) := by
  unfold expand
  rw [if_neg (by omega)]
  generalize hm : ((u.n : Int) + d).toNat = m
  have hn := h.1.1
  have hrr := h.1.2
  have hl := h.len
  have hr := le_round m
  unfold reserve
  by_cases h0 : m = 0
  · rw [if_neg (by simp [h0])]
    by_cases ha : u.aN = 0
    · rw [if_neg (by simp [ha])]
      refine ⟨_, rfl, ⟨⟨by simp [h0], hrr⟩, .inl ⟨ha, h.null ha⟩⟩, by simp; omega, by simp [h0], fun _ => ha⟩
    · rw [if_pos ha, h.blk ha]
      exact ⟨_, rfl, ⟨⟨by simp [h0], round_round 0⟩, .inl ⟨rfl, rfl⟩⟩, by simp; omega, by simp [h0], fun _ => rfl⟩
  · rw [if_pos h0]
    have hz : roundLength m ≠ 0 := fun e => h0 (round_zero.1 e)
    by_cases ha : u.aN = 0
    · rw [if_pos ha, h.null ha]
      have hu : u.n = 0 := by omega
      refine ⟨_, rfl, ⟨⟨hr, round_round m⟩, .inr ⟨hz, _, rfl, by simp⟩⟩, by simp; omega, by simp [hu], fun e => absurd e h0⟩
    · rw [if_neg ha]
      by_cases hlt : u.aN < m
      · rw [if_pos hlt, h.blk ha]
        refine ⟨⟨m, roundLength m, .block ((cells u).take (roundLength m) ++ List.replicate (roundLength m - (cells u).length) 0)⟩,
          rfl, ⟨⟨hr, round_round m⟩, .inr ⟨hz, _, rfl, by simp; omega⟩⟩, by simp; omega, ?_, fun e => absurd e h0⟩
        have e1 : min u.n m = u.n := by omega
        simp only [e1, toList]
        rw [List.take_take, List.take_take, Nat.min_self, Nat.min_eq_left (by omega)]
        exact resizeCells_take _ _ _ (by omega) (by omega)
      · rw [if_neg hlt]
        refine ⟨_, rfl, ⟨⟨show m ≤ u.aN by omega, hrr⟩, .inr ⟨ha, _, h.blk ha, hl⟩⟩, by simp; omega, ?_, fun e => absurd e h0⟩
        simp only [toList, cells, List.take_take]
        congr 1; omega

theorem resize_spec {u : Rep} (h : Inv u) (m : Nat) :
    ∃ u' k, resize u m = .ok (u', k) ∧ Inv u' ∧ u'.n = m ∧
      (toList u').take (min u.n m) = (toList u).take (min u.n m) ∧
      ((u.n = 0 → u.aN = 0) → k = 0 ∧ (u'.n = 0 → u'.aN = 0)) := by
  unfold resize
  have hn := h.1.1
  have hrr := h.1.2
  have hl := h.len
  have hr := le_round m
  have hrn := le_round u.n
  have hz := round_zero (n := m)
  have hzn := round_zero (n := u.n)
  dsimp only
  by_cases h1 : roundLength m = roundLength u.n
  · rw [if_neg (by simp [h1])]
    by_cases ha : u.aN = 0
    · have : u.n = 0 := by omega
      have hm : m = 0 := by omega
      exact ⟨_, _, rfl, ⟨⟨by simp [hm], hrr⟩, .inl ⟨ha, h.null ha⟩⟩, rfl, by simp [hm], fun _ => ⟨rfl, fun _ => ha⟩⟩
    · have hma : m ≤ u.aN := by
        have := round_mono _ _ hn
        omega
      refine ⟨_, _, rfl, ⟨⟨hma, hrr⟩, .inr ⟨ha, _, h.blk ha, hl⟩⟩, rfl, ?_, fun hh => ⟨rfl, fun e => ?_⟩⟩
      · simp only [toList, cells, List.take_take]
        congr 1; omega
      · have e : m = 0 := e
        have : u.n = 0 := hzn.1 (by rw [← h1]; exact hz.2 e)
        exact hh this
  · rw [if_pos h1]
    by_cases h2 : roundLength m = 0
    · rw [if_neg (by simp [h2]), if_pos (by omega)]
      have ha : u.aN ≠ 0 := by omega
      rw [h.blk ha]
      refine ⟨_, _, rfl, ⟨⟨show m ≤ 0 by omega, round_round 0⟩, .inl ⟨rfl, rfl⟩⟩, rfl, ?_, fun _ => ⟨rfl, fun _ => rfl⟩⟩
      have : m = 0 := hz.1 h2
      simp [this]
    · rw [if_pos h2]
      by_cases h3 : roundLength u.n = 0
      · rw [if_neg (by simp [h3])]
        have hu : u.n = 0 := hzn.1 h3
        refine ⟨_, _, rfl, ⟨⟨hr, round_round m⟩, .inr ⟨h2, _, rfl, by simp⟩⟩, rfl, by simp [hu], fun hh => ⟨?_, fun e => ?_⟩⟩
        · rw [h.null (hh hu)]; rfl
        · exact absurd (hz.2 e) h2
      · rw [if_pos h3]
        have ha : u.aN ≠ 0 := by
          intro e; apply h3; rw [hzn]; omega
        rw [h.blk ha]
        refine ⟨⟨m, roundLength m, .block ((cells u).take (roundLength m) ++ List.replicate (roundLength m - (cells u).length) 0)⟩,
          0, rfl, ⟨⟨hr, round_round m⟩, .inr ⟨h2, _, rfl, by simp; omega⟩⟩, rfl, ?_, fun _ => ⟨rfl, fun e => absurd (hz.2 e) h2⟩⟩
        simp only [toList, List.take_take]
        rw [show min (min u.n m) m = min u.n m by omega, show min (min u.n m) u.n = min u.n m by omega]
        exact resizeCells_take _ _ _ (by omega) (by omega)

theorem get_of_list {u : Rep} (h : Inv u) {i : Nat} {x : UInt16} (hx : (toList u)[i]? = some x) :
    U16.get u i = .ok x := (shows_of_inv h).2 i x hx

theorem take_set_ge (l : List UInt16) (i k : Nat) (x : UInt16) (h : k ≤ i) : (l.set i x).take k = l.take k := by
  rw [List.take_set, List.set_eq_of_length_le]
  rw [List.length_take]; omega

/-- Filling cells one by one. -/
theorem fill_spec (f : Nat → Rep → Res UInt16) (l lb : List UInt16) (u : Rep) (h : Inv u)
    (hn : u.n = l.length + lb.length) (hp : (toList u).take l.length = l)
    (hf : ∀ i v, i < lb.length → Inv v → v.n = u.n → (toList v).take (l.length + i) = l ++ lb.take i →
      ∃ x, f i v = .ok x ∧ lb[i]? = some x) :
    ∃ v, forUp 0 lb.length u (fun i v => do
        let x ← f i v
        put v (i + l.length) x) = .ok v ∧ Inv v ∧ v.n = u.n ∧ v.aN = u.aN ∧ toList v = l ++ lb := by
  obtain ⟨v, e, h1, h2, h3, h4⟩ := forUp_spec (lo := 0) (hi := lb.length) (s := u)
    (body := fun i v => do
        let x ← f i v
        put v (i + l.length) x)
    (fun i v => Inv v ∧ v.n = u.n ∧ v.aN = u.aN ∧ (toList v).take (l.length + i) = l ++ lb.take i) (by omega)
    ⟨h, rfl, rfl, by simpa using hp⟩
    (fun i v _ hi ⟨h1, h2, h3, h4⟩ => by
      obtain ⟨x, ex, hx⟩ := hf i v hi h1 h2 h4
      obtain ⟨w, ew, w1, w2, w3, w4⟩ := put_spec h1 (i := i + l.length) (by omega) x
      refine ⟨w, by rw [ex, Res.ok_bind]; exact ew, w1, by omega, by omega, ?_⟩
      have hlen := h1.listLen
      rw [← Nat.add_assoc, List.take_add_one, w4, take_set_ge _ _ _ _ (by omega), h4,
        show l.length + i = i + l.length by omega, List.getElem?_set_self (by omega),
        List.take_add_one (l := lb), hx]
      simp)
  refine ⟨v, e, h1, h2, h3, ?_⟩
  rw [List.take_length] at h4
  rw [← h4, ← hn, ← h2, ← h1.listLen, List.take_length]

theorem append_spec {u : Rep} (h : Inv u) (b : Option Rep) (hb : ∀ v, b = some v → Inv v) :
    ∃ u', append u b = .ok (u', 0) ∧ Inv u' ∧ toList u' = toList u ++ toList (b.getD u) ∧
      (u'.n = 0 → u'.aN = 0) := by
  have hB : Inv (b.getD u) := by
    cases b with
    | none => exact h
    | some v => exact hb v rfl
  obtain ⟨w, e1, w1, w2, w3, w4⟩ := expand_spec h ((b.getD u).n : Int) (by omega)
  have lu := h.listLen
  have lb := hB.listLen
  have hw : (toList w).take (toList u).length = toList u := by
    rw [show min u.n w.n = u.n by omega] at w3
    rw [lu, w3, ← lu, List.take_length]
  obtain ⟨v, e2, v1, v2, v3, v4⟩ := fill_spec (fun i v => U16.get (b.getD v) i) (toList u) (toList (b.getD u)) w w1
    (by omega) hw (fun i v hi hv hvn hpre => by
      refine ⟨(toList (b.getD u))[i], ?_, List.getElem?_eq_getElem hi⟩
      cases b with
      | some c => exact get_of_list hB (List.getElem?_eq_getElem hi)
      | none =>
        simp only [Option.getD_none] at hi ⊢
        apply get_of_list hv
        have := congrArg (fun l => l[i]?) hpre
        simp only [List.getElem?_take] at this
        rw [if_pos (by omega), List.getElem?_append_left hi, List.getElem?_eq_getElem hi] at this
        exact this)
  refine ⟨v, ?_, v1, v4, fun e => by rw [v3]; exact w4 (by omega)⟩
  unfold append
  dsimp only
  rw [e1, Res.ok_bind]
  rw [lb, lu] at e2
  rw [e2]; rfl

theorem push_spec {u : Rep} (h : Inv u) (x : UInt16) :
    ∃ u', push u x = .ok (u', 0) ∧ Inv u' ∧ toList u' = toList u ++ [x] ∧ (u'.n = 0 → u'.aN = 0) := by
  obtain ⟨w, e1, w1, w2, w3, w4⟩ := expand_spec h 1 (by omega)
  obtain ⟨v, e2, v1, v2, v3, v4⟩ := put_spec w1 (i := u.n) (by omega) x
  refine ⟨v, by unfold push; rw [e1, Res.ok_bind, e2]; rfl, v1, ?_, fun e => by omega⟩
  have lu := h.listLen
  have lw := w1.listLen
  have hw : (toList w).take u.n = toList u := by
    rw [show min u.n w.n = u.n by omega] at w3
    rw [w3, ← lu, List.take_length]
  have := v1.listLen
  rw [show toList v = (toList v).take (u.n + 1) by rw [List.take_of_length_le (by omega)], List.take_add_one, v4,
    take_set_ge _ _ _ _ (Nat.le_refl _), hw, List.getElem?_set_self (by omega)]
  simp

theorem ofList_spec (l : List UInt16) : ∃ u, ofList l = .ok u ∧ Inv u ∧ toList u = l ∧ (u.n = 0 → u.aN = 0) := by
  obtain ⟨h1, h2⟩ := new_inv l.length
  obtain ⟨v, e, v1, v2, v3, v4⟩ := fill_spec (fun i _ => rd l i) [] l (new l.length) h1 (by simp [new]) rfl
    (fun i v hi _ _ _ => ⟨l[i], rd_ok hi, List.getElem?_eq_getElem hi⟩)
  refine ⟨v, e, v1, by simpa using v4, fun e => ?_⟩
  rw [v3]; rw [v2] at e
  exact round_zero.2 e

theorem ofCharN_spec (c : UInt16) (n : Nat) :
    ∃ u, ofCharN c n = .ok u ∧ Inv u ∧ toList u = List.replicate n c ∧ (u.n = 0 → u.aN = 0) := by
  obtain ⟨h1, h2⟩ := new_inv n
  obtain ⟨v, e, v1, v2, v3, v4⟩ := fill_spec (fun _ _ => .ok c) [] (List.replicate n c) (new n) h1 (by simp [new]) rfl
    (fun i v hi _ _ _ => ⟨c, rfl, by simp at hi; simp [hi]⟩)
  refine ⟨v, by unfold ofCharN; simpa using e, v1, by simpa using v4, fun e => ?_⟩
  rw [v3]; rw [v2] at e
  exact round_zero.2 e

theorem ofChar_spec (c : UInt16) : ∃ u, ofChar c = .ok u ∧ Inv u ∧ toList u = [c] ∧ (u.n = 0 → u.aN = 0) := by
  obtain ⟨h1, h2⟩ := new_inv 1
  obtain ⟨v, e, v1, v2, v3, v4⟩ := put_spec h1 (i := 0) (by simp [new]) c
  refine ⟨v, e, v1, by rw [v4, h2]; rfl, fun e => ?_⟩
  rw [v2] at e; simp [new] at e

theorem concat_spec {a : Rep} (h : Inv a) (b : List UInt16) :
    ∃ u, concat a b = .ok u ∧ Inv u ∧ toList u = toList a ++ b ∧ (u.n = 0 → u.aN = 0) := by
  have la := h.listLen
  obtain ⟨h1, h2⟩ := new_inv (a.n + b.length)
  -- the first loop
  obtain ⟨v, e, v1, v2, v3, v4⟩ := forUp_spec (lo := 0) (hi := a.n) (s := new (a.n + b.length))
    (body := fun i c => do
      let x ← U16.get a i
      put c i x)
    (fun i v => Inv v ∧ v.n = a.n + b.length ∧ v.aN = roundLength (a.n + b.length) ∧
      (toList v).take i = (toList a).take i) (by omega)
    ⟨h1, rfl, rfl, rfl⟩
    (fun i v _ hi ⟨k1, k2, k3, k4⟩ => by
      have hx : (toList a)[i]? = some (toList a)[i] := List.getElem?_eq_getElem (by omega)
      obtain ⟨w, ew, w1, w2, w3, w4⟩ := put_spec k1 (i := i) (by omega) (toList a)[i]
      have lv := k1.listLen
      refine ⟨w, by rw [get_of_list h hx, Res.ok_bind]; exact ew, w1, by omega, by omega, ?_⟩
      rw [List.take_add_one, w4, take_set_ge _ _ _ _ (Nat.le_refl _), k4, List.getElem?_set_self (by omega),
        List.take_add_one (l := toList a), hx])
  obtain ⟨w, e', w1, w2, w3, w4⟩ := fill_spec (fun i _ => rd b i) (toList a) b v v1 (by omega)
    (by rw [la, v4, ← la, List.take_length])
    (fun i v hi _ _ _ => ⟨b[i], rd_ok hi, List.getElem?_eq_getElem hi⟩)
  refine ⟨w, ?_, w1, w4, fun e => ?_⟩
  · unfold concat
    rw [e, Res.ok_bind]
    rw [la] at e'; exact e'
  · rw [w3, v3]; exact round_zero.2 (by omega)

/-- One call keeps the invariant and has the effect described. -/
theorem exec_spec {u : Rep} (h : Inv u) {op : Op} (v : Valid u op) (hb : ∀ b, op = .append b → Inv b) :
    ∃ u' k, exec u op = .ok (u', k) ∧ Inv u' ∧
      Effect (toList u) (match op with | .append b => toList b | _ => []) op (toList u') ∧
      ((u.n = 0 → u.aN = 0) → (∀ m, op = .reserve m → u.n ≠ 0) → k = 0 ∧ (u'.n = 0 → u'.aN = 0)) := by
  have lu := h.listLen
  cases op with
  | resize m =>
    obtain ⟨u', k, e, i, n, c, t⟩ := resize_spec h m
    exact ⟨u', k, e, i, ⟨by rw [i.listLen, n], by rw [lu]; exact c⟩, fun a _ => t a⟩
  | reserve m =>
    obtain ⟨u', e, i, n, c, t1, t2, t3⟩ := reserve_spec h m v
    exact ⟨u', 0, e, i, c, fun a b => ⟨rfl, fun e => absurd (n ▸ e) (b m rfl)⟩⟩
  | expand d =>
    obtain ⟨u', e, i, n, c, t⟩ := expand_spec h d v
    exact ⟨u', 0, e, i, ⟨by rw [i.listLen, n, lu], by rw [lu, i.listLen]; exact c⟩, fun _ _ => ⟨rfl, t⟩⟩
  | put i x =>
    obtain ⟨u', e, i', n, n', c⟩ := put_spec h v x
    exact ⟨u', 0, by simp only [exec]; rw [e]; rfl, i', c, fun a _ => ⟨rfl, fun e => by rw [n']; exact a (by omega)⟩⟩
  | push x =>
    obtain ⟨u', e, i, c, t⟩ := push_spec h x
    exact ⟨u', 0, e, i, c, fun _ _ => ⟨rfl, t⟩⟩
  | append b =>
    obtain ⟨u', e, i, c, t⟩ := append_spec h (some b) (fun v hv => by cases hv; exact hb b rfl)
    exact ⟨u', 0, e, i, c, fun _ _ => ⟨rfl, t⟩⟩
  | appendSelf =>
    obtain ⟨u', e, i, c, t⟩ := append_spec h none (fun v hv => by cases hv)
    exact ⟨u', 0, e, i, c, fun _ _ => ⟨rfl, t⟩⟩

theorem reach_inv {any : Prop} {u : Rep} {k : Nat} (r : Reach any u k) :
    Inv u ∧ (¬ any → k = 0 ∧ (u.n = 0 → u.aN = 0)) := by
  induction r with
  | empty => exact ⟨⟨⟨Nat.le_refl _, round_round 0⟩, .inl ⟨rfl, rfl⟩⟩, fun _ => ⟨rfl, fun _ => rfl⟩⟩
  | new n => exact ⟨(new_inv n).1, fun _ => ⟨rfl, fun e => round_zero.2 e⟩⟩
  | ofList l u e =>
    obtain ⟨u', e', i, _, t⟩ := ofList_spec l
    obtain rfl : u' = u := by rw [e] at e'; exact (Res.ok.inj e').symm
    exact ⟨i, fun _ => ⟨rfl, t⟩⟩
  | ofChar c u e =>
    obtain ⟨u', e', i, _, t⟩ := ofChar_spec c
    obtain rfl : u' = u := by rw [e] at e'; exact (Res.ok.inj e').symm
    exact ⟨i, fun _ => ⟨rfl, t⟩⟩
  | ofCharN c n u e =>
    obtain ⟨u', e', i, _, t⟩ := ofCharN_spec c n
    obtain rfl : u' = u := by rw [e] at e'; exact (Res.ok.inj e').symm
    exact ⟨i, fun _ => ⟨rfl, t⟩⟩
  | concat a k b u _ e ih =>
    obtain ⟨u', e', i, _, t⟩ := concat_spec ih.1 b
    obtain rfl : u' = u := by rw [e] at e'; exact (Res.ok.inj e').symm
    exact ⟨i, fun _ => ⟨rfl, t⟩⟩
  | append u u' b k i j _ _ e ih1 ih2 =>
    obtain ⟨v, m, e', hi, _, t⟩ := exec_spec ih1.1 (op := .append b) trivial (fun c hc => by cases hc; exact ih2.1)
    rw [e] at e'
    obtain ⟨rfl, rfl⟩ := Prod.mk.inj (Res.ok.inj e')
    refine ⟨hi, fun na => ?_⟩
    obtain ⟨a1, a2⟩ := ih1.2 na
    obtain ⟨b1, b2⟩ := t a2 (fun m hm => by cases hm)
    exact ⟨by omega, b2⟩
  | step u u' k j op _ v hnb hres e ih =>
    obtain ⟨w, m, e', hi, _, t⟩ := exec_spec ih.1 v (fun c hc => absurd hc (hnb c))
    rw [e] at e'
    obtain ⟨rfl, rfl⟩ := Prod.mk.inj (Res.ok.inj e')
    refine ⟨hi, fun na => ?_⟩
    obtain ⟨a1, a2⟩ := ih.2 na
    obtain ⟨b1, b2⟩ := t a2 (fun m hm => (hres m hm).resolve_left na)
    exact ⟨by omega, b2⟩

/-! ## C44 -/

/-- Every string obtained shows contents, of length `N`; each valid call succeeds and has the effect
described: lengths are as requested and the elements below both lengths are kept. Holds for all
histories in which `reserve (0)` is not called on a string that is not empty. -/
theorem C44_contents_partial {u : Rep} {k : Nat} (r : Reach True u k) :
    (∃ l, Shows u l) ∧
    ∀ op, Valid u op → (∀ b, op = .append b → ∃ i, Reach True b i) →
      ∃ u' j, exec u op = .ok (u', j) ∧
        ∀ l, Shows u l → ∀ lb, (∀ b, op = .append b → Shows b lb) → ∃ l', Shows u' l' ∧ Effect l lb op l' := by
  have h := (reach_inv r).1
  refine ⟨⟨_, shows_of_inv h⟩, fun op v hb => ?_⟩
  obtain ⟨u', j, e, i, eff, _⟩ := exec_spec h v (fun b hop => by
    obtain ⟨_, rb⟩ := hb b hop
    exact (reach_inv rb).1)
  refine ⟨u', j, e, fun l hl lb hlb => ⟨_, shows_of_inv i, ?_⟩⟩
  obtain rfl := shows_unique hl (shows_of_inv h)
  cases op with
  | append b =>
    obtain ⟨_, rb⟩ := hb b rfl
    obtain rfl := shows_unique (hlb b rfl) (shows_of_inv (reach_inv rb).1)
    exact eff
  | _ => exact eff

/-- The constructors and the concatenation give the elements asked for. -/
theorem C44_construct_partial (l : List UInt16) (c : UInt16) (n : Nat) :
    (∃ u, ofList l = .ok u ∧ Shows u l) ∧ (∃ u, ofCharN c n = .ok u ∧ Shows u (List.replicate n c)) ∧
    (∃ u, ofChar c = .ok u ∧ Shows u [c]) ∧
    ∀ a k m, Reach True a k → Shows a m → ∃ u, concat a l = .ok u ∧ Shows u (m ++ l) := by
  refine ⟨?_, ?_, ?_, ?_⟩
  · obtain ⟨u, e, i, t, _⟩ := ofList_spec l
    exact ⟨u, e, t ▸ shows_of_inv i⟩
  · obtain ⟨u, e, i, t, _⟩ := ofCharN_spec c n
    exact ⟨u, e, t ▸ shows_of_inv i⟩
  · obtain ⟨u, e, i, t, _⟩ := ofChar_spec c
    exact ⟨u, e, t ▸ shows_of_inv i⟩
  · intro a k m r hm
    obtain ⟨u, e, i, t, _⟩ := concat_spec (reach_inv r).1 l
    refine ⟨u, e, ?_⟩
    rw [shows_unique hm (shows_of_inv (reach_inv r).1), ← t]
    exact shows_of_inv i

/-- No block is lost and none is freed twice, the destruction included, if moreover `reserve` is never
called on an empty string. -/
theorem C44_blocks_partial {u : Rep} {k : Nat} (r : Reach False u k) : k = 0 ∧ destroy u = .ok 0 := by
  obtain ⟨i, t⟩ := reach_inv r
  obtain ⟨t1, t2⟩ := t id
  refine ⟨t1, ?_⟩
  have hn := i.1.1
  unfold destroy
  by_cases h : u.n = 0
  · rw [if_neg (by simp [h]), i.null (t2 h)]; rfl
  · rw [if_pos h, i.blk (by omega)]; rfl

/-- A history with a reallocation, an expansion and an append meets the hypotheses. -/
example : ∃ u, Reach False u 0 ∧ u.n = 8 ∧ u.aN = 64 := by
  have r1 : Reach False ⟨3, 64, .block (List.replicate 64 0)⟩ 0 :=
    .step _ _ 0 0 (.reserve 40) (.new 3) (by simp [Valid]) (by simp) (fun m hm => .inr (by simp [U16.new])) (by decide +kernel)
  have r2 : Reach False ⟨4, 64, .block (List.replicate 64 0)⟩ 0 :=
    .step _ _ 0 0 (.expand 1) r1 (by simp [Valid]) (by simp) (by simp) (by decide +kernel)
  exact ⟨⟨8, 64, .block (List.replicate 64 0)⟩, .append _ _ _ 0 0 0 r2 (.new 4) (by decide +kernel), rfl, rfl⟩

/-- `reserve` on an empty string loses the block: when the string is destroyed, and when it is resized. -/
theorem C44_leak_violated (m : Nat) (hm : 0 < m) :
    ∃ u, reserve U16.empty m = .ok (u, 0) ∧ destroy u = .ok 1 ∧
      ∀ n, 0 < n → ∃ u', resize u n = .ok (u', 1) := by
  refine ⟨⟨0, roundLength m, newArray (roundLength m)⟩, ?_, rfl, fun n hn => ?_⟩
  · unfold reserve; rw [if_pos (by omega)]; rfl
  · have h0 : roundLength 0 = 0 := round_zero.2 rfl
    have h1 : roundLength n ≠ 0 := fun e => by have := round_zero.1 e; omega
    unfold resize
    simp only [h0]
    rw [if_pos (by omega), if_pos h1, if_neg (by simp)]
    exact ⟨_, rfl⟩

/-- `reserve (0)` on a string that is not empty frees its block and keeps its length: reading any element
and destroying the string are undefined. -/
theorem C44_reserve_violated {u : Rep} {k : Nat} (r : Reach True u k) (hn : 0 < u.n) :
    ∃ u', reserve u 0 = .ok (u', 0) ∧ u'.n = u.n ∧ (∀ i, U16.get u' i = .ub) ∧ destroy u' = .ub := by
  have h := (reach_inv r).1
  have h1 := h.1.1
  refine ⟨⟨u.n, 0, .null⟩, ?_, rfl, fun i => rfl, ?_⟩
  · unfold reserve
    rw [if_neg (by simp), if_pos (by omega), h.blk (by omega)]; rfl
  · unfold destroy
    rw [if_pos (by show u.n ≠ 0; omega)]; rfl

example : ∃ u, Reach True u 0 ∧ 0 < u.n := ⟨_, .new 3, by decide⟩

/-! ## C78: views -/

section View

variable {T : Type}

/-- `a` comes before `b` in the lexicographic order: it is a proper prefix, or smaller at the first
difference. -/
def Before (key : T → Int) (a b : List T) : Prop :=
  (∃ y t, b = a ++ y :: t) ∨ ∃ p x y s t, a = p ++ x :: s ∧ b = p ++ y :: t ∧ key x < key y

theorem before_cons (key : T → Int) (x y : T) (a b : List T) :
    Before key (x :: a) (y :: b) ↔ key x < key y ∨ (x = y ∧ Before key a b) := by
  constructor
  · rintro (⟨z, t, h⟩ | ⟨p, u, v, s, t, h1, h2, h3⟩)
    · simp only [List.cons_append, List.cons.injEq] at h
      exact .inr ⟨h.1.symm, .inl ⟨z, t, h.2⟩⟩
    · cases p with
      | nil =>
        simp only [List.nil_append, List.cons.injEq] at h1 h2
        left; rw [h1.1, h2.1]; exact h3
      | cons q p =>
        simp only [List.cons_append, List.cons.injEq] at h1 h2
        exact .inr ⟨by rw [h1.1, h2.1], .inr ⟨p, u, v, s, t, h1.2, h2.2, h3⟩⟩
  · rintro (h | ⟨rfl, ⟨z, t, h⟩ | ⟨p, u, v, s, t, h1, h2, h3⟩⟩)
    · exact .inr ⟨[], x, y, a, b, rfl, rfl, h⟩
    · exact .inl ⟨z, t, by rw [h]; rfl⟩
    · exact .inr ⟨x :: p, u, v, s, t, by rw [h1]; rfl, by rw [h2]; rfl, h3⟩

/-- The first decided comparison. -/
def firstDiff (key : T → Int) : List T → List T → Option Bool
  | x :: a, y :: b => if key x < key y then some true else if key y < key x then some false else firstDiff key a b
  | _, _ => none

theorem viewCmp_spec (key : T → Int) (a b : List T) :
    viewCmp (fun x y => decide (key x < key y)) a b = .ok (firstDiff key a b) := by
  unfold viewCmp forRet
  have gen : ∀ n i, i + n = min a.length b.length →
      retN (fun i => do
        let x ← rd a i
        let y ← rd b i
        .ok (if decide (key x < key y) = true then some true else if decide (key y < key x) = true then some false else none))
        n i = .ok (firstDiff key (a.drop i) (b.drop i)) := by
    intro n
    induction n with
    | zero =>
      intro i hi
      rw [retN]
      by_cases h : a.length ≤ b.length
      · rw [List.drop_of_length_le (l := a) (by omega)]; simp [firstDiff]
      · rw [List.drop_of_length_le (l := b) (by omega)]
        cases List.drop i a <;> simp [firstDiff]
    | succ n ih =>
      intro i hi
      have ha : i < a.length := by omega
      have hb : i < b.length := by omega
      rw [retN, rd_ok ha, rd_ok hb, List.drop_eq_getElem_cons ha, List.drop_eq_getElem_cons hb, firstDiff]
      simp only [Res.ok_bind, decide_eq_true_eq]
      by_cases h1 : key a[i] < key b[i]
      · rw [if_pos h1, if_pos h1]
      · rw [if_neg h1, if_neg h1]
        by_cases h2 : key b[i] < key a[i]
        · rw [if_pos h2, if_pos h2]
        · rw [if_neg h2, if_neg h2]
          have := ih (i + 1) (by omega)
          simp only [decide_eq_true_eq] at this
          exact this
  have := gen (min a.length b.length) 0 (by omega)
  simpa using this

theorem firstDiff_spec (key : T → Int) (inj : ∀ x y, key x = key y → x = y) : ∀ a b : List T,
    ((firstDiff key a b).getD (decide (a.length < b.length)) = true ↔ Before key a b) ∧
    ((firstDiff key a b).getD (decide (a.length ≤ b.length)) = true ↔ Before key a b ∨ a = b)
  | [], [] => by
    have : ¬ Before key ([] : List T) [] := by
      rintro (⟨y, t, h⟩ | ⟨p, x, y, s, t, h1, h2, h3⟩)
      · simp at h
      · simp at h1
    simp [firstDiff, this]
  | [], y :: b => by
    have : Before key ([] : List T) (y :: b) := .inl ⟨y, b, rfl⟩
    simp [firstDiff, this]
  | x :: a, [] => by
    have : ¬ Before key (x :: a) [] := by
      rintro (⟨y, t, h⟩ | ⟨p, x, y, s, t, h1, h2, h3⟩)
      · simp at h
      · simp at h2
    simp [firstDiff, this]
  | x :: a, y :: b => by
    obtain ⟨ih1, ih2⟩ := firstDiff_spec key inj a b
    rw [before_cons key, firstDiff]
    by_cases h1 : key x < key y
    · simp [h1]
    · rw [if_neg h1]
      by_cases h2 : key y < key x
      · have hne : x ≠ y := by rintro rfl; omega
        simp [h1, h2, hne]
      · rw [if_neg h2]
        have : x = y := inj x y (by omega)
        subst this
        simp only [List.length_cons, Nat.add_lt_add_iff_right, Nat.add_le_add_iff_right, h1, false_or, true_and,
          List.cons.injEq]
        exact ⟨ih1, ih2⟩

/-- Comparison of views: `<` is the lexicographic order, `<=` adds equality. The order of the elements is
the order of the integers they stand for. -/
theorem C78_order (key : T → Int) (inj : ∀ x y, key x = key y → x = y) (a b : List T) :
    (∃ r, viewLt (fun x y => decide (key x < key y)) a b = .ok r ∧ (r = true ↔ Before key a b)) ∧
    (∃ r, viewLe (fun x y => decide (key x < key y)) a b = .ok r ∧ (r = true ↔ Before key a b ∨ a = b)) := by
  obtain ⟨h1, h2⟩ := firstDiff_spec key inj a b
  refine ⟨⟨_, ?_, h1⟩, ⟨_, ?_, h2⟩⟩
  · unfold viewLt; rw [viewCmp_spec]; rfl
  · unfold viewLe; rw [viewCmp_spec]; rfl

/-- Exactly one of `a < b`, `a == b`, `b < a` holds. -/
theorem C78_trichotomy (key : T → Int) (inj : ∀ x y, key x = key y → x = y) : ∀ a b : List T,
    (Before key a b ∨ a = b ∨ Before key b a) ∧ (Before key a b → a ≠ b ∧ ¬ Before key b a)
  | [], [] => by
    have : ¬ Before key ([] : List T) [] := by
      rintro (⟨y, t, h⟩ | ⟨p, x, y, s, t, h1, h2, h3⟩)
      · simp at h
      · simp at h1
    simp [this]
  | [], y :: b => by
    have h : Before key ([] : List T) (y :: b) := .inl ⟨y, b, rfl⟩
    refine ⟨.inl h, fun _ => ⟨by simp, ?_⟩⟩
    rintro (⟨y, t, h⟩ | ⟨p, x, y, s, t, h1, h2, h3⟩)
    · simp at h
    · simp at h2
  | x :: a, [] => by
    have h : Before key ([] : List T) (x :: a) := .inl ⟨x, a, rfl⟩
    refine ⟨.inr (.inr h), ?_⟩
    rintro (⟨y, t, h⟩ | ⟨p, x, y, s, t, h1, h2, h3⟩)
    · simp at h
    · simp at h2
  | x :: a, y :: b => by
    obtain ⟨ih1, ih2⟩ := C78_trichotomy key inj a b
    rw [before_cons key, before_cons key]
    constructor
    · by_cases h1 : key x < key y
      · exact .inl (.inl h1)
      · by_cases h2 : key y < key x
        · exact .inr (.inr (.inl h2))
        · have : x = y := inj x y (by omega)
          subst this
          rcases ih1 with h | h | h
          · exact .inl (.inr ⟨rfl, h⟩)
          · exact .inr (.inl (by rw [h]))
          · exact .inr (.inr (.inr ⟨rfl, h⟩))
    · rintro (h | ⟨rfl, h⟩)
      · have hne : x ≠ y := by rintro rfl; omega
        refine ⟨by simp [hne], ?_⟩
        rintro (g | ⟨rfl, _⟩)
        · omega
        · exact hne rfl
      · obtain ⟨g1, g2⟩ := ih2 h
        refine ⟨by simpa using g1, ?_⟩
        rintro (g | ⟨_, g⟩)
        · omega
        · exact g2 g

/-- `==` and `!=` of views. -/
theorem C78_equality [DecidableEq T] (a b : List T) :
    viewEq a b = .ok (decide (a = b)) ∧ viewNe a b = .ok (decide (a ≠ b)) := by
  unfold viewEq viewNe
  by_cases hl : a.length = b.length
  · rw [if_neg (by simpa using hl), if_neg (by simpa using hl)]
    have hb : ∀ (r : Bool) i, 0 ≤ i → i < a.length → (do
        let x ← rd a i
        let y ← rd b i
        Res.ok (if x ≠ y then some r else none)) =
        .ok (if a[i]? ≠ b[i]? then some r else none) := by
      intro r i _ hi
      rw [rd_ok hi, rd_ok (show i < b.length by omega)]
      simp only [Res.ok_bind]
      rw [List.getElem?_eq_getElem hi, List.getElem?_eq_getElem (show i < b.length by omega)]
      simp
    constructor
    · rcases forRet_spec (hb false) with ⟨e, h⟩ | ⟨i, r, _, hi, h1, _, e⟩
      · rw [e]
        have : a = b := List.ext_getElem? fun i => by
          by_cases hi : i < a.length
          · have := h i (Nat.zero_le _) hi
            by_cases hh : a[i]? = b[i]?
            · exact hh
            · rw [if_pos hh] at this; cases this
          · rw [List.getElem?_eq_none (by omega), List.getElem?_eq_none (by omega)]
        simp [this]
      · rw [e]
        have hne : a ≠ b := by rintro rfl; simp at h1
        split at h1
        · cases h1; simp [hne]
        · cases h1
    · rcases forRet_spec (hb true) with ⟨e, h⟩ | ⟨i, r, _, hi, h1, _, e⟩
      · rw [e]
        have : a = b := List.ext_getElem? fun i => by
          by_cases hi : i < a.length
          · have := h i (Nat.zero_le _) hi
            by_cases hh : a[i]? = b[i]?
            · exact hh
            · rw [if_pos hh] at this; cases this
          · rw [List.getElem?_eq_none (by omega), List.getElem?_eq_none (by omega)]
        simp [this]
      · rw [e]
        have hne : a ≠ b := by rintro rfl; simp at h1
        split at h1
        · cases h1; simp [hne]
        · cases h1
  · have hne : a ≠ b := by rintro rfl; exact hl rfl
    rw [if_pos (by simpa using hl), if_pos (by simpa using hl)]
    simp [hne]

/-- `v (b, e)` shows the elements with index from `b` to `e`, as far as they exist, and nothing outside the view. -/
theorem C78_slice (a : List T) (b e : Int) :
    ∃ v, viewSub a b e = .ok v ∧ ∀ i : Nat, v[i]? = if max 0 b + i < e then a[(max 0 b + i).toNat]? else none := by
  unfold viewSub
  by_cases h : e ≤ b
  · rw [if_pos h]
    exact ⟨[], rfl, fun i => by rw [if_neg (by omega)]; rfl⟩
  · rw [if_neg h]
    dsimp only
    rw [window, if_pos (by omega)]
    refine ⟨_, rfl, fun i => ?_⟩
    rw [List.getElem?_take, List.getElem?_drop]
    by_cases h1 : max 0 b + i < e
    · rw [if_pos h1]
      by_cases h2 : max 0 b + (i : Int) < a.length
      · rw [if_pos (by omega)]; congr 1; omega
      · rw [List.getElem?_eq_none (l := a) (i := (max 0 b + (i : Int)).toNat) (by omega)]
        split
        · rw [List.getElem?_eq_none (by omega)]
        · rfl
    · rw [if_neg h1]
      split
      · rw [List.getElem?_eq_none (by omega)]
      · rfl

end View

/-- The two element types of the library: `char` (signed) and `char16_t`. -/
example : (∀ x y : UInt8, schar x = schar y → x = y) ∧
    (∀ x y : UInt16, (x.toNat : Int) = y.toNat → x = y) := by
  refine ⟨fun x y h => ?_, fun x y h => UInt16.toNat_inj.1 (by omega)⟩
  have := Int8.toInt_inj.1 h
  simpa using congrArg Int8.toUInt8 this

example : Before (fun x : UInt16 => (x.toNat : Int)) [1, 2] [1, 0x8000] :=
  .inr ⟨[1], 2, 0x8000, [], [], rfl, rfl, by decide⟩

end Lolly.U16Props
