import Verif.Strings.CharsProps

/-!
# C29: alphabetic numbering
-/

set_option autoImplicit false

namespace Lolly.AlphaProps

open Lolly.An

/-! ## Specification -/

/-- A letter `a`, ..., `z`. -/
def Letter (c : UInt8) : Prop := 97 ≤ c.toNat ∧ c.toNat ≤ 122

/-- A nonempty string of letters. -/
def Name (s : Bytes) : Prop := s ≠ [] ∧ ∀ c ∈ s, Letter c

/-- `s` comes before `t` in the enumeration a, b, ..., z, aa, ab, ...: it is shorter, or of the same
length and smaller at the first difference. -/
def Before (s t : Bytes) : Prop :=
  s.length < t.length ∨ s.length = t.length ∧
    ∃ p x y s' t', s = p ++ x :: s' ∧ t = p ++ y :: t' ∧ x.toNat < y.toNat

/-! ## The number of a name -/

/-- Horner's rule with digits 1, ..., 26. -/
def num (s : Bytes) : Nat := s.foldl (fun v c => v * 26 + (c.toNat - 96)) 0

theorem num_snoc (s : Bytes) (c : UInt8) : num (s ++ [c]) = num s * 26 + (c.toNat - 96) := by
  simp [num]

theorem num_append (s t : Bytes) : num (s ++ t) = num s * 26 ^ t.length + num t := by
  have : ∀ t : Bytes, num (s ++ t.reverse) = num s * 26 ^ t.length + num t.reverse := by
    intro t
    induction t with
    | nil => simp [num]
    | cons c t ih =>
      rw [List.reverse_cons, ← List.append_assoc, num_snoc, ih, num_snoc, List.length_cons, Nat.pow_succ]
      rw [Nat.add_mul, Nat.mul_assoc]; omega
  have := this t.reverse
  simpa using this

/-- `rep k` is the smallest number of a name of `k` letters. -/
def rep : Nat → Nat
  | 0 => 0
  | k + 1 => rep k * 26 + 1

theorem rep_pow (k : Nat) : rep (k + 1) = 26 ^ k + rep k := by
  induction k with
  | zero => rfl
  | succ k ih =>
    have e1 : rep (k + 1 + 1) = rep (k + 1) * 26 + 1 := rfl
    have e2 : rep (k + 1) = rep k * 26 + 1 := rfl
    rw [Nat.pow_succ]; omega

theorem num_bounds (s : Bytes) (h : ∀ c ∈ s, Letter c) : rep s.length ≤ num s ∧ num s < rep (s.length + 1) := by
  have : ∀ s : Bytes, (∀ c ∈ s, Letter c) →
      rep s.length ≤ num s.reverse ∧ num s.reverse < rep (s.length + 1) := by
    intro s h
    induction s with
    | nil => exact ⟨Nat.le_refl _, by decide⟩
    | cons c s ih =>
      have ⟨h1, h2⟩ := ih fun d hd => h d (List.mem_cons_of_mem _ hd)
      have hc := h c (by simp)
      unfold Letter at hc
      rw [List.reverse_cons, num_snoc, List.length_cons]
      simp only [rep] at h2 ⊢
      omega
  have := this s.reverse (by simpa using h)
  simpa using this

theorem rep_le {a b : Nat} (h : a ≤ b) : rep a ≤ rep b := by
  induction b with
  | zero => obtain rfl : a = 0 := by omega
            exact Nat.le_refl _
  | succ b ih =>
    by_cases e : a = b + 1
    · rw [e]; exact Nat.le_refl _
    · have := ih (by omega); rw [rep]; omega

theorem before_num {s t : Bytes} (hs : ∀ c ∈ s, Letter c) (ht : ∀ c ∈ t, Letter c) (h : Before s t) :
    num s < num t := by
  rcases h with h | ⟨hl, p, x, y, s', t', rfl, rfl, hxy⟩
  · have h1 := (num_bounds s hs).2
    have h2 := (num_bounds t ht).1
    have := rep_le (show s.length + 1 ≤ t.length by omega)
    omega
  · have hl' : s'.length = t'.length := by simp at hl; exact hl
    have h1 := (num_bounds s' fun c hc => hs c (by simp [hc])).2
    have h2 := (num_bounds t' fun c hc => ht c (by simp [hc])).1
    rw [num_append, num_append, List.length_cons, List.length_cons, hl',
      show x :: s' = [x] ++ s' from rfl, show y :: t' = [y] ++ t' from rfl, num_append, num_append, hl']
    have hx := hs x (by simp)
    have hy := ht y (by simp)
    unfold Letter at hx hy
    have e1 : num [x] = x.toNat - 96 := by simp [num]
    have e2 : num [y] = y.toNat - 96 := by simp [num]
    rw [hl', rep_pow] at h1
    have : (x.toNat - 96 + 1) * 26 ^ t'.length ≤ (y.toNat - 96) * 26 ^ t'.length :=
      Nat.mul_le_mul_right _ (by omega)
    rw [Nat.add_mul] at this
    rw [e1, e2]; omega

theorem before_total (s t : Bytes) (h : s ≠ t) : Before s t ∨ Before t s := by
  by_cases h1 : s.length < t.length
  · exact .inl (.inl h1)
  by_cases h2 : t.length < s.length
  · exact .inr (.inl h2)
  have hl : s.length = t.length := by omega
  clear h1 h2
  have : ∀ s t : Bytes, s.length = t.length → s ≠ t →
      ∃ p x y s' t', s = p ++ x :: s' ∧ t = p ++ y :: t' ∧ x ≠ y := by
    intro s
    induction s with
    | nil => intro t hl h; cases t with
      | nil => exact absurd rfl h
      | cons => simp at hl
    | cons a s ih =>
      intro t hl h
      cases t with
      | nil => simp at hl
      | cons b t =>
        by_cases hab : a = b
        · subst hab
          obtain ⟨p, x, y, s', t', rfl, rfl, hxy⟩ := ih t (by simpa using hl) (fun e => h (by rw [e]))
          exact ⟨a :: p, x, y, s', t', rfl, rfl, hxy⟩
        · exact ⟨[], a, b, s, t, rfl, rfl, hab⟩
  obtain ⟨p, x, y, s', t', e1, e2, hxy⟩ := this s t hl h
  have : x.toNat ≠ y.toNat := fun e => hxy (UInt8.toNat_inj.1 e)
  by_cases hlt : x.toNat < y.toNat
  · exact .inl (.inr ⟨hl, p, x, y, s', t', e1, e2, hlt⟩)
  · exact .inr (.inr ⟨hl.symm, p, y, x, t', s', e2, e1, by omega⟩)

theorem alphaNat_spec (n : Nat) (hn : 1 ≤ n) : Name (alphaNat n) ∧ num (alphaNat n) = n := by
  fun_induction alphaNat n with
  | case1 => omega
  | case2 n h0 h =>
    have e : (UInt8.ofNat (97 + n - 1)).toNat = 96 + n := by
      rw [UInt8.toNat_ofNat', Nat.mod_eq_of_lt (by omega)]; omega
    refine ⟨⟨by simp, fun c hc => ?_⟩, ?_⟩
    · simp only [List.mem_singleton] at hc
      subst hc
      unfold Letter; rw [e]; omega
    · simp only [num, List.foldl_cons, List.foldl_nil, e]; omega
  | case3 n h0 h ih1 ih2 =>
    obtain ⟨⟨a1, a2⟩, a3⟩ := ih1 (by omega)
    obtain ⟨⟨b1, b2⟩, b3⟩ := ih2 (by omega)
    refine ⟨⟨by simp [a1], fun c hc => ?_⟩, ?_⟩
    · rcases List.mem_append.1 hc with hc | hc
      · exact a2 c hc
      · exact b2 c hc
    · have hl : (alphaNat ((n - 1) % 26 + 1)).length = 1 := by
        rw [alphaNat, if_neg (by omega), dif_pos (by omega)]; rfl
      rw [num_append, a3, b3, hl]; omega

theorem num_inj {s t : Bytes} (hs : ∀ c ∈ s, Letter c) (ht : ∀ c ∈ t, Letter c) (h : num s = num t) : s = t := by
  refine Classical.byContradiction fun hne => ?_
  rcases before_total s t hne with hb | hb
  · have := before_num hs ht hb; omega
  · have := before_num ht hs hb; omega

/-! ## C29 -/

/-- `alpha_nr (n)` is a nonempty string over a-z for `n >= 1`, the names come in the order
a, b, ..., z, aa, ab, ..., and no name is skipped. -/
theorem C29_enumerates (n : Nat) (hn : 1 ≤ n) :
    ∃ s, alphaNr n = .ok s ∧ Name s ∧
      (∀ m : Nat, 1 ≤ m → m < n → ∃ t, alphaNr m = .ok t ∧ Before t s) ∧
      ∀ t, Name t → Before t s → ∃ m : Nat, 1 ≤ m ∧ m < n ∧ alphaNr m = .ok t := by
  have run : ∀ m : Nat, alphaNr m = .ok (alphaNat m) := by
    intro m; unfold alphaNr; rw [if_neg (by omega)]; rfl
  obtain ⟨h1, h2⟩ := alphaNat_spec n hn
  refine ⟨alphaNat n, run n, h1, ?_, ?_⟩
  · intro m hm hmn
    refine ⟨_, run m, ?_⟩
    obtain ⟨g1, g2⟩ := alphaNat_spec m hm
    rcases before_total (alphaNat m) (alphaNat n) (fun e => by
      have := congrArg num e; omega) with hb | hb
    · exact hb
    · have := before_num h1.2 g1.2 hb; omega
  · intro t ht hb
    have hlt := before_num ht.2 h1.2 hb
    have hpos : 1 ≤ num t := by
      have := (num_bounds t ht.2).1
      have h0 : t.length ≠ 0 := by
        intro e; exact ht.1 (by simpa using e)
      have := rep_le (show 1 ≤ t.length by omega)
      simp only [rep] at this; omega
    obtain ⟨g1, g2⟩ := alphaNat_spec (num t) hpos
    exact ⟨num t, hpos, by omega, by rw [run, num_inj g1.2 ht.2 g2]⟩

/-- Every name is `alpha_nr (n)` for exactly one `n >= 1`. -/
theorem C29_bijective (s : Bytes) (hs : Name s) :
    ∃ n : Nat, 1 ≤ n ∧ alphaNr n = .ok s ∧ ∀ m : Nat, 1 ≤ m → alphaNr m = .ok s → m = n := by
  have run : ∀ m : Nat, alphaNr m = .ok (alphaNat m) := by
    intro m; unfold alphaNr; rw [if_neg (by omega)]; rfl
  have hpos : 1 ≤ num s := by
    have := (num_bounds s hs.2).1
    have h0 : s.length ≠ 0 := by
      intro e; exact hs.1 (by simpa using e)
    have := rep_le (show 1 ≤ s.length by omega)
    simp only [rep] at this; omega
  obtain ⟨g1, g2⟩ := alphaNat_spec (num s) hpos
  refine ⟨num s, hpos, by rw [run, num_inj g1.2 hs.2 g2], fun m hm he => ?_⟩
  rw [run] at he
  rw [← Res.ok.inj he, (alphaNat_spec m hm).2]

example : Name (b!"zab") := ⟨by decide, by unfold Letter; decide⟩
example : Before (b!"z") (b!"aa") ∧ Before (b!"az") (b!"ba") :=
  ⟨.inl (by decide), .inr ⟨rfl, [], 97, 98, [122], [97], rfl, rfl, by decide⟩⟩

/-- Zero, negative numbers, and the upper-case variant. The smallest integer is excluded: it cannot be
negated. -/
theorem C29_other (n : Nat) (hn : n < 2 ^ 31) :
    alphaNr 0 = .ok (b!"0") ∧
    (1 ≤ n → ∃ s, alphaNr n = .ok s ∧ alphaNr (-(n : Int)) = .ok (c! '-' :: s)) ∧
    (1 ≤ n → ∃ s, alphaNr n = .ok s ∧
      AlphaNr n = .ok (s.map fun c => UInt8.ofNat (c.toNat - 32))) ∧
    alphaNr (-2 ^ 31) = .ub := by
  have run : ∀ m : Nat, alphaNr m = .ok (alphaNat m) := by
    intro m; unfold alphaNr; rw [if_neg (by omega)]; rfl
  refine ⟨?_, ?_, ?_, ?_⟩
  · unfold alphaNr; rw [if_neg (by omega), show (0 : Int).toNat = 0 from rfl, alphaNat, if_pos rfl]
  · intro h
    refine ⟨_, run n, ?_⟩
    unfold alphaNr
    rw [if_pos (by omega), if_neg (by omega), Int.neg_neg]; rfl
  · intro h
    refine ⟨_, run n, ?_⟩
    unfold AlphaNr
    rw [run]
    simp only [Res.ok_bind]
    unfold upcaseAll
    rw [mapBytes_eq]
    congr 1
    refine List.map_congr_left fun c hc => ?_
    have hl := (alphaNat_spec n h).1.2 c hc
    unfold Letter at hl
    exact forall_byte (P := fun c => 97 ≤ c.toNat ∧ c.toNat ≤ 122 →
      upcase c = UInt8.ofNat (c.toNat - 32)) (by decide +kernel) c hl
  · unfold alphaNr; rw [if_pos (by omega), if_pos (by omega)]

end Lolly.AlphaProps
