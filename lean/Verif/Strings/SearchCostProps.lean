import Verif.Strings.SearchCost
import Verif.Strings.SearchLemmas

set_option autoImplicit false

/-!
# C162: what searching and matching in strings costs
-/

namespace Lolly.SearchCostProps

open Lolly.An Lolly.SearchCost

/-- The counted function has the same outcome as the function itself, and counts at most `b` if it succeeds. -/
def Within {α : Type} (counted : Res (α × Nat)) (outcome : Res α) (b : Nat) : Prop :=
  match outcome with
  | .ok a => ∃ n, counted = .ok (a, n) ∧ n ≤ b
  | .ub => counted = .ub
  | .thrown => counted = .thrown
  | .hang => counted = .hang

/-! ## Proofs -/

theorem Within.mono {α : Type} {x : Res (α × Nat)} {y : Res α} {b c : Nat} (h : Within x y b) (hb : b ≤ c) :
    Within x y c := by
  cases y with
  | ok a => obtain ⟨n, e, hn⟩ := h; exact ⟨n, e, by omega⟩
  | ub => exact h
  | thrown => exact h
  | hang => exact h

theorem Within.plus {α : Type} {x : Res (α × Nat)} {y : Res α} {b n c : Nat} (h : Within x y b) (hb : n + b ≤ c) :
    Within (plus n x) y c := by
  unfold SearchCost.plus
  cases y with
  | ok a => obtain ⟨m, e, hn⟩ := h; rw [e]; exact ⟨n + m, rfl, by omega⟩
  | ub => rw [show x = .ub from h]; rfl
  | thrown => rw [show x = .thrown from h]; rfl
  | hang => rw [show x = .hang from h]; rfl

theorem Within.bind {α β : Type} {x : Res (α × Nat)} {y : Res α} {b c : Nat} {f : α × Nat → Res (β × Nat)}
    {g : α → Res β} (h : Within x y b) (hf : ∀ a n, n ≤ b → Within (f (a, n)) (g a) c) : Within (x >>= f) (y >>= g) c := by
  cases y with
  | ok a => obtain ⟨m, e, hn⟩ := h; rw [e]; exact hf a m hn
  | ub => rw [show x = .ub from h]; exact rfl
  | thrown => rw [show x = .thrown from h]; exact rfl
  | hang => rw [show x = .hang from h]; exact rfl

theorem Within.read {α β : Type} {x : Res α} {c : Nat} {f : α → Res (β × Nat)}
    {g : α → Res β} (hf : ∀ a, Within (f a) (g a) c) : Within (x >>= f) (x >>= g) c := by
  cases x with
  | ok a => exact hf a
  | ub => exact rfl
  | thrown => exact rfl
  | hang => exact rfl

theorem Within.ok {α : Type} {a : α} {n b : Nat} (h : n ≤ b) : Within (.ok (a, n)) (.ok a) b := ⟨n, rfl, h⟩

theorem test_within (s : Bytes) (t : Bytes) : ∀ i, Within (testC s i t) (test s i t) t.length := by
  induction t with
  | nil => intro i; exact .ok (Nat.zero_le _)
  | cons c t ih =>
    intro i
    unfold testC test
    split
    · exact .ok (Nat.zero_le _)
    · apply Within.read
      intro d
      split
      · exact .ok (by simp)
      · exact (ih (i + 1)).plus (by simp; omega)

theorem testHead_within (get : Nat → Res UInt8) (inn : Bytes) (pos : Nat) (c : UInt8) (s : Bytes) :
    Within (testHeadC get inn pos c s) (testHead get inn pos c s) (s.length + 1) := by
  unfold testHeadC testHead
  apply Within.read
  intro d
  split
  · exact (test_within inn s pos).plus (by omega)
  · exact .ok (by omega)

/-- All characters of the patterns, and one more for each. -/
def size (a : List Bytes) : Nat := (a.map fun p => p.length + 1).sum

theorem anyAt_within (get : Nat → Res UInt8) (inn : Bytes) (pos : Nat) (a : List Bytes) :
    Within (anyAtC get inn pos a) (anyAt get inn pos a) (size a) := by
  induction a with
  | nil => exact .ok (Nat.zero_le _)
  | cons p ps ih =>
    have hs : size (p :: ps) = p.length + 1 + size ps := by simp [size]
    unfold anyAtC anyAt
    cases p with
    | nil => exact ih.mono (by omega)
    | cons c p =>
      dsimp only
      apply (testHead_within get inn pos c (c :: p)).bind
      intro t n hn
      dsimp only
      split
      · exact .ok (by omega)
      · exact ih.plus (by omega)

theorem forwardsAny_within (get : Nat → Res UInt8) (a : List Bytes) (inn : Bytes) (k : Nat) :
    ∀ pos, inn.length + 1 - pos = k → Within (forwardsAnyC get a pos inn) (forwardsAny get a pos inn) (k * size a) := by
  induction k with
  | zero =>
    intro pos hk
    rw [forwardsAnyC, forwardsAny, if_neg (by omega), if_neg (by omega)]
    exact .ok (Nat.zero_le _)
  | succ k ih =>
    intro pos hk
    rw [forwardsAnyC, forwardsAny, if_pos (by omega), if_pos (by omega)]
    apply (anyAt_within get inn pos a).bind
    intro t n hn
    dsimp only
    have hm : (k + 1) * size a = k * size a + size a := by rw [Nat.add_mul, Nat.one_mul]
    split
    · exact .ok (by omega)
    · exact (ih (pos + 1) (by omega)).plus (by omega)

theorem forwardsLoop_within (s : Bytes) (c : UInt8) (inn : Bytes) (k : Nat) :
    ∀ pos, inn.length + 1 - pos = k →
      Within (forwardsLoopC s c inn pos) (forwardsLoop s c inn pos) (k * (s.length + 1)) := by
  induction k with
  | zero =>
    intro pos hk
    rw [forwardsLoopC, forwardsLoop, if_neg (by omega), if_neg (by omega)]
    exact .ok (Nat.zero_le _)
  | succ k ih =>
    intro pos hk
    rw [forwardsLoopC, forwardsLoop]
    by_cases h : pos + s.length ≤ inn.length
    · rw [if_pos h, if_pos h]
      apply (testHead_within (rd inn) inn pos c s).bind
      intro t n hn
      dsimp only
      have hm : (k + 1) * (s.length + 1) = k * (s.length + 1) + (s.length + 1) := by rw [Nat.add_mul, Nat.one_mul]
      split
      · exact .ok (by omega)
      · exact (ih (pos + 1) (by omega)).plus (by omega)
    · rw [if_neg h, if_neg h]
      exact .ok (Nat.zero_le _)

theorem forwards_within (s : Bytes) (pos : Int) (inn : Bytes) :
    Within (forwardsC s pos inn) (forwards s pos inn) ((inn.length + 1 - pos.toNat) * (s.length + 1)) := by
  unfold forwardsC forwards
  split
  · exact .ok (Nat.zero_le _)
  · apply Within.read
    intro c
    split
    · split
      · exact rfl
      · exact .ok (Nat.zero_le _)
    · exact forwardsLoop_within s c inn _ _ rfl

/-- C162: `search_forwards` compares at most `N (s) + 1` characters for every position. -/
theorem C162_forwards (s : Bytes) (pos : Int) (inn : Bytes) :
    Within (forwardsC s pos inn) (forwards s pos inn) ((inn.length + 1) * (s.length + 1)) :=
  (forwards_within s pos inn).mono (Nat.mul_le_mul_right _ (by omega))

/-- C162: the same for a list of patterns, whose sizes add up. -/
theorem C162_forwards_any (get : Nat → Res UInt8) (a : List Bytes) (pos : Nat) (inn : Bytes) :
    Within (forwardsAnyC get a pos inn) (forwardsAny get a pos inn) ((inn.length + 1) * size a) :=
  (forwardsAny_within get a inn _ pos rfl).mono (Nat.mul_le_mul_right _ (by omega))

/-- C162: `search_backwards` from the position `k - 1`. -/
theorem C162_backwards (s inn : Bytes) (k : Nat) :
    Within (backwardsLoopC s inn k) (backwardsLoop s inn k) (k * s.length) := by
  induction k with
  | zero => exact .ok (Nat.zero_le _)
  | succ k ih =>
    unfold backwardsLoopC backwardsLoop
    apply (test_within inn s k).bind
    intro t n hn
    dsimp only
    have hm : (k + 1) * s.length = k * s.length + s.length := by rw [Nat.add_mul, Nat.one_mul]
    split
    · exact .ok (by omega)
    · exact ih.plus (by omega)

/-- Where `search_forwards` found the pattern, and what it cost: positions before are paid for. -/
theorem forwardsLoop_found (s : Bytes) (c : UInt8) (inn : Bytes) (k : Nat) :
    ∀ pos, inn.length + 1 - pos = k → ∀ (q : Int) n, forwardsLoopC s c inn pos = .ok (q, n) →
      (q = -1 ∧ n ≤ k * (s.length + 1)) ∨ ∃ p : Nat, q = p ∧ pos ≤ p ∧ p ≤ inn.length ∧ n ≤ (p + 1 - pos) * (s.length + 1) := by
  induction k with
  | zero =>
    intro pos hk q n h
    rw [forwardsLoopC, if_neg (by omega)] at h
    cases h
    exact .inl ⟨rfl, Nat.zero_le _⟩
  | succ k ih =>
    intro pos hk q n h
    rw [forwardsLoopC] at h
    split at h
    · rename_i hle
      obtain ⟨⟨t, m⟩, e, h⟩ := Res.bind_eq_ok.mp h
      dsimp only at h
      have hm : m ≤ s.length + 1 := by
        have := testHead_within (rd inn) inn pos c s
        rw [e] at this
        cases hy : testHead (rd inn) inn pos c s with
        | ok a => rw [hy] at this; obtain ⟨n', e', hn'⟩ := this; cases e'; exact hn'
        | ub => rw [hy] at this; cases this
        | thrown => rw [hy] at this; cases this
        | hang => rw [hy] at this; cases this
      split at h
      · cases h
        refine .inr ⟨pos, rfl, Nat.le_refl _, by omega, ?_⟩
        rw [show pos + 1 - pos = 1 by omega, Nat.one_mul]
        exact hm
      · obtain ⟨⟨q', n'⟩, e', h⟩ := Res.bind_eq_ok.mp h
        cases h
        have hmul : (k + 1) * (s.length + 1) = k * (s.length + 1) + (s.length + 1) := by rw [Nat.add_mul, Nat.one_mul]
        rcases ih (pos + 1) (by omega) _ _ e' with ⟨h1, h2⟩ | ⟨p, h1, h2, h3, h4⟩
        · exact .inl ⟨h1, by omega⟩
        · refine .inr ⟨p, h1, by omega, h3, ?_⟩
          have : (p + 1 - pos) * (s.length + 1) = (p + 1 - (pos + 1)) * (s.length + 1) + (s.length + 1) := by
            rw [show p + 1 - pos = (p + 1 - (pos + 1)) + 1 by omega, Nat.add_mul, Nat.one_mul]
          omega
    · cases h
      exact .inl ⟨rfl, Nat.zero_le _⟩

theorem countLoop_within (s inn : Bytes) (f : Nat) : ∀ (i : Nat) (count : Nat),
    Within (countLoopC s inn f i count) (countLoop s inn f i count) ((inn.length + 1 - i) * (s.length + 1)) := by
  induction f with
  | zero => intro i count; exact rfl
  | succ f ih =>
    intro i count
    unfold countLoopC countLoop
    split
    · rename_i hi
      have hw := forwards_within s (i : Int) inn
      have hi' : ((i : Int)).toNat = i := rfl
      rw [hi'] at hw
      cases hf : forwards s (i : Int) inn with
      | ub => rw [hf] at hw; rw [show forwardsC s (i : Int) inn = .ub from hw]; exact rfl
      | thrown => rw [hf] at hw; rw [show forwardsC s (i : Int) inn = .thrown from hw]; exact rfl
      | hang => rw [hf] at hw; rw [show forwardsC s (i : Int) inn = .hang from hw]; exact rfl
      | ok next =>
        rw [hf] at hw
        obtain ⟨n, e, hn⟩ := hw
        rw [e, Res.ok_bind, Res.ok_bind]
        dsimp only
        split
        · exact .ok hn
        · rename_i hne
          have hfound : ∃ p : Nat, next = p ∧ i ≤ p ∧ p ≤ inn.length ∧ n ≤ (p + 1 - i) * (s.length + 1) := by
            unfold forwardsC at e
            split at e
            · cases e
              exact ⟨i, rfl, Nat.le_refl _, by omega, Nat.zero_le _⟩
            · obtain ⟨c, -, e⟩ := Res.bind_eq_ok.mp e
              rw [if_neg (by omega), hi'] at e
              rcases forwardsLoop_found s c inn _ i rfl next n e with ⟨h1, -⟩ | h
              · exact absurd h1 hne
              · exact h
          obtain ⟨p, rfl, h1, h2, h3⟩ := hfound
          have := ih (p + 1) (count + 1)
          have hc : ((p : Int) + 1) = ((p + 1 : Nat) : Int) := by omega
          rw [hc]
          apply this.plus
          have hsum : (inn.length + 1 - i) * (s.length + 1) =
              (p + 1 - i) * (s.length + 1) + (inn.length + 1 - (p + 1)) * (s.length + 1) := by
            rw [← Nat.add_mul]
            congr 1
            omega
          omega
    · exact .ok (Nat.zero_le _)

/-- C162: `count_occurrences` compares no more characters than one search. -/
theorem C162_count (s inn : Bytes) (fuel : Nat) :
    Within (countLoopC s inn fuel 0 0) (countOccurrences fuel s inn) ((inn.length + 1) * (s.length + 1)) :=
  countLoop_within s inn fuel 0 0

theorem replaceLoop_within (s what by_ : Bytes) (hw : what ≠ []) (f : Nat) : ∀ i r,
    Within (replaceLoopC s what by_ f i r) (replaceLoop s what by_ f i r) ((s.length - i) * what.length) := by
  have hpos := List.length_pos_iff.mpr hw
  induction f with
  | zero => intro i r; exact rfl
  | succ f ih =>
    intro i r
    unfold replaceLoopC replaceLoop
    split
    · rename_i hi
      apply (test_within s what i).bind
      intro t n hn
      dsimp only
      have hsum : ∀ j, 0 < j → what.length + (s.length - (i + j)) * what.length ≤ (s.length - i) * what.length := by
        intro j hj
        have : (s.length - i) * what.length = (s.length - (i + 1)) * what.length + what.length := by
          rw [show s.length - i = (s.length - (i + 1)) + 1 by omega, Nat.add_mul, Nat.one_mul]
        have h2 : (s.length - (i + j)) * what.length ≤ (s.length - (i + 1)) * what.length :=
          Nat.mul_le_mul_right _ (by omega)
        omega
      split
      · have := hsum what.length hpos
        exact (ih _ _).plus (by omega)
      · apply Within.read
        intro c
        have := hsum 1 (by omega)
        exact (ih _ _).plus (by omega)
    · exact .ok (Nat.zero_le _)

/-- C162: `replace` compares at most `N (what)` characters for every position. (For an empty `what` it runs for ever,
C21.) -/
theorem C162_replace (s what by_ : Bytes) (hw : what ≠ []) (fuel : Nat) :
    Within (replaceLoopC s what by_ fuel 0 []) (replace fuel s what by_) (s.length * what.length) :=
  replaceLoop_within s what by_ hw fuel 0 []

theorem tokenLoop_within (s sep : Bytes) (hw : sep ≠ []) (f : Nat) : ∀ i st a,
    Within (tokenLoopC s sep f i st a) (tokenLoop s sep f i st a) ((s.length - i) * sep.length) := by
  have hpos := List.length_pos_iff.mpr hw
  induction f with
  | zero => intro i st a; exact rfl
  | succ f ih =>
    intro i st a
    unfold tokenLoopC tokenLoop
    split
    · rename_i hi
      apply (test_within s sep i).bind
      intro t n hn
      dsimp only
      have hsum : ∀ j, 0 < j → sep.length + (s.length - (i + j)) * sep.length ≤ (s.length - i) * sep.length := by
        intro j hj
        have : (s.length - i) * sep.length = (s.length - (i + 1)) * sep.length + sep.length := by
          rw [show s.length - i = (s.length - (i + 1)) + 1 by omega, Nat.add_mul, Nat.one_mul]
        have h2 : (s.length - (i + j)) * sep.length ≤ (s.length - (i + 1)) * sep.length :=
          Nat.mul_le_mul_right _ (by omega)
        omega
      split
      · have := hsum sep.length hpos
        exact (ih _ _ _).plus (by omega)
      · have := hsum 1 (by omega)
        exact (ih _ _ _).plus (by omega)
    · exact .ok (Nat.zero_le _)

/-- C162: `tokenize` compares at most `N (sep)` characters for every position. -/
theorem C162_tokenize (s sep : Bytes) (hw : sep ≠ []) (fuel : Nat) :
    Within (tokenLoopC s sep fuel 0 0 []) (tokenize fuel s sep) (s.length * sep.length) :=
  tokenLoop_within s sep hw fuel 0 0 []

example : forwardsC (b!"aab") 0 (b!"aaaaaaab") = .ok (5, 24) ∧
    replaceLoopC (b!"aXbXX") (b!"XX") (b!"-") 9 0 [] = .ok (b!"aXb-", 6) := by
  constructor
  · simp [forwardsC, forwardsLoopC, testHeadC, testC, plus, rd]
  · decide +kernel

/-! ## Wildcards -/

theorem starLoop_within {n : Nat} {rc : Nat → Res (Bool × Nat)} {r : Nat → Res Bool} {b : Nat}
    (h : ∀ i, Within (rc i) (r i) b) (k : Nat) :
    ∀ spos, n + 1 - spos = k → Within (starLoopC n rc spos) (starLoop n r spos) (k * b) := by
  induction k with
  | zero =>
    intro spos hk
    rw [starLoopC, starLoop, if_neg (by omega), if_neg (by omega)]
    exact .ok (Nat.zero_le _)
  | succ k ih =>
    intro spos hk
    rw [starLoopC, starLoop, if_pos (by omega), if_pos (by omega)]
    apply (h spos).bind
    intro t m hm
    dsimp only
    have hmul : (k + 1) * b = k * b + b := by rw [Nat.add_mul, Nat.one_mul]
    split
    · exact .ok (by omega)
    · exact (ih (spos + 1) (by omega)).plus (by omega)

/-- The number of stars of the pattern from a position on. -/
def stars (w : Bytes) (wpos : Nat) : Nat := (w.drop wpos).count (c! '*')

theorem stars_le {w : Bytes} {i j : Nat} (h : i ≤ j) : stars w j ≤ stars w i := by
  unfold stars
  rw [show j = i + (j - i) by omega, ← List.drop_drop]
  exact List.Sublist.count_le _ (List.drop_sublist _ _)

theorem match_within (s w : Bytes) (f : Nat) : ∀ spos wpos, wpos ≤ w.length →
    Within (matchWildC s w f spos wpos) (matchWild s w f spos wpos)
      ((w.length - wpos + 1) * (s.length + 1) ^ stars w wpos) := by
  induction f with
  | zero => intro spos wpos _; exact rfl
  | succ f ih =>
    intro spos wpos hle
    unfold matchWildC matchWild
    have hone : 1 ≤ (s.length + 1) ^ stars w wpos := Nat.pow_pos (by omega)
    have hge : 1 ≤ (w.length - wpos + 1) * (s.length + 1) ^ stars w wpos := Nat.mul_pos (by omega) hone
    split
    · exact .ok hge
    · rename_i hne
      have hlt : wpos < w.length := by omega
      rw [rd_ok hlt, Res.ok_bind, Res.ok_bind]
      split
      · split
        · apply Within.read
          intro d
          split
          · apply (ih (spos + 1) (wpos + 1) (by omega)).plus
            have h1 : (s.length + 1) ^ stars w (wpos + 1) ≤ (s.length + 1) ^ stars w wpos :=
              Nat.pow_le_pow_right (by omega) (stars_le (by omega))
            have h2 : (w.length - wpos + 1) * (s.length + 1) ^ stars w wpos =
                (w.length - wpos) * (s.length + 1) ^ stars w wpos + (s.length + 1) ^ stars w wpos := by
              rw [Nat.add_mul, Nat.one_mul]
            have h3 : (w.length - (wpos + 1) + 1) * (s.length + 1) ^ stars w (wpos + 1) ≤
                (w.length - wpos) * (s.length + 1) ^ stars w wpos := Nat.mul_le_mul (by omega) h1
            omega
          · exact .ok hge
        · exact .ok hge
      · rename_i hstar
        have hstar : w[wpos] = c! '*' := Classical.not_not.mp hstar
        obtain ⟨j, e, h1, h2, h3⟩ := skipStars_spec w wpos hle
        have hj : wpos < j := by
          rcases Nat.lt_or_eq_of_le h1 with h | h
          · exact h
          · exfalso
            subst h
            rw [skipStars, if_pos hlt, rd_ok hlt] at e
            simp only [Res.ok_bind, hstar, if_true] at e
            obtain ⟨j', e', h1', _⟩ := skipStars_spec w (wpos + 1) (by omega)
            rw [e'] at e
            simp only [Res.ok.injEq] at e; omega
        rw [e, Res.ok_bind, Res.ok_bind]
        have hs : stars w wpos = stars w (wpos + 1) + 1 := by
          unfold stars
          rw [List.drop_eq_getElem_cons hlt, hstar, List.count_cons_self]
        have hk := starLoop_within (n := s.length) (fun i => ih i j h2) _ spos rfl
        apply hk.plus
        have h4 : (s.length + 1) ^ stars w j ≤ (s.length + 1) ^ stars w (wpos + 1) :=
          Nat.pow_le_pow_right (by omega) (stars_le (by omega))
        have h5 : (s.length + 1 - spos) * ((w.length - j + 1) * (s.length + 1) ^ stars w j) ≤
            (s.length + 1) * ((w.length - wpos) * (s.length + 1) ^ stars w (wpos + 1)) :=
          Nat.mul_le_mul (by omega) (Nat.mul_le_mul (by omega) h4)
        have h6 : (s.length + 1) * ((w.length - wpos) * (s.length + 1) ^ stars w (wpos + 1)) =
            (w.length - wpos) * (s.length + 1) ^ stars w wpos := by
          rw [hs, Nat.pow_succ, Nat.mul_left_comm, Nat.mul_comm (s.length + 1)]
        have h7 : (w.length - wpos + 1) * (s.length + 1) ^ stars w wpos =
            (w.length - wpos) * (s.length + 1) ^ stars w wpos + (s.length + 1) ^ stars w wpos := by
          rw [Nat.add_mul, Nat.one_mul]
        omega

/-- C162 for patterns with at most one star: the number of calls of `match_wildcard` is bounded by the product of the
lengths. In general every star contributes a factor. -/
theorem C162_wildcard_partial (s w : Bytes) (fuel : Nat) :
    Within (matchWildC s w fuel 0 0) (matchWildcard fuel s w) ((w.length + 1) * (s.length + 1) ^ w.count (c! '*')) ∧
    (w.count (c! '*') ≤ 1 → Within (matchWildC s w fuel 0 0) (matchWildcard fuel s w) ((w.length + 1) * (s.length + 1))) := by
  have h := match_within s w fuel 0 0 (Nat.zero_le _)
  refine ⟨h, fun h1 => ?_⟩
  have hp : (s.length + 1) ^ w.count (c! '*') ≤ (s.length + 1) ^ 1 := Nat.pow_le_pow_right (by omega) h1
  rw [Nat.pow_one] at hp
  exact h.mono (Nat.mul_le_mul_left _ hp)

/-- Pascal's triangle. -/
def pascal : Nat → Nat → Nat
  | _, 0 => 1
  | 0, _ + 1 => 1
  | r + 1, m + 1 => pascal r (m + 1) + pascal r m

theorem pascal_mono (r : Nat) : ∀ m, pascal r m ≤ pascal (r + 1) m := by
  intro m
  cases m with
  | zero => simp [pascal]
  | succ m => rw [pascal]; omega

theorem pascal_pow (m : Nat) : 2 ^ m ≤ pascal (2 * m) m := by
  induction m with
  | zero => decide
  | succ m ih =>
    rw [show 2 * (m + 1) = 2 * m + 1 + 1 by omega, pascal, pascal]
    have := pascal_mono (2 * m) m
    rw [Nat.pow_succ]
    omega

/-- `*a*a...*a`. -/
def groups : Nat → Bytes
  | 0 => []
  | m + 1 => c! '*' :: c! 'a' :: groups m

theorem groups_length (m : Nat) : (groups m).length = 2 * m := by
  induction m with
  | zero => rfl
  | succ m ih => simp [groups, ih]; omega

theorem match_costs {n : Nat} {s w : Bytes} (hs : s = List.replicate n (c! 'a')) (m : Nat) :
    ∀ f spos wpos, spos ≤ n → w.drop wpos = groups m ++ (b!"b") → 2 * m < f →
      ∃ c, matchWildC s w f spos wpos = .ok (false, c) ∧ pascal (n - spos) m ≤ c := by
  have hlen : s.length = n := by rw [hs, List.length_replicate]
  have hget : ∀ i, i < n → rd s i = .ok (c! 'a') := by
    intro i hi
    rw [rd_eq_ok, hs, List.getElem?_replicate, if_pos hi]
  induction m with
  | zero =>
    intro f spos wpos hsp hd hf
    obtain ⟨f, rfl⟩ : ∃ g, f = g + 1 := ⟨f - 1, by omega⟩
    have hd : w.drop wpos = [98] := hd
    have hlt : wpos < w.length := by
      have := congrArg List.length hd
      simp at this
      omega
    have hw : rd w wpos = .ok 98 := by
      rw [rd_ok hlt]
      have := List.drop_eq_getElem_cons hlt
      rw [hd] at this
      injection this with h1 _
      rw [← h1]
    refine ⟨1, ?_, by simp [pascal]⟩
    unfold matchWildC
    rw [if_neg (by omega), hw, Res.ok_bind, if_pos (by decide)]
    split
    · rw [hget spos (by omega), Res.ok_bind, if_neg (by decide)]
    · rfl
  | succ m ih =>
    intro f spos wpos hsp hd hf
    obtain ⟨f, rfl⟩ : ∃ g, f = g + 1 + 1 := ⟨f - 2, by omega⟩
    have hd : w.drop wpos = c! '*' :: c! 'a' :: (groups m ++ (b!"b")) := hd
    have hl := congrArg List.length hd
    simp at hl
    have hg0 : w[wpos]? = some (c! '*') := by
      have := congrArg (·[0]?) hd
      simpa using this
    have hg1 : w[wpos + 1]? = some (c! 'a') := by
      have := congrArg (·[1]?) hd
      simpa using this
    have hd2 : w.drop (wpos + 2) = groups m ++ (b!"b") := by
      rw [← List.drop_drop, hd]
      rfl
    have hskip : skipStars w wpos = .ok (wpos + 1) := by
      rw [skipStars, if_pos (by omega), rd_eq_ok.mpr hg0, Res.ok_bind, if_pos rfl, skipStars, if_pos (by omega),
        rd_eq_ok.mpr hg1, Res.ok_bind, if_neg (by decide)]
    have hround : ∀ sp, sp ≤ n → ∃ c, matchWildC s w (f + 1) sp (wpos + 1) = .ok (false, c) ∧
        (sp < n → pascal (n - (sp + 1)) m ≤ c) ∧ 1 ≤ c := by
      intro sp hsp
      unfold matchWildC
      rw [if_neg (by omega), rd_eq_ok.mpr hg1, Res.ok_bind, if_pos (by decide), hlen]
      by_cases h : sp < n
      · rw [if_pos h, hget sp h, Res.ok_bind, if_pos rfl]
        obtain ⟨c, e, hc⟩ := ih f (sp + 1) (wpos + 2) (by omega) hd2 (by omega)
        rw [e]
        exact ⟨1 + c, rfl, fun _ => by omega, by omega⟩
      · rw [if_neg h]
        exact ⟨1, rfl, fun h' => absurd h' h, Nat.le_refl _⟩
    have hloop : ∀ r sp, n - sp = r → sp ≤ n →
        ∃ c, starLoopC n (fun sp => matchWildC s w (f + 1) sp (wpos + 1)) sp = .ok (false, c) ∧ pascal r (m + 1) ≤ c := by
      intro r
      induction r with
      | zero =>
        intro sp hr hle
        obtain ⟨c, e, -, h1⟩ := hround sp hle
        rw [starLoopC, if_pos hle, e, Res.ok_bind]
        dsimp only
        rw [if_neg (by decide), starLoopC, if_neg (by omega)]
        exact ⟨c + 0, rfl, by simpa [pascal] using h1⟩
      | succ r ihr =>
        intro sp hr hle
        obtain ⟨c, e, h0, -⟩ := hround sp hle
        obtain ⟨c', e', h'⟩ := ihr (sp + 1) (by omega) (by omega)
        rw [starLoopC, if_pos hle, e, Res.ok_bind]
        dsimp only
        rw [if_neg (by decide), e']
        refine ⟨c + c', rfl, ?_⟩
        have := h0 (by omega)
        rw [show n - (sp + 1) = r by omega] at this
        rw [pascal]
        omega
    unfold matchWildC
    rw [if_neg (by omega), rd_eq_ok.mpr hg0, Res.ok_bind, if_neg (by decide), hskip, Res.ok_bind, hlen]
    obtain ⟨c, e, hc⟩ := hloop _ spos rfl hsp
    rw [e]
    exact ⟨1 + c, rfl, by omega⟩

/-- C162 fails for patterns with many stars: to find out that `2 k` letters `a` do not match `*a*a...*ab`, a pattern of
`2 k + 1` characters, takes at least `2 ^ k` calls. So the product of the lengths is not a bound. -/
theorem C162_wildcard_violated :
    (∀ k, ∃ s w : Bytes, s.length = 2 * k ∧ w.length = 2 * k + 1 ∧
      ∃ n, matchWildC s w (w.length + 1) 0 0 = .ok (false, n) ∧ 2 ^ k ≤ n) ∧
    ¬ ∀ s w : Bytes, Within (matchWildC s w (w.length + 1) 0 0) (matchWildcard (w.length + 1) s w)
      ((w.length + 1) * (s.length + 1)) := by
  have key : ∀ k, ∃ s w : Bytes, s.length = 2 * k ∧ w.length = 2 * k + 1 ∧
      ∃ n, matchWildC s w (w.length + 1) 0 0 = .ok (false, n) ∧ 2 ^ k ≤ n := by
    intro k
    have hw : (groups k ++ (b!"b")).length = 2 * k + 1 := by rw [List.length_append, groups_length]; rfl
    refine ⟨List.replicate (2 * k) (c! 'a'), groups k ++ (b!"b"), List.length_replicate, hw, ?_⟩
    obtain ⟨c, e, hc⟩ := match_costs (n := 2 * k) (w := groups k ++ (b!"b")) rfl k ((groups k ++ (b!"b")).length + 1) 0 0
      (Nat.zero_le _) rfl (by omega)
    exact ⟨c, e, Nat.le_trans (pascal_pow k) hc⟩
  refine ⟨key, fun h => ?_⟩
  obtain ⟨s, w, h1, h2, n, e, hn⟩ := key 10
  have := h s w
  rw [e] at this
  cases hy : matchWildcard (w.length + 1) s w with
  | ok a =>
    rw [hy] at this
    obtain ⟨n', e', hn'⟩ := this
    cases e'
    rw [h1, h2] at hn'
    omega
  | ub => rw [hy] at this; cases this
  | thrown => rw [hy] at this; cases this
  | hang => rw [hy] at this; cases this

example : (b!"m*.cpp").count (c! '*') ≤ 1 := by decide

end Lolly.SearchCostProps
