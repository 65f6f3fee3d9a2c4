import Verif.Strings.DecimalLemmas
import Verif.Strings.ConvertProps
import Verif.Kernel.RoundingProps

/-!
# Decimal literals, what they stand for, and how they are written and read

The specification of decimal literals (`Stands`) is used by the properties; the rest are lemmas.
-/

set_option autoImplicit false
set_option exponentiation.threshold 3000

namespace Lolly.DecimalProps

open Lolly.Rounding Lolly.Conv Lolly.Decimal Lolly.ConvProps

/-! ## Specification -/

/-- The exponent part of a literal: nothing, or `e` or `E`, a sign and digits. -/
def Expo (t : Bytes) (x : Int) : Prop :=
  (t = [] ∧ x = 0) ∨ ∃ l sg es, (l = c! 'e' ∨ l = c! 'E') ∧ t = l :: (sg ++ es) ∧ es ≠ [] ∧ Digits es ∧
    (((sg = [] ∨ sg = b!"+") ∧ x = numeral es) ∨ (sg = b!"-" ∧ x = -(numeral es : Int)))

/-- The text `s` is a decimal literal without sign and stands for the number `m * 10 ^ e`: `m` is what all digits
before and after the point make, and every digit after the point divides it by ten. -/
def Stands (s : Bytes) (m : Nat) (e : Int) : Prop :=
  ∃ ds fr fs ex x, Digits ds ∧ Digits fs ∧ ((fr = [] ∧ fs = [] ∧ ds ≠ []) ∨ (fr = c! '.' :: fs ∧ ds ++ fs ≠ [])) ∧
    Expo ex x ∧ s = ds ++ fr ++ ex ∧ m = numeral (ds ++ fs) ∧ e = x - fs.length

/-! ## Values of digits -/

theorem numeral_append (a b : Bytes) : numeral (a ++ b) = numeral a * 10 ^ b.length + numeral b := by
  induction a with
  | nil => simp [numeral]
  | cons c a ih =>
    rw [List.cons_append, numeral, numeral, ih, List.length_append, Nat.pow_add, Nat.add_mul, Nat.mul_assoc, Nat.add_assoc]

theorem numeral_zeros (k : Nat) : numeral (List.replicate k (c! '0')) = 0 := by
  induction k with
  | zero => rfl
  | succ k ih => rw [List.replicate_succ, numeral, ih]; simp

theorem natDec_digits (n : Nat) : Digits (natDec n) := digits_all.2 (natDec_spec n).1

theorem numeral_natDec (n : Nat) : numeral (natDec n) = n := by rw [← value_numeral]; exact (natDec_spec n).2.2

theorem natDec_length {n k : Nat} (h1 : 10 ^ k ≤ n) (h2 : n < 10 ^ (k + 1)) : (natDec n).length = k + 1 := by
  induction k generalizing n with
  | zero =>
    rw [natDec, if_pos (by omega)]
    rfl
  | succ k ih =>
    have e1 := Nat.pow_succ 10 k
    have e2 := Nat.pow_succ 10 (k + 1)
    have := pow10_pos k
    rw [natDec, if_neg (by omega), List.length_append, ih (by omega) (by omega)]
    rfl

theorem natDec_length_le {n k : Nat} (h : n < 10 ^ (k + 1)) : (natDec n).length ≤ k + 1 := by
  induction k generalizing n with
  | zero =>
    rw [natDec, if_pos (by omega)]
    exact Nat.le_refl _
  | succ k ih =>
    have e2 := Nat.pow_succ 10 (k + 1)
    rw [natDec]
    split
    · simp
    · rw [List.length_append]
      have := ih (n := n / 10) (by omega)
      simp only [List.length_cons, List.length_nil]
      omega

theorem natDec_ten {z : Nat} (hz : z ≠ 0) : natDec (z * 10) = natDec z ++ [c! '0'] := by
  rw [natDec, if_neg (by omega), Nat.mul_div_cancel z (by decide), Nat.mul_mod_left]
  rfl

theorem natDec_zeros {z : Nat} (hz : z ≠ 0) (k : Nat) : natDec (z * 10 ^ k) = natDec z ++ List.replicate k (c! '0') := by
  induction k with
  | zero => simp
  | succ k ih =>
    have h0 : z * 10 ^ k ≠ 0 := Nat.mul_ne_zero hz (by have := pow10_pos k; omega)
    rw [Nat.pow_succ, ← Nat.mul_assoc, natDec_ten h0, ih, List.append_assoc]
    congr 1
    exact (List.replicate_succ' ).symm

/-! ## Digits after the point -/

theorem strip_spec (f : Bytes) : ∃ j, f = strip f ++ List.replicate j (c! '0') := by
  have h : f.reverse = f.reverse.takeWhile (· = c! '0') ++ f.reverse.dropWhile (· = c! '0') :=
    List.takeWhile_append_dropWhile.symm
  have ht : f.reverse.takeWhile (· = c! '0') = List.replicate (f.reverse.takeWhile (· = c! '0')).length (c! '0') := by
    apply List.eq_replicate_of_mem
    intro c hc
    have := List.all_eq_true.1 (List.all_takeWhile (p := (· = c! '0')) (l := f.reverse)) _ hc
    simpa using this
  refine ⟨(f.reverse.takeWhile (· = c! '0')).length, ?_⟩
  unfold strip
  generalize f.reverse.takeWhile (· = c! '0') = w at h ht ⊢
  generalize f.reverse.dropWhile (· = c! '0') = d at h ⊢
  have h2 := congrArg List.reverse h
  rw [List.reverse_reverse, List.reverse_append] at h2
  rw [h2, ← List.reverse_replicate, ← ht]

theorem strip_zeros (k : Nat) : strip (List.replicate k (c! '0')) = [] := by
  unfold strip
  rw [List.reverse_replicate, List.dropWhile_replicate]
  simp

theorem exponent_expo (x : Int) : Expo (exponent x) x := by
  refine .inr ⟨c! 'e', if x < 0 then b!"-" else b!"+", (if x.natAbs < 10 then b!"0" else []) ++ natDec x.natAbs, .inl rfl, ?_, ?_, ?_, ?_⟩
  · unfold exponent
    simp only [List.append_assoc]
    rfl
  · intro h
    exact (natDec_spec x.natAbs).2.1 (List.append_eq_nil_iff.1 h).2
  · intro c hc
    rcases List.mem_append.1 hc with h | h
    · split at h
      · have : c = c! '0' := by simpa using h
        subst this
        exact (by unfold Digit; decide)
      · cases h
    · exact natDec_digits _ c h
  · have hn : numeral ((if x.natAbs < 10 then b!"0" else []) ++ natDec x.natAbs) = x.natAbs := by
      rw [numeral_append, numeral_natDec]
      split
      · simp [numeral]
      · simp [numeral]
    rw [hn]
    by_cases h : x < 0
    · rw [if_pos h]
      exact .inr ⟨rfl, by omega⟩
    · rw [if_neg h]
      exact .inl ⟨.inr rfl, by omega⟩

/-- Putting a literal together: `I` before the point, `G` after it before zeros are removed. -/
theorem stands_parts {I G ex : Bytes} {x : Int} (hI : Digits I) (hne : I ≠ []) (hG : Digits G) (hx : Expo ex x) :
    ∃ m j : Nat, Stands (I ++ fraction G ++ ex) m (x - G.length + j) ∧ m * 10 ^ j = numeral (I ++ G) := by
  obtain ⟨j, hj⟩ := strip_spec G
  have hs : Digits (strip G) := fun c hc => hG c (by rw [hj]; exact List.mem_append_left _ hc)
  have hl : (G.length : Int) = (strip G).length + j := by
    have := congrArg List.length hj
    rw [List.length_append, List.length_replicate] at this
    omega
  have hv : numeral (I ++ strip G) * 10 ^ j = numeral (I ++ G) := by
    conv => rhs; rw [hj]
    rw [← List.append_assoc, numeral_append (I ++ strip G), numeral_zeros, List.length_replicate, Nat.add_zero]
  refine ⟨numeral (I ++ strip G), j, ⟨I, fraction G, strip G, ex, x, hI, hs, ?_, hx, rfl, rfl, by omega⟩, hv⟩
  unfold fraction
  by_cases h : strip G = []
  · rw [if_pos h]
    exact .inl ⟨rfl, h, hne⟩
  · rw [if_neg h]
    exact .inr ⟨rfl, by simp [h]⟩

theorem digits_take {l : Bytes} (h : Digits l) (k : Nat) : Digits (l.take k) := fun c hc => h c (List.mem_of_mem_take hc)
theorem digits_drop {l : Bytes} (h : Digits l) (k : Nat) : Digits (l.drop k) := fun c hc => h c (List.mem_of_mem_drop hc)

theorem take_ne_nil {l : Bytes} {k : Nat} (h : l ≠ []) (hk : k ≠ 0) : l.take k ≠ [] := by
  cases l with
  | nil => exact absurd rfl h
  | cons c l => cases k with
    | zero => exact absurd rfl hk
    | succ k => simp

/-- The parts of the text of six digits `q` and an exponent. -/
theorem layout_parts {q : Nat} (y : Nat) (h1 : 10 ^ 5 ≤ q) (h2 : q < 10 ^ 6) :
    ∃ I G ex x, layout q y = I ++ fraction G ++ ex ∧ Digits I ∧ I ≠ [] ∧ Digits G ∧ Expo ex x ∧ numeral (I ++ G) = q ∧
      x - (G.length : Int) = (y : Int) - 335 ∧ ∀ c r, ex = c :: r → c = c! 'e' := by
  have hl : (natDec q).length = 6 := natDec_length h1 h2
  have hd := natDec_digits q
  have hn : natDec q ≠ [] := (natDec_spec q).2.1
  unfold layout
  split
  · refine ⟨_, _, _, _, rfl, digits_take hd 1, take_ne_nil hn (by decide), digits_drop hd 1, exponent_expo _, ?_, ?_, ?_⟩
    · rw [List.take_append_drop, numeral_natDec]
    · rw [List.length_drop, hl]
      omega
    · intro c r e
      injection e with e _
      exact e.symm
  · rename_i hy
    split
    · rename_i hy2
      refine ⟨_, _, [], 0, (List.append_nil _).symm, (by unfold Digits Digit; decide), (by simp), ?_, .inl ⟨rfl, rfl⟩, ?_, ?_, by intro c r e; cases e⟩
      · intro c hc
        rcases List.mem_append.1 hc with h | h
        · rw [List.eq_of_mem_replicate h]
          exact (by unfold Digit; decide)
        · exact hd c h
      · rw [numeral_append, numeral_append, numeral_zeros, numeral_natDec]
        simp [numeral]
      · rw [List.length_append, List.length_replicate, hl]
        omega
    · rename_i hy2
      refine ⟨_, _, [], 0, (List.append_nil _).symm, digits_take hd (y - 329), take_ne_nil hn (by omega), digits_drop hd (y - 329),
        .inl ⟨rfl, rfl⟩, ?_, ?_, by intro c r e; cases e⟩
      · rw [List.take_append_drop, numeral_natDec]
      · rw [List.length_drop, hl]
        omega

/-- What the text of six digits `q` and an exponent stands for. -/
theorem layout_stands {q : Nat} (y : Nat) (h1 : 10 ^ 5 ≤ q) (h2 : q < 10 ^ 6) :
    ∃ m j : Nat, Stands (layout q y) m ((y : Int) - 335 + j) ∧ m * 10 ^ j = q := by
  obtain ⟨I, G, ex, x, e, h3, h4, h5, h6, h7, h8, -⟩ := layout_parts y h1 h2
  obtain ⟨m, j, a, b⟩ := stands_parts h3 h4 h5 h6
  rw [h8, ← e] at a
  exact ⟨m, j, a, b.trans h7⟩

/-- `is_double` accepts the text, with or without a sign. -/
theorem layout_accepted {q : Nat} (y : Nat) (h1 : 10 ^ 5 ≤ q) (h2 : q < 10 ^ 6) {sg : Bytes} (hs : sg = [] ∨ sg = b!"-") :
    Accepted (sg ++ layout q y) := by
  obtain ⟨I, G, ex, x, e, h3, h4, h5, h6, -, -, h7⟩ := layout_parts y h1 h2
  obtain ⟨j, hj⟩ := strip_spec G
  have hG : Digits (strip G) := fun c hc => h5 c (by rw [hj]; exact List.mem_append_left _ hc)
  refine ⟨sg, I, fraction G, ex, ?_, h3, ?_, ?_, ?_, ?_⟩
  · rcases hs with h | h
    · exact .inl h
    · exact .inr (.inr (.inl h))
  · unfold fraction
    by_cases h : strip G = []
    · rw [if_pos h]; exact .inl rfl
    · rw [if_neg h]; exact .inr ⟨_, rfl, hG, by simp [h]⟩
  · simp [h4]
  · rcases h6 with ⟨h, -⟩ | ⟨l, sg', es, -, h, hne, hd, hx⟩
    · exact .inl h
    · refine .inr ⟨sg', es, h7 l _ h ▸ h, ?_, hne, hd⟩
      rcases hx with ⟨h | h, -⟩ | ⟨h, -⟩
      · exact .inl h
      · exact .inr (.inl h)
      · exact .inr (.inr (.inl h))
  · rw [e]; simp only [List.append_assoc]

/-! ## Reading a literal -/

theorem takeWhile_digits {ds : Bytes} (hd : Digits ds) {r : Bytes} (hr : ∀ c t, r = c :: t → isDig c = false) :
    (ds ++ r).takeWhile isDig = ds ∧ (ds ++ r).dropWhile isDig = r := by
  induction ds with
  | nil =>
    cases r with
    | nil => exact ⟨rfl, rfl⟩
    | cons c t =>
      have := hr c t rfl
      simp [this]
  | cons d ds ih =>
    have h1 : isDig d = true := by
      have := digits_all.1 hd
      rw [List.all_cons, Bool.and_eq_true] at this
      exact this.1
    obtain ⟨a, b⟩ := ih (fun c hc => hd c (List.mem_cons_of_mem _ hc))
    rw [List.cons_append, List.takeWhile_cons, List.dropWhile_cons, h1]
    exact ⟨by simp [a], by simp [b]⟩

theorem takeWhile_digits' {ds : Bytes} (hd : Digits ds) : ds.takeWhile isDig = ds := by
  have := (takeWhile_digits hd (r := []) (by intro c t e; cases e)).1
  rwa [List.append_nil] at this

theorem digit_ne {c d : UInt8} (h : Digit c) (hd : d.toNat < 48 ∨ 57 < d.toNat) : c ≠ d := by
  intro e
  subst e
  unfold Digit at h
  omega

theorem scanExp_expo {t : Bytes} {x : Int} (h : Expo t x) : scanExp t = x := by
  rcases h with ⟨rfl, rfl⟩ | ⟨l, sg, es, hl, rfl, hne, hd, hx⟩
  · rfl
  · have hv : (value (es.takeWhile isDig) : Int) = numeral es := by rw [takeWhile_digits' hd, value_numeral]
    cases es with
    | nil => exact absurd rfl hne
    | cons c cs =>
      have hc : Digit c := hd c List.mem_cons_self
      have hm : c ≠ c! '-' := digit_ne hc (by decide)
      have hp : c ≠ c! '+' := digit_ne hc (by decide)
      unfold scanExp
      rcases hx with ⟨rfl | rfl, rfl⟩ | ⟨rfl, rfl⟩
      · show (if _ then (if c = c! '-' then _ else if c = c! '+' then _ else _) else _) = _
        rw [if_pos hl, if_neg hm, if_neg hp]
        exact hv
      · show (if _ then (value ((c :: cs).takeWhile isDig) : Int) else _) = _
        rw [if_pos hl, hv]
      · show (if _ then -(value ((c :: cs).takeWhile isDig) : Int) else _) = _
        rw [if_pos hl, hv]

theorem expo_head {t : Bytes} {x : Int} (h : Expo t x) : ∀ c r, t = c :: r → c = c! 'e' ∨ c = c! 'E' := by
  intro c r e
  rcases h with ⟨rfl, -⟩ | ⟨l, sg, es, hl, rfl, -⟩
  · cases e
  · injection e with e _
    exact e ▸ hl

theorem scanNum_stands {s : Bytes} {m : Nat} {e : Int} (h : Stands s m e) : scanNum s = some (m, e) := by
  obtain ⟨ds, fr, fs, ex, x, hd, hf, hfr, hx, rfl, rfl, rfl⟩ := h
  have hpe : isDig (c! '.') = false := by decide
  have hh : ∀ c t, ex = c :: t → isDig c = false := by
    intro c t e
    rcases expo_head hx c t e with rfl | rfl <;> decide
  rcases hfr with ⟨rfl, rfl, hne⟩ | ⟨rfl, hne⟩
  · rw [List.append_nil]
    obtain ⟨a, b⟩ := takeWhile_digits hd hh
    have hsf : scanFrac ex = ([], ex) := by
      unfold scanFrac
      cases ex with
      | nil => rfl
      | cons c t =>
        rcases expo_head hx c t rfl with rfl | rfl <;> rfl
    unfold scanNum
    rw [a, b, hsf]
    dsimp only
    rw [List.append_nil, if_neg hne, scanExp_expo hx, value_numeral]
  · rw [List.append_assoc]
    obtain ⟨a, b⟩ := takeWhile_digits hd (r := c! '.' :: fs ++ ex) (by
      intro c t e
      injection e with e _
      rw [← e]
      exact hpe)
    have hsf : scanFrac (c! '.' :: fs ++ ex) = (fs, ex) := by
      obtain ⟨a, b⟩ := takeWhile_digits hf hh
      unfold scanFrac
      show (if c! '.' = c! '.' then ((fs ++ ex).takeWhile isDig, (fs ++ ex).dropWhile isDig) else _) = _
      rw [if_pos rfl, a, b]
    unfold scanNum
    rw [a, b, hsf]
    dsimp only
    rw [if_neg hne, scanExp_expo hx, value_numeral]

/-- A literal does not begin with white space or a sign and contains no NUL. -/
theorem stands_chars {s : Bytes} {m : Nat} {e : Int} (h : Stands s m e) :
    (∃ c t, s = c :: t ∧ isSpace c = false ∧ c ≠ c! '-' ∧ c ≠ c! '+') ∧ ∀ c ∈ s, c ≠ 0 := by
  obtain ⟨ds, fr, fs, ex, x, hd, hf, hfr, hx, rfl, -, -⟩ := h
  have hdig : ∀ c, Digit c → isSpace c = false ∧ c ≠ c! '-' ∧ c ≠ c! '+' ∧ c ≠ 0 := by
    apply forall_byte
    unfold Digit
    decide +kernel
  constructor
  · cases ds with
    | cons c t =>
      obtain ⟨a, b, c', -⟩ := hdig c (hd c List.mem_cons_self)
      exact ⟨c, _, rfl, a, b, c'⟩
    | nil =>
      rcases hfr with ⟨-, -, h⟩ | ⟨rfl, -⟩
      · exact absurd rfl h
      · exact ⟨c! '.', _, rfl, by decide, by decide, by decide⟩
  · intro c hc
    rcases List.mem_append.1 hc with hc | hc
    · rcases List.mem_append.1 hc with hc | hc
      · exact (hdig c (hd c hc)).2.2.2
      · rcases hfr with ⟨rfl, -⟩ | ⟨rfl, -⟩
        · cases hc
        · rcases List.mem_cons.1 hc with rfl | hc
          · decide
          · exact (hdig c (hf c hc)).2.2.2
    · rcases hx with ⟨rfl, -⟩ | ⟨l, sg, es, hl, rfl, -, he, hx⟩
      · cases hc
      · rcases List.mem_cons.1 hc with rfl | hc
        · rcases hl with rfl | rfl <;> decide
        · rcases List.mem_append.1 hc with hc | hc
          · have : sg = [] ∨ sg = b!"+" ∨ sg = b!"-" := by
              rcases hx with ⟨h | h, -⟩ | ⟨h, -⟩
              · exact .inl h
              · exact .inr (.inl h)
              · exact .inr (.inr h)
            rcases this with rfl | rfl | rfl
            · cases hc
            · rw [List.mem_singleton.1 hc]; decide
            · rw [List.mem_singleton.1 hc]; decide
          · exact (hdig c (he c hc)).2.2.2

theorem takeWhile_id {p : UInt8 → Bool} {s : Bytes} (h : ∀ c ∈ s, p c = true) : s.takeWhile p = s := by
  induction s with
  | nil => rfl
  | cons c s ih =>
    rw [List.takeWhile_cons, h c List.mem_cons_self, ih (fun d hd => h d (List.mem_cons_of_mem _ hd))]
    rfl

theorem asDouble_of {s : Bytes} {v : Dbl} (hsc : scanAbs s = some v)
    (hc : ∃ c t, s = c :: t ∧ isSpace c = false ∧ c ≠ c! '-' ∧ c ≠ c! '+') (hz : ∀ c ∈ s, c ≠ 0) :
    asDouble s = v ∧ asDouble (c! '-' :: s) = negate v ∧ asDouble (c! '+' :: s) = v := by
  obtain ⟨c, t, hs, h1, h2, h3⟩ := hc
  have ht : ∀ l : Bytes, (∀ c ∈ l, c ≠ 0) → l.takeWhile (· ≠ 0) = l := fun l hl =>
    takeWhile_id (fun c hc => by simp [hl c hc])
  have hneg : ∀ d : UInt8, d ≠ 0 → ∀ c ∈ d :: s, c ≠ 0 := by
    intro d hd c hc
    rcases List.mem_cons.1 hc with rfl | hc
    · exact hd
    · exact hz c hc
  have hsd : scanDouble s = some v := by
    unfold scanDouble
    rw [hs, List.dropWhile_cons, h1]
    simp only [Bool.false_eq_true, if_false, h2, h3]
    rw [← hs, hsc]
  have hsn : scanDouble (c! '-' :: s) = some (negate v) := by
    unfold scanDouble
    rw [List.dropWhile_cons, show isSpace (c! '-') = false by decide]
    simp only [Bool.false_eq_true, if_false, if_true, hsc, Option.map_some]
  have hsp : scanDouble (c! '+' :: s) = some v := by
    unfold scanDouble
    rw [List.dropWhile_cons, show isSpace (c! '+') = false by decide]
    simp only [Bool.false_eq_true, if_false, if_true, hsc, show ¬ (c! '+' = c! '-') by decide]
  unfold asDouble
  rw [ht s hz, ht _ (hneg _ (by decide)), ht _ (hneg _ (by decide)), hsd, hsn, hsp]
  exact ⟨rfl, rfl, rfl⟩

theorem scanAbs_stands {s : Bytes} {m : Nat} {e : Int} (h : Stands s m e) : scanAbs s = some (nearest m e) := by
  unfold scanAbs
  rw [scanNum_stands h]

theorem asDouble_stands {s : Bytes} {m : Nat} {e : Int} (h : Stands s m e) :
    asDouble s = nearest m e ∧ asDouble (c! '-' :: s) = negate (nearest m e) ∧ asDouble (c! '+' :: s) = nearest m e :=
  asDouble_of (scanAbs_stands h) (stands_chars h).1 (stands_chars h).2

end Lolly.DecimalProps
