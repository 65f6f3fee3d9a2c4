import Verif.Strings.DecimalLocale
import Verif.Strings.DecimalBackProps

/-!
# Lemmas on decimal text in other locales

The first definitions are the specification used by the properties.
-/

set_option autoImplicit false

namespace Lolly.DecimalLocaleProps

open Lolly.Rounding Lolly.Conv Lolly.ConvProps Lolly.DecimalProps Lolly.DecimalLocale

/-! ## Specification -/

/-- The bytes of which decimal points are made: comma, point, and the bytes of characters beyond ASCII. -/
def PointByte (c : UInt8) : Prop := c = c! ',' ∨ c = c! '.' ∨ 128 ≤ c.toNat

/-- A decimal point of a locale: one character, hence of at most 16 bytes. -/
def Point (p : Bytes) : Prop := p ≠ [] ∧ p.length ≤ 16 ∧ ∀ c ∈ p, PointByte c

/-- The text with `p` in the place of every point. -/
def localised (p s : Bytes) : Bytes := s.flatMap (fun c => if c = c! '.' then p else [c])

/-- Different characters: neither is the beginning of the other. -/
def Differ (p q : Bytes) : Prop := ¬ p <+: q ∧ ¬ q <+: p

/-! ## Bytes -/

theorem pointByte_facts : ∀ c : UInt8, PointByte c → isDig c = false ∧ Decimal.isSpace c = false ∧ c ≠ 0 ∧ c ≠ c! '-' ∧ c ≠ c! '+' ∧
    c ≠ c! 'e' ∧ c ≠ c! 'E' ∧ Decimal.lower c ≠ c! 'i' ∧ Decimal.lower c ≠ c! 'n' ∧ Decimal.lower c ≠ c! 'f' ∧ Decimal.lower c ≠ c! 'a' := by
  unfold PointByte
  apply forall_byte
  decide +kernel

theorem dot_pointByte : PointByte (c! '.') := .inr (.inl rfl)

theorem point_dot : Point (b!".") := by
  refine ⟨by decide, by decide, ?_⟩
  intro c hc
  rw [List.mem_singleton.1 hc]
  exact dot_pointByte

theorem point_cons {p : Bytes} (h : Point p) : ∃ c t, p = c :: t ∧ PointByte c := by
  cases p with
  | nil => exact absurd rfl h.1
  | cons c t => exact ⟨c, t, rfl, h.2.2 c List.mem_cons_self⟩

/-! ## The locale "C" -/

theorem fraction_dot (f : Bytes) : fraction (b!".") f = Decimal.fraction f := rfl

theorem fmtG_dot (x : Dbl) : fmtG (b!".") x = Decimal.fmtG x := by
  cases x with
  | fin n =>
    unfold fmtG Decimal.fmtG layout Decimal.layout
    simp only [fraction_dot]
  | inf neg => rfl
  | nan => rfl

theorem scanFrac_dot (s : Bytes) : scanFrac (b!".") s = Decimal.scanFrac s := by
  unfold scanFrac Decimal.scanFrac
  cases s with
  | nil => rfl
  | cons c t =>
    by_cases h : c = c! '.'
    · subst h; rfl
    · have : (b!".").isPrefixOf (c :: t) = false := by
        show ((c! '.' == c) && _) = false
        rw [beq_false_of_ne (Ne.symm h)]
        rfl
      rw [this]
      simp [h]

theorem scanAbs_dot (s : Bytes) : scanAbs (b!".") s = Decimal.scanAbs s := by
  have : scanNum (b!".") s = Decimal.scanNum s := by
    unfold scanNum Decimal.scanNum
    rw [scanFrac_dot]
  unfold scanAbs Decimal.scanAbs
  rw [this]
  cases Decimal.scanNum s with
  | none => rfl
  | some m => rfl

theorem asDouble_dot (s : Bytes) : asDouble (b!".") s = Decimal.asDouble s := by
  unfold asDouble Decimal.asDouble scanDouble Decimal.scanDouble
  congr 1
  cases (s.takeWhile (· ≠ 0)).dropWhile Decimal.isSpace with
  | nil => rfl
  | cons c t =>
    dsimp only
    rw [scanAbs_dot, scanAbs_dot]

/-! ## Replacing the point -/

theorem localised_append (p a b : Bytes) : localised p (a ++ b) = localised p a ++ localised p b := List.flatMap_append

theorem localised_cons (p : Bytes) (c : UInt8) (s : Bytes) :
    localised p (c :: s) = (if c = c! '.' then p else [c]) ++ localised p s := List.flatMap_cons

theorem localised_id {p s : Bytes} (h : ∀ c ∈ s, c ≠ c! '.') : localised p s = s := by
  induction s with
  | nil => rfl
  | cons c s ih =>
    rw [localised_cons, if_neg (h c List.mem_cons_self), ih (fun d hd => h d (List.mem_cons_of_mem _ hd))]
    rfl

theorem localised_digits {p s : Bytes} (h : Digits s) : localised p s = s :=
  localised_id fun c hc => digit_ne (h c hc) (by decide)

theorem strip_digits {f : Bytes} (h : Digits f) : Digits (Decimal.strip f) := by
  obtain ⟨j, hj⟩ := strip_spec f
  intro c hc
  exact h c (by rw [hj]; exact List.mem_append_left _ hc)

theorem fraction_localised (p : Bytes) {f : Bytes} (h : Digits f) : fraction p f = localised p (Decimal.fraction f) := by
  unfold fraction Decimal.fraction
  by_cases hs : Decimal.strip f = []
  · rw [if_pos hs, if_pos hs]; rfl
  · rw [if_neg hs, if_neg hs, localised_cons, if_pos rfl, localised_digits (strip_digits h)]

theorem exponent_localised (p : Bytes) (x : Int) : localised p (Decimal.exponent x) = Decimal.exponent x := by
  unfold Decimal.exponent
  rw [localised_append, localised_digits (natDec_digits _), localised_append, localised_append]
  congr 1
  congr 1
  · congr 1
    split <;> rfl
  · split <;> rfl

theorem layout_localised (p : Bytes) (q y : Nat) : layout p q y = localised p (Decimal.layout q y) := by
  have hd := natDec_digits q
  unfold layout Decimal.layout
  split
  · rw [localised_append, localised_append, exponent_localised, localised_digits (digits_take hd 1), fraction_localised p (digits_drop hd 1)]
  · split
    · rw [localised_append, fraction_localised]
      · rfl
      · intro c hc
        rcases List.mem_append.1 hc with h | h
        · rw [List.eq_of_mem_replicate h]
          exact (by unfold Digit; decide)
        · exact hd c h
    · rw [localised_append, localised_digits (digits_take hd _), fraction_localised p (digits_drop hd _)]

theorem fmtG_localised (p : Bytes) (x : Dbl) : fmtG p x = localised p (Decimal.fmtG x) := by
  cases x with
  | fin n =>
    unfold fmtG Decimal.fmtG
    dsimp only
    by_cases hn : n = 0
    · rw [if_pos hn, if_pos hn]; rfl
    · rw [if_neg hn, if_neg hn, localised_append, layout_localised]
      congr 1
      split <;> rfl
  | inf neg => cases neg <;> rfl
  | nan => rfl

/-! ## Reading a text in which the point is replaced -/

section
variable {p : Bytes} (hp : Point p)
include hp

theorem takeWhile_localised {f : UInt8 → Bool} (hf : ∀ c, PointByte c → f c = false) (s : Bytes) :
    (localised p s).takeWhile f = s.takeWhile f ∧ (localised p s).dropWhile f = localised p (s.dropWhile f) := by
  induction s with
  | nil => exact ⟨rfl, rfl⟩
  | cons c s ih =>
    rw [localised_cons]
    by_cases h : c = c! '.'
    · obtain ⟨d, t, e, hd⟩ := point_cons hp
      have h1 := hf _ hd
      have h2 := hf _ dot_pointByte
      rw [if_pos h, h, List.takeWhile_cons, List.dropWhile_cons, h2, e]
      constructor
      · simp [h1]
      · rw [List.cons_append, List.dropWhile_cons, h1]
        simp only [Bool.false_eq_true, if_false]
        rw [localised_cons, if_pos rfl, List.cons_append]
    · rw [if_neg h, List.singleton_append, List.takeWhile_cons, List.dropWhile_cons, List.takeWhile_cons, List.dropWhile_cons]
      cases hc : f c with
      | true => simp [ih.1, ih.2]
      | false => simp [localised_cons, h]

theorem takeWhile_localised' {f : UInt8 → Bool} (hf : ∀ c, PointByte c → f c = true) (s : Bytes) :
    (localised p s).takeWhile f = localised p (s.takeWhile f) := by
  induction s with
  | nil => rfl
  | cons c s ih =>
    rw [localised_cons]
    by_cases h : c = c! '.'
    · have : ∀ a ∈ p, f a = true := fun a ha => hf a (hp.2.2 a ha)
      rw [if_pos h, List.takeWhile_append_of_pos this, ih, h, List.takeWhile_cons, hf _ dot_pointByte]
      simp [localised_cons]
    · rw [if_neg h, List.singleton_append, List.takeWhile_cons, List.takeWhile_cons]
      cases hc : f c with
      | true => simp [ih, localised_cons, h]
      | false => simp [localised]

theorem prefix_localised {w : Bytes} (hw : ∀ a ∈ w, ∀ c, PointByte c → Decimal.lower c ≠ a) (s : Bytes) :
    w.isPrefixOf ((localised p s).map Decimal.lower) = w.isPrefixOf (s.map Decimal.lower) := by
  induction w generalizing s with
  | nil => rfl
  | cons a w ih =>
    cases s with
    | nil => rfl
    | cons c s =>
      rw [localised_cons]
      by_cases h : c = c! '.'
      · obtain ⟨d, t, e, hd⟩ := point_cons hp
        rw [if_pos h, h, e, List.cons_append, List.map_cons, List.map_cons, List.isPrefixOf_cons_cons, List.isPrefixOf_cons_cons,
          beq_false_of_ne (Ne.symm (hw a List.mem_cons_self d hd)),
          beq_false_of_ne (Ne.symm (hw a List.mem_cons_self _ dot_pointByte)), Bool.false_and, Bool.false_and]
      · rw [if_neg h, List.singleton_append, List.map_cons, List.map_cons, List.isPrefixOf_cons_cons, List.isPrefixOf_cons_cons,
          ih (fun b hb => hw b (List.mem_cons_of_mem _ hb))]

theorem scanExp_localised (s : Bytes) : Decimal.scanExp (localised p s) = Decimal.scanExp s := by
  have hdig : ∀ c, PointByte c → isDig c = false := fun c hc => (pointByte_facts c hc).1
  obtain ⟨d, t, e, hd⟩ := point_cons hp
  obtain ⟨f1, -, -, f4, f5, f6, f7, -⟩ := pointByte_facts d hd
  cases s with
  | nil => rfl
  | cons c s =>
    rw [localised_cons]
    by_cases h : c = c! '.'
    · rw [if_pos h, h, e, List.cons_append]
      unfold Decimal.scanExp
      dsimp only
      rw [if_neg (by simp [f6, f7]), if_neg (by decide)]
    · rw [if_neg h, List.singleton_append]
      unfold Decimal.scanExp
      dsimp only
      split
      · cases s with
        | nil => rfl
        | cons b u =>
          rw [localised_cons]
          by_cases hb : b = c! '.'
          · rw [if_pos hb, hb, e, List.cons_append]
            dsimp only
            rw [if_neg f4, if_neg f5, if_neg (by decide), if_neg (by decide), List.takeWhile_cons, f1, List.takeWhile_cons,
              hdig _ dot_pointByte]
            rfl
          · rw [if_neg hb, List.singleton_append]
            dsimp only
            have h1 := (takeWhile_localised hp hdig u).1
            rw [List.takeWhile_cons, List.takeWhile_cons, h1]
      · rfl

/-- What `p` is a prefix of, among texts in which the point is replaced. -/
theorem scanFrac_localised {s : Bytes} (hs : ∀ c ∈ s, PointByte c → c = c! '.') :
    scanFrac p (localised p s) = ((Decimal.scanFrac s).1, localised p (Decimal.scanFrac s).2) := by
  have hdig : ∀ c, PointByte c → isDig c = false := fun c hc => (pointByte_facts c hc).1
  obtain ⟨d, t, e, hd⟩ := point_cons hp
  unfold scanFrac Decimal.scanFrac
  cases s with
  | nil =>
    have : p.isPrefixOf (localised p []) = false := by rw [e]; rfl
    rw [this]
    rfl
  | cons c s =>
    rw [localised_cons]
    by_cases h : c = c! '.'
    · have h1 : p.isPrefixOf (p ++ localised p s) = true := List.isPrefixOf_iff_prefix.2 (List.prefix_append _ _)
      obtain ⟨a, b⟩ := takeWhile_localised hp hdig s
      dsimp only
      rw [if_pos h, if_pos h, h1, if_pos rfl, List.drop_left, a, b]
    · have hne : d ≠ c := by
        intro e
        subst e
        exact h (hs _ List.mem_cons_self hd)
      have h1 : p.isPrefixOf ([c] ++ localised p s) = false := by
        rw [e, List.singleton_append, List.isPrefixOf_cons_cons, beq_false_of_ne hne, Bool.false_and]
      dsimp only
      rw [if_neg h, if_neg h, h1]
      simp [localised_cons, h]

theorem scanAbs_localised {s : Bytes} (hs : ∀ c ∈ s, PointByte c → c = c! '.') :
    scanAbs p (localised p s) = Decimal.scanAbs s := by
  have hdig : ∀ c, PointByte c → isDig c = false := fun c hc => (pointByte_facts c hc).1
  obtain ⟨a, b⟩ := takeWhile_localised hp hdig s
  have hn : scanNum p (localised p s) = Decimal.scanNum s := by
    unfold scanNum Decimal.scanNum
    rw [a, b, scanFrac_localised hp (fun c hc => hs c ((List.dropWhile_sublist _).subset hc))]
    dsimp only
    rw [scanExp_localised hp]
  unfold scanAbs Decimal.scanAbs
  rw [hn, prefix_localised hp (w := b!"inf"), prefix_localised hp (w := b!"nan")]
  · cases Decimal.scanNum s with
    | none => rfl
    | some m => rfl
  · intro x hx c hc
    obtain ⟨-, -, -, -, -, -, -, h1, h2, h3, h4⟩ := pointByte_facts c hc
    simp at hx
    rcases hx with rfl | rfl | rfl
    · exact h2
    · exact h4
    · exact h2
  · intro x hx c hc
    obtain ⟨-, -, -, -, -, -, -, h1, h2, h3, h4⟩ := pointByte_facts c hc
    simp at hx
    rcases hx with rfl | rfl | rfl
    · exact h1
    · exact h2
    · exact h3

theorem asDouble_localised {s : Bytes} (hs : ∀ c ∈ s, PointByte c → c = c! '.') :
    asDouble p (localised p s) = Decimal.asDouble s := by
  have hsp : ∀ c, PointByte c → Decimal.isSpace c = false := fun c hc => (pointByte_facts c hc).2.1
  have h0 : ∀ c, PointByte c → decide (c ≠ 0) = true := fun c hc => by simp [(pointByte_facts c hc).2.2.1]
  unfold asDouble Decimal.asDouble
  rw [takeWhile_localised' hp h0]
  have hs' : ∀ c ∈ s.takeWhile (· ≠ 0), PointByte c → c = c! '.' := fun c hc => hs c ((List.takeWhile_sublist _).subset hc)
  generalize s.takeWhile (· ≠ 0) = u at hs'
  congr 1
  unfold scanDouble Decimal.scanDouble
  rw [(takeWhile_localised hp hsp u).2]
  have hs2 : ∀ c ∈ u.dropWhile Decimal.isSpace, PointByte c → c = c! '.' :=
    fun c hc => hs' c ((List.dropWhile_sublist _).subset hc)
  generalize u.dropWhile Decimal.isSpace = v at hs2
  obtain ⟨d, t, e, hd⟩ := point_cons hp
  obtain ⟨-, -, -, f4, f5, -⟩ := pointByte_facts d hd
  cases v with
  | nil => rfl
  | cons c v =>
    have hv := scanAbs_localised hp (s := v) (fun a ha => hs2 a (List.mem_cons_of_mem _ ha))
    have hcv := scanAbs_localised hp hs2
    rw [localised_cons] at hcv ⊢
    by_cases h : c = c! '.'
    · rw [if_pos h] at hcv ⊢
      rw [e, List.cons_append] at hcv ⊢
      dsimp only
      rw [if_neg f4, if_neg f5, h, if_neg (by decide), if_neg (by decide), ← e, ← h, ← hcv, ← e]
    · rw [if_neg h] at hcv ⊢
      rw [List.singleton_append] at hcv ⊢
      dsimp only
      rw [hv, hcv]

end

/-! ## Reading a text with another point -/

theorem takeWhile_stop {f : UInt8 → Bool} {d : UInt8} (hd : f d = false) (a t : Bytes) :
    (a ++ d :: t).takeWhile f = a.takeWhile f ∧ (a ++ d :: t).dropWhile f = a.dropWhile f ++ d :: t := by
  induction a with
  | nil => simp [hd]
  | cons c a ih =>
    rw [List.cons_append, List.takeWhile_cons, List.dropWhile_cons, List.takeWhile_cons, List.dropWhile_cons]
    cases f c with
    | true => simp [ih.1, ih.2]
    | false => simp

theorem prefix_stop {w : Bytes} {d : UInt8} (hw : ∀ a ∈ w, Decimal.lower d ≠ a) (a t : Bytes) :
    w.isPrefixOf ((a ++ d :: t).map Decimal.lower) = w.isPrefixOf (a.map Decimal.lower) := by
  induction w generalizing a with
  | nil => rfl
  | cons b w ih =>
    cases a with
    | nil =>
      rw [List.nil_append, List.map_cons, List.isPrefixOf_cons_cons, beq_false_of_ne (Ne.symm (hw b List.mem_cons_self)), Bool.false_and]
      rfl
    | cons c a =>
      rw [List.cons_append, List.map_cons, List.map_cons, List.isPrefixOf_cons_cons, List.isPrefixOf_cons_cons,
        ih (fun b hb => hw b (List.mem_cons_of_mem _ hb))]

theorem scanExp_stop {d : UInt8} (hd : PointByte d) (a t : Bytes) : Decimal.scanExp (a ++ d :: t) = Decimal.scanExp a := by
  obtain ⟨f1, -, -, f4, f5, f6, f7, -⟩ := pointByte_facts d hd
  cases a with
  | nil =>
    rw [List.nil_append]
    unfold Decimal.scanExp
    dsimp only
    rw [if_neg (by simp [f6, f7])]
  | cons c a =>
    unfold Decimal.scanExp
    cases a with
    | nil =>
      dsimp only [List.cons_append, List.nil_append]
      rw [if_neg f4, if_neg f5, List.takeWhile_cons, f1]
      rfl
    | cons b a =>
      dsimp only [List.cons_append]
      rw [(takeWhile_stop f1 a t).1, ← List.cons_append, (takeWhile_stop f1 (b :: a) t).1]

/-- A text without bytes of points, then a byte of a point: reading stops there unless the point of the locale follows. -/
theorem scanAbs_stop {q : Bytes} (hq : Point q) {d : UInt8} (hd : PointByte d) {a t : Bytes} (ha : ∀ c ∈ a, ¬ PointByte c)
    (hn : ¬ q <+: d :: t) : scanAbs q (a ++ d :: t) = scanAbs q a := by
  obtain ⟨f1, -, -, -, -, -, -, g1, g2, g3, g4⟩ := pointByte_facts d hd
  obtain ⟨x, y, e, hx⟩ := point_cons hq
  have hnum : scanNum q (a ++ d :: t) = scanNum q a := by
    unfold scanNum
    rw [(takeWhile_stop f1 a t).1, (takeWhile_stop f1 a t).2]
    have hb : ∀ c ∈ a.dropWhile isDig, ¬ PointByte c := fun c hc => ha c ((List.dropWhile_sublist _).subset hc)
    generalize a.dropWhile isDig = b at hb
    have h1 : scanFrac q (b ++ d :: t) = ([], b ++ d :: t) := by
      unfold scanFrac
      rw [if_neg]
      intro h
      have h := List.isPrefixOf_iff_prefix.1 h
      cases b with
      | nil => exact hn h
      | cons c b =>
        rw [e, List.cons_append, List.cons_prefix_cons] at h
        exact hb c List.mem_cons_self (h.1 ▸ hx)
    have h2 : scanFrac q b = ([], b) := by
      unfold scanFrac
      rw [if_neg]
      intro h
      have h := List.isPrefixOf_iff_prefix.1 h
      cases b with
      | nil => exact hq.1 (List.prefix_nil.1 h)
      | cons c b =>
        rw [e, List.cons_prefix_cons] at h
        exact hb c List.mem_cons_self (h.1 ▸ hx)
    rw [h1, h2]
    dsimp only
    rw [scanExp_stop hd]
  unfold scanAbs
  rw [hnum, prefix_stop (w := b!"inf"), prefix_stop (w := b!"nan")]
  · intro x hx
    simp at hx
    rcases hx with rfl | rfl | rfl
    · exact g2
    · exact g4
    · exact g2
  · intro x hx
    simp at hx
    rcases hx with rfl | rfl | rfl
    · exact g1
    · exact g2
    · exact g3

theorem scanAbs_nil {q : Bytes} (hq : Point q) : scanAbs q [] = none := by
  have : q.isPrefixOf ([] : Bytes) = false := by
    obtain ⟨x, y, e, hx⟩ := point_cons hq
    rw [e]; rfl
  unfold scanAbs scanNum scanFrac
  simp [this]

theorem asDouble_stop {p q : Bytes} (hp : Point p) (hq : Point q) (hd : Differ p q) {a : Bytes} (ha : ∀ c ∈ a, ¬ PointByte c)
    (r : Bytes) : asDouble q (a ++ p ++ r) = asDouble q a := by
  have h0 : ∀ c ∈ p, decide (c ≠ 0) = true := fun c hc => by simp [(pointByte_facts c (hp.2.2 c hc)).2.2.1]
  unfold asDouble
  by_cases hz : ∀ c ∈ a, decide (c ≠ 0) = true
  · rw [List.append_assoc, List.takeWhile_append_of_pos hz, List.takeWhile_append_of_pos h0, takeWhile_id hz]
    generalize r.takeWhile (· ≠ 0) = r
    congr 1
    obtain ⟨d, t, e, hdp⟩ := point_cons hp
    have hn : ¬ q <+: p ++ r := by
      intro h
      rcases Nat.le_total q.length p.length with hl | hl
      · exact hd.2 (List.prefix_of_prefix_length_le h (List.prefix_append _ _) hl)
      · exact hd.1 (List.prefix_of_prefix_length_le (List.prefix_append _ _) h hl)
    rw [e, List.cons_append] at hn ⊢
    obtain ⟨-, f2, -, f4, f5, -⟩ := pointByte_facts d hdp
    unfold scanDouble
    rw [(takeWhile_stop f2 a _).2]
    have hb : ∀ c ∈ a.dropWhile Decimal.isSpace, ¬ PointByte c := fun c hc => ha c ((List.dropWhile_sublist _).subset hc)
    generalize a.dropWhile Decimal.isSpace = b at hb
    cases b with
    | nil =>
      dsimp only [List.nil_append]
      rw [if_neg f4, if_neg f5]
      have := scanAbs_stop hq hdp (a := []) (by intro c hc; cases hc) hn
      rw [List.nil_append, scanAbs_nil hq] at this
      exact this
    | cons c b =>
      dsimp only [List.cons_append]
      have h1 := scanAbs_stop hq hdp (a := b) (fun x hx => hb x (List.mem_cons_of_mem _ hx)) hn
      have h2 := scanAbs_stop hq hdp (a := c :: b) hb hn
      rw [List.cons_append] at h2
      rw [h1, h2]
  · have key : ∀ (a s : Bytes), ¬ (∀ c ∈ a, decide (c ≠ 0) = true) →
        (a ++ s).takeWhile (· ≠ 0) = a.takeWhile (· ≠ 0) := by
      intro a s
      induction a with
      | nil => intro h; exact absurd (by intro c hc; cases hc) h
      | cons c a ih =>
        intro h
        rw [List.cons_append, List.takeWhile_cons, List.takeWhile_cons]
        by_cases hc : c = 0
        · simp [hc]
        · rw [ih]
          intro h'
          apply h
          intro b hb
          rcases List.mem_cons.1 hb with rfl | hb
          · simp [hc]
          · exact h' b hb
    rw [List.append_assoc, key a _ hz]

end Lolly.DecimalLocaleProps
