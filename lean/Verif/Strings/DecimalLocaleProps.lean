import Verif.Strings.DecimalLocaleLemmas

/-!
# C177: doubles as text in other locales

What a program sees that has set a locale whose decimal point is not `.`; the specification (`Point`, `localised`, `Differ`)
is at the beginning of `DecimalLocaleLemmas`.
-/

set_option autoImplicit false
set_option exponentiation.threshold 3000

namespace Lolly.DecimalLocaleProps

open Lolly.Rounding Lolly.RoundingProps Lolly.Conv Lolly.ConvProps Lolly.DecimalProps Lolly.DecimalLocale

/-- The comma and the Arabic decimal point (U+066B) are such points. -/
example : Point (b!",") ∧ Point [0xD9, 0xAB] ∧ Differ (b!",") (b!".") ∧ Differ [0xD9, 0xAB] (b!",") := by
  refine ⟨⟨by decide, by decide, ?_⟩, ⟨by decide, by decide, ?_⟩, ?_, ?_⟩
  · unfold PointByte; decide
  · unfold PointByte; decide
  · unfold Differ; decide
  · unfold Differ; decide

theorem localised_length (p s : Bytes) : (localised p s).length ≤ s.length + s.count (c! '.') * p.length := by
  induction s with
  | nil => simp [localised]
  | cons c s ih =>
    rw [localised_cons, List.length_append, List.count_cons, List.length_cons]
    by_cases h : c = c! '.'
    · rw [if_pos h, h]
      simp only [beq_self_eq_true, if_true, Nat.add_mul]
      omega
    · rw [if_neg h]
      simp [h]
      omega

/-- C177: the locale "C" has the point of C129, and there nothing is different. -/
theorem C177_c (x : Dbl) (s : Bytes) : DecimalLocale.asString (b!".") x = Decimal.asString x ∧
    DecimalLocale.printDouble (b!".") x = Decimal.printDouble x ∧ DecimalLocale.printFloat (b!".") x = Decimal.printFloat x ∧
    DecimalLocale.asDouble (b!".") s = Decimal.asDouble s := by
  refine ⟨?_, ?_, ?_, asDouble_dot s⟩
  · unfold DecimalLocale.asString Decimal.asString DecimalLocale.sprintfG Decimal.sprintfG; rw [fmtG_dot]
  · unfold DecimalLocale.printDouble Decimal.printDouble DecimalLocale.sprintfG Decimal.sprintfG; rw [fmtG_dot]
  · unfold DecimalLocale.printFloat Decimal.printFloat DecimalLocale.sprintfG Decimal.sprintfG; rw [fmtG_dot]

theorem accepted_chars {s : Bytes} (h : Accepted s) :
    ∀ c ∈ s, Digit c ∨ c ∈ [c! '+', c! '-', c! '.', c! 'e'] := by
  obtain ⟨sg, ds, fr, ex, hsg, hd, hfr, -, hex, rfl⟩ := h
  intro c hc
  rcases List.mem_append.1 hc with hc | hc
  · rcases List.mem_append.1 hc with hc | hc
    · rcases List.mem_append.1 hc with hc | hc
      · rcases hsg with rfl | rfl | rfl | rfl <;> simp at hc <;> rcases hc with rfl | rfl <;> simp
      · exact .inl (hd c hc)
    · rcases hfr with rfl | ⟨fs, rfl, hf, -⟩
      · cases hc
      · rcases List.mem_cons.1 hc with rfl | hc
        · simp
        · exact .inl (hf c hc)
  · rcases hex with rfl | ⟨sg, es, rfl, hsg, -, he⟩
    · cases hc
    · rcases List.mem_cons.1 hc with rfl | hc
      · simp
      · rcases List.mem_append.1 hc with hc | hc
        · rcases hsg with rfl | rfl | rfl | rfl <;> simp at hc <;> rcases hc with rfl | rfl <;> simp
        · exact .inl (he c hc)

theorem count_zero {s : Bytes} (h : ∀ c ∈ s, c ≠ c! '.') : s.count (c! '.') = 0 :=
  List.count_eq_zero.2 fun hm => h _ hm rfl

theorem sign_no_point {sg : Bytes} (h : SkippedSign sg) : ∀ c ∈ sg, c ≠ c! '.' := by
  rcases h with rfl | rfl | rfl | rfl <;> decide

theorem digits_no_point {ds : Bytes} (h : Digits ds) : ∀ c ∈ ds, c ≠ c! '.' := fun c hc => digit_ne (h c hc) (by decide)

theorem accepted_count {s : Bytes} (h : Accepted s) : s.count (c! '.') ≤ 1 := by
  obtain ⟨sg, ds, fr, ex, hsg, hd, hfr, -, hex, rfl⟩ := h
  have h1 : fr.count (c! '.') ≤ 1 := by
    rcases hfr with rfl | ⟨fs, rfl, hf, -⟩
    · exact Nat.zero_le _
    · rw [List.count_cons, count_zero (digits_no_point hf)]
      exact Nat.le_refl _
  have h2 : ex.count (c! '.') = 0 := by
    rcases hex with rfl | ⟨sg', es, rfl, hsg', -, he⟩
    · rfl
    · apply count_zero
      intro c hc
      rcases List.mem_cons.1 hc with rfl | hc
      · decide
      · rcases List.mem_append.1 hc with hc | hc
        · exact sign_no_point hsg' c hc
        · exact digits_no_point he c hc
  rw [List.count_append, List.count_append, List.count_append, h2, count_zero (sign_no_point hsg), count_zero (digits_no_point hd)]
  omega

/-- The only bytes of points in an accepted text are points. -/
theorem accepted_points {s : Bytes} (h : Accepted s) : ∀ c ∈ s, PointByte c → c = c! '.' := by
  intro c hc hp
  obtain ⟨f1, -, -, f4, f5, f6, -⟩ := pointByte_facts c hp
  rcases accepted_chars h c hc with hd | hm
  · have : isDig c = true := by
      have := digits_all.1 (show Digits [c] from fun d hd' => by rw [List.mem_singleton.1 hd']; exact hd)
      simpa using this
    rw [f1] at this
    cases this
  · simp at hm
    rcases hm with h | h | h | h
    · exact absurd h f5
    · exact absurd h f4
    · exact h
    · exact absurd h f6

theorem text_facts {n : Int} (h : IsDouble n) : Decimal.asString (.fin n) = .ok (Decimal.fmtG (.fin n)) ∧
    Accepted (Decimal.fmtG (.fin n)) ∧ (Decimal.fmtG (.fin n)).length ≤ 13 := by
  have hl := fmtG_length h
  have ho := (print_ok hl).1
  obtain ⟨s, hs, ha, -⟩ := C129_accepted h
  rw [ho] at hs
  injection hs with hs
  exact ⟨ho, (C71_accepts _).1 (hs ▸ ha), hl⟩

/-- C177: in a locale with the point `p`, the text of a finite double is the text in the locale "C" with `p` in the place of
the point; nothing is written past the end of a buffer. -/
theorem C177_text {p : Bytes} {n : Int} (hp : Point p) (h : IsDouble n) : ∃ s, Decimal.asString (.fin n) = .ok s ∧
    DecimalLocale.asString p (.fin n) = .ok (localised p s) ∧ DecimalLocale.printDouble p (.fin n) = .ok (localised p s) ∧
    DecimalLocale.printFloat p (.fin n) = .ok (localised p s) := by
  obtain ⟨h1, h2, h3⟩ := text_facts h
  refine ⟨_, h1, ?_⟩
  have hl : (DecimalLocale.fmtG p (.fin n)).length < 32 := by
    rw [fmtG_localised]
    have a := localised_length p (Decimal.fmtG (.fin n))
    have b := Nat.mul_le_mul_right p.length (accepted_count h2)
    have c := hp.2.1
    omega
  rw [← fmtG_localised]
  exact ⟨if_pos (Nat.lt_trans hl (by decide)), if_pos (Nat.lt_trans hl (by decide)), if_pos hl⟩

/-- C177: infinities and NaN are written and read alike in all locales. -/
theorem C177_special {p : Bytes} (hp : Point p) : ∀ x ∈ [Dbl.inf false, Dbl.inf true, Dbl.nan],
    ∃ s, DecimalLocale.asString p x = .ok s ∧ Decimal.asString x = .ok s ∧ DecimalLocale.asDouble p s = x := by
  have key : ∀ s : Bytes, localised p s = s → (∀ c ∈ s, PointByte c → c = c! '.') →
      DecimalLocale.asDouble p s = Decimal.asDouble s := by
    intro s hs hc
    have := asDouble_localised hp hc
    rwa [hs] at this
  obtain ⟨h1, h2, h3, h4, h5, h6, -⟩ := C129_special
  intro x hx
  simp at hx
  rcases hx with rfl | rfl | rfl
  · exact ⟨b!"inf", rfl, h1, (key (b!"inf") rfl (by unfold PointByte; decide)).trans h4⟩
  · exact ⟨b!"-inf", rfl, h2, (key (b!"-inf") rfl (by unfold PointByte; decide)).trans h5⟩
  · exact ⟨b!"nan", rfl, h3, (key (b!"nan") rfl (by unfold PointByte; decide)).trans h6⟩

/-- C177: `as_double` reads a text with the point of the locale like the text with `.` in the locale "C", whatever else the
text is made of. -/
theorem C177_read {p s : Bytes} (hp : Point p) (hs : ∀ c ∈ s, PointByte c → c = c! '.') :
    DecimalLocale.asDouble p (localised p s) = Decimal.asDouble s := asDouble_localised hp hs

/-- C177: a text without points is read alike in all locales. -/
theorem C177_plain {p s : Bytes} (hp : Point p) (hs : ∀ c ∈ s, ¬ PointByte c) :
    DecimalLocale.asDouble p s = Decimal.asDouble s := by
  have := asDouble_localised hp (s := s) (fun c hc h => absurd h (hs c hc))
  rwa [localised_id (fun c hc h => hs c hc (h ▸ dot_pointByte))] at this

/-- C177, positive part: what is written and read in one locale is what is written and read in the locale "C"; so what C129 says
about reading back holds in every locale. Missing for the full statement: what is written in one locale and read in
another, see `C177_between_violated`. -/
theorem C177_same_partial {p : Bytes} {n : Int} (hp : Point p) (h : IsDouble n) : ∃ s t, Decimal.asString (.fin n) = .ok s ∧
    DecimalLocale.asString p (.fin n) = .ok t ∧ DecimalLocale.asDouble p t = Decimal.asDouble s := by
  obtain ⟨s, h1, h2, -⟩ := C177_text hp h
  have ha := (text_facts h).2.1
  have he : s = Decimal.fmtG (.fin n) := by
    rw [(text_facts h).1] at h1
    injection h1 with h1
    exact h1.symm
  subst he
  exact ⟨_, _, h1, h2, asDouble_localised hp (accepted_points ha)⟩

theorem conv_chars (z : Int) : ∀ c ∈ Conv.asString z, ¬ PointByte c := by
  have hd : ∀ c, Digit c → ¬ PointByte c := by
    unfold Digit PointByte
    apply forall_byte
    decide +kernel
  intro c hc
  unfold Conv.asString at hc
  split at hc
  · rcases List.mem_cons.1 hc with rfl | hc
    · unfold PointByte; decide
    · exact hd c (natDec_digits _ c hc)
  · exact hd c (natDec_digits _ c hc)

/-- C177: an integer of at most six digits is written alike in all locales, and one of at most 53 bits is read alike, in
whatever locale it was written. -/
theorem C177_integer {p : Bytes} {z : Int} (hp : Point p) :
    (z.natAbs < 10 ^ 6 → DecimalLocale.asString p (.fin (z * one)) = .ok (Conv.asString z)) ∧
    (z.natAbs ≤ 2 ^ 53 → DecimalLocale.asDouble p (Conv.asString z) = .fin (z * one)) := by
  constructor
  · intro h
    have h1 := (C129_integer h).1
    have hs := localised_id (p := p) (fun c hc e => conv_chars z c hc (e ▸ dot_pointByte))
    unfold Decimal.asString Decimal.sprintfG at h1
    unfold DecimalLocale.asString DecimalLocale.sprintfG
    split at h1
    · rename_i hl
      injection h1 with h1
      rw [fmtG_localised, h1, hs]
      rw [h1] at hl
      exact if_pos hl
    · cases h1
  · intro h
    rw [C177_plain hp (conv_chars z)]
    exact C129_read_int h

/-- C177: with another point than that of the locale, `as_double` reads what is in front of the point, and nothing else. -/
theorem C177_front {p q a : Bytes} (hp : Point p) (hq : Point q) (hd : Differ p q) (ha : ∀ c ∈ a, ¬ PointByte c) (r : Bytes) :
    DecimalLocale.asDouble q (a ++ p ++ r) = Decimal.asDouble a := by
  rw [asDouble_stop hp hq hd ha, C177_plain hq ha]

/-- The text of a double is split at its point. -/
theorem split_point {s : Bytes} (h : Accepted s) (hm : c! '.' ∈ s) : ∃ a b, s = a ++ c! '.' :: b ∧ (∀ c ∈ a, ¬ PointByte c) ∧
    ∀ p, localised p s = a ++ p ++ b := by
  obtain ⟨a, b, e⟩ := List.append_of_mem hm
  have hc := accepted_count h
  have hp := accepted_points h
  rw [e, List.count_append, List.count_cons] at hc
  simp only [beq_self_eq_true, if_true] at hc
  have h1 : c! '.' ∉ a := List.count_eq_zero.1 (by omega)
  have h2 : c! '.' ∉ b := List.count_eq_zero.1 (by omega)
  refine ⟨a, b, e, ?_, ?_⟩
  · intro c hc' hpc
    have := hp c (by rw [e]; exact List.mem_append_left _ hc') hpc
    exact h1 (this ▸ hc')
  · intro p
    rw [e, localised_append, localised_cons, if_pos rfl, localised_id (fun c hc e => h1 (e ▸ hc)),
      localised_id (fun c hc e => h2 (e ▸ hc)), List.append_assoc]

/-- For all doubles whose text has a point: written in a locale with the point `p` and read in one with another point `q`, only the
digits in front of the point are left, without the fraction and without the exponent. -/
theorem C177_between_violated {p q : Bytes} {n : Int} (hp : Point p) (hq : Point q) (hd : Differ p q) (h : IsDouble n) {s : Bytes}
    (hs : Decimal.asString (.fin n) = .ok s) (hm : c! '.' ∈ s) : ∃ a b t, s = a ++ c! '.' :: b ∧ c! '.' ∉ a ∧
      DecimalLocale.asString p (.fin n) = .ok t ∧ DecimalLocale.asDouble q t = Decimal.asDouble a := by
  obtain ⟨s', h1, h2, -⟩ := C177_text hp h
  rw [hs] at h1
  injection h1 with h1
  subst h1
  have ha : Accepted s := by
    have := text_facts h
    rw [hs] at this
    injection this.1 with e
    rw [e]
    exact this.2.1
  obtain ⟨a, b, e, hna, hl⟩ := split_point ha hm
  refine ⟨a, b, _, e, fun hc => hna _ hc dot_pointByte, h2, ?_⟩
  rw [hl]
  exact C177_front hp hq hd hna b

/-- For all doubles whose text has a point: `is_double` does not accept what is written for them in a locale with a comma or
another point. -/
theorem C177_accepted_violated {p : Bytes} {n : Int} (hp : Point p) (hc : ∃ c ∈ p, c ≠ c! '.') (h : IsDouble n) {s : Bytes}
    (hs : Decimal.asString (.fin n) = .ok s) (hm : c! '.' ∈ s) : isDouble (rd s) s.length = .ok true ∧
    ∃ t, DecimalLocale.asString p (.fin n) = .ok t ∧ isDouble (rd t) t.length = .ok false := by
  obtain ⟨s', h1, h2, -⟩ := C177_text hp h
  rw [hs] at h1
  injection h1 with h1
  subst h1
  have ha : Accepted s := by
    have := text_facts h
    rw [hs] at this
    injection this.1 with e
    rw [e]
    exact this.2.1
  refine ⟨(C71_accepts s).2 ha, _, h2, ?_⟩
  obtain ⟨c, hcp, hcn⟩ := hc
  obtain ⟨a, b, e, hna, hl⟩ := split_point ha hm
  have hmem : c ∈ localised p s := by
    rw [hl]
    exact List.mem_append_left _ (List.mem_append_right _ hcp)
  have hpb := hp.2.2 c hcp
  obtain ⟨f1, -, -, f4, f5, f6, -⟩ := pointByte_facts c hpb
  have hnd : ¬ Digit c := by
    intro hd
    have := digits_all.1 (show Digits [c] from fun d hd' => by rw [List.mem_singleton.1 hd']; exact hd)
    simp [f1] at this
  have hcut : ¬ CutExponent (localised p s) := by
    intro hcut
    rcases hcut with h | ⟨sg, ds, fr, hsg, hds, hfr, h⟩
    · rw [h] at hmem
      exact f5 (List.mem_singleton.1 hmem)
    · have hall : ∀ x ∈ sg ++ ds ++ fr, x ≠ c := by
        intro x hx hxc
        subst hxc
        rcases List.mem_append.1 hx with hx | hx
        · rcases List.mem_append.1 hx with hx | hx
          · rcases hsg with rfl | rfl | rfl | rfl <;> simp at hx
            · exact f5 hx
            · exact f4 hx
            · exact hx.elim f5 f4
          · exact hnd (hds _ hx)
        · rcases hfr with rfl | ⟨fs, rfl, hf⟩
          · cases hx
          · rcases List.mem_cons.1 hx with hx | hx
            · exact hcn hx
            · exact hnd (hf _ hx)
      rcases h with h | h <;> rw [h] at hmem <;> rcases List.mem_append.1 hmem with hx | hx
      · exact hall c hx rfl
      · exact f6 (List.mem_singleton.1 hx)
      · exact hall c hx rfl
      · simp at hx
        exact hx.elim f6 f5
  obtain ⟨r, hr⟩ := (C17_partial (localised p s)).2.2.2 hcut
  cases r with
  | false => exact hr
  | true => exact absurd (accepted_points ((C71_accepts _).1 hr) c hmem hpb) hcn

theorem point_comma : Point (b!",") := by
  refine ⟨by decide, by decide, ?_⟩
  unfold PointByte
  decide

theorem differ_comma : Differ (b!",") (b!".") ∧ Differ (b!".") (b!",") := by
  unfold Differ
  decide

/-- The number 1234567 is written as "1,23457e+06" in a locale with a comma, which is read there as 1234570, as it is in the
locale "C". But in the locale "C" the text with the comma is read as 1, and in the locale with the comma the text with the point
is read as 1. -/
theorem C177_example_violated : IsDouble (1234567 * one) ∧
    DecimalLocale.asString (b!",") (.fin (1234567 * one)) = .ok (b!"1,23457e+06") ∧
    DecimalLocale.asDouble (b!",") (b!"1,23457e+06") = .fin (1234570 * one) ∧
    DecimalLocale.asDouble (b!".") (b!"1,23457e+06") = .fin one ∧
    DecimalLocale.asDouble (b!",") (b!"1.23457e+06") = .fin one := by
  obtain ⟨h1, h2, h3, -⟩ := C129_round_trip_violated
  have ho : Decimal.asDouble (b!"1") = .fin one := by
    have := C129_read_int (z := 1) (by decide)
    have hs : Conv.asString 1 = b!"1" := by decide +kernel
    rw [Int.one_mul, hs] at this
    exact this
  obtain ⟨s, h4, h5, -⟩ := C177_text point_comma h1
  rw [h2] at h4
  injection h4 with h4
  subst h4
  have hc : ∀ c ∈ b!"1", ¬ PointByte c := by unfold PointByte; decide
  refine ⟨h1, h5, ?_, ?_, ?_⟩
  · rw [← h3]
    exact C177_read (s := b!"1.23457e+06") point_comma (by unfold PointByte; decide)
  · exact (C177_front point_comma point_dot differ_comma.1 hc (b!"23457e+06")).trans ho
  · exact (C177_front point_dot point_comma differ_comma.2 hc (b!"23457e+06")).trans ho

end Lolly.DecimalLocaleProps
