import Verif.System.Locale

set_option autoImplicit false

/-!
# C63: languages and locales
-/

namespace Lolly.LocaleProps

open Lolly.Locale

/-- The languages that have a locale of their own. -/
def languages : List Bytes :=
  [b!"british", b!"bulgarian", b!"chinese", b!"croatian", b!"czech", b!"danish", b!"dutch", b!"english", b!"esperanto",
    b!"finnish", b!"french", b!"german", b!"greek", b!"hungarian", b!"italian", b!"japanese", b!"korean", b!"polish",
    b!"portuguese", b!"romanian", b!"russian", b!"slovak", b!"slovene", b!"spanish", b!"swedish", b!"taiwanese", b!"ukrainian"]

/-- Every language comes back from its locale; "american" and every unknown language come back as english. -/
theorem C63_round_trip (l : Bytes) :
    localeToLanguage (languageToLocale l) = if l ∈ languages then l else b!"english" := by
  by_cases h : l ∈ b!"american" :: languages
  · have : ∀ l ∈ b!"american" :: languages,
        localeToLanguage (languageToLocale l) = if l ∈ languages then l else b!"english" := by decide +kernel
    exact this l h
  · have h2 : l ∉ languages := fun h' => h (List.mem_cons_of_mem _ h')
    rw [if_neg h2]
    have e : languageToLocale l = b!"en_US" := by
      simp only [languages, List.mem_cons, List.not_mem_nil, or_false, not_or] at h
      simp only [languageToLocale, h, if_false]
    rw [e]
    decide +kernel

/-- Only the first five characters of a locale count. -/
theorem C63_five (s : Bytes) : localeToLanguage s = localeToLanguage (s.take 5) := by
  rw [localeToLanguage, localeToLanguage]
  by_cases h : 5 < s.length
  · have h1 : ¬ 5 < (s.take 5).length := by rw [List.length_take]; omega
    rw [if_pos h, if_neg h1]
    rfl
  · rw [List.take_of_length_le (by omega)]

theorem ite_mem {c : Prop} [Decidable c] {a b : Bytes} {l : List Bytes} (ha : a ∈ l) (hb : b ∈ l) : (if c then a else b) ∈ l := by
  by_cases h : c
  · rw [if_pos h]; exact ha
  · rw [if_neg h]; exact hb

theorem byCode_mem (s : Bytes) : byCode s ∈ languages := by
  unfold byCode
  repeat refine ite_mem (by decide +kernel) ?_
  decide +kernel

/-- The result is always one of the languages. -/
theorem C63_range (s : Bytes) : localeToLanguage s ∈ languages :=
  ite_mem (by decide +kernel) (ite_mem (by decide +kernel) (byCode_mem _))

/-- Without "en_GB" and "zh_TW" the first two characters decide. -/
theorem C63_two (s t : Bytes) (h : s.take 2 = t.take 2) (hs : s.take 5 ≠ b!"en_GB" ∧ s.take 5 ≠ b!"zh_TW")
    (ht : t.take 5 ≠ b!"en_GB" ∧ t.take 5 ≠ b!"zh_TW") : localeToLanguage s = localeToLanguage t := by
  have key : ∀ s : Bytes, s.take 5 ≠ b!"en_GB" ∧ s.take 5 ≠ b!"zh_TW" → localeToLanguage s = byCode (s.take 2) := by
    intro s hs
    rw [C63_five, localeToLanguage]
    have h5 : ¬ 5 < (s.take 5).length := by rw [List.length_take]; omega
    simp only [h5, if_false]
    rw [if_neg hs.1, if_neg hs.2]
    split
    · simp only [An.sub, Int.toNat_zero, List.drop_zero]
      rw [show (2 : Int).toNat = 2 from rfl, List.take_take]
      rfl
    · next hl =>
      rw [List.length_take] at hl
      rw [List.take_of_length_le (by omega : s.length ≤ 5), List.take_of_length_le (by omega : s.length ≤ 2)]
  rw [key s hs, key t ht, h]

/-- The code of Greek in ISO 639 is "el", which is not known: such locales are taken for English. -/
theorem C63_greek (s : Bytes) : localeToLanguage (b!"el" ++ s) = b!"english" := by
  rw [C63_two _ (b!"el") (by simp) ⟨?_, ?_⟩ (by decide)]
  · decide +kernel
  · rw [List.take_append]; simp
  · rw [List.take_append]; simp

/-- The first variable that is set, of LC_ALL, LC_MESSAGES, LANG and GDM_LANG, decides; English if none is. -/
theorem C63_environment (env : Bytes → Bytes) :
    getLocaleLanguage env =
      match [b!"LC_ALL", b!"LC_MESSAGES", b!"LANG", b!"GDM_LANG"].find? (fun v => decide (env v ≠ [])) with
      | some v => localeToLanguage (env v)
      | none => b!"english" := by
  simp only [getLocaleLanguage, List.find?_cons, List.find?_nil]
  repeat' first
    | rfl
    | (split <;> simp_all)

/-- The languages of Eastern Europe written in Latin letters, those written in Cyrillic letters, and those of East Asia. -/
def latin2 : List Bytes := [b!"croatian", b!"czech", b!"hungarian", b!"polish", b!"romanian", b!"slovak", b!"slovene"]
@[inherit_doc latin2] def cyrillic : List Bytes := [b!"bulgarian", b!"russian", b!"ukrainian"]
@[inherit_doc latin2] def cjk : List Bytes := [b!"chinese", b!"japanese", b!"korean", b!"taiwanese"]

/-- The charset of a language depends on its script only; the languages of East Asia have none, and unknown languages have
the one of Western Europe. -/
theorem C63_charset (l : Bytes) :
    languageToCharset l =
      if l ∈ cjk then [] else if l ∈ cyrillic then b!"ISO-8859-5" else if l ∈ latin2 then b!"ISO-8859-2"
      else if l = b!"greek" then b!"ISO-8859-7" else b!"ISO-8859-1" := by
  by_cases h : l ∈ b!"greek" :: (cjk ++ cyrillic ++ latin2)
  · have : ∀ l ∈ b!"greek" :: (cjk ++ cyrillic ++ latin2), languageToCharset l =
        if l ∈ cjk then [] else if l ∈ cyrillic then b!"ISO-8859-5" else if l ∈ latin2 then b!"ISO-8859-2"
        else if l = b!"greek" then b!"ISO-8859-7" else b!"ISO-8859-1" := by decide +kernel
    exact this l h
  · simp only [List.mem_cons, List.mem_append, not_or] at h
    rw [if_neg h.2.1.1, if_neg h.2.1.2, if_neg h.2.2, if_neg h.1]
    simp only [cjk, cyrillic, latin2, List.mem_cons, List.not_mem_nil, or_false, not_or] at h
    simp only [languageToCharset, h, if_false]

end Lolly.LocaleProps
