import Verif.System.WinLocale
import Verif.System.LocaleProps

/-!
# C125: the language on Windows
-/

set_option autoImplicit false

namespace Lolly.WinLocaleProps
open Lolly.Locale Lolly.LocaleProps Lolly.WinLocale

/-! ## Specification -/

/-- The languages of the library with the identifier that Windows has for them
and their locale: Microsoft's list of language identifiers. -/
def windows : List (BitVec 16 × Bytes) :=
  [(0x0402#16, b!"bg_BG"), (0x0804#16, b!"zh_CN"), (0x041a#16, b!"hr_HR"), (0x0405#16, b!"cs_CZ"), (0x0406#16, b!"da_DK"),
    (0x0413#16, b!"nl_NL"), (0x0409#16, b!"en_US"), (0x0809#16, b!"en_GB"), (0x040b#16, b!"fi_FI"), (0x040c#16, b!"fr_FR"),
    (0x0407#16, b!"de_DE"), (0x0408#16, b!"gr_GR"), (0x040e#16, b!"hu_HU"), (0x0410#16, b!"it_IT"), (0x0411#16, b!"ja_JP"),
    (0x0412#16, b!"ko_KR"), (0x0415#16, b!"pl_PL"), (0x0816#16, b!"pt_PT"), (0x0418#16, b!"ro_RO"), (0x0419#16, b!"ru_RU"),
    (0x041b#16, b!"sk_SK"), (0x0424#16, b!"sl_SI"), (0x0c0a#16, b!"es_ES"), (0x041d#16, b!"sv_SV"), (0x0404#16, b!"zh_TW"),
    (0x0422#16, b!"uk_UA")]

/-- Two identifiers of the same language. -/
def SameLanguage (a b : BitVec 16) : Prop := a.toNat % 1024 = b.toNat % 1024

theorem primary_eq (l : BitVec 16) : primary l = l.toNat % 1024 := by
  unfold primary
  rw [BitVec.toNat_and]
  exact Nat.and_two_pow_sub_one_eq_mod l.toNat 10

theorem sub_eq (l : BitVec 16) : sub l = l.toNat / 1024 := by
  unfold sub
  rw [BitVec.toNat_ushiftRight, Nat.shiftRight_eq_div_pow]

/-- Every language of the library but Finnish and Traditional Chinese is found:
Windows and the locale of Linux lead to the same language.  Missing: these two
(`C125_violated`). -/
theorem C125_same_partial : ∀ p ∈ windows, p.2 ≠ b!"fi_FI" → p.2 ≠ b!"zh_TW" →
    ofId p.1 = localeToLanguage p.2 := by
  decide +kernel

/-- The variants of a language, other than those of English, do not matter. -/
theorem C125_variants (a b : BitVec 16) (h : SameLanguage a b) (he : a.toNat % 1024 ≠ 9) : ofId a = ofId b := by
  unfold SameLanguage at h
  unfold ofId
  rw [primary_eq, primary_eq, ← h]
  simp only [he, if_false]

example : SameLanguage 0x0c07#16 0x0407#16 ∧ (0x0c07#16).toNat % 1024 ≠ 9 ∧ ofId 0x0c07#16 = b!"german" := by
  unfold SameLanguage; decide +kernel

/-- English is british in the United Kingdom and english everywhere else. -/
theorem C125_english (a : BitVec 16) (h : a.toNat % 1024 = 9) :
    ofId a = if a = 0x0809#16 then b!"british" else b!"english" := by
  have hs : sub a = 2 ↔ a = 0x0809#16 := by
    rw [sub_eq]
    constructor
    · intro h2
      apply BitVec.eq_of_toNat_eq
      show a.toNat = 2057
      omega
    · rintro rfl; rfl
  unfold ofId
  rw [primary_eq, h]
  by_cases hb : a = 0x0809#16
  · rw [if_pos hb, hs.2 hb]; rfl
  · rw [if_neg hb]
    simp only [hs, hb, if_false]
    rfl

example : (0x0c09#16 : BitVec 16).toNat % 1024 = 9 := by decide

/-- A language that the library does not know is taken for English. -/
theorem C125_unknown (a : BitVec 16) (h : ∀ p ∈ windows, ¬ SameLanguage a p.1) : ofId a = b!"english" := by
  unfold SameLanguage at h
  simp only [windows, List.mem_cons, List.not_mem_nil, or_false, forall_eq_or_imp, forall_eq] at h
  unfold ofId
  rw [primary_eq]
  have hlt : a.toNat % 1024 ≠ 0x7c04 := by omega
  simp only [BitVec.toNat_ofNat] at h
  simp only [Nat.reducePow, Nat.reduceMod] at h
  simp only [h, hlt, if_false]

example : ∀ p ∈ windows, ¬ SameLanguage 0x0436#16 p.1 := by unfold SameLanguage; decide +kernel

/-- The result is always one of the languages of the library, and then also comes
back from its locale. -/
theorem C125_range (a : BitVec 16) : ofId a ∈ languages := by
  unfold ofId
  repeat' apply ite_mem
  all_goals decide +kernel

/-- All calls of a program give the language that the user had set at the first
call. -/
theorem C125_once (l : BitVec 16) (ls : List (BitVec 16)) :
    calls [] (l :: ls) = List.replicate (ls.length + 1) (ofId l) := by
  have hne : ∀ a : BitVec 16, (ofId a).length ≠ 0 := by
    intro a h
    have : ∀ x ∈ languages, x.length ≠ 0 := by decide +kernel
    exact this _ (C125_range a) h
  have key : ∀ (ls : List (BitVec 16)), calls (ofId l) ls = List.replicate ls.length (ofId l) := by
    intro ls
    induction ls with
    | nil => rfl
    | cons a as ih =>
      have e : getLanguage (ofId l) a = (ofId l, ofId l) := by
        unfold getLanguage; rw [if_neg (hne l)]
      rw [calls, e, ih]; rfl
  show ofId l :: calls (ofId l) ls = _
  rw [key]; rfl

/-- Finnish and Traditional Chinese have a language in the library, but on Windows
they are taken for English and Chinese; no identifier leads to "taiwanese" or
"finnish".  Serbian is taken for Croatian. -/
theorem C125_violated :
    (0x040b#16, b!"fi_FI") ∈ windows ∧ localeToLanguage (b!"fi_FI") = b!"finnish" ∧ ofId 0x040b#16 = b!"english" ∧
      (0x0404#16, b!"zh_TW") ∈ windows ∧ localeToLanguage (b!"zh_TW") = b!"taiwanese" ∧ ofId 0x0404#16 = b!"chinese" ∧
      ofId 0x0c1a#16 = b!"croatian" ∧ localeToLanguage (b!"sr_RS") = b!"english" := by
  decide +kernel

/-- No setting of Windows gives "taiwanese", "finnish" or "esperanto". -/
theorem C125_never (a : BitVec 16) : ofId a ≠ b!"taiwanese" ∧ ofId a ≠ b!"finnish" ∧ ofId a ≠ b!"esperanto" := by
  have hlt : ¬ a.toNat % 1024 = 0x7c04 := by omega
  have hm : ofId a ∈ languages.filter (fun x => x ≠ b!"taiwanese" ∧ x ≠ b!"finnish" ∧ x ≠ b!"esperanto") := by
    unfold ofId
    rw [primary_eq]
    simp only [hlt, if_false]
    repeat' apply ite_mem
    all_goals decide +kernel
  have := (List.mem_filter.1 hm).2
  simpa using this

end Lolly.WinLocaleProps
