import Verif.Strings.Search

set_option autoImplicit false

/-!
# Languages and locales (System/Language/locale.cpp)
-/

namespace Lolly.Locale

/-- The table for the first two characters (locale.cpp:159-185). -/
def byCode (s : Bytes) : Bytes :=
  if s = b!"bg" then b!"bulgarian" else
  if s = b!"zh" then b!"chinese" else
  if s = b!"hr" then b!"croatian" else
  if s = b!"cs" then b!"czech" else
  if s = b!"da" then b!"danish" else
  if s = b!"nl" then b!"dutch" else
  if s = b!"en" then b!"english" else
  if s = b!"eo" then b!"esperanto" else
  if s = b!"fi" then b!"finnish" else
  if s = b!"fr" then b!"french" else
  if s = b!"de" then b!"german" else
  if s = b!"gr" then b!"greek" else
  if s = b!"hu" then b!"hungarian" else
  if s = b!"it" then b!"italian" else
  if s = b!"ja" then b!"japanese" else
  if s = b!"ko" then b!"korean" else
  if s = b!"pl" then b!"polish" else
  if s = b!"pt" then b!"portuguese" else
  if s = b!"ro" then b!"romanian" else
  if s = b!"ru" then b!"russian" else
  if s = b!"sk" then b!"slovak" else
  if s = b!"sl" then b!"slovene" else
  if s = b!"es" then b!"spanish" else
  if s = b!"sv" then b!"swedish" else
  if s = b!"uk" then b!"ukrainian" else
  b!"english"

/-- `locale_to_language` (locale.cpp:154-186). -/
def localeToLanguage (s : Bytes) : Bytes :=
  let s := if 5 < s.length then An.sub s 0 5 else s
  if s = b!"en_GB" then b!"british" else
  if s = b!"zh_TW" then b!"taiwanese" else
  byCode (if 2 < s.length then An.sub s 0 2 else s)

/-- `language_to_locale` (locale.cpp:188-219). -/
def languageToLocale (s : Bytes) : Bytes :=
  if s = b!"american" then b!"en_US" else
  if s = b!"british" then b!"en_GB" else
  if s = b!"bulgarian" then b!"bg_BG" else
  if s = b!"chinese" then b!"zh_CN" else
  if s = b!"croatian" then b!"hr_HR" else
  if s = b!"czech" then b!"cs_CZ" else
  if s = b!"danish" then b!"da_DK" else
  if s = b!"dutch" then b!"nl_NL" else
  if s = b!"english" then b!"en_US" else
  if s = b!"esperanto" then b!"eo_EO" else
  if s = b!"finnish" then b!"fi_FI" else
  if s = b!"french" then b!"fr_FR" else
  if s = b!"german" then b!"de_DE" else
  if s = b!"greek" then b!"gr_GR" else
  if s = b!"hungarian" then b!"hu_HU" else
  if s = b!"italian" then b!"it_IT" else
  if s = b!"japanese" then b!"ja_JP" else
  if s = b!"korean" then b!"ko_KR" else
  if s = b!"polish" then b!"pl_PL" else
  if s = b!"portuguese" then b!"pt_PT" else
  if s = b!"romanian" then b!"ro_RO" else
  if s = b!"russian" then b!"ru_RU" else
  if s = b!"slovak" then b!"sk_SK" else
  if s = b!"slovene" then b!"sl_SI" else
  if s = b!"spanish" then b!"es_ES" else
  if s = b!"swedish" then b!"sv_SV" else
  if s = b!"taiwanese" then b!"zh_TW" else
  if s = b!"ukrainian" then b!"uk_UA" else
  b!"en_US"

/-- `language_to_local_ISO_charset` (locale.cpp:221-239). -/
def languageToCharset (s : Bytes) : Bytes :=
  if s = b!"bulgarian" then b!"ISO-8859-5" else
  if s = b!"chinese" then b!"" else
  if s = b!"croatian" then b!"ISO-8859-2" else
  if s = b!"czech" then b!"ISO-8859-2" else
  if s = b!"greek" then b!"ISO-8859-7" else
  if s = b!"hungarian" then b!"ISO-8859-2" else
  if s = b!"japanese" then b!"" else
  if s = b!"korean" then b!"" else
  if s = b!"polish" then b!"ISO-8859-2" else
  if s = b!"romanian" then b!"ISO-8859-2" else
  if s = b!"russian" then b!"ISO-8859-5" else
  if s = b!"slovak" then b!"ISO-8859-2" else
  if s = b!"slovene" then b!"ISO-8859-2" else
  if s = b!"taiwanese" then b!"" else
  if s = b!"ukrainian" then b!"ISO-8859-5" else
  b!"ISO-8859-1"

/-- `get_locale_language` on Linux (locale.cpp:241-265); `env` is `get_env`. -/
def getLocaleLanguage (env : Bytes → Bytes) : Bytes :=
  if env (b!"LC_ALL") ≠ [] then localeToLanguage (env (b!"LC_ALL")) else
  if env (b!"LC_MESSAGES") ≠ [] then localeToLanguage (env (b!"LC_MESSAGES")) else
  if env (b!"LANG") ≠ [] then localeToLanguage (env (b!"LANG")) else
  if env (b!"GDM_LANG") ≠ [] then localeToLanguage (env (b!"GDM_LANG")) else
  b!"english"

end Lolly.Locale
