import Verif.System.Locale

/-!
# The language on Windows (System/Language/locale.cpp)

Language identifiers are 16 bit numbers: the lower ten bits are the language, the
upper six bits the variant.  The constants are those of `<winnt.h>`.
-/

set_option autoImplicit false

namespace Lolly.WinLocale

/-- `PRIMARYLANGID (lid)`: `(WORD) (lid) & 0x3ff`. -/
def primary (lid : BitVec 16) : Nat := (lid &&& 0x3ff#16).toNat

/-- `SUBLANGID (lid)`: `(WORD) (lid) >> 10`. -/
def sub (lid : BitVec 16) : Nat := (lid >>> 10).toNat

/-- The `switch` of `windows_locale_to_language` (locale.cpp:50-133). -/
def ofId (lid : BitVec 16) : Bytes :=
  if primary lid = 0x02 then b!"bulgarian" else
  if primary lid = 0x04 then b!"chinese" else
  if primary lid = 0x7c04 then b!"taiwanese" else
  if primary lid = 0x1a then b!"croatian" else
  if primary lid = 0x05 then b!"czech" else
  if primary lid = 0x06 then b!"danish" else
  if primary lid = 0x13 then b!"dutch" else
  if primary lid = 0x09 then
    (if sub lid = 0x02 then b!"british" else b!"english") else
  if primary lid = 0x0c then b!"french" else
  if primary lid = 0x07 then b!"german" else
  if primary lid = 0x08 then b!"greek" else
  if primary lid = 0x0e then b!"hungarian" else
  if primary lid = 0x10 then b!"italian" else
  if primary lid = 0x11 then b!"japanese" else
  if primary lid = 0x12 then b!"korean" else
  if primary lid = 0x15 then b!"polish" else
  if primary lid = 0x16 then b!"portuguese" else
  if primary lid = 0x18 then b!"romanian" else
  if primary lid = 0x19 then b!"russian" else
  if primary lid = 0x1b then b!"slovak" else
  if primary lid = 0x24 then b!"slovene" else
  if primary lid = 0x0a then b!"spanish" else
  if primary lid = 0x1d then b!"swedish" else
  if primary lid = 0x22 then b!"ukrainian" else
  b!"english"

/-- `windows_locale_to_language ()` (locale.cpp:45-137), which is
`get_locale_language ()` on Windows (locale.cpp:241-245): the static string
`language` is the state, `lid` what `GetUserDefaultUILanguage ()` gives now. -/
def getLanguage (language : Bytes) (lid : BitVec 16) : Bytes × Bytes :=
  let language := if language.length = 0 then ofId lid else language
  (language, language)

/-- The results of the calls of a program; `lids` is the setting of the user at each
call. -/
def calls : Bytes → List (BitVec 16) → List Bytes
  | _, [] => []
  | s, l :: ls => (getLanguage s l).2 :: calls (getLanguage s l).1 ls

end Lolly.WinLocale
