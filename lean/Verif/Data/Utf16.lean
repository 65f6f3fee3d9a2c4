import Verif.Loop
import Verif.Data.Unicode

/-!
# Conversions between UTF-16 and UTF-8 (lolly/data/unicode.cpp:154-221)

The conversion itself is done by tbox, which is not part of the repository: it is the argument
`conv`, which gets the two encodings, the bytes to convert and the size of the buffer for the result,
and answers with the number that it returns (negative for an error) and the contents of the buffer
afterwards. The functions do not look at how it came about. `tb_size_t` and `tb_long_t` have 64 bits.
Allocation does not fail; releasing the buffers (unicode.cpp:172-173, 201-202, 219) has no
observable effect and is left out.
-/

set_option autoImplicit false

namespace Lolly.Utf16

/-- `TB_CHARSET_TYPE_UTF8` and `TB_CHARSET_TYPE_UTF16`. -/
inductive Charset where
  | utf8
  | utf16
  deriving DecidableEq, Repr

/-- `tb_charset_conv_data (from, to, idata, isize, odata, osize)`. -/
abbrev Conv := Charset → Charset → Bytes → Nat → Int × Bytes

/-- `string ret ((int) osize); for (tb_size_t i= 0; i < osize; i++) ret[i]= odata[i];`
(unicode.cpp:168-171, 197-200, 215-218). In the comparison a negative `osize` becomes a number from
2^63 on, and a string has less than 2^31 bytes: the loop leaves the string if `osize` is no length of a
string. A string of more than 2^30 bytes is never made (C172). The fresh string is filled with zeros here; every byte of it is written. -/
def take (osize : Int) (odata : Bytes) : Res Bytes :=
  if 2 ^ 30 < osize ∧ osize < 2 ^ 31 then .hang
  else if 0 ≤ osize ∧ osize < 2 ^ 31 then
    forUp 0 osize.toNat (List.replicate osize.toNat 0) fun i ret => do
      let c ← rd odata i
      wr ret i c
  else .ub

/-- `utf16_to_utf8` (unicode.cpp:154-175). -/
def utf16ToUtf8 (conv : Conv) (s : Bytes) : Res Bytes := do
  let isize := s.length
  let idata ← forUp 0 isize (List.replicate isize 0) fun i idata => do
    let c ← rd s i
    wr idata i c
  let (osize, odata) := conv .utf16 .utf8 idata (isize <<< 2)
  take osize odata

/-- `wchar_to_utf8` (unicode.cpp:178-204, on Windows, where `wchar_t` has 16 bits): `s` are the units up to
the terminating zero, which `tb_wcslen` finds. -/
def wcharToUtf8 (conv : Conv) (s : List UInt16) : Res Bytes := do
  let s := s.takeWhile (· ≠ 0)
  let wcharSize := s.length
  let isize := wcharSize * 2
  let idata ← forUp 0 wcharSize (List.replicate isize (0 : UInt8)) fun i idata => do
    let bytes ← rd s i
    let high := (bytes >>> 8).toUInt8
    let low := (bytes &&& 0x00FF).toUInt8
    let idata ← wr idata (2 * i) high
    wr idata (2 * i + 1) low
  let (osize, odata) := conv .utf16 .utf8 idata (isize <<< 2)
  take osize odata

/-- `utf8_to_utf16` (unicode.cpp:207-221). `N (s_u8) << 2` is computed in `int`: from 2^29 bytes on there
is no buffer (the size is negative, or the shift is undefined). `tb_charset_conv_cstr` converts the
bytes of its argument up to the first NUL. -/
def utf8ToUtf16 (conv : Conv) (s : Bytes) : Res Bytes :=
  if s.length < 2 ^ 29 then
    let (osize, odata) := conv .utf8 .utf16 (s.takeWhile (· ≠ 0)) (s.length <<< 2)
    take osize odata
  else .ub

end Lolly.Utf16
