import Verif.Strings.Search

/-!
# Model of character classes, case conversion, sets of characters, quoting and encodings

Kernel/Types/analyze.cpp, first half. `r << c` is list append (see C14).
-/

set_option autoImplicit false

namespace Lolly.An

/-- `for (i= 0; i < n; i++) r << f (s[i]);`, the loop of most functions below. -/
def eachByte (f : UInt8 → Bytes) (s : Bytes) : Res Bytes :=
  forUp 0 s.length [] fun i r => do
    let c ← rd s i
    .ok (r ++ f c)

/-- `string r (n); for (i= 0; i < n; i++) r[i]= f (s[i]);`. -/
def mapBytes (f : UInt8 → UInt8) (s : Bytes) : Res Bytes :=
  forUp 0 s.length (List.replicate s.length 0) fun i r => do
    let c ← rd s i
    wr r i (f c)

/-- `if (N (s) == 0) return false; for (...) if (!f (s[i])) return false; return true;`: `is_alpha`,
`is_alphanum`, `is_locase_alpha`, `is_iso_alpha`, `is_numeric` on strings (analyze.cpp:45-88). -/
def allBytes (f : UInt8 → Bool) (s : Bytes) : Res Bool :=
  if s.length = 0 then .ok false
  else do
    let r ← forRet 0 s.length fun i => do
      let c ← rd s i
      .ok (if f c then none else some ())
    .ok r.isNone

/-- `is_whitespace` (analyze.cpp:690-695). -/
def isWhitespace (s : Bytes) : Res Bool := do
  let r ← forRet 0 s.length fun i => do
    let c ← rd s i
    .ok (if c ≠ c! ' ' ∧ c ≠ 9 ∧ c ≠ 10 then some () else none)
  .ok r.isNone

/-- `is_locase`, `is_upcase`, `is_digit`, `is_hex_digit`, `is_numeric` (analyze.hpp:28-54). -/
def isLocase (c : UInt8) : Bool := decide (schar c ≥ 97) && decide (schar c ≤ 122)
def isUpcase (c : UInt8) : Bool := decide (schar c ≥ 65) && decide (schar c ≤ 90)
def isDigit (c : UInt8) : Bool := decide (schar c ≥ 48) && decide (schar c ≤ 57)
def isHexDigit (c : UInt8) : Bool :=
  (decide (schar c ≥ 48) && decide (schar c ≤ 57)) || (decide (schar c ≥ 65) && decide (schar c ≤ 70)) ||
    (decide (schar c ≥ 97) && decide (schar c ≤ 102))
def isNumeric (c : UInt8) : Bool := (decide (schar c ≥ 48) && decide (schar c ≤ 57)) || c == c! '.'

/-- `is_iso_alpha` (analyze.cpp:20-25). -/
def isIsoAlpha (c : UInt8) : Bool :=
  isLocase c || isUpcase c ||
    (decide (c.toNat ≥ 128) && c.toNat != 159 && c.toNat != 189 && c.toNat != 190 && c.toNat != 191)

/-- `is_iso_locase` (analyze.cpp:27-32). -/
def isIsoLocase (c : UInt8) : Bool :=
  isLocase c || (decide (c.toNat ≥ 160) && decide (c.toNat < 189)) || decide (c.toNat ≥ 224)

/-- `is_iso_upcase` (analyze.cpp:34-39). -/
def isIsoUpcase (c : UInt8) : Bool :=
  isUpcase c || (decide (c.toNat ≥ 128) && decide (c.toNat < 159)) ||
    (decide (c.toNat ≥ 192) && decide (c.toNat < 224))

/-- `upcase (char)` (analyze.cpp:94-98). -/
def upcase (c : UInt8) : UInt8 := if isIsoLocase c then UInt8.ofNat (c.toNat - 32) else c

/-- `locase (char)` (analyze.cpp:100-104). -/
def locase (c : UInt8) : UInt8 := if isIsoUpcase c then UInt8.ofNat (c.toNat + 32) else c

/-- `closing_delimiter` (analyze.cpp:106-112). -/
def closingDelimiter (c : UInt8) : UInt8 :=
  if c = c! '{' then c! '}' else if c = c! '(' then c! ')' else if c = c! '[' then c! ']' else c

/-- `upcase_first` (analyze.cpp:114-118). -/
def upcaseFirst (s : Bytes) : Res Bytes :=
  if s.length = 0 then .ok s
  else do
    let c ← rd s 0
    if isIsoLocase c then .ok ([UInt8.ofNat (c.toNat - 32)] ++ sub s 1 s.length) else .ok s

/-- `locase_first` (analyze.cpp:120-124). -/
def locaseFirst (s : Bytes) : Res Bytes :=
  if s.length = 0 then .ok s
  else do
    let c ← rd s 0
    if isIsoUpcase c then .ok ([UInt8.ofNat (c.toNat + 32)] ++ sub s 1 s.length) else .ok s

/-- `upcase_all` (analyze.cpp:126-134): the loop body is `upcase` written out. -/
def upcaseAll (s : Bytes) : Res Bytes := mapBytes upcase s

/-- `locase_all` (analyze.cpp:136-144): the loop body is `locase` written out. -/
def locaseAll (s : Bytes) : Res Bytes := mapBytes locase s

/-- `string_minus` (analyze.cpp:155-165). The inner loop leaves with `i2 < n2` when it finds the byte. -/
def stringMinus (s1 s2 : Bytes) : Res Bytes :=
  forUp 0 s1.length [] fun i1 r => do
    let c ← rd s1 i1
    let found ← forRet 0 s2.length fun i2 => do
      let d ← rd s2 i2
      .ok (if c = d then some () else none)
    .ok (if found.isNone then r ++ [c] else r)

/-- `string_union` (analyze.cpp:150-153). -/
def stringUnion (s1 s2 : Bytes) : Res Bytes := do
  let r ← stringMinus s1 s2
  .ok (r ++ s2)

/-- The cases of the `switch` of `ispanish_to_spanish` (analyze.cpp:191-233). -/
def spanishCode (c : UInt8) : Option UInt8 :=
  if c = c! 'A' then some 0o301 else if c = c! 'E' then some 0o311 else if c = c! 'I' then some 0o315
  else if c = c! 'N' then some 0o321 else if c = c! 'O' then some 0o323 else if c = c! 'U' then some 0o332
  else if c = c! 'Y' then some 0o335 else if c = c! 'a' then some 0o341 else if c = c! 'e' then some 0o351
  else if c = c! 'i' then some 0o355 else if c = c! 'n' then some 0o361 else if c = c! 'o' then some 0o363
  else if c = c! 'u' then some 0o372 else if c = c! 'y' then some 0o375 else none

/-- `ispanish_to_spanish` (analyze.cpp:185-240), from position `i` on. -/
def fromIspanish (s : Bytes) (i : Nat) (r : Bytes) : Res Bytes :=
  if i < s.length then do
    let c ← rd s i
    if c = 39 ∧ i + 1 < s.length then do
      let d ← rd s (i + 1)
      match spanishCode d with
      | some x => fromIspanish s (i + 2) (r ++ [x])
      | none => fromIspanish s (i + 2) (r ++ [39, d])
    else fromIspanish s (i + 1) (r ++ [c])
  else .ok r
termination_by s.length - i

def ispanishToSpanish (s : Bytes) : Res Bytes := fromIspanish s 0 []

/-- The `switch` of `spanish_to_ispanish` (analyze.cpp:248-292). -/
def spanishLetter (c : UInt8) : Bytes :=
  if c = 0o301 then b!"'A" else if c = 0o311 then b!"'E" else if c = 0o315 then b!"'I"
  else if c = 0o321 then b!"'N" else if c = 0o323 then b!"'O" else if c = 0o332 then b!"'U"
  else if c = 0o335 then b!"'Y" else if c = 0o341 then b!"'a" else if c = 0o351 then b!"'e"
  else if c = 0o355 then b!"'i" else if c = 0o361 then b!"'n" else if c = 0o363 then b!"'o"
  else if c = 0o372 then b!"'u" else if c = 0o375 then b!"'y" else [c]

/-- `spanish_to_ispanish` (analyze.cpp:243-295). -/
def spanishToIspanish (s : Bytes) : Res Bytes := eachByte spanishLetter s

/-- `igerman_to_german` (analyze.cpp:297-305). -/
def igermanToGerman (s : Bytes) : Res Bytes := eachByte (fun c => if c = 0o337 then [0o377] else [c]) s

/-- `german_to_igerman` (analyze.cpp:307-315). -/
def germanToIgerman (s : Bytes) : Res Bytes := eachByte (fun c => if c = 0o377 then [0o337] else [c]) s

/-- `il2_to_cork_string` (analyze.cpp:321-329): the bytes of the literal. The source file is UTF-8 and
the literal contains several non-ASCII characters, each of which is two or three bytes. -/
def il2Table : Bytes :=
  [
   128, 129, 130, 131, 132, 133, 134, 135, 136, 137, 138, 139, 140, 141, 142, 143, 144, 145, 146, 147,
   148, 149, 150, 151, 152, 153, 154, 155, 156, 157, 158, 159, 32, 16, 138, 32, 137, 145, 159, 194,
   168, 146, 147, 148, 153, 226, 128, 144, 154, 155, 32, 161, 203, 155, 170, 194, 180, 169, 177, 203,
   135, 194, 184, 178, 179, 180, 185, 203, 157, 186, 187, 143, 193, 194, 128, 196, 136, 130, 199, 131,
   201, 134, 203, 133, 205, 206, 132, 208, 139, 140, 211, 212, 142, 214, 46, 144, 151, 218, 150, 220,
   221, 149, 255, 175, 225, 226, 160, 228, 168, 162, 231, 163, 233, 166, 235, 165, 237, 238, 164, 158,
   171, 172, 243, 244, 174, 246, 47, 176, 183, 250, 182, 252, 253, 181, 32]

/-- `cork_to_il2_string` (analyze.cpp:330-338). -/
def corkTable : Bytes :=
  [
   195, 161, 198, 200, 207, 204, 202, 71, 197, 165, 163, 209, 210, 32, 213, 192, 216, 166, 169, 170,
   171, 222, 219, 217, 89, 172, 174, 175, 73, 73, 240, 167, 227, 177, 230, 232, 239, 236, 234, 103,
   229, 181, 179, 241, 242, 32, 245, 224, 248, 182, 185, 186, 187, 254, 251, 249, 121, 188, 190, 191,
   105, 33, 63, 76, 65, 193, 194, 65, 196, 65, 65, 199, 69, 201, 69, 203, 73, 205, 206, 73,
   208, 78, 79, 211, 212, 79, 214, 79, 79, 85, 218, 85, 220, 221, 32, 83, 97, 225, 226, 97,
   228, 97, 97, 231, 101, 233, 101, 235, 105, 237, 238, 105, 240, 110, 111, 243, 244, 111, 246, 111,
   111, 117, 250, 117, 252, 253, 32, 223]

/-- `il2_to_cork (char)` (analyze.cpp:340-345). -/
def il2ToCorkC (c : UInt8) : Res UInt8 := if c.toNat < 128 then .ok c else rd il2Table (c.toNat - 128)

/-- `cork_to_il2 (char)` (analyze.cpp:347-352). -/
def corkToIl2C (c : UInt8) : Res UInt8 := if c.toNat < 128 then .ok c else rd corkTable (c.toNat - 128)

/-- `il2_to_cork` (analyze.cpp:354-361) and `cork_to_il2` (analyze.cpp:363-370) on strings, for the
character conversion `f`. -/
def convertBytes (f : UInt8 → Res UInt8) (s : Bytes) : Res Bytes :=
  forUp 0 s.length (List.replicate s.length 0) fun i r => do
    let c ← rd s i
    let d ← f c
    wr r i d

def il2ToCork (s : Bytes) : Res Bytes := convertBytes il2ToCorkC s
def corkToIl2 (s : Bytes) : Res Bytes := convertBytes corkToIl2C s

/-- `alpha_nr` (analyze.cpp:376-382) for `nr >= 0`. -/
def alphaNat (n : Nat) : Bytes :=
  if n = 0 then b!"0"
  else if h : n ≤ 26 then [UInt8.ofNat (97 + n - 1)]
  else alphaNat ((n - 1) / 26) ++ alphaNat ((n - 1) % 26 + 1)
termination_by n
decreasing_by all_goals omega

/-- `alpha_nr` (analyze.cpp:376-382); `-nr` overflows for the smallest integer. -/
def alphaNr (nr : Int) : Res Bytes :=
  if nr < 0 then if nr ≤ -2 ^ 31 then .ub else .ok (b!"-" ++ alphaNat (-nr).toNat)
  else .ok (alphaNat nr.toNat)

/-- `Alpha_nr` (analyze.cpp:384-387). -/
def AlphaNr (nr : Int) : Res Bytes := do
  let r ← alphaNr nr
  upcaseAll r

/-- The `switch` of `fnsymbol_nr` (analyze.cpp:394-413). -/
def fnSymbol (m : Int) : Bytes :=
  if m = 0 then b!"<asterisk>" else if m = 1 then b!"<dag>" else if m = 2 then b!"<ddag>"
  else if m = 3 then b!"<paragraph>" else if m = 4 then b!"<endofline>" else if m = 5 then b!"||" else []

/-- `fnsymbol_nr` (analyze.cpp:389-417). -/
def fnsymbolNr (nr : Int) : Res Bytes :=
  if nr ≤ -2 ^ 31 then .ub
  else
    let nr := if nr < 0 then -nr else nr
    let m := (nr - 1).tmod 6
    let n := (nr - 1).tdiv 6 + 1
    forUp 0 n.toNat [] fun _ r => .ok (r ++ fnSymbol m)

/-- `raw_quote` (analyze.cpp:419-423). -/
def rawQuote (s : Bytes) : Bytes := [34] ++ s ++ [34]

/-- `is_quoted` (string.cpp:369-373). -/
def isQuoted (s : Bytes) : Res Bool :=
  if s.length ≥ 2 then do
    let c ← rd s 0
    if c = 34 then do
      let d ← rd s (s.length - 1)
      .ok (d == 34)
    else .ok false
  else .ok false

/-- `raw_unquote` (analyze.cpp:425-430). -/
def rawUnquote (s : Bytes) : Res Bytes := do
  let q ← isQuoted s
  .ok (if q then sub s 1 (s.length - 1) else s)

/-- The `switch` of `escape_sh` (analyze.cpp:443-463). -/
def escapeShC (c : UInt8) : Bytes :=
  if c = c! '(' ∨ c = c! ')' ∨ c = c! '<' ∨ c = c! '>' ∨ c = c! '?' ∨ c = c! '&' ∨ c = c! '$' ∨ c = c! '`' ∨
    c = 34 ∨ c = 92 ∨ c = c! ' ' then [92, c]
  else if c = 10 then [92, c! 'n']
  else [c]

/-- `escape_sh` (analyze.cpp:436-466), outside of Windows. -/
def escapeSh (s : Bytes) : Res Bytes := eachByte escapeShC s

/-- `escape_generic` (analyze.cpp:468-477). -/
def escapeGeneric (s : Bytes) : Res Bytes :=
  eachByte (fun c => if c = 2 ∨ c = 5 ∨ c = 27 then [27, c] else [c]) s

/-- `escape_verbatim` (analyze.cpp:479-489). -/
def escapeVerbatim (s : Bytes) : Res Bytes :=
  eachByte (fun c => if c = 10 ∨ c = 9 then [c! ' '] else if c.toNat ≥ 32 then [c] else []) s

/-- `escape_spaces` (analyze.cpp:491-501). -/
def escapeSpaces (s : Bytes) : Res Bytes := eachByte (fun c => if c = c! ' ' then [92, c] else [c]) s

/-- `dos_to_better` (analyze.cpp:503-512). -/
def dosToBetter (s : Bytes) : Res Bytes := eachByte (fun c => if c = 13 then [] else [c]) s

/-- The value of a hexadecimal digit as computed by `from_hex` (numeral.cpp:219-221). -/
def hexVal (c : UInt8) : Nat :=
  if isDigit c then c.toNat - 48
  else if isUpcase c then c.toNat + 10 - 65
  else c.toNat + 10 - 97

/-- `i < n` followed by a read of `s[i]`, as in `i + 1 < n && s[i + 1] == c`. -/
def peek (s : Bytes) (i : Nat) : Res (Option UInt8) :=
  if i < s.length then do
    let c ← rd s i
    .ok (some c)
  else .ok none

/-- `unescape_guile` (analyze.cpp:514-535), from position `i` on. -/
def guileLoop (s : Bytes) (i : Nat) (r : Bytes) : Res Bytes :=
  if i < s.length then do
    let c ← rd s i
    if c = 92 then do
      let c1 ← peek s (i + 1)
      if c1 = some 92 then guileLoop s (i + 2) (r ++ [92, 92, 92, 92])
      else if i + 3 < s.length ∧ c1 = some (c! 'x') then do
        let d ← rd s (i + 2)
        let e ← rd s (i + 3)
        if isHexDigit d ∧ isHexDigit e then
          guileLoop s (i + 4) (r ++ [UInt8.ofNat (hexVal d * 16 + hexVal e)])
        else guileLoop s (i + 1) (r ++ [c])
      else guileLoop s (i + 1) (r ++ [c])
    else guileLoop s (i + 1) (r ++ [c])
  else .ok r
termination_by s.length - i

def unescapeGuile (s : Bytes) : Res Bytes := guileLoop s 0 []

end Lolly.An
