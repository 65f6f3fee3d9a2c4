/-!
# Message digests: the functions MD5, SHA-224 and SHA-256

Written from RFC 1321 and FIPS 180-4, independently of the code; words are numbers below 2^32. They are the
specification of Verif/Data/DigestProps.lean.
-/

set_option autoImplicit false

namespace Lolly.DigestSpec

/-- Addition of words. -/
def add (x y : Nat) : Nat := (x + y) % 2 ^ 32

/-- The complement of a word. -/
def compl (x : Nat) : Nat := 2 ^ 32 - 1 - x

/-- Rotation of a word to the left. -/
def rotl (x n : Nat) : Nat := (x <<< n ||| x >>> (32 - n)) % 2 ^ 32

/-- Rotation of a word to the right. -/
def rotr (x n : Nat) : Nat := rotl x (32 - n)

/-- The `n` bytes of a number, the lowest first. -/
def bytesLow : Nat → Nat → List Nat
  | 0, _ => []
  | n + 1, x => x % 256 :: bytesLow n (x / 256)

/-- The `n` bytes of a number, the highest first. -/
def bytesHigh (n x : Nat) : List Nat := (bytesLow n x).reverse

/-- Pieces of length `n + 1`; an incomplete piece at the end is left out. -/
def pieces (n : Nat) (l : List Nat) : List (List Nat) :=
  if n < l.length then l.take (n + 1) :: pieces n (l.drop (n + 1)) else []
  termination_by l.length
  decreasing_by simp only [List.length_drop]; omega

/-- A message with padding: a bit 1, zeros, and the length in bits. -/
def pad (len : List Nat) (m : List Nat) : List Nat :=
  m ++ 0x80 :: List.replicate ((119 - m.length % 64) % 64) 0 ++ len

/-- The number of four bytes, the lowest first. -/
def wordLow (l : List Nat) : Nat := l.foldr (fun b x => b + 256 * x) 0

/-- The number of four bytes, the highest first. -/
def wordHigh (l : List Nat) : Nat := wordLow l.reverse

/-! ## MD5 -/

/-- The table T of RFC 1321: `floor (2^32 * abs (sin (i + 1)))`. -/
def md5Table : List Nat :=
  [0xd76aa478, 0xe8c7b756, 0x242070db, 0xc1bdceee, 0xf57c0faf, 0x4787c62a, 0xa8304613, 0xfd469501,
   0x698098d8, 0x8b44f7af, 0xffff5bb1, 0x895cd7be, 0x6b901122, 0xfd987193, 0xa679438e, 0x49b40821,
   0xf61e2562, 0xc040b340, 0x265e5a51, 0xe9b6c7aa, 0xd62f105d, 0x02441453, 0xd8a1e681, 0xe7d3fbc8,
   0x21e1cde6, 0xc33707d6, 0xf4d50d87, 0x455a14ed, 0xa9e3e905, 0xfcefa3f8, 0x676f02d9, 0x8d2a4c8a,
   0xfffa3942, 0x8771f681, 0x6d9d6122, 0xfde5380c, 0xa4beea44, 0x4bdecfa9, 0xf6bb4b60, 0xbebfbc70,
   0x289b7ec6, 0xeaa127fa, 0xd4ef3085, 0x04881d05, 0xd9d4d039, 0xe6db99e5, 0x1fa27cf8, 0xc4ac5665,
   0xf4292244, 0x432aff97, 0xab9423a7, 0xfc93a039, 0x655b59c3, 0x8f0ccc92, 0xffeff47d, 0x85845dd1,
   0x6fa87e4f, 0xfe2ce6e0, 0xa3014314, 0x4e0811a1, 0xf7537e82, 0xbd3af235, 0x2ad7d2bb, 0xeb86d391]

/-- The shifts of the four rounds. -/
def md5Shift (i : Nat) : Nat :=
  ([[7, 12, 17, 22], [5, 9, 14, 20], [4, 11, 16, 23], [6, 10, 15, 21]].getD (i / 16) []).getD (i % 4) 0

/-- The functions F, G, H, I of the four rounds. -/
def md5Mix (i b c d : Nat) : Nat :=
  if i < 16 then (b &&& c) ||| (compl b &&& d)
  else if i < 32 then (b &&& d) ||| (c &&& compl d)
  else if i < 48 then b ^^^ c ^^^ d
  else c ^^^ (b ||| compl d)

/-- The word of the block that operation `i` uses. -/
def md5Index (i : Nat) : Nat :=
  if i < 16 then i else if i < 32 then (5 * i + 1) % 16 else if i < 48 then (3 * i + 5) % 16 else 7 * i % 16

/-- The four registers. -/
structure Md5 where
  a : Nat
  b : Nat
  c : Nat
  d : Nat

/-- One operation. -/
def md5Step (x : List Nat) (s : Md5) (i : Nat) : Md5 :=
  ⟨s.d, add s.b (rotl (add (add s.a (md5Mix i s.b s.c s.d)) (add (x.getD (md5Index i) 0) (md5Table.getD i 0))) (md5Shift i)),
    s.b, s.c⟩

/-- One block. -/
def md5Block (s : Md5) (block : List Nat) : Md5 :=
  let t := (List.range 64).foldl (md5Step ((pieces 3 block).map wordLow)) s
  ⟨add s.a t.a, add s.b t.b, add s.c t.c, add s.d t.d⟩

/-- MD5 of a list of numbers below 256. -/
def md5Nat (m : List Nat) : List Nat :=
  let s := (pieces 63 (pad (bytesLow 8 (8 * m.length)) m)).foldl md5Block ⟨0x67452301, 0xefcdab89, 0x98badcfe, 0x10325476⟩
  [s.a, s.b, s.c, s.d].flatMap (bytesLow 4)

/-! ## SHA-2 -/

/-- The table K of FIPS 180-4: the first 32 bits of the fractional parts of the cube roots of the first 64 primes. -/
def shaTable : List Nat :=
  [0x428a2f98, 0x71374491, 0xb5c0fbcf, 0xe9b5dba5, 0x3956c25b, 0x59f111f1, 0x923f82a4, 0xab1c5ed5,
   0xd807aa98, 0x12835b01, 0x243185be, 0x550c7dc3, 0x72be5d74, 0x80deb1fe, 0x9bdc06a7, 0xc19bf174,
   0xe49b69c1, 0xefbe4786, 0x0fc19dc6, 0x240ca1cc, 0x2de92c6f, 0x4a7484aa, 0x5cb0a9dc, 0x76f988da,
   0x983e5152, 0xa831c66d, 0xb00327c8, 0xbf597fc7, 0xc6e00bf3, 0xd5a79147, 0x06ca6351, 0x14292967,
   0x27b70a85, 0x2e1b2138, 0x4d2c6dfc, 0x53380d13, 0x650a7354, 0x766a0abb, 0x81c2c92e, 0x92722c85,
   0xa2bfe8a1, 0xa81a664b, 0xc24b8b70, 0xc76c51a3, 0xd192e819, 0xd6990624, 0xf40e3585, 0x106aa070,
   0x19a4c116, 0x1e376c08, 0x2748774c, 0x34b0bcb5, 0x391c0cb3, 0x4ed8aa4a, 0x5b9cca4f, 0x682e6ff3,
   0x748f82ee, 0x78a5636f, 0x84c87814, 0x8cc70208, 0x90befffa, 0xa4506ceb, 0xbef9a3f7, 0xc67178f2]

/-- The next word of the schedule, from the sixteen before it, the latest first. -/
def shaNext (w : List Nat) : Nat :=
  let s0 := let x := w.getD 14 0; rotr x 7 ^^^ rotr x 18 ^^^ (x >>> 3)
  let s1 := let x := w.getD 1 0; rotr x 17 ^^^ rotr x 19 ^^^ (x >>> 10)
  add (add s1 (w.getD 6 0)) (add s0 (w.getD 15 0))

/-- The schedule of a block, the latest word first. -/
def shaSchedule (block : List Nat) : List Nat :=
  (List.range 48).foldl (fun w _ => shaNext w :: w) ((pieces 3 block).map wordHigh).reverse

/-- The eight registers. -/
structure Sha where
  a : Nat
  b : Nat
  c : Nat
  d : Nat
  e : Nat
  f : Nat
  g : Nat
  h : Nat

/-- One operation with a word of the schedule and a word of the table. -/
def shaStep (s : Sha) (w : Nat × Nat) : Sha :=
  let t1 := add (add (add s.h (rotr s.e 6 ^^^ rotr s.e 11 ^^^ rotr s.e 25))
    (add ((s.e &&& s.f) ^^^ (compl s.e &&& s.g)) w.2)) w.1
  let t2 := add (rotr s.a 2 ^^^ rotr s.a 13 ^^^ rotr s.a 22) ((s.a &&& s.b) ^^^ (s.a &&& s.c) ^^^ (s.b &&& s.c))
  ⟨add t1 t2, s.a, s.b, s.c, add s.d t1, s.e, s.f, s.g⟩

/-- One block. -/
def shaBlock (s : Sha) (block : List Nat) : Sha :=
  let t := ((shaSchedule block).reverse.zip shaTable).foldl shaStep s
  ⟨add s.a t.a, add s.b t.b, add s.c t.c, add s.d t.d, add s.e t.e, add s.f t.f, add s.g t.g, add s.h t.h⟩

/-- The registers after a message. -/
def shaNat (start : Sha) (m : List Nat) : List Nat :=
  let s := (pieces 63 (pad (bytesHigh 8 (8 * m.length)) m)).foldl shaBlock start
  [s.a, s.b, s.c, s.d, s.e, s.f, s.g, s.h].flatMap (bytesHigh 4)

/-- SHA-256 of a list of numbers below 256. -/
def sha256Nat (m : List Nat) : List Nat :=
  shaNat ⟨0x6a09e667, 0xbb67ae85, 0x3c6ef372, 0xa54ff53a,
    0x510e527f, 0x9b05688c, 0x1f83d9ab, 0x5be0cd19⟩ m

/-- SHA-224 of a list of numbers below 256. -/
def sha224Nat (m : List Nat) : List Nat :=
  (shaNat ⟨0xc1059ed8, 0x367cd507, 0x3070dd17, 0xf70e5939,
    0xffc00b31, 0x68581511, 0x64f98fa7, 0xbefa4fa4⟩ m).take 28

end Lolly.DigestSpec
