import Verif.System.UrlLemmas
import Verif.Data.Digest
import Verif.Data.DigestSpec
import Verif.Data.HexProps
import Verif.System.FilesProps
import Verif.System.FileUrls

/-!
# C99: digests of files; C100: what they leave behind
-/

set_option autoImplicit false

namespace Lolly.DigestProps

open Lolly.Url Lolly.Files Lolly.FilesProps Lolly.Numeral Lolly.Digest Lolly.HexProps

/-! ## Specification

The digests themselves are in Verif/Data/DigestSpec.lean. -/

/-- The lower-case hexadecimal digit of a number below 16. -/
def digit (n : Nat) : UInt8 := UInt8.ofNat (if n < 10 then 48 + n else 87 + n)

/-- Two digits per byte, the high one first. -/
def text (bs : List Nat) : Bytes := bs.flatMap fun b => [digit (b / 16), digit (b % 16)]

/-- The bytes as numbers. -/
def nums (s : Bytes) : List Nat := s.map UInt8.toNat

/-- MD5, SHA-224 and SHA-256 on byte strings. -/
def MD5 (s : Bytes) : List Nat := DigestSpec.md5Nat (nums s)
def SHA224 (s : Bytes) : List Nat := DigestSpec.sha224Nat (nums s)
def SHA256 (s : Bytes) : List Nat := DigestSpec.sha256Nat (nums s)

/-! ## Lemmas -/

/-- The empty digests that the code has as literals. -/
theorem md5_empty : text (MD5 []) = (b!"d41d8cd98f00b204e9800998ecf8427e") := by decide +kernel
theorem sha224_empty : text (SHA224 []) = (b!"d14a028c2a3a2bc9476102bb288234c415a2b01f828ea62ac5b3e42f") := by
  decide +kernel
theorem sha256_empty :
    text (SHA256 []) = (b!"e3b0c44298fc1c149afbf4c8996fb92427ae41e4649b934ca495991b7852b855") := by decide +kernel

/-- RFC 1321, A.5, and FIPS 180-4: digests of "abc". -/
example : text (MD5 (b!"abc")) = (b!"900150983cd24fb0d6963f7d28e17f72") ∧
    text (SHA224 (b!"abc")) = (b!"23097d223405d8228642a477bda255b32aadbce4bda0b3f7e36c9da7") ∧
    text (SHA256 (b!"abc")) = (b!"ba7816bf8f01cfea414140de5dae2223b00361a396177a9cb410ff61f20015ad") := by
  decide +kernel

theorem padded_text (b : UInt8) : toPaddedHex b = .ok [digit (b.toNat / 16), digit (b.toNat % 16)] := by
  have h : ∀ n : Fin 256, toPaddedHex (UInt8.ofNat n.val) =
      .ok [digit ((UInt8.ofNat n.val).toNat / 16), digit ((UInt8.ofNat n.val).toNat % 16)] := by decide +kernel
  have := h ⟨b.toNat, b.toNat_lt⟩
  simpa using this

theorem hexLoop_eq (o : Bytes) : hexLoop o o.length = .ok (text (nums o)) := by
  obtain ⟨s, h1, h2⟩ := forUp_spec (lo := 0) (hi := o.length) (s := ([] : Bytes))
    (body := fun i s => do
      let b ← rd o i
      let h ← toPaddedHex b
      .ok (s ++ h)) (fun i s => s = text (nums (o.take i))) (Nat.zero_le _) rfl (by
      intro i s _ hi hs
      refine ⟨_, by rw [rd_ok hi, Res.ok_bind, padded_text, Res.ok_bind], ?_⟩
      rw [hs, List.take_succ_eq_append_getElem hi]
      simp only [nums, text, List.map_append, List.flatMap_append]
      simp)
  rw [hexLoop, h1, h2, List.take_length]

theorem digit_low {n : Nat} (h : n < 16) : LowDigit (digit n) := by
  have : ∀ k : Fin 16, LowDigit (digit k.val) := by decide
  exact this ⟨n, h⟩

theorem text_low (o : Bytes) : (text (nums o)).length = 2 * o.length ∧ ∀ c ∈ text (nums o), LowDigit c := by
  induction o with
  | nil => exact ⟨rfl, by intro c hc; cases hc⟩
  | cons b o ih =>
    have hb := b.toNat_lt
    refine ⟨?_, ?_⟩
    · have h := ih.1
      simp only [nums, text, List.map_cons, List.flatMap_cons, List.length_append, List.length_cons, List.length_nil] at h ⊢
      omega
    · intro c hc
      simp only [nums, text, List.map_cons, List.flatMap_cons, List.mem_append, List.mem_cons, List.not_mem_nil,
        or_false] at hc
      rcases hc with (rfl | rfl) | hc
      · exact digit_low (by omega)
      · exact digit_low (by omega)
      · exact ih.2 c hc

theorem nums_bytes {l : List Nat} (h : ∀ x ∈ l, x < 256) : nums (l.map UInt8.ofNat) = l := by
  induction l with
  | nil => rfl
  | cons x l ih =>
    have hx := h x (by simp)
    have := ih fun y hy => h y (by simp [hy])
    simp only [nums, List.map_cons, List.cons.injEq] at *
    exact ⟨by simp [Nat.mod_eq_of_lt hx], this⟩

theorem bytesLow_lt (n x : Nat) : ∀ y ∈ DigestSpec.bytesLow n x, y < 256 := by
  induction n generalizing x with
  | zero => intro y hy; cases hy
  | succ n ih =>
    intro y hy
    rcases List.mem_cons.1 hy with rfl | hy
    · omega
    · exact ih _ y hy

theorem bytesLow_length (n x : Nat) : (DigestSpec.bytesLow n x).length = n := by
  induction n generalizing x with
  | zero => rfl
  | succ n ih => rw [DigestSpec.bytesLow, List.length_cons, ih]

theorem md5_bytes (s : Bytes) : (∀ x ∈ MD5 s, x < 256) ∧ (MD5 s).length = 16 := by
  refine ⟨?_, ?_⟩
  · intro x hx
    simp only [MD5, DigestSpec.md5Nat, List.mem_flatMap] at hx
    obtain ⟨_, _, h⟩ := hx
    exact bytesLow_lt _ _ x h
  · simp [MD5, DigestSpec.md5Nat, bytesLow_length]

theorem sha_bytes (i : DigestSpec.Sha) (m : List Nat) :
    (∀ x ∈ DigestSpec.shaNat i m, x < 256) ∧ (DigestSpec.shaNat i m).length = 32 := by
  refine ⟨?_, ?_⟩
  · intro x hx
    simp only [DigestSpec.shaNat, List.mem_flatMap, DigestSpec.bytesHigh, List.mem_reverse] at hx
    obtain ⟨_, _, h⟩ := hx
    exact bytesLow_lt _ _ x h
  · simp [DigestSpec.shaNat, DigestSpec.bytesHigh, bytesLow_length]

theorem sha256_bytes (s : Bytes) : (∀ x ∈ SHA256 s, x < 256) ∧ (SHA256 s).length = 32 := sha_bytes _ _

theorem sha224_bytes (s : Bytes) : (∀ x ∈ SHA224 s, x < 256) ∧ (SHA224 s).length = 28 := by
  have h := sha_bytes ⟨0xc1059ed8, 0x367cd507, 0x3070dd17, 0xf70e5939, 0xffc00b31, 0x68581511, 0x64f98fa7, 0xbefa4fa4⟩
    (nums s)
  refine ⟨fun x hx => h.1 x (List.mem_of_mem_take hx), ?_⟩
  simp only [SHA224, DigestSpec.sha224Nat, List.length_take, h.2]; decide

/-- What the first half finds in a regular file that the name of the url leads to. -/
theorem readAll_regular {r : Reading} {fs : FS} {u : Url} {c : Bytes} (hl : isLocalAndSingle u = true)
    (hf : isRootedS (b!"file") u = false) {k : Nat} (hp : placeOf fs u = .ok k) (hk : fs.node k = .regular c)
    (hc : c.length < 2 ^ 31) (hr : r.size = c.length) :
    (Reading.Good r c → ∃ left, readAll r fs u = .ok (if c = [] then .empty left else .data c left)) ∧
    (¬ Reading.Good r c → ∃ left, readAll r fs u = .ok (.no left) ∨ readAll r fs u = .ok (.unread left)) := by
  have hk' : fs.place (cname (asString u)) = k := by
    rw [placeOf, asLocalPath, hf] at hp
    exact Res.ok.inj hp
  rw [readAll]
  simp only [hl, Bool.not_true, Bool.false_eq_true, if_false, hk', hk, readable]
  cases ha : r.access with
  | false => exact ⟨fun hg => by simp [Reading.Good, ha] at hg, fun _ => ⟨_, .inl rfl⟩⟩
  | true =>
  cases ho : r.opens with
  | false => exact ⟨fun hg => by simp [Reading.Good, ho] at hg, fun _ => ⟨_, .inl rfl⟩⟩
  | true =>
  simp only [Bool.not_true, Bool.false_eq_true, if_false]
  by_cases h0 : c = []
  · subst h0
    have hs : r.size = 0 := by simpa using hr
    rw [if_pos hs]
    exact ⟨fun _ => ⟨_, by rw [if_pos rfl]⟩, fun hg => absurd ⟨ha, ho, hr, .inl rfl⟩ hg⟩
  · have hs : r.size ≠ 0 := by rw [hr]; simp [h0]
    rw [if_neg hs, if_pos (by omega)]
    simp only [h0, if_false]
    cases hgot : r.got with
    | none => exact ⟨fun hg => by simp [Reading.Good, h0, hgot] at hg, fun _ => ⟨_, .inr rfl⟩⟩
    | some n =>
      have hb : ((c.take r.size).take n).length = r.size ↔ c.length ≤ n := by
        simp only [List.length_take]; omega
      by_cases hn : c.length ≤ n
      · have hb' : (c.take r.size).take n = c := by
          rw [hr, List.take_length, List.take_of_length_le hn]
        cases he : r.exits with
        | true =>
          refine ⟨fun _ => ⟨⟨0, 2⟩, ?_⟩, fun hg => absurd ⟨ha, ho, hr, .inr ⟨⟨n, hgot, hn⟩, he⟩⟩ hg⟩
          dsimp only; rw [hb', hr]; simp
        | false =>
          refine ⟨fun hg => by simp [Reading.Good, h0, he] at hg, fun _ => ⟨⟨1, 2⟩, .inr ?_⟩⟩
          simp
      · refine ⟨fun hg => ?_, fun _ => ⟨⟨if r.exits then 0 else 1, 2⟩, .inr ?_⟩⟩
        · rcases hg.2.2.2 with h | ⟨⟨m, hm, hle⟩, _⟩
          · exact absurd h h0
          · rw [hgot] at hm; cases hm; exact absurd hle hn
        · have : ¬ ((c.take r.size).take n).length = r.size := fun e => hn (hb.1 e)
          simp only [this, decide_false, Bool.false_and, Bool.false_eq_true, if_false]

/-! ## C99 -/

/-- C99 for MD5, but for urls of the protocol `file`: the result is the digest of the contents of the file; nothing, if the
file cannot be read completely. `tb_md5_make` is assumed to compute MD5; it is not used for empty files. -/
theorem C99_md5_partial {r : Reading} {fs : FS} {u : Url} {c : Bytes} {k : Nat} (hl : isLocalAndSingle u = true)
    (hf : isRootedS (b!"file") u = false) (hp : placeOf fs u = .ok k) (hk : fs.node k = .regular c)
    (hc : c.length < 2 ^ 31) (hr : r.size = c.length) (make : Bytes → Bytes)
    (hm : ∀ s, s ≠ [] → make s = (MD5 s).map UInt8.ofNat) :
    (Reading.Good r c → ∃ left, md5Hexdigest make r fs u = .ok (text (MD5 c), left)) ∧
    (¬ Reading.Good r c → ∃ left, md5Hexdigest make r fs u = .ok ([], left)) := by
  obtain ⟨h1, h2⟩ := readAll_regular hl hf hp hk hc hr
  rw [md5Hexdigest]
  refine ⟨fun hg => ?_, fun hg => ?_⟩
  · obtain ⟨left, h⟩ := h1 hg
    rw [h, Res.ok_bind]
    by_cases h0 : c = []
    · rw [if_pos h0, h0, md5_empty]; exact ⟨left, rfl⟩
    · rw [if_neg h0]
      have hb := md5_bytes c
      have hlen : (make c).length = 16 := by rw [hm c h0, List.length_map, hb.2]
      have hh := hexLoop_eq (make c)
      rw [hlen] at hh
      dsimp only
      rw [if_neg (by omega), hh, Res.ok_bind, hm c h0, nums_bytes hb.1]
      exact ⟨left, rfl⟩
  · obtain ⟨left, h | h⟩ := h2 hg <;> rw [h] <;> exact ⟨left, rfl⟩

/-- C99 for SHA-224 and SHA-256, but for urls of the protocol `file`. -/
theorem C99_sha_partial {r : Reading} {fs : FS} {u : Url} {c : Bytes} {k : Nat} (hl : isLocalAndSingle u = true)
    (hf : isRootedS (b!"file") u = false) (hp : placeOf fs u = .ok k) (hk : fs.node k = .regular c)
    (hc : c.length < 2 ^ 31) (hr : r.size = c.length) (make : Int → Bytes → Bytes)
    (h224 : ∀ s, s ≠ [] → make 224 s = (SHA224 s).map UInt8.ofNat)
    (h256 : ∀ s, s ≠ [] → make 256 s = (SHA256 s).map UInt8.ofNat) :
    (Reading.Good r c → (∃ left, sha224Hexdigest make r fs u = .ok (text (SHA224 c), left)) ∧
      ∃ left, sha256Hexdigest make r fs u = .ok (text (SHA256 c), left)) ∧
    (¬ Reading.Good r c → (∃ left, sha224Hexdigest make r fs u = .ok ([], left)) ∧
      ∃ left, sha256Hexdigest make r fs u = .ok ([], left)) := by
  obtain ⟨h1, h2⟩ := readAll_regular hl hf hp hk hc hr
  rw [sha224Hexdigest, sha256Hexdigest, shaHexdigest, shaHexdigest]
  refine ⟨fun hg => ?_, fun hg => ?_⟩
  · obtain ⟨left, h⟩ := h1 hg
    rw [h, Res.ok_bind, Res.ok_bind]
    by_cases h0 : c = []
    · rw [if_pos h0, h0, sha224_empty, sha256_empty]; exact ⟨⟨left, rfl⟩, left, rfl⟩
    · rw [if_neg h0]
      have b224 := sha224_bytes c
      have b256 := sha256_bytes c
      have l224 : (make 224 c).length = 28 := by rw [h224 c h0, List.length_map, b224.2]
      have l256 : (make 256 c).length = 32 := by rw [h256 c h0, List.length_map, b256.2]
      have e224 := hexLoop_eq (make 224 c)
      have e256 := hexLoop_eq (make 256 c)
      rw [l224] at e224
      rw [l256] at e256
      dsimp only
      rw [if_pos rfl, if_neg (by omega), e224, Res.ok_bind, h224 c h0, nums_bytes b224.1, if_neg (by decide), if_pos rfl,
        if_neg (by omega), e256, Res.ok_bind, h256 c h0, nums_bytes b256.1]
      exact ⟨⟨left, rfl⟩, left, rfl⟩
  · obtain ⟨left, h | h⟩ := h2 hg <;> rw [h] <;> exact ⟨⟨left, rfl⟩, left, rfl⟩

/-- The files "a" and "b" of an example; "a" has the three characters abc. -/
def exampleFS : FS := ⟨fun p => p.length, fun k => if k = 1 then .regular (b!"abc") else .absent⟩

/-- The hypotheses of the two theorems hold for it. -/
example : isLocalAndSingle (.atom (b!"a")) = true ∧ isRootedS (b!"file") (.atom (b!"a")) = false ∧
    placeOf exampleFS (.atom (b!"a")) = .ok 1 ∧ exampleFS.node 1 = .regular (b!"abc") ∧
    Reading.Good ⟨true, true, 3, some 3, true, []⟩ (b!"abc") ∧
    (md5Hexdigest (fun s => (MD5 s).map UInt8.ofNat) ⟨true, true, 3, some 3, true, []⟩ exampleFS (.atom (b!"a"))) =
      .ok (b!"900150983cd24fb0d6963f7d28e17f72", ⟨0, 2⟩) := by
  refine ⟨by decide, by decide, rfl, rfl, ⟨rfl, rfl, rfl, .inr ⟨⟨3, rfl, by decide⟩, rfl⟩⟩, by decide +kernel⟩

/-- Whatever the system and the digest functions answer: a result is empty or has the right number of lower-case
hexadecimal digits. Only sizes that are no `int` are undefined, only a mode that is neither 224 nor 256 can raise an
error, and it raises one as soon as the file has been read. -/
theorem C99_shape (r : Reading) (fs : FS) (u : Url) (hs : r.size < 2 ^ 31) :
    (∀ make, ∃ s left, md5Hexdigest make r fs u = .ok (s, left) ∧ (s = [] ∨ s.length = 32 ∧ ∀ c ∈ s, LowDigit c)) ∧
    (∀ make, ∃ s left, sha224Hexdigest make r fs u = .ok (s, left) ∧ (s = [] ∨ s.length = 56 ∧ ∀ c ∈ s, LowDigit c)) ∧
    (∀ make, ∃ s left, sha256Hexdigest make r fs u = .ok (s, left) ∧ (s = [] ∨ s.length = 64 ∧ ∀ c ∈ s, LowDigit c)) ∧
    (∀ make mode, mode ≠ 224 → mode ≠ 256 → shaHexdigest make r fs u mode = .thrown ∨
      ∃ left, shaHexdigest make r fs u mode = .ok ([], left)) := by
  have hx : ∀ (o : Bytes) (n : Nat), o.length = n →
      ∃ s, hexLoop o n = .ok s ∧ s.length = 2 * n ∧ ∀ c ∈ s, LowDigit c := by
    rintro o n rfl
    exact ⟨_, hexLoop_eq o, text_low o⟩
  have hall : ∃ g, readAll r fs u = .ok g := by
    rw [readAll]
    dsimp only
    generalize readable r (fs.node (fs.place (cname (asString u)))) = o
    cases isLocalAndSingle u <;> cases r.access <;> cases r.opens <;> cases o <;> by_cases h0 : r.size = 0 <;>
      cases r.got <;> simp [h0, hs]
    split <;> exact ⟨_, rfl⟩
  obtain ⟨g, hg⟩ := hall
  refine ⟨fun make => ?_, fun make => ?_, fun make => ?_, fun make mode m1 m2 => ?_⟩
  · rw [md5Hexdigest, hg, Res.ok_bind]
    cases g with
    | no left => exact ⟨[], left, rfl, .inl rfl⟩
    | empty left => exact ⟨_, left, rfl, .inr ⟨rfl, by decide⟩⟩
    | unread left => exact ⟨[], left, rfl, .inl rfl⟩
    | data c left =>
      dsimp only
      by_cases ho : (make c).length = 16
      · obtain ⟨s, e, h1, h2⟩ := hx _ _ ho
        rw [if_neg (by omega), e, Res.ok_bind]
        exact ⟨s, left, rfl, .inr ⟨h1, h2⟩⟩
      · rw [if_pos ho]; exact ⟨[], left, rfl, .inl rfl⟩
  · rw [sha224Hexdigest, shaHexdigest, hg, Res.ok_bind]
    cases g with
    | no left => exact ⟨[], left, rfl, .inl rfl⟩
    | empty left => exact ⟨_, left, rfl, .inr ⟨rfl, by decide⟩⟩
    | unread left => exact ⟨[], left, rfl, .inl rfl⟩
    | data c left =>
      dsimp only
      rw [if_pos rfl]
      by_cases ho : (make 224 c).length = 28
      · obtain ⟨s, e, h1, h2⟩ := hx _ _ ho
        rw [if_neg (by omega), e, Res.ok_bind]
        exact ⟨s, left, rfl, .inr ⟨h1, h2⟩⟩
      · rw [if_pos ho]; exact ⟨[], left, rfl, .inl rfl⟩
  · rw [sha256Hexdigest, shaHexdigest, hg, Res.ok_bind]
    cases g with
    | no left => exact ⟨[], left, rfl, .inl rfl⟩
    | empty left => exact ⟨_, left, rfl, .inr ⟨rfl, by decide⟩⟩
    | unread left => exact ⟨[], left, rfl, .inl rfl⟩
    | data c left =>
      dsimp only
      rw [if_neg (by decide), if_pos rfl]
      by_cases ho : (make 256 c).length = 32
      · obtain ⟨s, e, h1, h2⟩ := hx _ _ ho
        rw [if_neg (by omega), e, Res.ok_bind]
        exact ⟨s, left, rfl, .inr ⟨h1, h2⟩⟩
      · rw [if_pos ho]; exact ⟨[], left, rfl, .inl rfl⟩
  · rw [shaHexdigest, hg, Res.ok_bind]
    cases g with
    | no left => exact .inr ⟨left, rfl⟩
    | empty left => dsimp only; rw [if_neg m1, if_neg m2]; exact .inl rfl
    | unread left => exact .inr ⟨left, rfl⟩
    | data c left => dsimp only; rw [if_neg m1, if_neg m2]; exact .inl rfl

/-- C99 fails for urls of the protocol `file`, whatever the names in them: the file is there and has contents, as
`is_regular` tells, but there is no digest unless there is a file with the whole url as its name, because that is what is
opened. -/
theorem C99_file_violated (l : List Url) (h : ∀ y ∈ l, Elem y) (hne : l ≠ []) (hp : l.head? ≠ some parent) (fs : FS)
    (c : Bytes) (hc : fs.node (fs.place (cname (asString (R (b!"default") l)))) = .regular c)
    (ha : fs.node (fs.place (cname ((b!"file://") ++ asString (R (b!"default") l)))) = .absent) :
    isLocalAndSingle (R (b!"file") l) = true ∧ isRegular fs (R (b!"file") l) = .ok true ∧
      ∀ r, ∃ left, (∀ make, md5Hexdigest make r fs (R (b!"file") l) = .ok ([], left)) ∧
        ∀ make mode, shaHexdigest make r fs (R (b!"file") l) mode = .ok ([], left) := by
  obtain ⟨h1, h2, h3⟩ := file_path h hne hp
  refine ⟨h1, ?_, fun r => ?_⟩
  · rw [isRegular, h1, placeOf, h2, Res.ok_bind]
    simp only [Bool.not_true, Bool.false_eq_true, if_false, Res.ok_bind, hc]
  · have : ∃ left, readAll r fs (R (b!"file") l) = .ok (.no left) := by
      rw [readAll, h1, h3]
      simp only [Bool.not_true, Bool.false_eq_true, if_false, ha, readable]
      split
      · exact ⟨_, rfl⟩
      · split <;> exact ⟨_, rfl⟩
    obtain ⟨left, e⟩ := this
    exact ⟨left, fun make => by rw [md5Hexdigest, e]; rfl, fun make mode => by rw [shaHexdigest, e]; rfl⟩

/-- The file /f. -/
example : ∃ (fs : FS) (l : List Url), (∀ y ∈ l, Elem y) ∧ l ≠ [] ∧ l.head? ≠ some parent ∧
    fs.node (fs.place (cname (asString (R (b!"default") l)))) = .regular (b!"x") ∧
    fs.node (fs.place (cname ((b!"file://") ++ asString (R (b!"default") l)))) = .absent :=
  ⟨⟨fun p => if p = (b!"/f") then 1 else 0, fun k => if k = 1 then .regular (b!"x") else .absent⟩, [.atom (b!"f")],
    by decide, by decide, by decide, by decide, by decide⟩

/-! ## C100 -/

/-- What a call leaves behind is what its first half leaves. -/
theorem md5_left {make : Bytes → Bytes} {r : Reading} {fs : FS} {u : Url} {s : Bytes} {left : Left}
    (h : md5Hexdigest make r fs u = .ok (s, left)) : ∃ g, readAll r fs u = .ok g ∧
      (g = .no left ∨ g = .empty left ∨ g = .unread left ∨ ∃ c, g = .data c left) := by
  rw [md5Hexdigest] at h
  obtain ⟨g, hg, h⟩ := Res.bind_eq_ok.1 h
  refine ⟨g, hg, ?_⟩
  cases g with
  | no l => cases h; exact .inl rfl
  | empty l => cases h; exact .inr (.inl rfl)
  | unread l => cases h; exact .inr (.inr (.inl rfl))
  | data c l =>
    dsimp only at h
    split at h
    · cases h; exact .inr (.inr (.inr ⟨c, rfl⟩))
    · obtain ⟨t, _, h⟩ := Res.bind_eq_ok.1 h
      cases h; exact .inr (.inr (.inr ⟨c, rfl⟩))

theorem sha_left {make : Int → Bytes → Bytes} {r : Reading} {fs : FS} {u : Url} {mode : Int} {s : Bytes} {left : Left}
    (h : shaHexdigest make r fs u mode = .ok (s, left)) : ∃ g, readAll r fs u = .ok g ∧
      (g = .no left ∨ g = .empty left ∨ g = .unread left ∨ ∃ c, g = .data c left) := by
  rw [shaHexdigest] at h
  obtain ⟨g, hg, h⟩ := Res.bind_eq_ok.1 h
  refine ⟨g, hg, ?_⟩
  cases g with
  | no l => cases h; exact .inl rfl
  | empty l =>
    dsimp only at h
    split at h
    · cases h; exact .inr (.inl rfl)
    · split at h
      · cases h; exact .inr (.inl rfl)
      · cases h
  | unread l => cases h; exact .inr (.inr (.inl rfl))
  | data c l =>
    refine .inr (.inr (.inr ⟨c, ?_⟩))
    dsimp only at h
    split at h
    · split at h
      · cases h; rfl
      · obtain ⟨t, _, h⟩ := Res.bind_eq_ok.1 h
        cases h; rfl
    · split at h
      · split at h
        · cases h; rfl
        · obtain ⟨t, _, h⟩ := Res.bind_eq_ok.1 h
          cases h; rfl
      · cases h

theorem readAll_left {r : Reading} {fs : FS} {u : Url} {g : Got} {left : Left} (h : readAll r fs u = .ok g)
    (hg : g = .no left ∨ g = .empty left ∨ g = .unread left ∨ ∃ c, g = .data c left) :
    (r.size ≠ 0 → r.exits = true → left.files = 0) ∧ (isLocalAndSingle u = true → 1 ≤ left.blocks) ∧
    left.blocks ≤ 2 := by
  have key : ∀ l : Left, (∃ g', readAll r fs u = .ok g' ∧ (g' = .no l ∨ g' = .empty l ∨ g' = .unread l ∨ ∃ c, g' = .data c l)) →
      (r.size ≠ 0 → r.exits = true → l.files = 0) ∧ (isLocalAndSingle u = true → 1 ≤ l.blocks) ∧ l.blocks ≤ 2 := by
    rintro l ⟨g', h, hg⟩
    rw [readAll] at h
    cases hl : isLocalAndSingle u with
    | false =>
      simp only [hl, Bool.not_false, if_true] at h
      cases h
      rcases hg with hg | hg | hg | ⟨c, hg⟩ <;> cases hg
      exact ⟨fun _ _ => rfl, (fun h => by cases h), by decide⟩
    | true =>
      simp only [hl, Bool.not_true, Bool.false_eq_true, if_false] at h
      split at h
      · cases h
        rcases hg with hg | hg | hg | ⟨c, hg⟩ <;> cases hg
        exact ⟨fun _ _ => rfl, (fun _ => by decide), by decide⟩
      · split at h
        · cases h
          rcases hg with hg | hg | hg | ⟨c, hg⟩ <;> cases hg
          exact ⟨fun _ _ => rfl, (fun _ => by decide), by decide⟩
        · split at h
          · cases h
            rcases hg with hg | hg | hg | ⟨c, hg⟩ <;> cases hg
            exact ⟨fun _ _ => rfl, (fun _ => by decide), by decide⟩
          · split at h
            · next hs =>
              cases h
              rcases hg with hg | hg | hg | ⟨c, hg⟩ <;> cases hg
              exact ⟨fun h0 _ => absurd hs h0, (fun _ => by decide), by decide⟩
            · split at h
              · split at h
                · cases h
                  rcases hg with hg | hg | hg | ⟨c, hg⟩ <;> cases hg
                  exact ⟨fun _ he => by simp [he], (fun _ => by simp), by simp⟩
                · split at h
                  · cases h
                    rcases hg with hg | hg | hg | ⟨c, hg⟩ <;> cases hg
                    exact ⟨fun _ he => by simp [he], (fun _ => by simp), by simp⟩
                  · cases h
                    rcases hg with hg | hg | hg | ⟨c, hg⟩ <;> cases hg
                    exact ⟨fun _ he => by simp [he], (fun _ => by simp), by simp⟩
              · cases h
  exact key left ⟨g, h, hg⟩

/-- C100 but for empty files and for memory: a file that is not empty is closed, unless closing it fails, whatever else
the system answers. At most two blocks of memory stay behind. -/
theorem C100_partial {r : Reading} {fs : FS} {u : Url} {s : Bytes} {left : Left} (hs : r.size ≠ 0) (he : r.exits = true)
    (h : (∃ make, md5Hexdigest make r fs u = .ok (s, left)) ∨ ∃ make mode, shaHexdigest make r fs u mode = .ok (s, left)) :
    left.files = 0 ∧ left.blocks ≤ 2 := by
  obtain ⟨g, h1, h2⟩ : ∃ g, readAll r fs u = .ok g ∧
      (g = .no left ∨ g = .empty left ∨ g = .unread left ∨ ∃ c, g = .data c left) := by
    rcases h with ⟨make, h⟩ | ⟨make, mode, h⟩
    · exact md5_left h
    · exact sha_left h
  exact ⟨(readAll_left h1 h2).1 hs he, (readAll_left h1 h2).2.2⟩

/-- C100 fails for every empty file: it stays open after each of the digests. -/
theorem C100_empty_violated {r : Reading} {fs : FS} {u : Url} (hl : isLocalAndSingle u = true)
    (hk : fs.node (fs.place (cname (asString u))) = .regular []) (ha : r.access = true) (ho : r.opens = true)
    (hs : r.size = 0) :
    (∀ make, ∃ s left, md5Hexdigest make r fs u = .ok (s, left) ∧ left.files = 1) ∧
    (∀ make, ∃ s left, sha224Hexdigest make r fs u = .ok (s, left) ∧ left.files = 1) ∧
    (∀ make, ∃ s left, sha256Hexdigest make r fs u = .ok (s, left) ∧ left.files = 1) := by
  have h : readAll r fs u = .ok (.empty ⟨1, 1⟩) := by
    rw [readAll]; simp [hl, ha, ho, hk, hs, readable]
  refine ⟨fun make => ⟨_, ⟨1, 1⟩, by rw [md5Hexdigest, h]; rfl, rfl⟩,
    fun make => ⟨_, ⟨1, 1⟩, by rw [sha224Hexdigest, shaHexdigest, h]; rfl, rfl⟩,
    fun make => ⟨_, ⟨1, 1⟩, by rw [sha256Hexdigest, shaHexdigest, h]; rfl, rfl⟩⟩

example : ∃ (r : Reading) (fs : FS) (u : Url), isLocalAndSingle u = true ∧
    fs.node (fs.place (cname (asString u))) = .regular [] ∧ r.access = true ∧ r.opens = true ∧ r.size = 0 :=
  ⟨⟨true, true, 0, some 0, true, []⟩, ⟨fun p => p.length, fun _ => .regular []⟩, .atom (b!"a"), by decide, rfl, rfl, rfl,
    rfl⟩

/-- C100 fails for memory: every call for a local file leaves a block of memory behind, and exactly one if the file cannot
be opened. -/
theorem C100_memory_violated {r : Reading} {fs : FS} {u : Url} {s : Bytes} {left : Left} (hl : isLocalAndSingle u = true)
    (h : (∃ make, md5Hexdigest make r fs u = .ok (s, left)) ∨ ∃ make mode, shaHexdigest make r fs u mode = .ok (s, left)) :
    1 ≤ left.blocks ∧ (r.access = false ∨ r.opens = false → left.blocks = 1 ∧ left.files = 0) := by
  obtain ⟨g, h1, h2⟩ : ∃ g, readAll r fs u = .ok g ∧
      (g = .no left ∨ g = .empty left ∨ g = .unread left ∨ ∃ c, g = .data c left) := by
    rcases h with ⟨make, h⟩ | ⟨make, mode, h⟩
    · exact md5_left h
    · exact sha_left h
  refine ⟨(readAll_left h1 h2).2.1 hl, fun ho => ?_⟩
  have : readAll r fs u = .ok (.no ⟨0, 1⟩) := by
    rw [readAll]
    rcases ho with ho | ho
    · simp [hl, ho]
    · simp [hl, ho]
  rw [this] at h1
  cases h1
  rcases h2 with h2 | h2 | h2 | ⟨c, h2⟩ <;> cases h2
  exact ⟨rfl, rfl⟩

/-- There are such calls. -/
example : md5Hexdigest (fun s => s) ⟨true, true, 3, some 3, true, []⟩ exampleFS (.atom (b!"a")) = .ok ([], ⟨0, 2⟩) := by
  decide +kernel

end Lolly.DigestProps
