import Verif.Strings.CharsProps

set_option autoImplicit false

/-!
# C134: letters from the Cork encoding to ISO Latin 2

Specification: the two encodings as published, as lists of Unicode code points.
-/

namespace Lolly.CorkProps
open Lolly.An

/-- The Cork encoding (T1) from 128 on: Ă Ą Ć Č ... ý þ ß. -/
def corkUpper : List Nat := [
   258, 260, 262, 268, 270, 282, 280, 286, 313, 317, 321, 323, 327, 330, 336, 340,
   344, 346, 352, 350, 356, 354, 368, 366, 376, 377, 381, 379, 306, 304, 273, 167,
   259, 261, 263, 269, 271, 283, 281, 287, 314, 318, 322, 324, 328, 331, 337, 341,
   345, 347, 353, 351, 357, 355, 369, 367, 255, 378, 382, 380, 307, 161, 191, 163,
   192, 193, 194, 195, 196, 197, 198, 199, 200, 201, 202, 203, 204, 205, 206, 207,
   208, 209, 210, 211, 212, 213, 214, 338, 216, 217, 218, 219, 220, 221, 222, 7838,
   224, 225, 226, 227, 228, 229, 230, 231, 232, 233, 234, 235, 236, 237, 238, 239,
   240, 241, 242, 243, 244, 245, 246, 339, 248, 249, 250, 251, 252, 253, 254, 223]

/-- ISO 8859-2 from 160 on. -/
def latin2Upper : List Nat := [
   160, 260, 728, 321, 164, 317, 346, 167, 168, 352, 350, 356, 377, 173, 381, 379,
   176, 261, 731, 322, 180, 318, 347, 711, 184, 353, 351, 357, 378, 733, 382, 380,
   340, 193, 194, 258, 196, 313, 262, 199, 268, 201, 280, 203, 282, 205, 206, 270,
   272, 323, 327, 211, 212, 336, 214, 215, 344, 366, 218, 368, 220, 221, 354, 223,
   341, 225, 226, 259, 228, 314, 263, 231, 269, 233, 281, 235, 283, 237, 238, 271,
   273, 324, 328, 243, 244, 337, 246, 247, 345, 367, 250, 369, 252, 253, 355, 729]

/-- The accented letters of the Cork encoding and the letter without the accent (the first character of the canonical
decomposition of Unicode). -/
def bareLetters : List (Nat × Nat) := [
   (258, 65), (260, 65), (262, 67), (268, 67), (270, 68), (282, 69), (280, 69), (286, 71), (313, 76), (317, 76),
   (323, 78), (327, 78), (336, 79), (340, 82), (344, 82), (346, 83), (352, 83), (350, 83), (356, 84), (354, 84),
   (368, 85), (366, 85), (376, 89), (377, 90), (381, 90), (379, 90), (304, 73), (259, 97), (261, 97), (263, 99),
   (269, 99), (271, 100), (283, 101), (281, 101), (287, 103), (314, 108), (318, 108), (324, 110), (328, 110), (337, 111),
   (341, 114), (345, 114), (347, 115), (353, 115), (351, 115), (357, 116), (355, 116), (369, 117), (367, 117), (255, 121),
   (378, 122), (382, 122), (380, 122), (192, 65), (193, 65), (194, 65), (195, 65), (196, 65), (197, 65), (199, 67),
   (200, 69), (201, 69), (202, 69), (203, 69), (204, 73), (205, 73), (206, 73), (207, 73), (209, 78), (210, 79),
   (211, 79), (212, 79), (213, 79), (214, 79), (217, 85), (218, 85), (219, 85), (220, 85), (221, 89), (224, 97),
   (225, 97), (226, 97), (227, 97), (228, 97), (229, 97), (231, 99), (232, 101), (233, 101), (234, 101), (235, 101),
   (236, 105), (237, 105), (238, 105), (239, 105), (241, 110), (242, 111), (243, 111), (244, 111), (245, 111), (246, 111),
   (249, 117), (250, 117), (251, 117), (252, 117), (253, 121)]

/-- The letter that a byte from 128 on stands for in the Cork encoding. -/
def cork (c : UInt8) : Option Nat := if 128 ≤ c.toNat then corkUpper[c.toNat - 128]? else none

/-- The character that a byte stands for in ISO 8859-2. -/
def latin2 (c : UInt8) : Option Nat := if c.toNat < 160 then some c.toNat else latin2Upper[c.toNat - 160]?

/-- What a Cork letter `u` should become: the same letter, or, if ISO 8859-2 does not have it, the letter without accent. -/
def Right (u : Nat) (d : UInt8) : Prop :=
  if latin2Upper.contains u = true then latin2 d = some u
  else match bareLetters.lookup u with
    | some b => latin2 d = some b
    | none => True

instance (u : Nat) (d : UInt8) : Decidable (Right u d) := by
  unfold Right
  split
  · infer_instance
  · split <;> infer_instance

theorem good (c : UInt8) : ∃ d, corkToIl2C c = .ok d ∧ (c.toNat < 128 → d = c) ∧ (32 ≤ c.toNat → 32 ≤ d.toNat) ∧
    ∀ u, cork c = some u → Right u d := by
  let k : UInt8 → UInt8 := fun c => match corkToIl2C c with | .ok d => d | _ => 0
  have h := forall_byte (P := fun c => corkToIl2C c = .ok (k c) ∧ (c.toNat < 128 → k c = c) ∧
    (32 ≤ c.toNat → 32 ≤ (k c).toNat) ∧ ∀ u ∈ cork c, Right u (k c)) (by decide +kernel) c
  exact ⟨k c, h⟩

/-- **C134.** `cork_to_il2` works byte by byte: plain ASCII is left alone; a letter of the Cork encoding becomes the same
letter of ISO 8859-2 if there is one, and otherwise, if it is a letter with an accent, the letter without it. -/
theorem C134_letters (s : Bytes) : ∃ t, corkToIl2 s = .ok t ∧ t.length = s.length ∧
    ∀ (i : Nat) (c : UInt8), s[i]? = some c → ∃ d, t[i]? = some d ∧ (c.toNat < 128 → d = c) ∧
      (32 ≤ c.toNat → 32 ≤ d.toNat) ∧ ∀ u, cork c = some u → Right u d := by
  let k : UInt8 → UInt8 := fun c => match corkToIl2C c with | .ok d => d | _ => 0
  have hk : ∀ c, corkToIl2C c = .ok (k c) := forall_byte (by decide +kernel)
  refine ⟨s.map k, convertBytes_eq _ k s fun c _ => hk c, by simp, ?_⟩
  intro i c hc
  obtain ⟨d, h1, h2⟩ := good c
  have e : k c = d := by
    rw [hk c] at h1
    exact Res.ok.inj h1
  exact ⟨d, by rw [List.getElem?_map, hc, Option.map_some, e], h2⟩

/-- Texts over the letters that both encodings have are not confused. -/
theorem C134_distinct (s t r : Bytes) (hs : ∀ c ∈ s, c.toNat < 128 ∨ ∃ u ∈ latin2Upper, cork c = some u)
    (ht : ∀ c ∈ t, c.toNat < 128 ∨ ∃ u ∈ latin2Upper, cork c = some u) (e1 : corkToIl2 s = .ok r)
    (e2 : corkToIl2 t = .ok r) : s = t := by
  let k : UInt8 → UInt8 := fun c => match corkToIl2C c with | .ok d => d | _ => 0
  have hk : ∀ c, corkToIl2C c = .ok (k c) := forall_byte (by decide +kernel)
  let back : UInt8 → UInt8 := fun d => if d.toNat < 128 then d else
    match latin2 d with
    | some u => UInt8.ofNat (128 + corkUpper.idxOf u)
    | none => 0
  have hb : ∀ c, (c.toNat < 128 ∨ ∃ u ∈ latin2Upper, cork c = some u) → back (k c) = c := by
    have := forall_byte (P := fun c => (c.toNat < 128 ∨ ∃ u ∈ latin2Upper, cork c = some u) → back (k c) = c)
      (by decide +kernel)
    exact this
  have hm : ∀ s : Bytes, (∀ c ∈ s, c.toNat < 128 ∨ ∃ u ∈ latin2Upper, cork c = some u) → corkToIl2 s = .ok r →
      r.map back = s := by
    intro s hs e
    rw [corkToIl2, convertBytes_eq _ k s fun c _ => hk c] at e
    injection e with e
    rw [← e, List.map_map]
    exact (List.map_congr_left fun c hc => hb c (hs c hc)).trans (List.map_id s)
  rw [← hm s hs e1, hm t ht e2]

example : corkToIl2 [0x83, 101, 0xA9, 110, 0xE0] = .ok [200, 101, 181, 110, 97] := by decide
example : cork 0x83 = some 268 ∧ latin2 200 = some 268 ∧ cork 0xE0 = some 224 ∧ 224 ∉ latin2Upper ∧
    bareLetters.lookup 224 = some 97 := by decide

end Lolly.CorkProps
