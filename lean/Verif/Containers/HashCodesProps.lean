import Verif.Containers.HashCodes
import Verif.Containers.ArrayProps
import Verif.Strings.StrProps
import Verif.Bytes

set_option autoImplicit false

/-!
# C137: overflow in hash codes
-/

namespace Lolly.HashCodesProps
open HashCodes

/-! ## Specification -/

/-- The integer of 32 bits that is congruent. -/
def wrap (x : Int) : Int := (x + 2 ^ 31) % 2 ^ 32 - 2 ^ 31

/-- The hash code of a text, given by the numbers of its characters, if every result is reduced to 32 bits. -/
def code (s : List Int) : Int := s.foldl (fun h c => wrap (wrap (512 * h) + h / 2 ^ 23 + c)) 0

/-- A step at which the addition of one more character leaves the range of `int`: the shifted code and its carry add up
to too little, or the character makes it too little or too much. -/
def Leaves (h c : Int) : Prop :=
  wrap (512 * h) + h / 2 ^ 23 < -2 ^ 31 ∨ wrap (512 * h) + h / 2 ^ 23 + c < -2 ^ 31 ∨
    2 ^ 31 ≤ wrap (512 * h) + h / 2 ^ 23 + c

/-- The hash code of an array after one more element with hash code `k`, if sums are reduced to 32 bits. -/
def mixed (h k : BitVec 32) : BitVec 32 := k ^^^ ((h <<< 7) + h.sshiftRight 25)

/-! ## Lemmas -/

theorem toInt_range (h : BitVec 32) : -2 ^ 31 ≤ h.toInt ∧ h.toInt < 2 ^ 31 := by
  have h1 := BitVec.le_toInt h
  have h2 := BitVec.toInt_lt (x := h)
  omega

theorem bmod_wrap (x : Int) : x.bmod (2 ^ 32) = wrap x := by
  unfold wrap Int.bmod
  dsimp only
  split <;> omega

theorem toInt_shl (h : BitVec 32) (k : Nat) : (h <<< k).toInt = wrap (h.toInt * 2 ^ k) := by
  rw [BitVec.toInt_shiftLeft, ← bmod_wrap, Nat.shiftLeft_eq, BitVec.toInt_eq_toNat_bmod]
  push_cast
  rw [Int.bmod_mul_bmod]

theorem toInt_shr (h : BitVec 32) (k : Nat) : (h.sshiftRight k).toInt = h.toInt / 2 ^ k := by
  rw [BitVec.toInt_sshiftRight, Int.shiftRight_eq_div_pow]
  push_cast
  rfl

theorem toInt_add (a b : BitVec 32) : (a + b).toInt = wrap (a.toInt + b.toInt) := by
  rw [BitVec.toInt_add, bmod_wrap]

theorem plus_spec (a b : BitVec 32) :
    ((a.toInt + b.toInt < -2 ^ 31 ∨ 2 ^ 31 ≤ a.toInt + b.toInt) ∧ plus a b = .ub) ∨
    (-2 ^ 31 ≤ a.toInt + b.toInt ∧ a.toInt + b.toInt < 2 ^ 31 ∧ plus a b = .ok (a + b)) := by
  unfold plus BitVec.saddOverflow
  by_cases h1 : a.toInt + b.toInt ≥ 2 ^ (32 - 1)
  · left
    simp only [h1, decide_true, Bool.true_or, if_true, and_true]
    exact .inr trivial
  · by_cases h2 : a.toInt + b.toInt < -2 ^ (32 - 1)
    · left
      simp only [h2, decide_true, Bool.or_true, if_true, and_true]
      exact .inl trivial
    · right
      simp only [h1, h2, decide_false, Bool.or_false, Bool.false_eq_true, if_false, and_true]
      omega

/-- One step of the code with wrapping sums. -/
def next (h c : BitVec 32) : BitVec 32 := (h <<< 9) + h.sshiftRight 23 + c

theorem wrap_idem (x y : Int) : wrap (wrap x + y) = wrap (x + y) := by unfold wrap; omega

theorem next_toInt (h c : BitVec 32) :
    (next h c).toInt = wrap (wrap (512 * h.toInt) + h.toInt / 2 ^ 23 + c.toInt) := by
  unfold next
  rw [toInt_add, toInt_add, toInt_shl, toInt_shr, wrap_idem, show h.toInt * 2 ^ 9 = 512 * h.toInt by omega]

theorem charStep_spec (h c : BitVec 32) :
    (Leaves h.toInt c.toInt ∧ charStep h c = .ub) ∨ (¬ Leaves h.toInt c.toInt ∧ charStep h c = .ok (next h c)) := by
  have r := toInt_range h
  have e1 : (h <<< 9).toInt = wrap (512 * h.toInt) := by
    rw [toInt_shl, show h.toInt * 2 ^ 9 = 512 * h.toInt by omega]
  have e2 := toInt_shr h 23
  unfold Leaves charStep
  have s := toInt_add (h <<< 9) (h.sshiftRight 23)
  have p := plus_spec (h <<< 9) (h.sshiftRight 23)
  rw [e1, e2] at s p
  have q := plus_spec (h <<< 9 + h.sshiftRight 23) c
  rw [s] at q
  generalize hx : wrap (512 * h.toInt) = x at *
  generalize hy : h.toInt / 2 ^ 23 = y at *
  have hxr : -2 ^ 31 ≤ x ∧ x ≤ 2 ^ 31 - 512 := by unfold wrap at hx; omega
  have hyr : y ≤ 255 := by omega
  rcases p with ⟨p1, p⟩ | ⟨p1, p2, p⟩
  · left
    refine ⟨by omega, ?_⟩
    rw [p]; rfl
  · rw [p, Res.ok_bind]
    have w : wrap (x + y) = x + y := by unfold wrap; omega
    rw [w] at q
    rcases q with ⟨q1, q⟩ | ⟨q1, q2, q⟩
    · left; exact ⟨by omega, q⟩
    · right; exact ⟨by omega, q⟩

theorem charLoop_spec : ∀ (s : List (BitVec 32)) (h : BitVec 32),
    (charLoop h s = .ub ∧ ∃ p c q, s = p ++ c :: q ∧ Leaves (p.foldl next h).toInt c.toInt) ∨
    (charLoop h s = .ok (s.foldl next h) ∧ ∀ p c q, s = p ++ c :: q → ¬ Leaves (p.foldl next h).toInt c.toInt)
  | [], h => .inr ⟨rfl, by intro p c q e; cases p <;> cases e⟩
  | c :: s, h => by
    unfold charLoop
    rcases charStep_spec h c with ⟨l, e⟩ | ⟨l, e⟩
    · left
      rw [e]
      exact ⟨rfl, [], c, s, rfl, l⟩
    · rw [e, Res.ok_bind]
      rcases charLoop_spec s (next h c) with ⟨e', p, d, q, rfl, l'⟩ | ⟨e', n⟩
      · exact .inl ⟨e', c :: p, d, q, rfl, l'⟩
      · refine .inr ⟨e', ?_⟩
        intro p d q ep
        cases p with
        | nil =>
          cases ep
          exact l
        | cons x p =>
          cases ep
          exact n p d q rfl

theorem foldl_code (s : List (BitVec 32)) (h : BitVec 32) (x : Int) (e : h.toInt = x) :
    (s.foldl next h).toInt =
      (s.map BitVec.toInt).foldl (fun h c => wrap (wrap (512 * h) + h / 2 ^ 23 + c)) x := by
  induction s generalizing h x with
  | nil => exact e
  | cons c s ih =>
    simp only [List.foldl_cons, List.map_cons]
    apply ih
    rw [next_toInt, e]

theorem foldl_code0 (s : List (BitVec 32)) : (s.foldl next 0#32).toInt = code (s.map BitVec.toInt) :=
  foldl_code s 0#32 0 rfl

theorem schar_range (c : UInt8) : -128 ≤ schar c ∧ schar c ≤ 127 :=
  forall_byte (P := fun c => -128 ≤ schar c ∧ schar c ≤ 127) (by decide +kernel) c

theorem toInt_schar (c : UInt8) : (BitVec.ofInt 32 (schar c)).toInt = schar c := by
  have h := schar_range c
  rw [BitVec.toInt_ofInt, bmod_wrap]
  unfold wrap
  omega

theorem toInt_u16 (c : UInt16) : (BitVec.ofNat 32 c.toNat).toInt = c.toNat := by
  have h := c.toNat_lt
  rw [BitVec.toInt_eq_toNat_bmod, BitVec.toNat_ofNat, bmod_wrap]
  unfold wrap
  omega

theorem map_schar (s : Bytes) :
    (s.map fun c => BitVec.ofInt 32 (schar c)).map BitVec.toInt = s.map schar := by
  rw [List.map_map]
  exact List.map_congr_left fun c _ => toInt_schar c

theorem map_u16 (s : List UInt16) :
    (s.map fun c => BitVec.ofNat 32 c.toNat).map BitVec.toInt = s.map fun c => (c.toNat : Int) := by
  rw [List.map_map]
  exact List.map_congr_left fun c _ => toInt_u16 c

theorem wrap_range (x : Int) : -2 ^ 31 ≤ wrap x ∧ wrap x < 2 ^ 31 := by unfold wrap; omega

theorem foldl_range (s : List Int) (x : Int) (h : -2 ^ 31 ≤ x ∧ x < 2 ^ 31) :
    -2 ^ 31 ≤ s.foldl (fun h c => wrap (wrap (512 * h) + h / 2 ^ 23 + c)) x ∧
      s.foldl (fun h c => wrap (wrap (512 * h) + h / 2 ^ 23 + c)) x < 2 ^ 31 := by
  induction s generalizing x with
  | nil => exact h
  | cons c s ih => exact ih _ (wrap_range _)

theorem code_range (s : List Int) : -2 ^ 31 ≤ code s ∧ code s < 2 ^ 31 := foldl_range s 0 (by decide)

/-- For characters of eight bits. -/
theorem leaves_char {h c : Int} (r : -2 ^ 31 ≤ h ∧ h < 2 ^ 31) (k : -128 ≤ c ∧ c ≤ 127) :
    Leaves h c ↔ h % 2 ^ 23 = 2 ^ 22 ∧ (h < 0 ∨ h / 2 ^ 23 + c < 0) := by
  unfold Leaves wrap
  omega

/-- For characters of sixteen bits. -/
theorem leaves_u16 {h c : Int} (r : -2 ^ 31 ≤ h ∧ h < 2 ^ 31) (k : 0 ≤ c) :
    Leaves h c ↔ (h % 2 ^ 23 = 2 ^ 22 ∧ h < 0) ∨
      (h % 2 ^ 23 < 2 ^ 22 ∧ 2 ^ 31 ≤ 512 * (h % 2 ^ 23) + h / 2 ^ 23 + c) ∨
      (2 ^ 22 ≤ h % 2 ^ 23 ∧ 2 ^ 31 ≤ 512 * (h % 2 ^ 23) - 2 ^ 32 + h / 2 ^ 23 + c) := by
  unfold Leaves wrap
  omega

theorem code_snoc (s : List Int) (c : Int) :
    code (s ++ [c]) = wrap (wrap (512 * code s) + code s / 2 ^ 23 + c) := by
  simp [code, List.foldl_append]

theorem arrayLoop_spec : ∀ (s : List (BitVec 32)) (h : BitVec 32),
    (arrayLoop h s = .ub ∧ ∃ p c q, s = p ++ c :: q ∧
      (p.foldl mixed h).toInt < 0 ∧
      (p.foldl mixed h).toInt % 2 ^ 25 = 2 ^ 24) ∨
    (arrayLoop h s = .ok (s.foldl mixed h) ∧
      ∀ p c q, s = p ++ c :: q →
        ¬ ((p.foldl mixed h).toInt < 0 ∧
        (p.foldl mixed h).toInt % 2 ^ 25 = 2 ^ 24))
  | [], h => .inr ⟨rfl, by intro p c q e; cases p <;> cases e⟩
  | c :: s, h => by
    unfold arrayLoop
    have r := toInt_range h
    have p := plus_spec (h <<< 7) (h.sshiftRight 25)
    rw [toInt_shl, toInt_shr] at p
    unfold wrap at p
    rcases p with ⟨p1, e⟩ | ⟨p1, p2, e⟩
    · left
      rw [e]
      exact ⟨rfl, [], c, s, rfl, by dsimp only [List.foldl_nil]; omega⟩
    · rw [e, Res.ok_bind]
      change (arrayLoop (mixed h c) s = .ub ∧ _) ∨ (arrayLoop (mixed h c) s = .ok _ ∧ _)
      rcases arrayLoop_spec s (mixed h c) with ⟨e', p, d, q, rfl, l'⟩ | ⟨e', n⟩
      · exact .inl ⟨e', c :: p, d, q, rfl, l'⟩
      · refine .inr ⟨e', ?_⟩
        intro p d q ep
        cases p with
        | nil =>
          cases ep
          dsimp only [List.foldl_nil]
          omega
        | cons x p =>
          cases ep
          exact n p d q rfl

theorem step_small {h c : Int} (hh : 0 ≤ h ∧ h < 2 ^ 21) (hc : 1 ≤ c ∧ c ≤ 127) :
    wrap (wrap (512 * h) + h / 2 ^ 23 + c) = 512 * h + c := by
  have e1 : h / 2 ^ 23 = 0 := by omega
  have e2 : wrap (512 * h) = 512 * h := by unfold wrap; omega
  rw [e1, e2]
  unfold wrap
  omega

theorem step_mod (h c : Int) : wrap (wrap (512 * h) + h / 2 ^ 23 + c) % 512 = (h / 2 ^ 23 + c) % 512 := by
  generalize h / 2 ^ 23 = y
  unfold wrap
  omega

theorem wrap_zero (c : Int) : wrap (wrap (512 * 0) + 0 / 2 ^ 23 + c) = wrap c := by unfold wrap; omega

theorem wrap_mod (x : Int) : wrap x % 2 ^ 23 = x % 2 ^ 23 := by unfold wrap; omega

theorem step_back {h c : Int} (r : -2 ^ 31 ≤ h ∧ h < 2 ^ 31) (hc : 1 ≤ c ∧ c ≤ 127)
    (e : wrap (wrap (512 * h) + h / 2 ^ 23 + c) % 2 ^ 23 = 2 ^ 22) : h % 512 = 0 := by
  have m := step_mod h c
  have z : (h / 2 ^ 23 + c) % 512 = 0 := by
    generalize wrap (wrap (512 * h) + h / 2 ^ 23 + c) = w at *
    omega
  have y : h / 2 ^ 23 + c = 0 := by
    have y1 : -256 ≤ h / 2 ^ 23 := by omega
    have y2 : h / 2 ^ 23 ≤ 255 := by omega
    omega
  rw [Int.add_assoc, y, Int.add_zero, wrap_mod, wrap_mod] at e
  omega

/-- Prefixes of at most five characters of 7 bits, none of them NUL, have no dangerous code. -/
theorem short_code {s : List Int} (hs : ∀ c ∈ s, 1 ≤ c ∧ c ≤ 127) (hl : s.length ≤ 5) :
    code s % 2 ^ 23 ≠ 2 ^ 22 := by
  have e0 : code [] = 0 := rfl
  have e1 : ∀ a, 1 ≤ a ∧ a ≤ 127 → code [a] = a := by
    intro a ha
    have e := code_snoc [] a
    rw [e0, step_small (by omega) ha] at e
    change code [a] = _ at e
    omega
  have e2 : ∀ a b, 1 ≤ a ∧ a ≤ 127 → 1 ≤ b ∧ b ≤ 127 → code [a, b] = 512 * a + b := by
    intro a b ha hb
    have e := code_snoc [a] b
    rw [e1 a ha, step_small (by omega) hb] at e
    exact e
  have e3 : ∀ a b c, 1 ≤ a ∧ a ≤ 127 → 1 ≤ b ∧ b ≤ 127 → 1 ≤ c ∧ c ≤ 127 →
      code [a, b, c] = 512 * (512 * a + b) + c := by
    intro a b c ha hb hc
    have e := code_snoc [a, b] c
    rw [e2 a b ha hb, step_small (by omega) hc] at e
    exact e
  have e4 : ∀ a b c d, 1 ≤ a ∧ a ≤ 127 → 1 ≤ b ∧ b ≤ 127 → 1 ≤ c ∧ c ≤ 127 → 1 ≤ d ∧ d ≤ 127 →
      code [a, b, c, d] % 512 ≠ 0 := by
    intro a b c d ha hb hc hd
    have e := code_snoc [a, b, c] d
    change code [a, b, c, d] = _ at e
    rw [e, step_mod, e3 a b c ha hb hc]
    omega
  match s with
  | [] => decide
  | [a] =>
    rw [e1 a (hs a (by simp))]
    have := hs a (by simp)
    omega
  | [a, b] =>
    have ha := hs a (by simp)
    have hb := hs b (by simp)
    rw [e2 a b ha hb]
    omega
  | [a, b, c] =>
    have ha := hs a (by simp)
    have hb := hs b (by simp)
    have hc := hs c (by simp)
    rw [e3 a b c ha hb hc]
    omega
  | [a, b, c, d] =>
    have := e4 a b c d (hs a (by simp)) (hs b (by simp)) (hs c (by simp)) (hs d (by simp))
    omega
  | [a, b, c, d, f] =>
    have := e4 a b c d (hs a (by simp)) (hs b (by simp)) (hs c (by simp)) (hs d (by simp))
    have e := code_snoc [a, b, c, d] f
    change code [a, b, c, d, f] = _ at e
    rw [e]
    intro h
    exact this (step_back (code_range _) (hs f (by simp)) h)

/-! ## C137 -/

/-- **C137, strings.** The hash code of a string is computed without overflow exactly if no character is added to a code
whose lower 23 bits are `2^22` while the code, or what its upper bits and the character add up to, is negative; and then
it is the one with all results reduced to 32 bits. -/
theorem C137_string_partial (s : Bytes) :
    ((∃ p c q, s = p ++ c :: q ∧ code (p.map schar) % 2 ^ 23 = 2 ^ 22 ∧
        (code (p.map schar) < 0 ∨ code (p.map schar) / 2 ^ 23 + schar c < 0)) ∧ ofString s = .ub) ∨
    ((¬ ∃ p c q, s = p ++ c :: q ∧ code (p.map schar) % 2 ^ 23 = 2 ^ 22 ∧
        (code (p.map schar) < 0 ∨ code (p.map schar) / 2 ^ 23 + schar c < 0)) ∧
      ∃ h, ofString s = .ok h ∧ h.toInt = code (s.map schar)) := by
  unfold ofString
  have key : ∀ (p : Bytes) (c : UInt8),
      Leaves (((p.map fun c => BitVec.ofInt 32 (schar c)).foldl next 0#32).toInt) (BitVec.ofInt 32 (schar c)).toInt ↔
      (code (p.map schar) % 2 ^ 23 = 2 ^ 22 ∧
        (code (p.map schar) < 0 ∨ code (p.map schar) / 2 ^ 23 + schar c < 0)) := by
    intro p c
    rw [foldl_code0, map_schar, toInt_schar]
    exact leaves_char (code_range _) (schar_range c)
  rcases charLoop_spec (s.map fun c => BitVec.ofInt 32 (schar c)) 0#32 with ⟨e, p, c, q, es, l⟩ | ⟨e, n⟩
  · left
    obtain ⟨p', q', rfl, rfl, eq⟩ := List.map_eq_append_iff.1 es
    obtain ⟨c', q'', rfl, rfl, rfl⟩ := List.map_eq_cons_iff.1 eq
    exact ⟨⟨p', c', q'', rfl, (key _ _).1 l⟩, e⟩
  · right
    refine ⟨?_, _, e, by rw [foldl_code0, map_schar]⟩
    rintro ⟨p, c, q, rfl, l⟩
    exact n (p.map fun c => BitVec.ofInt 32 (schar c)) (BitVec.ofInt 32 (schar c))
      (q.map fun c => BitVec.ofInt 32 (schar c)) (by simp) ((key _ _).2 l)

/-- **C137, short strings.** Up to six ASCII characters other than NUL never overflow. -/
theorem C137_short (s : Bytes) (hs : ∀ c ∈ s, 1 ≤ c ∧ c ≤ 127) (hl : s.length ≤ 6) :
    ∃ h, ofString s = .ok h ∧ h.toInt = code (s.map schar) := by
  rcases C137_string_partial s with ⟨⟨p, c, q, rfl, h, _⟩, _⟩ | ⟨_, h⟩
  · exfalso
    refine short_code (s := p.map schar) ?_ ?_ h
    · intro x hx
      obtain ⟨d, hd, rfl⟩ := List.mem_map.1 hx
      exact forall_byte (P := fun d => (1 ≤ d ∧ d ≤ 127) → 1 ≤ schar d ∧ schar d ≤ 127) (by decide +kernel) d
        (hs d (by simp [hd]))
    · simp only [List.length_append, List.length_cons] at hl
      simp only [List.length_map]
      omega
  · exact h

example : ∃ h, ofString (b!"yytmmm") = .ok h ∧ h.toInt = -1581252608 := ⟨_, rfl, by decide +kernel⟩

/-- **C137, violated for strings.** Seven lower case letters are enough. -/
theorem C137_string_violated : ofString (b!"yytmmma") = .ub ∧ ofString [0x10, 0, 0, 0xff] = .ub := by decide +kernel

/-- **C137, and the string class.** When the code is defined, it is what the model of the class returns, so that C15 and
all properties of tables apply to it. -/
theorem C137_string_agrees {hp : List Str} {L : List Bytes} (r : StrProps.Reach hp L) {a : Str} (ha : a ∈ hp)
    {l : Bytes} (hl : StrProps.Shows a l) {h : BitVec 32} (e : ofString l = .ok h) : a.hashCode = .ok h := by
  have w := (StrProps.reach_good r).2 a ha
  obtain rfl := StrProps.shows_unique hl (StrProps.shows_toList w)
  rw [StrProps.hashCode_key w]
  unfold ofString at e
  rcases charLoop_spec (a.toList.map fun c => BitVec.ofInt 32 (schar c)) 0#32 with ⟨e', _⟩ | ⟨e', _⟩
  · rw [e'] at e; cases e
  · rw [e'] at e
    rw [← e, List.foldl_map]
    rfl

/-- **C137, strings of 16-bit characters.** The same, where a character can also make the code too large. -/
theorem C137_u16_partial (s : List UInt16) :
    ((∃ p c q, s = p ++ c :: q ∧ Leaves (code (p.map fun c => (c.toNat : Int))) c.toNat) ∧ ofU16 s = .ub) ∨
    ((¬ ∃ p c q, s = p ++ c :: q ∧ Leaves (code (p.map fun c => (c.toNat : Int))) c.toNat) ∧
      ∃ h, ofU16 s = .ok h ∧ h.toInt = code (s.map fun c => (c.toNat : Int))) := by
  unfold ofU16
  have key : ∀ (p : List UInt16) (c : UInt16),
      Leaves (((p.map fun c => BitVec.ofNat 32 c.toNat).foldl next 0#32).toInt) (BitVec.ofNat 32 c.toNat).toInt ↔
      Leaves (code (p.map fun c => (c.toNat : Int))) c.toNat := by
    intro p c
    rw [foldl_code0, map_u16, toInt_u16]
  rcases charLoop_spec (s.map fun c => BitVec.ofNat 32 c.toNat) 0#32 with ⟨e, p, c, q, es, l⟩ | ⟨e, n⟩
  · left
    obtain ⟨p', q', rfl, rfl, eq⟩ := List.map_eq_append_iff.1 es
    obtain ⟨c', q'', rfl, rfl, rfl⟩ := List.map_eq_cons_iff.1 eq
    exact ⟨⟨p', c', q'', rfl, (key _ _).1 l⟩, e⟩
  · right
    refine ⟨?_, _, e, by rw [foldl_code0, map_u16]⟩
    rintro ⟨p, c, q, rfl, l⟩
    have l' := (key p c).2 l
    clear l key
    revert l'
    apply n
    rw [List.map_append, List.map_cons]

/-- **C137, two characters of 16 bits** never overflow. -/
theorem C137_u16_short (s : List UInt16) (hl : s.length ≤ 2) :
    ∃ h, ofU16 s = .ok h ∧ h.toInt = code (s.map fun c => (c.toNat : Int)) := by
  rcases C137_u16_partial s with ⟨⟨p, c, q, rfl, h⟩, _⟩ | ⟨_, h⟩
  · exfalso
    have hc := c.toNat_lt
    have hh := code_range (p.map fun c => (c.toNat : Int))
    generalize hx : code (p.map fun c => (c.toNat : Int)) = x at h hh
    have h := (leaves_u16 hh (Int.natCast_nonneg c.toNat)).1 h
    have hl' : p.length ≤ 1 := by
      simp only [List.length_append, List.length_cons] at hl
      omega
    cases p with
    | nil =>
      have e0 : x = 0 := by rw [← hx]; rfl
      omega
    | cons a p =>
      cases p with
      | nil =>
        have ha := a.toNat_lt
        have e1 : x = a.toNat := by
          rw [← hx, List.map_cons, List.map_nil, code, List.foldl_cons, List.foldl_nil, wrap_zero]
          unfold wrap
          omega
        omega
      | cons b p => simp only [List.length_cons] at hl'; omega
  · exact h

example : ∃ h, ofU16 [0x5FD8, 0x4FBF, 0x4E2D] = .ok h ∧ h.toInt = 2147470382 := ⟨_, rfl, by decide +kernel⟩

/-- **C137, violated for strings of 16-bit characters.** Three Chinese characters are enough (U+5FD8, U+4FBF, U+9053). -/
theorem C137_u16_violated : ofU16 [0x5FD8, 0x4FBF, 0x9053] = .ub := by decide +kernel

/-- **C137, arrays.** The hash code of an array overflows exactly if an element follows elements whose code is negative and
has `2^24` in its lower 25 bits; otherwise it is the one with sums reduced to 32 bits. -/
theorem C137_array_partial (s : List (BitVec 32)) :
    ((∃ p k q, s = p ++ k :: q ∧ (p.foldl mixed 0#32).toInt < 0 ∧ (p.foldl mixed 0#32).toInt % 2 ^ 25 = 2 ^ 24) ∧
      ofArray s = .ub) ∨
    ((¬ ∃ p k q, s = p ++ k :: q ∧ (p.foldl mixed 0#32).toInt < 0 ∧ (p.foldl mixed 0#32).toInt % 2 ^ 25 = 2 ^ 24) ∧
      ofArray s = .ok (s.foldl mixed 0#32)) := by
  rcases arrayLoop_spec s 0#32 with ⟨e, h⟩ | ⟨e, n⟩
  · exact .inl ⟨h, e⟩
  · refine .inr ⟨?_, e⟩
    rintro ⟨p, k, q, es, h⟩
    exact n p k q es h

/-- **C137, small arrays.** Arrays of at most one element never overflow. -/
theorem C137_array_short (s : List (BitVec 32)) (hl : s.length ≤ 1) : ofArray s = .ok (s.foldl mixed 0#32) := by
  rcases C137_array_partial s with ⟨⟨p, k, q, rfl, h, _⟩, _⟩ | ⟨_, h⟩
  · match p, hl with
    | [], _ => simp at h
    | a :: p, hl => simp only [List.length_append, List.length_cons] at hl; omega
  · exact h

example : ofArray [7#32, BitVec.ofInt 32 (-5), 100#32] = .ok (BitVec.ofInt 32 (-115429)) := by decide +kernel

/-- **C137, violated for arrays**, such as `array<int> (-2130706432, 0)`. -/
theorem C137_array_violated : ofArray [BitVec.ofInt 32 (-2130706432), 0#32] = .ub := by decide +kernel

/-- **C137, and the array class.** -/
theorem C137_array_agrees {T : Type} [DecidableEq T] {dv : T} {a : Arr T} {l : List T}
    (ha : ArrayProps.Client dv a l) (hash : T → BitVec 32) {h : BitVec 32} (e : ofArray (l.map hash) = .ok h) :
    Arr.hashCode hash a = .ok h := by
  obtain ⟨w, rfl⟩ := ArrayProps.client_good ha
  rw [Arr.hashCode_spec w]
  rcases C137_array_partial (a.toList.map hash) with ⟨_, e'⟩ | ⟨_, e'⟩
  · rw [e'] at e; cases e
  · rw [e'] at e
    rw [← e, List.foldl_map]
    rfl

end Lolly.HashCodesProps
