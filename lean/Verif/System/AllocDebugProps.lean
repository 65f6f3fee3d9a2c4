import Verif.System.AllocDebug

set_option autoImplicit false

/-!
# C138: guards around blocks in debugging builds
-/

namespace Lolly.AllocDebugProps

open AllocDebug

/-! ## Specification -/

/-- `b` is memory like `a`, changed at most at the places of `P`. -/
structure Touched (P : Nat → Prop) (a b : Mem) : Prop where
  len : b.len = a.len
  same : ∀ i, ¬ P i → b.byte i = a.byte i

/-! ## Lemmas -/

theorem num_lt (f : Nat → UInt8) (k off : Nat) : num f k off < 256 ^ k := by
  induction k generalizing off with
  | zero => simp [num]
  | succ k ih =>
    have h := (f off).toNat_lt
    have := ih (off + 1)
    rw [num, Nat.pow_succ]
    omega

theorem num_congr {f g : Nat → UInt8} {k off : Nat} (h : ∀ i, off ≤ i → i < off + k → f i = g i) :
    num f k off = num g k off := by
  induction k generalizing off with
  | zero => rfl
  | succ k ih =>
    rw [num, num, h off (by omega) (by omega), ih fun i h1 h2 => h i (by omega) (by omega)]

theorem num_inj {f g : Nat → UInt8} {k off : Nat} (e : num f k off = num g k off) :
    ∀ i, off ≤ i → i < off + k → f i = g i := by
  induction k generalizing off with
  | zero => intro i h1 h2; omega
  | succ k ih =>
    have h1 := (f off).toNat_lt
    have h2 := (g off).toNat_lt
    rw [num, num] at e
    have e1 : (f off).toNat = (g off).toNat := by omega
    have e2 : num f k (off + 1) = num g k (off + 1) := by omega
    intro i hi hj
    by_cases h : i = off
    · rw [h]
      exact UInt8.toNat_inj.1 e1
    · exact ih e2 i (by omega) (by omega)

theorem num_digits {f : Nat → UInt8} {k off v : Nat}
    (h : ∀ i, off ≤ i → i < off + k → f i = UInt8.ofNat (v / 256 ^ (i - off))) : num f k off = v % 256 ^ k := by
  induction k generalizing off v with
  | zero => simp [num, Nat.mod_one]
  | succ k ih =>
    have e := ih (off := off + 1) (v := v / 256) fun i h1 h2 => by
      rw [h i (by omega) (by omega), Nat.div_div_eq_div_mul, ← Nat.pow_succ']
      congr 3
      omega
    rw [num, e, h off (by omega) (by omega), Nat.sub_self, Nat.pow_zero, Nat.div_one, UInt8.toNat_ofNat',
      show v % 2 ^ 8 = v % 256 from rfl, show 256 ^ (k + 1) = 256 * 256 ^ k from Nat.pow_succ', Nat.mod_mul]

theorem load_ok {k : Nat} {m : Mem} {off : Nat} (h : off + k ≤ m.len) : load k m off = .ok (num m.byte k off) := by
  unfold load
  rw [if_pos (by omega)]
  rfl

theorem load_ub {k : Nat} {m : Mem} {off : Nat} (h : m.len < off + k) : load k m off = .ub := by
  unfold load
  rw [if_neg (by omega)]

/-- What `store` does. -/
theorem store_ok {k : Nat} {m : Mem} {off : Nat} (v : Nat) (h : off + k ≤ m.len) :
    ∃ b, store k m off v = .ok b ∧ b.len = m.len ∧ num b.byte k off = v % 256 ^ k ∧
      ∀ i, ¬ (off ≤ i ∧ i < off + k) → b.byte i = m.byte i := by
  unfold store
  rw [if_pos (by omega)]
  refine ⟨_, rfl, rfl, num_digits fun i h1 h2 => ?_, fun i hi => ?_⟩
  · dsimp only
    rw [if_pos (by omega)]
    rfl
  · dsimp only
    rw [if_neg (by omega)]

theorem size_bounds {s : Nat} (h : s + 39 < 2 ^ 64) :
    s + 32 ≤ size s ∧ size s ≤ s + 39 ∧ size s % 8 = 0 ∧ size s < 2 ^ 64 := by
  unfold size
  rw [Nat.mod_eq_of_lt h]
  omega

theorem fastNew_ok {s : Nat} (h : s + 39 < 2 ^ 64) {m : Mem} (hm : size s ≤ m.len) :
    ∃ b, fastNew s m = .ok b ∧ b.len = m.len ∧ num b.byte 8 0 = size s ∧ num b.byte 8 8 = size s ∧
      num b.byte 8 16 = 2 ^ 64 - 1 - size s ∧ num b.byte 4 (size s - 8) = 0x55aa := by
  obtain ⟨h1, h2, h3, h4⟩ := size_bounds h
  unfold fastNew
  obtain ⟨a, ea, la, na, sa⟩ := store_ok (k := 8) (m := m) (off := 0) (size s) (by omega)
  obtain ⟨b, eb, lb, nb, sb⟩ := store_ok (k := 8) (m := a) (off := 8) (size s) (by omega)
  obtain ⟨c, ec, lc, nc, sc⟩ := store_ok (k := 8) (m := b) (off := 16) (2 ^ 64 - 1 - size s) (by omega)
  obtain ⟨d, ed, ld, nd, sd⟩ := store_ok (k := 4) (m := c) (off := size s - 8) 0x55aa (by omega)
  have e8 : ((size s - 8 : Nat) : Int) = (size s : Int) - 8 := by omega
  rw [e8] at ed
  rw [show store 8 m 0 (size s) = _ from ea, Res.ok_bind, show store 8 a 8 (size s) = _ from eb, Res.ok_bind,
    show store 8 b 16 (2 ^ 64 - 1 - size s) = _ from ec, Res.ok_bind]
  refine ⟨d, ed, by omega, ?_, ?_, ?_, nd⟩
  · rw [← Nat.mod_eq_of_lt (a := size s) (b := 256 ^ 8) (by omega), ← na]
    exact num_congr fun i h1 h2 => by rw [sd i (by omega), sc i (by omega), sb i (by omega)]
  · rw [← Nat.mod_eq_of_lt (a := size s) (b := 256 ^ 8) (by omega), ← nb]
    exact num_congr fun i h1 h2 => by rw [sd i (by omega), sc i (by omega)]
  · rw [← Nat.mod_eq_of_lt (a := 2 ^ 64 - 1 - size s) (b := 256 ^ 8) (by omega), ← nc]
    exact num_congr fun i h1 h2 => by rw [sd i (by omega)]

/-- What `alloc_check` does if the pointer is not reported. -/
theorem check_eq {m : Mem} (outside : Bool) (h : 24 ≤ m.len) {s s1 comp : Nat} (es : num m.byte 8 0 = s)
    (es1 : num m.byte 8 8 = s1) (ec : num m.byte 8 16 = comp) (t : Nat)
    (ht : t = if ((s1 + comp) % 2 ^ 64 ≠ 2 ^ 64 - 1 ∨ (s + comp) % 2 ^ 64 ≠ 2 ^ 64 - 1) ∧ outside then min s1 s else s)
    (h8 : 8 ≤ t) (hl : t ≤ m.len) :
    allocCheck outside m =
      (let r := if (s1 + comp) % 2 ^ 64 ≠ 2 ^ 64 - 1 ∨ (s + comp) % 2 ^ 64 ≠ 2 ^ 64 - 1 then
          Report.mismatch s ((s + comp) % 2 ^ 64 : Nat) s1 ((s1 + comp) % 2 ^ 64 : Nat) ::
            (if outside then [.badPointer] else []) else []
      if num m.byte 4 (t - 8) = 0x55AA then .ok (r, t)
      else if t + 3 ≤ m.len then .ok (r ++ [.overflow], t) else .ub) := by
  unfold allocCheck
  rw [show load 8 m 16 = .ok (num m.byte 8 16) from load_ok (off := 16) (by omega), Res.ok_bind,
    show load 8 m 8 = .ok (num m.byte 8 8) from load_ok (off := 8) (by omega), Res.ok_bind,
    show load 8 m 0 = .ok (num m.byte 8 0) from load_ok (off := 0) (by omega), Res.ok_bind, es, es1, ec]
  dsimp only
  have e : (if ((s1 + comp) % 2 ^ 64 ≠ 2 ^ 64 - 1 ∨ (s + comp) % 2 ^ 64 ≠ 2 ^ 64 - 1) ∧ outside = true then
      (if s1 < s then s1 else s) else s) = t := by
    rw [ht]
    split
    · rw [Nat.min_def]
      split <;> split <;> omega
    · rfl
  rw [e, show ((t : Int) - 8) = ((t - 8 : Nat) : Int) by omega, load_ok (by omega), Res.ok_bind]
  by_cases g : num m.byte 4 (t - 8) = 0x55AA
  · rw [if_neg (by simpa using g), if_pos g]
  · rw [if_pos g, if_neg g, show ((t : Int) - 1) = ((t - 1 : Nat) : Int) by omega]
    by_cases hr : t + 3 ≤ m.len
    · rw [load_ok (by omega), Res.ok_bind, if_pos hr]
    · rw [load_ub (by omega), if_neg hr]
      rfl

/-! ## C138 -/

/-- The places that `fast_delete` looks at: the three words before the object, and four bytes after it. -/
def Guard (s : Nat) (i : Nat) : Prop := i < 24 ∨ (size s - 8 ≤ i ∧ i < size s - 4)

/-- **C138, no false alarms.** If the guards around an object have not been touched, nothing is reported, and the block
goes back with the size it was got with; the guards do not overlap with the object. -/
theorem C138_silent {s : Nat} (h : s + 39 < 2 ^ 64) {m : Mem} (hm : size s ≤ m.len) :
    ∃ b, fastNew s m = .ok b ∧ (∀ i, 24 ≤ i → i < 24 + s → ¬ Guard s i) ∧
      ∀ outside b', Touched (fun i => ¬ Guard s i) b b' → allocCheck outside b' = .ok ([], size s) := by
  obtain ⟨h1, h2, h3, h4⟩ := size_bounds h
  obtain ⟨b, e, l, n0, n8, n16, ng⟩ := fastNew_ok h hm
  refine ⟨b, e, fun i _ _ g => by unfold Guard at g; omega, fun outside b' t => ?_⟩
  have same : ∀ i, Guard s i → b'.byte i = b.byte i := fun i g => t.same i (fun hn => hn g)
  have tl := t.len
  have e0 : num b'.byte 8 0 = size s := by
    rw [← n0]; exact num_congr fun i _ _ => same i (.inl (by omega))
  have e8 : num b'.byte 8 8 = size s := by
    rw [← n8]; exact num_congr fun i _ _ => same i (.inl (by omega))
  have e16 : num b'.byte 8 16 = 2 ^ 64 - 1 - size s := by
    rw [← n16]; exact num_congr fun i _ _ => same i (.inl (by omega))
  have eg : num b'.byte 4 (size s - 8) = 0x55aa := by
    rw [← ng]; exact num_congr fun i _ _ => same i (.inr (by omega))
  have ok : ¬ ((size s + (2 ^ 64 - 1 - size s)) % 2 ^ 64 ≠ 2 ^ 64 - 1 ∨
      (size s + (2 ^ 64 - 1 - size s)) % 2 ^ 64 ≠ 2 ^ 64 - 1) := by omega
  rw [check_eq outside (by omega) e0 e8 e16 (size s) (by rw [if_neg (fun x => ok x.1)]) (by omega) (by omega)]
  dsimp only
  rw [if_neg ok, if_pos eg]

/-- **C138, overwritten ends.** If only what follows the object has been overwritten, in particular one of the four bytes
at the end of the block, this is reported, provided that the three bytes after the block may be read. -/
theorem C138_overflow_partial {s : Nat} (h : s + 39 < 2 ^ 64) {m : Mem} (hm : size s + 3 ≤ m.len) :
    ∃ b, fastNew s m = .ok b ∧ ∀ outside b', Touched (fun i => 24 ≤ i) b b' →
      (∃ i, size s - 8 ≤ i ∧ i < size s - 4 ∧ b'.byte i ≠ b.byte i) →
      allocCheck outside b' = .ok ([.overflow], size s) := by
  obtain ⟨h1, h2, h3, h4⟩ := size_bounds h
  obtain ⟨b, e, l, n0, n8, n16, ng⟩ := fastNew_ok (m := m) h (by omega)
  refine ⟨b, e, fun outside b' t ⟨i, hi, hj, hne⟩ => ?_⟩
  have same : ∀ i, i < 24 → b'.byte i = b.byte i := fun i g => t.same i (by omega)
  have tl := t.len
  have e0 : num b'.byte 8 0 = size s := by
    rw [← n0]; exact num_congr fun i _ _ => same i (by omega)
  have e8 : num b'.byte 8 8 = size s := by
    rw [← n8]; exact num_congr fun i _ _ => same i (by omega)
  have e16 : num b'.byte 8 16 = 2 ^ 64 - 1 - size s := by
    rw [← n16]; exact num_congr fun i _ _ => same i (by omega)
  have eg : num b'.byte 4 (size s - 8) ≠ 0x55aa := by
    rw [← ng]; exact fun e => hne (num_inj e i (by omega) (by omega))
  have ok : ¬ ((size s + (2 ^ 64 - 1 - size s)) % 2 ^ 64 ≠ 2 ^ 64 - 1 ∨
      (size s + (2 ^ 64 - 1 - size s)) % 2 ^ 64 ≠ 2 ^ 64 - 1) := by omega
  rw [check_eq outside (by omega) e0 e8 e16 (size s) (by rw [if_neg (fun x => ok x.1)]) (by omega) (by omega)]
  dsimp only
  rw [if_neg ok, if_neg eg, if_pos (by omega)]
  rfl

/-- **C138, violated: the report itself.** If nothing may be read after the block, as for blocks from `malloc`, reporting
that its end was overwritten is undefined. -/
theorem C138_report_violated {s : Nat} (h : s + 39 < 2 ^ 64) {m : Mem} (hm : m.len = size s) :
    ∃ b, fastNew s m = .ok b ∧ ∀ outside b', Touched (fun i => 24 ≤ i) b b' →
      (∃ i, size s - 8 ≤ i ∧ i < size s - 4 ∧ b'.byte i ≠ b.byte i) → allocCheck outside b' = .ub := by
  obtain ⟨h1, h2, h3, h4⟩ := size_bounds h
  obtain ⟨b, e, l, n0, n8, n16, ng⟩ := fastNew_ok h (Nat.le_of_eq hm.symm)
  refine ⟨b, e, fun outside b' t ⟨i, hi, hj, hne⟩ => ?_⟩
  have same : ∀ i, i < 24 → b'.byte i = b.byte i := fun i g => t.same i (by omega)
  have tl := t.len
  have e0 : num b'.byte 8 0 = size s := by
    rw [← n0]; exact num_congr fun i _ _ => same i (by omega)
  have e8 : num b'.byte 8 8 = size s := by
    rw [← n8]; exact num_congr fun i _ _ => same i (by omega)
  have e16 : num b'.byte 8 16 = 2 ^ 64 - 1 - size s := by
    rw [← n16]; exact num_congr fun i _ _ => same i (by omega)
  have eg : num b'.byte 4 (size s - 8) ≠ 0x55aa := by
    rw [← ng]; exact fun e => hne (num_inj e i (by omega) (by omega))
  have ok : ¬ ((size s + (2 ^ 64 - 1 - size s)) % 2 ^ 64 ≠ 2 ^ 64 - 1 ∨
      (size s + (2 ^ 64 - 1 - size s)) % 2 ^ 64 ≠ 2 ^ 64 - 1) := by omega
  rw [check_eq outside (by omega) e0 e8 e16 (size s) (by rw [if_neg (fun x => ok x.1)]) (by omega) (by omega)]
  dsimp only
  rw [if_neg ok, if_neg eg, if_neg (by omega)]

/-- **C138, overwritten beginnings.** If one of the sixteen bytes before the object has been overwritten, and only one of the two
words there, this is reported, and a block of the pools still goes back with the right size. -/
theorem C138_underflow_partial {s : Nat} (h : s + 39 < 2 ^ 64) {m : Mem} (hm : size s ≤ m.len) :
    ∃ b, fastNew s m = .ok b ∧ ∀ w, w = 8 ∨ w = 16 → ∀ b', Touched (fun i => w ≤ i ∧ i < w + 8) b b' →
      (∃ i, b'.byte i ≠ b.byte i) →
      ∃ sc s1 s1c, allocCheck false b' = .ok ([.mismatch (size s) sc s1 s1c], size s) := by
  obtain ⟨h1, h2, h3, h4⟩ := size_bounds h
  obtain ⟨b, e, l, n0, n8, n16, ng⟩ := fastNew_ok h hm
  refine ⟨b, e, fun w hw b' t ⟨i, hne⟩ => ?_⟩
  have hi : w ≤ i ∧ i < w + 8 := Decidable.by_contra fun hn => hne (t.same i hn)
  have tl := t.len
  have e0 : num b'.byte 8 0 = size s := by
    rw [← n0]; exact num_congr fun i _ _ => t.same i (by omega)
  have eg : num b'.byte 4 (size s - 8) = 0x55aa := by
    rw [← ng]; exact num_congr fun i _ _ => t.same i (by omega)
  have l8 := num_lt b'.byte 8 8
  have l16 := num_lt b'.byte 8 16
  have bad : (num b'.byte 8 8 + num b'.byte 8 16) % 2 ^ 64 ≠ 2 ^ 64 - 1 ∨
      (size s + num b'.byte 8 16) % 2 ^ 64 ≠ 2 ^ 64 - 1 := by
    rcases hw with rfl | rfl
    · have e16 : num b'.byte 8 16 = 2 ^ 64 - 1 - size s := by
        rw [← n16]; exact num_congr fun i _ _ => t.same i (by omega)
      have : num b'.byte 8 8 ≠ size s := by
        rw [← n8]; exact fun e => hne (num_inj e i (by omega) (by omega))
      omega
    · have : num b'.byte 8 16 ≠ 2 ^ 64 - 1 - size s := by
        rw [← n16]; exact fun e => hne (num_inj e i (by omega) (by omega))
      omega
  rw [check_eq false (by omega) e0 rfl rfl (size s) (by rw [if_neg (fun x => by cases x.2)]) (by omega) (by omega)]
  dsimp only
  rw [if_pos bad, if_pos eg]
  exact ⟨_, _, _, rfl⟩

/-- **C138, no silence.** If bytes in exactly one of the three words before the object have been overwritten, `fast_delete` reports
it or, as the size is wrong, its behaviour is undefined. -/
theorem C138_header_partial {s : Nat} (h : s + 39 < 2 ^ 64) {m : Mem} (hm : size s ≤ m.len) :
    ∃ b, fastNew s m = .ok b ∧ ∀ w, w = 0 ∨ w = 8 ∨ w = 16 → ∀ outside b', Touched (fun i => w ≤ i ∧ i < w + 8) b b' →
      (∃ i, b'.byte i ≠ b.byte i) →
      allocCheck outside b' = .ub ∨ ∃ x sc s1 s1c r t, allocCheck outside b' = .ok (.mismatch x sc s1 s1c :: r, t) := by
  obtain ⟨h1, h2, h3, h4⟩ := size_bounds h
  obtain ⟨b, e, l, n0, n8, n16, ng⟩ := fastNew_ok h hm
  refine ⟨b, e, fun w hw outside b' t ⟨i, hne⟩ => ?_⟩
  have hi : w ≤ i ∧ i < w + 8 := Decidable.by_contra fun hn => hne (t.same i hn)
  have tl := t.len
  have l0 := num_lt b'.byte 8 0
  have l8 := num_lt b'.byte 8 8
  have l16 := num_lt b'.byte 8 16
  have bad : (num b'.byte 8 8 + num b'.byte 8 16) % 2 ^ 64 ≠ 2 ^ 64 - 1 ∨
      (num b'.byte 8 0 + num b'.byte 8 16) % 2 ^ 64 ≠ 2 ^ 64 - 1 := by
    rcases hw with rfl | rfl | rfl
    · have e16 : num b'.byte 8 16 = 2 ^ 64 - 1 - size s := by
        rw [← n16]; exact num_congr fun i _ _ => t.same i (by omega)
      have : num b'.byte 8 0 ≠ size s := by
        rw [← n0]; exact fun e => hne (num_inj e i (by omega) (by omega))
      omega
    · have e16 : num b'.byte 8 16 = 2 ^ 64 - 1 - size s := by
        rw [← n16]; exact num_congr fun i _ _ => t.same i (by omega)
      have : num b'.byte 8 8 ≠ size s := by
        rw [← n8]; exact fun e => hne (num_inj e i (by omega) (by omega))
      omega
    · have e0 : num b'.byte 8 0 = size s := by
        rw [← n0]; exact num_congr fun i _ _ => t.same i (by omega)
      have : num b'.byte 8 16 ≠ 2 ^ 64 - 1 - size s := by
        rw [← n16]; exact fun e => hne (num_inj e i (by omega) (by omega))
      omega
  unfold allocCheck
  rw [show load 8 b' 16 = .ok (num b'.byte 8 16) from load_ok (off := 16) (by omega), Res.ok_bind,
    show load 8 b' 8 = .ok (num b'.byte 8 8) from load_ok (off := 8) (by omega), Res.ok_bind,
    show load 8 b' 0 = .ok (num b'.byte 8 0) from load_ok (off := 0) (by omega), Res.ok_bind]
  dsimp only
  rw [if_pos bad]
  have la : ∀ (k : Nat) (o : Int), load k b' o = .ub ∨ ∃ v, load k b' o = .ok v := by
    intro k o
    unfold load
    split
    · exact .inr ⟨_, rfl⟩
    · exact .inl rfl
  generalize (if ((num b'.byte 8 8 + num b'.byte 8 16) % 2 ^ 64 ≠ 2 ^ 64 - 1 ∨
      (num b'.byte 8 0 + num b'.byte 8 16) % 2 ^ 64 ≠ 2 ^ 64 - 1) ∧ outside = true then
      (if num b'.byte 8 8 < num b'.byte 8 0 then num b'.byte 8 8 else num b'.byte 8 0) else num b'.byte 8 0) = u
  rcases la 4 (u - 8) with e8 | ⟨g, e8⟩
  · rw [e8]; exact .inl rfl
  · rw [e8, Res.ok_bind]
    split
    · rcases la 4 (u - 1) with e1 | ⟨g, e1⟩
      · rw [e1]; exact .inl rfl
      · rw [e1, Res.ok_bind]; exact .inr ⟨_, _, _, _, _, _, rfl⟩
    · exact .inr ⟨_, _, _, _, _, _, rfl⟩

/-- **C138, violated: bytes without guard.** Overwriting the byte right behind an object of one byte is not noticed. -/
theorem C138_slack_violated (m : Mem) (hm : size 1 ≤ m.len) :
    ∃ b, fastNew 1 m = .ok b ∧ ∀ outside b', Touched (fun i => i = 24 + 1) b b' →
      allocCheck outside b' = .ok ([], size 1) := by
  obtain ⟨b, e, _, h⟩ := C138_silent (s := 1) (by decide) hm
  refine ⟨b, e, fun outside b' t => h outside b' ⟨t.len, fun i hi => t.same i ?_⟩⟩
  rintro rfl
  refine hi fun g => ?_
  rcases g with g | g
  · omega
  · revert g; decide

theorem toInt_ofInt {n : Int} (h : -2 ^ 31 ≤ n ∧ n < 2 ^ 31) : toInt (ofInt n) = n := by
  unfold toInt ofInt
  split <;> omega

theorem ofInt_lt (n : Int) : ofInt n < 256 ^ 4 := by
  unfold ofInt
  omega

theorem toInt_range {v : Nat} (h : v < 256 ^ 4) : -2 ^ 31 ≤ toInt v ∧ toInt v < 2 ^ 31 := by
  unfold toInt
  split <;> omega

theorem toInt_inj {v w : Nat} (hv : v < 256 ^ 4) (hw : w < 256 ^ 4) (e : toInt v = toInt w) : v = w := by
  unfold toInt at e
  split at e <;> split at e <;> omega

theorem newArray_ok {sz : Nat} {init : Nat → Nat → UInt8} {n : Nat} {m : Mem}
    (hm : n * sz + 32 ≤ m.len) :
    ∃ b, newArray sz init n m = .ok b ∧ b.len = m.len ∧ num b.byte 4 0 = ofInt n ∧ num b.byte 4 8 = ofInt n ∧
      num b.byte 4 16 = ofInt (-n - 1) ∧ num b.byte 4 (24 + n * sz) = 0x55AA ∧
      ∀ i j, i < n → j < sz → b.byte (24 + i * sz + j) = init i j := by
  unfold newArray
  obtain ⟨a, ea, la, na, sa⟩ := store_ok (k := 4) (m := m) (off := 0) (ofInt n) (by omega)
  obtain ⟨b, eb, lb, nb, sb⟩ := store_ok (k := 4) (m := a) (off := 8) (ofInt n) (by omega)
  obtain ⟨c, ec, lc, nc, sc⟩ := store_ok (k := 4) (m := b) (off := 16) (ofInt (-n - 1)) (by omega)
  have lc' : (construct sz init n c).len = c.len := rfl
  obtain ⟨d, ed, ld, nd, sd⟩ := store_ok (k := 4) (m := construct sz init n c) (off := 24 + n * sz) 0x55AA (by omega)
  have key : ∀ i, i < 24 → d.byte i = c.byte i := fun i hi => by
    rw [sd i (by omega)]
    unfold construct
    dsimp only
    rw [if_neg (by omega)]
  rw [show store 4 m 0 (ofInt n) = _ from ea, Res.ok_bind, show store 4 a 8 (ofInt n) = _ from eb, Res.ok_bind,
    show store 4 b 16 (ofInt (-n - 1)) = _ from ec, Res.ok_bind, Int.toNat_natCast, if_pos (by omega)]
  refine ⟨d, ed, by omega, ?_, ?_, ?_, nd, ?_⟩
  · rw [← Nat.mod_eq_of_lt (ofInt_lt n), ← na]
    exact num_congr fun i h1 h2 => by rw [key i (by omega), sc i (by omega), sb i (by omega)]
  · rw [← Nat.mod_eq_of_lt (ofInt_lt n), ← nb]
    exact num_congr fun i h1 h2 => by rw [key i (by omega), sc i (by omega)]
  · rw [← Nat.mod_eq_of_lt (ofInt_lt (-n - 1)), ← nc]
    exact num_congr fun i h1 h2 => by rw [key i (by omega)]
  · intro i j hi hj
    have h1 : i * sz + j < n * sz := by
      have : (i + 1) * sz ≤ n * sz := Nat.mul_le_mul_right sz hi
      rw [Nat.add_mul] at this
      omega
    rw [sd _ (by omega)]
    unfold construct
    dsimp only
    rw [if_pos (by omega), show 24 + i * sz + j - 24 = j + i * sz by omega, Nat.add_mul_div_right _ _ (by omega),
      Nat.add_mul_mod_self_right, Nat.div_eq_of_lt hj, Nat.mod_eq_of_lt hj, Nat.zero_add]

/-- What `tm_delete_array` does if the number of elements can still be read. -/
theorem delete_eq {sz n : Nat} {m : Mem} (hm : n * sz + 32 ≤ m.len) (hn : n < 2 ^ 31)
    (e : num m.byte 4 0 = ofInt n) :
    deleteArray sz m =
      (let n1 := toInt (num m.byte 4 8)
      let comp := toInt (num m.byte 4 16)
      if (-2 ^ 31 ≤ n1 + comp ∧ n1 + comp < 2 ^ 31) ∧ (n : Int) + comp < 2 ^ 31 then
        .ok ⟨(if n1 + comp ≠ -1 ∨ n + comp ≠ -1 then [Report.mismatch n (n + comp) n1 (n1 + comp)] else []) ++
          (if num m.byte 4 (24 + n * sz) ≠ 0x55AA then [.overflow] else []), (List.range n).reverse, n * sz + 32⟩
      else .ub) := by
  unfold deleteArray
  rw [show load 4 m 16 = .ok (num m.byte 4 16) from load_ok (off := 16) (by omega), Res.ok_bind,
    show load 4 m 8 = .ok (num m.byte 4 8) from load_ok (off := 8) (by omega), Res.ok_bind,
    show load 4 m 0 = .ok (num m.byte 4 0) from load_ok (off := 0) (by omega), Res.ok_bind, e]
  dsimp only
  rw [toInt_ofInt (by omega)]
  have r16 := toInt_range (num_lt m.byte 4 16)
  generalize toInt (num m.byte 4 8) = n1
  generalize toInt (num m.byte 4 16) = comp at *
  unfold plus
  by_cases h1 : -2 ^ 31 ≤ n1 + comp ∧ n1 + comp < 2 ^ 31
  · rw [if_pos h1, Res.ok_bind]
    by_cases h2 : (n : Int) + comp < 2 ^ 31
    · have h3 : -2 ^ 31 ≤ (n : Int) + comp ∧ (n : Int) + comp < 2 ^ 31 := ⟨by omega, h2⟩
      have ec : (24 + (n : Int) * sz) = ((24 + n * sz : Nat) : Int) := by push_cast; rfl
      rw [if_pos h3, Res.ok_bind, if_pos (c := (-2 ^ 31 ≤ n1 + comp ∧ n1 + comp < 2 ^ 31) ∧ (n : Int) + comp < 2 ^ 31) ⟨h1, h2⟩, ec, load_ok (by omega), Res.ok_bind, Int.toNat_natCast,
        if_pos (by omega)]
      congr 2
      split <;> simp
    · rw [if_neg (c := (-2 ^ 31 ≤ n1 + comp ∧ n1 + comp < 2 ^ 31) ∧ (n : Int) + comp < 2 ^ 31) (fun x => h2 x.2), if_neg (by omega)]
      rfl
  · rw [if_neg (c := (-2 ^ 31 ≤ n1 + comp ∧ n1 + comp < 2 ^ 31) ∧ (n : Int) + comp < 2 ^ 31) (fun x => h1 x.1), if_neg h1]
    rfl

/-- The places that `tm_delete_array` looks at: three numbers before the elements and one after them. -/
def ArrayGuard (len : Nat) (i : Nat) : Prop :=
  i < 4 ∨ (8 ≤ i ∧ i < 12) ∨ (16 ≤ i ∧ i < 20) ∨ (24 + len ≤ i ∧ i < 24 + len + 4)

/-- **C138, arrays.** Every element of a new array is constructed in its place. If then the guards are not touched, nothing is
reported, every element is destroyed once, the last one first, and the memory goes back with the size it was got with. If
only memory after the elements is touched, it is the same, but that an overwritten guard is reported. -/
theorem C138_array {sz : Nat} {init : Nat → Nat → UInt8} {n : Nat} (hn : n < 2 ^ 31) {m : Mem}
    (hm : n * sz + 32 ≤ m.len) :
    ∃ b, newArray sz init n m = .ok b ∧ (∀ i j, i < n → j < sz → b.byte (24 + i * sz + j) = init i j) ∧
      (∀ b', Touched (fun i => ¬ ArrayGuard (n * sz) i) b b' →
        deleteArray sz b' = .ok ⟨[], (List.range n).reverse, n * sz + 32⟩) ∧
      (∀ b', Touched (fun i => 24 ≤ i) b b' →
        (∃ i, 24 + n * sz ≤ i ∧ i < 24 + n * sz + 4 ∧ b'.byte i ≠ b.byte i) →
        deleteArray sz b' = .ok ⟨[.overflow], (List.range n).reverse, n * sz + 32⟩) := by
  obtain ⟨b, e, l, n0, n8, n16, ng, nb⟩ := newArray_ok (init := init) hm
  refine ⟨b, e, nb, fun b' t => ?_, fun b' t ⟨i, hi, hj, hne⟩ => ?_⟩
  · have same : ∀ i, ArrayGuard (n * sz) i → b'.byte i = b.byte i := fun i g => t.same i (fun hn => hn g)
    have tl := t.len
    have e0 : num b'.byte 4 0 = ofInt n := by
      rw [← n0]; exact num_congr fun i _ _ => same i (by unfold ArrayGuard; omega)
    have e8 : num b'.byte 4 8 = ofInt n := by
      rw [← n8]; exact num_congr fun i _ _ => same i (by unfold ArrayGuard; omega)
    have e16 : num b'.byte 4 16 = ofInt (-n - 1) := by
      rw [← n16]; exact num_congr fun i _ _ => same i (by unfold ArrayGuard; omega)
    have eg : num b'.byte 4 (24 + n * sz) = 0x55AA := by
      rw [← ng]; exact num_congr fun i _ _ => same i (by unfold ArrayGuard; omega)
    rw [delete_eq (by omega) hn e0, e8, e16, eg, toInt_ofInt (by omega), toInt_ofInt (by omega)]
    dsimp only
    rw [if_pos (by omega), if_neg (by omega), if_neg (by decide)]
    rfl
  · have same : ∀ i, i < 24 → b'.byte i = b.byte i := fun i g => t.same i (by omega)
    have tl := t.len
    have e0 : num b'.byte 4 0 = ofInt n := by
      rw [← n0]; exact num_congr fun i _ _ => same i (by omega)
    have e8 : num b'.byte 4 8 = ofInt n := by
      rw [← n8]; exact num_congr fun i _ _ => same i (by omega)
    have e16 : num b'.byte 4 16 = ofInt (-n - 1) := by
      rw [← n16]; exact num_congr fun i _ _ => same i (by omega)
    have eg : num b'.byte 4 (24 + n * sz) ≠ 0x55AA := by
      rw [← ng]; exact fun e => hne (num_inj e i (by omega) (by omega))
    rw [delete_eq (by omega) hn e0, e8, e16, toInt_ofInt (by omega), toInt_ofInt (by omega)]
    dsimp only
    rw [if_pos (by omega), if_neg (by omega), if_pos eg]
    rfl

/-- **C138, numbers before arrays.** If the second or the third number before the elements has been overwritten, but not both,
this is reported, unless the sum that is tested for overflows. -/
theorem C138_array_header_partial {sz : Nat} {init : Nat → Nat → UInt8} {n : Nat} (hn : n < 2 ^ 31) {m : Mem}
    (hm : n * sz + 32 ≤ m.len) :
    ∃ b, newArray sz init n m = .ok b ∧ ∀ w, w = 8 ∨ w = 16 → ∀ b', Touched (fun i => w ≤ i ∧ i < w + 4) b b' →
      (∃ i, b'.byte i ≠ b.byte i) →
      (∃ x n1 x1, deleteArray sz b' =
        .ok ⟨[.mismatch n x n1 x1], (List.range n).reverse, n * sz + 32⟩) ∨ deleteArray sz b' = .ub := by
  obtain ⟨b, e, l, n0, n8, n16, ng, -⟩ := newArray_ok (init := init) hm
  refine ⟨b, e, fun w hw b' t ⟨i, hne⟩ => ?_⟩
  have hi : w ≤ i ∧ i < w + 4 := Decidable.by_contra fun hn => hne (t.same i hn)
  have tl := t.len
  have e0 : num b'.byte 4 0 = ofInt n := by
    rw [← n0]; exact num_congr fun i _ _ => t.same i (by omega)
  have eg : num b'.byte 4 (24 + n * sz) = 0x55AA := by
    rw [← ng]; exact num_congr fun i _ _ => t.same i (by omega)
  have l8 := num_lt b'.byte 4 8
  have l16 := num_lt b'.byte 4 16
  have bad : toInt (num b'.byte 4 8) + toInt (num b'.byte 4 16) ≠ -1 ∨ (n : Int) + toInt (num b'.byte 4 16) ≠ -1 := by
    rcases hw with rfl | rfl
    · have e16 : num b'.byte 4 16 = ofInt (-n - 1) := by
        rw [← n16]; exact num_congr fun i _ _ => t.same i (by omega)
      have : toInt (num b'.byte 4 8) ≠ n := by
        intro e8
        have e8 : num b'.byte 4 8 = num b.byte 4 8 := by
          rw [n8]; exact toInt_inj l8 (ofInt_lt _) (by rw [e8, toInt_ofInt (by omega)])
        exact hne (num_inj e8 i (by omega) (by omega))
      rw [e16, toInt_ofInt (by omega)]
      omega
    · have : toInt (num b'.byte 4 16) ≠ -n - 1 := by
        intro e8
        have e8 : num b'.byte 4 16 = num b.byte 4 16 := by
          rw [n16]; exact toInt_inj l16 (ofInt_lt _) (by rw [e8, toInt_ofInt (by omega)])
        exact hne (num_inj e8 i (by omega) (by omega))
      omega
  rw [delete_eq (by omega) hn e0, eg]
  dsimp only
  split
  · rw [if_neg (by decide)]
    exact .inl ⟨_, _, _, rfl⟩
  · exact .inr rfl

/-- **C138, violated: before arrays.** Writing to the place of `a[-1]` of an array of `int` is not noticed. -/
theorem C138_array_violated {init : Nat → Nat → UInt8} {n : Nat} (hn : n < 2 ^ 31) {m : Mem}
    (hm : n * 4 + 32 ≤ m.len) :
    ∃ b, newArray 4 init n m = .ok b ∧ ∀ b', Touched (fun i => 24 - 4 ≤ i ∧ i < 24) b b' →
      deleteArray 4 b' = .ok ⟨[], (List.range n).reverse, n * 4 + 32⟩ := by
  obtain ⟨b, e, _, h, _⟩ := C138_array (init := init) hn hm
  refine ⟨b, e, fun b' t => h b' ⟨t.len, fun i hi => t.same i fun hj => hi fun g => ?_⟩⟩
  unfold ArrayGuard at g
  omega

/-- An array of one `int` in a block of 40 bytes. -/
def sample : Mem := { byte := fun i => if i = 0 ∨ i = 8 then 1 else if i = 16 then 0xfe else if 16 < i ∧ i < 20 then 0xff
  else if i = 28 then 0xaa else if i = 29 then 0x55 else 0, len := 40 }

/-- **C138, violated: numbers before arrays.** With the largest bit of the second number overwritten the test itself
overflows; and with the first number overwritten the elements and the memory that are given back are others. -/
theorem C138_array_header_violated :
    deleteArray 4 sample = .ok ⟨[], [0], 36⟩ ∧
    deleteArray 4 { sample with byte := fun i => if i = 11 then 0x80 else sample.byte i } = .ub ∧
    deleteArray 4 { sample with byte := fun i => if i = 0 then 0 else sample.byte i } =
      .ok ⟨[.mismatch 0 (-2) 1 (-1), .overflow], [], 32⟩ := by
  refine ⟨?_, ?_, ?_⟩ <;> rfl

example : fastNew 10 { byte := fun _ => 7, len := 200 } ≠ .ub ∧ size 10 = 48 := by
  obtain ⟨b, e, _⟩ := fastNew_ok (s := 10) (m := { byte := fun _ => 7, len := 200 }) (by decide) (by decide)
  rw [e]
  exact ⟨by simp, by decide⟩

end Lolly.AllocDebugProps
