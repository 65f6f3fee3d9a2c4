import Verif.System.Printing
import Verif.System.OstreamProps
import Verif.Strings.DecimalProps

set_option autoImplicit false
set_option exponentiation.threshold 3000

/-!
# C130: values written to streams
-/

namespace Lolly.PrintingProps

open Lolly.Printing Lolly.Conv Lolly.ConvProps Lolly.Ostream Lolly.OstreamProps Lolly.RoundingProps

/-! ## Specification -/

/-- What a variable of the type can hold, if a `long` has `L` bits. -/
def Holds (L : Nat) (t : Ty) (v : Int) : Prop :=
  match t with
  | .short => -32768 ≤ v ∧ v ≤ 32767
  | .ushort => 0 ≤ v ∧ v ≤ 65535
  | .int => -2147483648 ≤ v ∧ v ≤ 2147483647
  | .uint => 0 ≤ v ∧ v ≤ 4294967295
  | .long => -2 ^ (L - 1) ≤ v ∧ v < 2 ^ (L - 1)
  | .ulong => 0 ≤ v ∧ v < 2 ^ L
  | .llong => -9223372036854775808 ≤ v ∧ v ≤ 9223372036854775807
  | .ullong => 0 ≤ v ∧ v ≤ 18446744073709551615

/-- The decimal notation of an integer: digits without superfluous zeros, after a minus sign if it is negative. -/
def Numeral (s : Bytes) (v : Int) : Prop :=
  ∃ ds, ds ≠ [] ∧ Digits ds ∧ numeral ds = v.natAbs ∧ (ds.head? = some (c! '0') → ds = b!"0") ∧
    s = if v < 0 then c! '-' :: ds else ds

/-- The value is one of its type. -/
def Fits (L : Nat) : Val → Prop
  | .int t v => Holds L t v
  | .float (.fin n) => IsDouble n
  | .double (.fin n) => IsDouble n
  | _ => True

/-- What is to be seen of a value. -/
def Shown : Val → Bytes → Prop
  | .bool b, s => s = if b then b!"true" else b!"false"
  | .char c, s => s = if c = 0 then [] else [c]
  | .int _ v, s => Numeral s v
  | .float x, s => Decimal.asString x = .ok s
  | .double x, s => Decimal.asString x = .ok s
  | .chars t, s => s = t.takeWhile (· ≠ 0)

/-! ## Integers -/

theorem natDec_head (n : Nat) : (natDec n).head? = some (c! '0') → natDec n = b!"0" := by
  intro h
  have := (C16_canonical n 0).2.1
  have e : asString (n : Int) = natDec n := by
    rw [asString, if_neg (by omega), Int.toNat_natCast]
  cases hd : natDec n with
  | nil => rw [hd] at h; cases h
  | cons c r =>
    rw [hd] at h
    simp only [List.head?_cons, Option.some.injEq] at h
    subst h
    rw [e] at this
    rw [(this r hd).2]

theorem asString_numeral (v : Int) : Numeral (asString v) v := by
  refine ⟨natDec v.natAbs, (natDec_spec _).2.1, digits_all.2 (natDec_spec _).1, ?_, natDec_head _, ?_⟩
  · rw [← value_numeral, (natDec_spec _).2.2]
  · unfold asString
    by_cases h : v < 0
    · rw [if_pos h, if_pos h, show (-v).toNat = v.natAbs by omega]
    · rw [if_neg h, if_neg h, show v.toNat = v.natAbs by omega]

theorem asString_length {v : Int} (h : v.natAbs < 10 ^ 20) : (asString v).length ≤ 21 := by
  unfold asString
  by_cases h' : v < 0
  · rw [if_pos h', List.length_cons]
    exact Nat.succ_le_succ (DecimalProps.natDec_length_le (k := 19) (by omega))
  · rw [if_neg h']
    exact Nat.le_succ_of_le (DecimalProps.natDec_length_le (k := 19) (by omega))

theorem convert_signed {b : Nat} {v : Int} (hb : 0 < b) (h1 : -2 ^ (b - 1) ≤ v) (h2 : v < 2 ^ (b - 1)) : convert (b, true) v = v := by
  obtain ⟨k, rfl⟩ : ∃ k, b = k + 1 := ⟨b - 1, by omega⟩
  simp only [Nat.add_sub_cancel] at h1 h2
  unfold convert
  simp only [Nat.add_sub_cancel, true_and]
  have hp : (2 : Int) ^ (k + 1) = 2 * 2 ^ k := by rw [Int.pow_succ, Int.mul_comm]
  rw [hp]
  generalize (2 : Int) ^ k = P at *
  by_cases hv : v < 0
  · have : v % (2 * P) = v + 2 * P := by
      rw [← Int.add_emod_right, Int.emod_eq_of_lt (by omega) (by omega)]
    rw [this, if_pos (by omega)]; omega
  · rw [Int.emod_eq_of_lt (by omega) (by omega), if_neg (by omega)]

theorem convert_unsigned {b : Nat} {v : Int} (h1 : 0 ≤ v) (h2 : v < 2 ^ b) : convert (b, false) v = v := by
  unfold convert
  simp only [Bool.false_eq_true, false_and, if_false]
  exact Int.emod_eq_of_lt h1 h2

theorem convert_holds {L : Nat} (hL : L = 32 ∨ L = 64) {t : Ty} {v : Int} (h : Holds L t v) : convert (format L t) v = v := by
  cases t
  case short => exact convert_signed (by decide) h.1 (by have := h.2; omega)
  case int => exact convert_signed (by decide) h.1 (by have := h.2; omega)
  case long => exact convert_signed (by omega) h.1 h.2
  case llong => exact convert_signed (by decide) h.1 (by have := h.2; omega)
  case ushort => exact convert_unsigned h.1 (by have := h.2; omega)
  case uint => exact convert_unsigned h.1 (by have := h.2; omega)
  case ulong => exact convert_unsigned h.1 h.2
  case ullong => exact convert_unsigned h.1 (by have := h.2; omega)

theorem holds_bound {L : Nat} (hL : L = 32 ∨ L = 64) {t : Ty} {v : Int} (h : Holds L t v) : v.natAbs < 10 ^ 20 := by
  cases t <;> rcases hL with rfl | rfl <;> unfold Holds at h <;> simp only [Nat.reduceSub] at h <;> omega

theorem size_ge (t : Ty) : 22 ≤ size t := by cases t <;> decide

/-- C130: an integer of any type is written in decimal notation, without writing past the end of the buffer; `is_int`
accepts the text, and `as_int` and `as_long_int` read it back if the integer and its negative are in their ranges. -/
theorem C130_integer {L : Nat} (hL : L = 32 ∨ L = 64) {t : Ty} {v : Int} (h : Holds L t v) :
    ∃ s, print L (.int t v) = .ok s ∧ Numeral s v ∧ isInt (rd s) s.length = .ok true ∧
      (v.natAbs < 2 ^ 31 → asInt (2 ^ 31) s = .ok v) ∧ (v.natAbs < 2 ^ 63 → asInt (2 ^ 63) s = .ok v) := by
  refine ⟨asString v, ?_, asString_numeral v, denotes_isInt (asString_denotes v), fun h => ?_, fun h => ?_⟩
  · show sprintf _ _ = _
    rw [convert_holds hL h, sprintf, if_pos]
    have := asString_length (holds_bound hL h)
    have := size_ge t
    omega
  · exact (C16_round_trip_partial v (by omega) (by omega)).2.2
  · exact (C16_round_trip_partial v (by omega) (by omega)).2.2

example : Holds 64 .ulong 18446744073709551615 ∧ Holds 64 .short (-32768) ∧ print 64 (.int .short (-305)) = .ok (b!"-305") ∧
    ¬ Holds 64 .ushort (-1) ∧ print 64 (.int .ushort (-1)) = .ok (b!"65535") := by
  refine ⟨by simp [Holds], by simp [Holds], ?_, by simp [Holds], ?_⟩ <;>
    simp [print, sprintf, size, convert, format, asString, natDec] <;> decide

theorem natDec_numeral {ds : Bytes} (h0 : ds ≠ []) (h1 : Digits ds) (h2 : ds.head? = some (c! '0') → ds = b!"0") :
    natDec (numeral ds) = ds := by
  obtain ⟨n, hn⟩ : ∃ n, ds.length = n := ⟨_, rfl⟩
  induction n generalizing ds with
  | zero => exact absurd (List.length_eq_zero_iff.1 hn) h0
  | succ n ih =>
    obtain ⟨r, c, rfl⟩ : ∃ r c, ds = r ++ [c] := ⟨ds.dropLast, ds.getLast h0, (List.dropLast_concat_getLast h0).symm⟩
    have hc := h1 c (by simp)
    have hcc : UInt8.ofNat (48 + (c.toNat - 48)) = c := by
      rw [show 48 + (c.toNat - 48) = c.toNat by have := hc.1; omega, UInt8.ofNat_toNat]
    have hnum : numeral (r ++ [c]) = numeral r * 10 + (c.toNat - 48) := by
      rw [← value_numeral, ← value_numeral]
      simp [value]
    rw [hnum, natDec]
    by_cases hr : r = []
    · subst hr
      have := hc.2
      rw [show numeral ([] : Bytes) = 0 from rfl, if_pos (by omega), Nat.zero_mul, Nat.zero_add, hcc]
      rfl
    · obtain ⟨a, r', rfl⟩ := List.exists_cons_of_ne_nil hr
      have ha : a ≠ c! '0' := by
        intro e
        have := h2 (by rw [e]; rfl)
        have := congrArg List.length this
        simp at this
      have hd : Digits (a :: r') := fun x hx => h1 x (List.mem_append_left _ hx)
      have e := ih hr hd (fun e => absurd (by simpa using e) ha) (by simpa using hn)
      have hp : 1 ≤ numeral (a :: r') := by
        have h48 : a.toNat ≠ 48 := fun e => ha (UInt8.toNat_inj.1 e)
        have := (hd a (by simp)).1
        have := Nat.pos_of_ne_zero (n := 10 ^ r'.length) (by simp)
        have : 1 * 1 ≤ (a.toNat - 48) * 10 ^ r'.length := Nat.mul_le_mul (by omega) this
        rw [numeral]
        omega
      have := hc.1
      have := hc.2
      rw [if_neg (by omega), show (numeral (a :: r') * 10 + (c.toNat - 48)) / 10 = numeral (a :: r') by omega,
        show (numeral (a :: r') * 10 + (c.toNat - 48)) % 10 = c.toNat - 48 by omega, e, hcc]

theorem numeral_eq {s : Bytes} {v : Int} (h : Numeral s v) : s = asString v := by
  obtain ⟨ds, a, b, c, d, e⟩ := h
  have := natDec_numeral a b d
  rw [c] at this
  rw [e, asString, ← this]
  by_cases h : v < 0
  · rw [if_pos h, if_pos h, show (-v).toNat = v.natAbs by omega]
  · rw [if_neg h, if_neg h, show v.toNat = v.natAbs by omega]

/-- C130: an integer has only one decimal notation, so that the type does not matter, and different integers are written
differently. -/
theorem C130_unique {s t : Bytes} {v w : Int} (h1 : Numeral s v) (h2 : Numeral t w) : s = t ↔ v = w := by
  rw [numeral_eq h1, numeral_eq h2]
  exact ⟨(C16_canonical v w).1, fun h => h ▸ rfl⟩

example : Numeral (b!"-305") (-305) ∧ ¬ Numeral (b!"007") 7 := by
  refine ⟨⟨b!"305", by decide, by unfold Digits Digit; decide, by decide, by decide, rfl⟩, fun h => ?_⟩
  have := numeral_eq h
  simp [asString, natDec] at this

/-! ## All values -/

theorem cstr_self {s : Bytes} (h : ∀ c ∈ s, c ≠ 0) : cstr s = s := by
  unfold cstr
  induction s with
  | nil => rfl
  | cons a s ih =>
    rw [List.takeWhile_cons, if_pos (by simpa using h a List.mem_cons_self), ih fun c hc => h c (List.mem_cons_of_mem _ hc)]

theorem numeral_chars {s : Bytes} {v : Int} (h : Numeral s v) : ∀ c ∈ s, Digit c ∨ c = c! '-' := by
  obtain ⟨ds, -, b, -, -, e⟩ := h
  intro c hc
  rw [e] at hc
  split at hc
  · rcases List.mem_cons.1 hc with hc | hc
    · exact .inr hc
    · exact .inl (b c hc)
  · exact .inl (b c hc)

/-- C130: every value is written as it is to be seen, and nothing is written past the end of a buffer. -/
theorem C130_value {L : Nat} (hL : L = 32 ∨ L = 64) {v : Val} (h : Fits L v) : ∃ s, print L v = .ok s ∧ Shown v (cstr s) := by
  have dbl : ∀ x : Rounding.Dbl, (∀ n, x = .fin n → IsDouble n) → ∃ s, Decimal.asString x = .ok s ∧
      Decimal.printDouble x = .ok s ∧ Decimal.printFloat x = .ok s ∧ cstr s = s := by
    intro x hx
    cases x with
    | fin n =>
      have hn := hx n rfl
      obtain ⟨p1, p2, p3⟩ := DecimalProps.print_ok (DecimalProps.fmtG_length hn)
      refine ⟨_, p1, p2, p3, ?_⟩
      obtain ⟨m, e, ⟨t, k, ht, hs⟩, -⟩ := DecimalProps.printed_literal hn
      obtain ⟨-, hz⟩ := DecimalProps.stands_chars ht
      apply cstr_self
      intro c hc
      rcases hs with ⟨hs | hs, -⟩ | ⟨hs, -⟩
      · rw [hs] at hc; exact hz c hc
      · rw [hs] at hc
        rcases List.mem_cons.1 hc with rfl | hc
        · decide
        · exact hz c hc
      · rw [hs] at hc
        rcases List.mem_cons.1 hc with rfl | hc
        · decide
        · exact hz c hc
    | inf neg => cases neg <;> exact ⟨_, rfl, rfl, rfl, by decide⟩
    | nan => exact ⟨_, rfl, rfl, rfl, by decide⟩
  cases v with
  | bool b => exact ⟨_, rfl, by cases b <;> (unfold Shown; decide)⟩
  | char c =>
    refine ⟨[c], rfl, ?_⟩
    by_cases hc : c = 0
    · subst hc; unfold Shown; decide
    · simp [Shown, cstr, hc]
  | int t v =>
    obtain ⟨s, e, hs, -⟩ := C130_integer hL h
    refine ⟨s, e, ?_⟩
    have : cstr s = s := cstr_self fun c hc e => by
      have := numeral_chars hs c hc
      rw [e] at this
      unfold Digit at this
      revert this
      decide
    rw [this]
    exact hs
  | float x =>
    obtain ⟨s, e1, e2, e3, e4⟩ := dbl x (fun n hn => by subst hn; exact h)
    exact ⟨s, e3, by rw [e4]; exact e1⟩
  | double x =>
    obtain ⟨s, e1, e2, e3, e4⟩ := dbl x (fun n hn => by subst hn; exact h)
    exact ⟨s, e2, by rw [e4]; exact e1⟩
  | chars s => exact ⟨s, rfl, rfl⟩

example : Fits 64 (.double (.fin (5 * 2 ^ 1073))) ∧ Fits 32 (.int .long (-7)) ∧ Shown (.char (c! 'x')) (b!"x") := by
  refine ⟨⟨⟨5, 1073, by decide, by decide +kernel⟩, ?_⟩, by simp [Fits, Holds], rfl⟩
  decide +kernel

/-! ## A sequence of values -/

/-- Values and what is to be seen of them, one by one. -/
inductive Texts : List Val → List Bytes → Prop
  | nil : Texts [] []
  | cons {v : Val} {s : Bytes} {l : List Val} {ts : List Bytes} : Shown v s → Texts l ts → Texts (v :: l) (s :: ts)

theorem puts_last {L : Nat} (hL : L = 32 ∨ L = 64) (fails : Nat → Bytes → Bytes → Option Nat) {v : List Nat} {reps : List Rep}
    {files : List File} {i m : Nat} (hi : v[i]? = some reps.length) {l : List Val} (hl : ∀ x ∈ l, Fits L x) (d : Bytes) :
    ∃ ts, Texts l ts ∧ puts L fails ⟨v, reps ++ [⟨1, .buf m d, true⟩], files⟩ i l =
      .ok ⟨v, reps ++ [⟨1, .buf m (d ++ ts.flatten), true⟩], files⟩ := by
  induction l generalizing d with
  | nil => exact ⟨[], .nil, by simp [puts]⟩
  | cons x l ih =>
    obtain ⟨s, e, hs⟩ := C130_value hL (hl x List.mem_cons_self)
    obtain ⟨ts, ht, e'⟩ := ih (fun y hy => hl y (List.mem_cons_of_mem _ hy)) (d ++ cstr s)
    refine ⟨cstr s :: ts, .cons hs ht, ?_⟩
    have : put L fails ⟨v, reps ++ [⟨1, .buf m d, true⟩], files⟩ i x =
        .ok ⟨v, reps ++ [⟨1, .buf m (d ++ cstr s), true⟩], files⟩ := by
      unfold put
      rw [e]
      simp [step, var, hi, writeRep]
    rw [puts, this, Res.ok_bind, e', List.flatten_cons, List.append_assoc]

/-- C130: wherever a program has got to, what is captured when values are written to a stream one after the other is what
is to be seen of each of them, in order; the streams and files stay as they were. -/
theorem C130_captured {L : Nat} (hL : L = 32 ∨ L = 64) {n : Nat} {fails : Nat → Bytes → Bytes → Option Nat} {ops : List Op}
    {t : SWorld} {out : List Bytes} (h : srun fails n (sstart n) ops = some (t, out)) {i : Nat} (hi : i < t.vars.length)
    {l : List Val} (hl : ∀ x ∈ l, Fits L x) :
    ∃ w w' ts X, run fails (start n) ops = .ok (w, out) ∧ Texts l ts ∧ capture L fails w i l = .ok (w', [ts.flatten]) ∧
      w'.vars = w.vars ∧ w'.files = w.files ∧ w'.reps = w.reps ++ X ∧ ∀ x ∈ X, x.alive = false := by
  obtain ⟨w, e, hr⟩ := run_rel (rel_start n) h
  have hlt : i < w.vars.length := by rw [hr.vars]; exact hi
  have hi' : w.vars[i]? = some (w.vars[i]) := List.getElem?_eq_getElem _
  obtain ⟨r, h1, h2, -⟩ := hr.alive_var hi'
  obtain ⟨hc, hc1⟩ := hr.inv.alive _ r h1 h2
  obtain ⟨ts, ht, ep⟩ := puts_last hL fails (v := w.vars.set i w.reps.length) (reps := w.reps) (files := w.files) (i := i)
    (m := w.vars[i]) (by simp [hlt]) hl []
  have hu := unbuffer_eq fails (v := w.vars.set i w.reps.length) (reps := w.reps) (X := []) (files := w.files) (i := i)
    (d := ts.flatten) (by simp [hlt]) h1 h2 (by omega)
  rw [List.set_set, set_self hi'] at hu
  refine ⟨w, ⟨w.vars, w.reps ++ [⟨0, .buf w.vars[i] ts.flatten, false⟩], w.files⟩, ts, _, e, ht, ?_, rfl, rfl, rfl, by simp⟩
  unfold capture
  simp only [step, var, hi', Res.ok_bind]
  rw [ep, List.nil_append, Res.ok_bind]
  exact hu

example : ∃ t, srun (fun _ _ _ => none) 1 (sstart 1) [.file 0] = some (t, []) ∧ 0 < t.vars.length := ⟨_, rfl, by decide⟩

/-! ## Lists of integers -/

theorem texts_append {a b : List Val} {ts : List Bytes} (h : Texts (a ++ b) ts) :
    ∃ x y, ts = x ++ y ∧ Texts a x ∧ Texts b y := by
  induction a generalizing ts with
  | nil => exact ⟨[], ts, rfl, .nil, h⟩
  | cons v a ih =>
    cases h with
    | cons hs ht =>
      obtain ⟨x, y, rfl, hx, hy⟩ := ih ht
      exact ⟨_ :: x, y, rfl, .cons hs hx, hy⟩

/-- The values of `out << v << c` for each integer `v` in turn. -/
def listed (c : UInt8) (l : List (Ty × Int)) : List Val := l.flatMap fun p => [.int p.1 p.2, .char c]

/-- C130: if every integer is followed by a character that is no digit and no minus sign, the integers can be told from
what is written. -/
theorem C130_list {c : UInt8} (h0 : c ≠ 0) (hd : ¬ Digit c) (hm : c ≠ c! '-') {a b : List (Ty × Int)} {x y : List Bytes}
    (hx : Texts (listed c a) x) (hy : Texts (listed c b) y) (e : x.flatten = y.flatten) : a.map (·.2) = b.map (·.2) := by
  have inv : ∀ {p : Ty × Int} {l : List (Ty × Int)} {z : List Bytes}, Texts (listed c (p :: l)) z →
      ∃ s z', z.flatten = s ++ c :: z'.flatten ∧ Numeral s p.2 ∧ Texts (listed c l) z' := by
    intro p l z h
    have : listed c (p :: l) = .int p.1 p.2 :: .char c :: listed c l := rfl
    rw [this] at h
    cases h with
    | cons h1 h =>
      cases h with
      | cons h2 h =>
        have h2 := Eq.trans h2 (if_neg h0)
        subst h2
        exact ⟨_, _, by simp, h1, h⟩
  have cut : ∀ {s t u v : Bytes} , c ∉ s → c ∉ t → s ++ c :: u = t ++ c :: v → s = t ∧ u = v := by
    intro s t u v hs ht h
    induction s generalizing t with
    | nil =>
      cases t with
      | nil => simpa using h
      | cons z t =>
        simp only [List.nil_append, List.cons_append, List.cons.injEq] at h
        exact absurd (h.1 ▸ List.mem_cons_self) ht
    | cons z s ih =>
      cases t with
      | nil =>
        simp only [List.nil_append, List.cons_append, List.cons.injEq] at h
        exact absurd (h.1 ▸ List.mem_cons_self) hs
      | cons z' t =>
        simp only [List.cons_append, List.cons.injEq] at h
        obtain ⟨rfl, h⟩ := h
        obtain ⟨rfl, h'⟩ := ih (fun hc => hs (List.mem_cons_of_mem _ hc)) (fun hc => ht (List.mem_cons_of_mem _ hc)) h
        exact ⟨rfl, h'⟩
  have no : ∀ {s : Bytes} {v : Int}, Numeral s v → c ∉ s := by
    intro s v h hc
    rcases numeral_chars h c hc with h | h
    · exact hd h
    · exact hm h
  induction a generalizing b x y with
  | nil =>
    cases b with
    | nil => rfl
    | cons q b =>
      obtain ⟨s, z, hz, -⟩ := inv hy
      cases hx
      rw [hz] at e
      simp at e
  | cons p a ih =>
    obtain ⟨s, z, hz, hs, hz'⟩ := inv hx
    cases b with
    | nil =>
      cases hy
      rw [hz] at e
      simp at e
    | cons q b =>
      obtain ⟨s', w, hw, hs', hw'⟩ := inv hy
      rw [hz, hw] at e
      obtain ⟨rfl, e'⟩ := cut (no hs) (no hs') e
      rw [List.map_cons, List.map_cons, (C130_unique hs hs').1 rfl, ih hz' hw' e']

example : Texts (listed (c! ' ') [(.int, 12), (.short, -3)]) [b!"12", b!" ", b!"-3", b!" "] := by
  have a : Numeral (b!"12") 12 := ⟨b!"12", by decide, by unfold Digits Digit; decide, by decide, by decide, rfl⟩
  have b : Numeral (b!"-3") (-3) := ⟨b!"3", by decide, by unfold Digits Digit; decide, by decide, by decide, rfl⟩
  exact .cons a (.cons rfl (.cons b (.cons rfl .nil)))

/-- Without such a character they cannot. -/
theorem C130_joined : ∃ x y, Texts [.int .int 1, .int .int 23] x ∧ Texts [.int .int 12, .int .int 3] y ∧
    x.flatten = y.flatten := by
  have a : Numeral (b!"1") 1 := ⟨b!"1", by decide, by unfold Digits Digit; decide, by decide, by decide, rfl⟩
  have b : Numeral (b!"23") 23 := ⟨b!"23", by decide, by unfold Digits Digit; decide, by decide, by decide, rfl⟩
  have c : Numeral (b!"12") 12 := ⟨b!"12", by decide, by unfold Digits Digit; decide, by decide, by decide, rfl⟩
  have d : Numeral (b!"3") 3 := ⟨b!"3", by decide, by unfold Digits Digit; decide, by decide, by decide, rfl⟩
  exact ⟨_, _, .cons a (.cons b .nil), .cons c (.cons d .nil), rfl⟩

end Lolly.PrintingProps
