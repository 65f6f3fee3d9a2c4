import Verif.Data.Views
import Verif.Data.StringU16Props

/-!
# C166: views of literals, arrays and `std::basic_string`, and back
-/

set_option autoImplicit false

namespace Lolly.ViewsProps

open Lolly.Views

variable {T : Type}

/-- The view shows exactly the elements `l`, and reading them is allowed. -/
def Shows (v : View T) (l : List T) : Prop := v.n = l.length ∧ ∃ rest, v.a = l ++ rest

/-- What `v (b, e)` should show: the elements whose index is at least `b` and less than `e`. -/
def part (l : List T) (b e : Int) : List T := (l.take e.toNat).drop b.toNat

/-! ## Lemmas -/

theorem toInt_small {n : Nat} (h : n < 2 ^ 31) : toInt n = n := by
  unfold toInt
  rw [BitVec.toInt_eq_toNat_cond, BitVec.toNat_ofNat, Nat.mod_eq_of_lt (by omega), if_pos (by omega)]

theorem toInt_high {n : Nat} (h : 2 ^ 31 ≤ n % 2 ^ 32) : toInt n < 0 := by
  unfold toInt
  rw [BitVec.toInt_eq_toNat_cond, BitVec.toNat_ofNat, if_neg (by omega)]
  omega

theorem toInt_low {n : Nat} (h : n % 2 ^ 32 < 2 ^ 31) : toInt n = (n % 2 ^ 32 : Nat) := by
  unfold toInt
  rw [BitVec.toInt_eq_toNat_cond, BitVec.toNat_ofNat, if_pos (by omega)]

theorem retN_congr {R : Type} {f g : Nat → Res (Option R)} (n i : Nat) (h : ∀ j, i ≤ j → j < i + n → f j = g j) :
    retN f n i = retN g n i := by
  induction n generalizing i with
  | zero => rfl
  | succ n ih =>
    rw [retN, retN, h i (Nat.le_refl _) (by omega), ih (i + 1) fun j h1 h2 => h j (by omega) (by omega)]

theorem rd_shows {v : View T} {l : List T} (h : Shows v l) {i : Nat} (hi : i < l.length) : rd v.a i = rd l i := by
  obtain ⟨_, rest, e⟩ := h
  rw [e]; unfold rd; rw [List.getElem?_append_left hi]

theorem eq_shows [DecidableEq T] {v w : View T} {l m : List T} (hv : Shows v l) (hw : Shows w m) :
    eq v w = U16.viewEq l m ∧ ne v w = U16.viewNe l m := by
  unfold eq ne U16.viewEq U16.viewNe
  rw [hv.1, hw.1]
  by_cases hl : l.length = m.length
  · have h1 : ¬ ((l.length : Int) ≠ m.length) := by omega
    have h2 : ¬ (l.length ≠ m.length) := by omega
    rw [if_neg h1, if_neg h1, if_neg h2, if_neg h2, Int.toNat_natCast]
    unfold forRet
    constructor
    · rw [retN_congr (g := fun i => do
        let x ← rd l i
        let y ← rd m i
        .ok (if x ≠ y then some false else none))]
      intro j _ hj
      rw [rd_shows hv (by omega), rd_shows hw (by omega)]
    · rw [retN_congr (g := fun i => do
        let x ← rd l i
        let y ← rd m i
        .ok (if x ≠ y then some true else none))]
      intro j _ hj
      rw [rd_shows hv (by omega), rd_shows hw (by omega)]
  · have h1 : (l.length : Int) ≠ m.length := by omega
    have h2 : l.length ≠ m.length := hl
    rw [if_pos h1, if_pos h1, if_pos h2, if_pos h2]
    exact ⟨rfl, rfl⟩

theorem less_shows (lt : T → T → Bool) {v w : View T} {l m : List T} (hv : Shows v l) (hw : Shows w m) :
    less lt v w = U16.viewLt lt l m ∧ lessEq lt v w = U16.viewLe lt l m := by
  have hc : cmp lt v w = U16.viewCmp lt l m := by
    unfold cmp U16.viewCmp forRet
    rw [hv.1, hw.1, show (min (l.length : Int) m.length).toNat = min l.length m.length by omega]
    refine retN_congr _ _ fun j _ hj => ?_
    rw [rd_shows hv (by omega), rd_shows hw (by omega)]
  unfold less lessEq U16.viewLt U16.viewLe
  rw [hc, hv.1, hw.1, show decide ((l.length : Int) < m.length) = decide (l.length < m.length) by
    rw [decide_eq_decide]; omega, show decide ((l.length : Int) ≤ m.length) = decide (l.length ≤ m.length) by
    rw [decide_eq_decide]; omega]
  exact ⟨rfl, rfl⟩

/-! ## C166 -/

/-- A view made from a literal shows its characters, also if there are NULs among them; the element at the end of the
array does not belong to the view. A view made from a `std::basic_string` shows the string. Both for less than `2^31`
elements. -/
theorem C166_made_partial (zero : T) (l : List T) (h : l.length < 2 ^ 31) :
    Shows (ofArray (l ++ [zero])) l ∧ Shows (ofStd zero l) l ∧ ∀ rest, Shows (ofPointer (l ++ rest) l.length) l := by
  refine ⟨⟨?_, [zero], rfl⟩, ⟨toInt_small h, [zero], rfl⟩, fun rest => ⟨rfl, rest, rfl⟩⟩
  show toInt ((l ++ [zero]).length - 1) = _
  rw [List.length_append, List.length_singleton, Nat.add_sub_cancel, toInt_small h]

example : Shows (ofArray (b!"ab\x00")) (b!"ab") := (C166_made_partial 0 (b!"ab") (by decide)).1

/-- Views can be compared wherever they come from. -/
theorem C166_compare [DecidableEq T] (key : T → Int) (inj : ∀ x y, key x = key y → x = y) {v w : View T} {l m : List T}
    (hv : Shows v l) (hw : Shows w m) :
    eq v w = .ok (decide (l = m)) ∧ ne v w = .ok (decide (l ≠ m)) ∧
    (∃ r, less (fun x y => decide (key x < key y)) v w = .ok r ∧ (r = true ↔ U16Props.Before key l m)) ∧
    (∃ r, lessEq (fun x y => decide (key x < key y)) v w = .ok r ∧ (r = true ↔ U16Props.Before key l m ∨ l = m)) := by
  have h1 := U16Props.C78_equality l m
  have h2 := U16Props.C78_order key inj l m
  rw [(eq_shows hv hw).1, (eq_shows hv hw).2, (less_shows _ hv hw).1, (less_shows _ hv hw).2]
  exact ⟨h1.1, h1.2, h2.1, h2.2⟩

/-- The parts of a view are views again. -/
theorem C166_part {v : View T} {l : List T} (hv : Shows v l) (b e : Int) :
    ∃ w, slice v b e = .ok w ∧ Shows w (part l b e) := by
  obtain ⟨hn, rest, ha⟩ := hv
  unfold slice part
  by_cases h : e ≤ b
  · rw [if_pos h]
    refine ⟨_, rfl, ?_, [], ?_⟩
    · rw [List.length_drop, List.length_take]; dsimp only; omega
    · rw [List.drop_eq_nil_of_le (by rw [List.length_take]; omega)]; rfl
  · rw [if_neg h, hn]
    dsimp only
    rw [if_pos (by rw [ha, List.length_append]; omega)]
    refine ⟨_, rfl, ?_, ?_⟩
    · rw [List.length_drop, List.length_take]; dsimp only; omega
    · dsimp only
      rw [ha]
      by_cases hb : b.toNat ≤ l.length
      · refine ⟨l.drop (max b.toNat e.toNat) ++ rest, ?_⟩
        rw [show (max (min (l.length : Int) b) 0).toNat = b.toNat by omega, List.drop_append_of_le_length hb,
          ← List.append_assoc]
        congr 1
        rw [List.drop_take, show max b.toNat e.toNat = b.toNat + (e.toNat - b.toNat) by omega, ← List.drop_drop,
          List.take_append_drop]
      · refine ⟨rest, ?_⟩
        rw [show (max (min (l.length : Int) b) 0).toNat = l.length by omega, List.drop_left,
          List.drop_eq_nil_of_le (by rw [List.length_take]; omega)]
        rfl

/-- A part of a part is a part: the second pair of indices counts from the first element of the first part. -/
theorem C166_parts {v : View T} {l : List T} (hv : Shows v l) (b e b2 e2 : Int) :
    ∃ w x, slice v b e = .ok w ∧ slice w b2 e2 = .ok x ∧
      Shows x (part l (max 0 b + max 0 b2) (min e (max 0 b + e2))) := by
  obtain ⟨w, h1, h2⟩ := C166_part hv b e
  obtain ⟨x, h3, h4⟩ := C166_part h2 b2 e2
  refine ⟨w, x, h1, h3, ?_⟩
  have : part (part l b e) b2 e2 = part l (max 0 b + max 0 b2) (min e (max 0 b + e2)) := by
    unfold part
    refine List.ext_getElem? fun i => ?_
    simp only [List.getElem?_drop, List.getElem?_take]
    by_cases h5 : b2.toNat + i < e2.toNat
    · rw [if_pos h5]
      by_cases h6 : b.toNat + (b2.toNat + i) < e.toNat
      · rw [if_pos h6, if_pos (by omega)]; congr 1; omega
      · rw [if_neg h6, if_neg (by omega)]
    · rw [if_neg h5, if_neg (by omega)]
  rw [← this]; exact h4

/-- Converting a view to a `std::basic_string` gives the elements that it shows. -/
theorem C166_back {v : View T} {l : List T} (hv : Shows v l) : toStd v = .ok l := by
  obtain ⟨hn, rest, ha⟩ := hv
  unfold toStd
  rw [hn, ha, if_neg (by omega), if_pos (by rw [List.length_append]; omega), Int.toNat_natCast, List.take_left]

example : toStd (ofStd 0 (b!"a\x00b")) = .ok (b!"a\x00b") := C166_back (C166_made_partial 0 _ (by decide)).2.1

/-- A `std::basic_string` comes back from its view exactly if it has less than `2^31` elements. -/
theorem C166_exact (zero : T) (s : List T) : toStd (ofStd zero s) = .ok s ↔ s.length < 2 ^ 31 := by
  refine ⟨fun h => ?_, fun h => C166_back (C166_made_partial zero s h).2.1⟩
  by_cases hh : 2 ^ 31 ≤ s.length % 2 ^ 32
  · unfold toStd ofStd at h
    rw [if_pos (toInt_high hh)] at h
    cases h
  · unfold toStd ofStd at h
    have e := toInt_low (n := s.length) (by omega)
    dsimp only at h
    rw [e, if_neg (by omega), if_pos (by rw [List.length_append]; omega)] at h
    have := congrArg List.length (Res.ok.inj h)
    rw [List.length_take, List.length_append, Int.toNat_natCast] at this
    omega

/-- For a `std::basic_string` of `2^31` to `2^32 - 1` elements (and the same again after every `2^32`), the view has a
negative length: it equals the view of every other string of that size, its parts are empty, and converting it back
throws an exception. -/
theorem C166_negative_violated [DecidableEq T] (zero : T) (s t : List T) (hl : s.length = t.length)
    (h : 2 ^ 31 ≤ s.length % 2 ^ 32) (b e : Int) :
    eq (ofStd zero s) (ofStd zero t) = .ok true ∧ ne (ofStd zero s) (ofStd zero t) = .ok false ∧
    (∃ w, slice (ofStd zero s) b e = .ok w ∧ Shows w []) ∧ toStd (ofStd zero s) = .thrown := by
  have hn := toInt_high h
  have h0 : (toInt s.length).toNat = 0 := by omega
  refine ⟨?_, ?_, ?_, ?_⟩
  · unfold eq ofStd
    dsimp only
    rw [← hl, if_neg (by simp), h0]
    rfl
  · unfold ne ofStd
    dsimp only
    rw [← hl, if_neg (by simp), h0]
    rfl
  · unfold slice ofStd
    by_cases hb : e ≤ b
    · rw [if_pos hb]; exact ⟨_, rfl, rfl, [], rfl⟩
    · rw [if_neg hb]
      dsimp only
      rw [if_pos (by omega)]
      refine ⟨_, rfl, ?_, _, rfl⟩
      show max (min (toInt s.length) e) 0 - max (min (toInt s.length) b) 0 = ((0 : Nat) : Int)
      omega
  · unfold toStd ofStd
    rw [if_pos hn]

/-- In particular, every such string has another one that is taken to be equal. -/
theorem C166_equality_violated [DecidableEq T] (zero one : T) (h01 : zero ≠ one) (s : List T)
    (h : 2 ^ 31 ≤ s.length % 2 ^ 32) : ∃ t, t ≠ s ∧ eq (ofStd zero s) (ofStd zero t) = .ok true := by
  cases s with
  | nil => simp at h
  | cons x s =>
    by_cases hx : x = zero
    · exact ⟨one :: s, fun e => h01 (hx ▸ (List.cons.inj e).1.symm),
        (C166_negative_violated zero (x :: s) (one :: s) rfl h 0 0).1⟩
    · exact ⟨zero :: s, fun e => hx (List.cons.inj e).1.symm,
        (C166_negative_violated zero (x :: s) (zero :: s) rfl h 0 0).1⟩

/-- A string with `2^32` more elements than another one, of which it repeats the first ones, is taken to be equal to
it, whatever the other elements are. -/
theorem C166_longer_violated [DecidableEq T] (zero : T) (s t : List T) (h : s.length < 2 ^ 31) (ht : t.length = 2 ^ 32) :
    s ≠ s ++ t ∧ eq (ofStd zero s) (ofStd zero (s ++ t)) = .ok true := by
  constructor
  · intro e
    have := congrArg List.length e
    rw [List.length_append] at this
    omega
  · have hw : Shows (ofStd zero (s ++ t)) s := by
      refine ⟨?_, t ++ [zero], List.append_assoc _ _ _⟩
      show toInt (s ++ t).length = _
      have : (s ++ t).length % 2 ^ 32 = s.length := by rw [List.length_append]; omega
      rw [toInt_low (by omega), this]
    rw [(eq_shows (C166_made_partial zero s h).2.1 hw).1, (U16Props.C78_equality s s).1]
    simp

example : ∃ s : List UInt8, 2 ^ 31 ≤ s.length % 2 ^ 32 :=
  ⟨List.replicate (2 ^ 31) 0, by rw [List.length_replicate]; decide⟩

example : ∃ t : List UInt8, t.length = 2 ^ 32 := ⟨List.replicate (2 ^ 32) 0, List.length_replicate ..⟩

/-- A view made from an array that is larger than the text in it shows the NUL at the end of the text and everything
behind it, so that it is not equal to the text. From an array without a NUL at the end the last element is missing. -/
theorem C166_array_violated [DecidableEq T] (zero : T) (l rest : List T) (x : T)
    (h : l.length + rest.length + 1 < 2 ^ 31) :
    Shows (ofArray (l ++ zero :: rest ++ [x])) (l ++ zero :: rest) ∧
    eq (ofArray (l ++ zero :: rest ++ [x])) (ofArray (l ++ [zero])) = .ok false ∧
    Shows (ofArray (l ++ [x])) l := by
  have h1 : Shows (ofArray (l ++ zero :: rest ++ [x])) (l ++ zero :: rest) :=
    (C166_made_partial x (l ++ zero :: rest) (by rw [List.length_append, List.length_cons]; omega)).1
  have h2 := fun z => (C166_made_partial z l (by omega)).1
  refine ⟨h1, ?_, h2 x⟩
  rw [(eq_shows h1 (h2 zero)).1, (U16Props.C78_equality _ _).1]
  simp

example : eq (ofArray (b!"ab\x00\x00")) (ofArray (b!"ab\x00")) = .ok false :=
  (C166_array_violated 0 (b!"ab") [] 0 (by decide)).2.1

end Lolly.ViewsProps
