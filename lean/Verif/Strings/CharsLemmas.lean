import Verif.Strings.Chars
import Verif.Strings.SearchLemmas

/-!
# Lemmas on the byte-wise loops
-/

set_option autoImplicit false

namespace Lolly.An

theorem take_snoc {α : Type} {s : List α} {i : Nat} (hi : i < s.length) :
    s.take (i + 1) = s.take i ++ [s[i]] := by
  rw [List.take_add_one, List.getElem?_eq_getElem hi]; rfl

theorem eachByte_eq (f : UInt8 → Bytes) (s : Bytes) : eachByte f s = .ok (s.flatMap f) := by
  obtain ⟨r, e, h⟩ := forUp_spec (lo := 0) (hi := s.length) (s := ([] : Bytes))
    (body := fun i r => do
      let c ← rd s i
      .ok (r ++ f c))
    (fun i r => r = (s.take i).flatMap f) (by omega) (by simp)
    (fun i r _ hi h => by
      refine ⟨_, by rw [rd_ok hi]; rfl, ?_⟩
      rw [take_snoc hi, h, List.flatMap_append, List.flatMap_singleton])
  rw [List.take_length] at h
  unfold eachByte
  rw [e, h]

theorem convertBytes_eq (f : UInt8 → Res UInt8) (g : UInt8 → UInt8) (s : Bytes)
    (hf : ∀ c ∈ s, f c = .ok (g c)) : convertBytes f s = .ok (s.map g) := by
  obtain ⟨r, e, h⟩ := forUp_spec (lo := 0) (hi := s.length) (s := List.replicate s.length (0 : UInt8))
    (body := fun i r => do
      let c ← rd s i
      let d ← f c
      wr r i d)
    (fun i r => r = (s.take i).map g ++ List.replicate (s.length - i) 0) (by omega) (by simp)
    (fun i r _ hi h => by
      rw [rd_ok hi]
      simp only [Res.ok_bind, hf s[i] (List.getElem_mem hi)]
      have hl : r.length = s.length := by rw [h]; simp; omega
      refine ⟨_, wr_ok (by omega), ?_⟩
      rw [take_snoc hi, h, List.set_append, if_neg (by simp; omega)]
      have e1 : i - ((s.take i).map g).length = 0 := by simp; omega
      rw [e1, show s.length - i = (s.length - (i + 1)) + 1 by omega, List.replicate_succ,
        List.map_append, List.append_assoc]
      rfl)
  rw [List.take_length, Nat.sub_self] at h
  unfold convertBytes
  rw [e, h]; simp

theorem mapBytes_eq (f : UInt8 → UInt8) (s : Bytes) : mapBytes f s = .ok (s.map f) :=
  convertBytes_eq (fun c => .ok (f c)) f s (fun _ _ => rfl)

/-- A loop that returns at the first byte satisfying `f`. -/
theorem anyLoop {R : Type} (g : UInt8 → Option R) (s : Bytes) :
    (forRet 0 s.length (fun i => do
      let c ← rd s i
      .ok (g c))) = .ok (s.findSome? g) := by
  have : ∀ k i, i + k = s.length → retN (fun i => do
      let c ← rd s i
      .ok (g c)) k i = .ok ((s.drop i).findSome? g) := by
    intro k
    induction k with
    | zero => intro i hi; rw [List.drop_of_length_le (by omega)]; rfl
    | succ k ih =>
      intro i hi
      have hi' : i < s.length := by omega
      rw [retN, rd_ok hi', List.drop_eq_getElem_cons hi', List.findSome?_cons]
      simp only [Res.ok_bind]
      cases g s[i] with
      | some r => rfl
      | none => exact ih (i + 1) (by omega)
  exact this s.length 0 (by omega)

theorem allBytes_eq (f : UInt8 → Bool) (s : Bytes) : allBytes f s = .ok (!s.isEmpty && s.all f) := by
  unfold allBytes
  by_cases h : s.length = 0
  · rw [if_pos h]
    have : s = [] := by simpa using h
    subst this; rfl
  · rw [if_neg h, anyLoop (fun c => if f c then none else some ())]
    simp only [Res.ok_bind]
    congr 1
    have hne : s.isEmpty = false := by
      cases s with
      | nil => simp at h
      | cons => rfl
    rw [hne]
    simp only [Bool.not_false, Bool.true_and]
    clear h hne
    induction s with
    | nil => rfl
    | cons c s ih =>
      rw [List.findSome?_cons, List.all_cons]
      cases hc : f c with
      | true => simpa [hc] using ih
      | false => simp

theorem isWhitespace_eq (s : Bytes) :
    isWhitespace s = .ok (s.all fun c => c == 32 || c == 9 || c == 10) := by
  unfold isWhitespace
  rw [anyLoop (fun c => if c ≠ c! ' ' ∧ c ≠ 9 ∧ c ≠ 10 then some () else none)]
  simp only [Res.ok_bind]
  congr 1
  induction s with
  | nil => rfl
  | cons c s ih =>
    rw [List.findSome?_cons, List.all_cons]
    by_cases h : c ≠ c! ' ' ∧ c ≠ 9 ∧ c ≠ 10
    · rw [if_pos h]; simp [h.1, h.2.1, h.2.2]
    · rw [if_neg h]
      have : (c == 32 || c == 9 || c == 10) = true := by
        have h' : c = 32 ∨ c = 9 ∨ c = 10 := by
          refine Classical.byContradiction fun hn => h ⟨?_, ?_, ?_⟩ <;> (intro e; exact hn (by simp [e]))
        rcases h' with h | h | h <;> simp [h]
      rw [this]; exact ih

theorem stringMinus_eq (s1 s2 : Bytes) :
    stringMinus s1 s2 = .ok (s1.filter fun c => !s2.contains c) := by
  have inner : ∀ c, (forRet 0 s2.length fun i2 => do
      let d ← rd s2 i2
      .ok (if c = d then some () else none)) = .ok (if s2.contains c then some () else none) := by
    intro c
    rw [anyLoop (fun d => if c = d then some () else none)]
    congr 1
    induction s2 with
    | nil => rfl
    | cons d s2 ih =>
      rw [List.findSome?_cons]
      by_cases h : c = d
      · simp [h]
      · rw [if_neg h]
        dsimp only
        rw [ih]
        simp [h]
  obtain ⟨r, e, h⟩ := forUp_spec (lo := 0) (hi := s1.length) (s := ([] : Bytes))
    (body := fun i1 r => do
      let c ← rd s1 i1
      let found ← forRet 0 s2.length fun i2 => do
        let d ← rd s2 i2
        .ok (if c = d then some () else none)
      .ok (if found.isNone then r ++ [c] else r))
    (fun i r => r = (s1.take i).filter fun c => !s2.contains c) (by omega) (by simp)
    (fun i r _ hi h => by
      rw [rd_ok hi]
      simp only [Res.ok_bind, inner]
      refine ⟨_, rfl, ?_⟩
      rw [take_snoc hi, List.filter_append, h, List.filter_cons, List.filter_nil]
      cases hc : s2.contains s1[i] <;> simp)
  rw [List.take_length] at h
  unfold stringMinus
  rw [e, h]

theorem peek_eq (s : Bytes) (i : Nat) : peek s i = .ok s[i]? := by
  unfold peek
  by_cases h : i < s.length
  · rw [if_pos h, rd_ok h, List.getElem?_eq_getElem h]; rfl
  · rw [if_neg h, List.getElem?_eq_none (by omega)]

theorem isQuoted_eq (s : Bytes) : ∃ b, isQuoted s = .ok b ∧ (b = true ↔ ∃ r, s = rawQuote r) := by
  unfold isQuoted rawQuote
  by_cases h : s.length ≥ 2
  · rw [if_pos h, rd_ok (show 0 < s.length by omega)]
    simp only [Res.ok_bind]
    by_cases h0 : s[0]'(by omega) = 34
    · rw [if_pos h0, rd_ok (show s.length - 1 < s.length by omega)]
      refine ⟨_, rfl, ?_⟩
      rw [beq_iff_eq]
      constructor
      · intro hl
        refine ⟨(s.drop 1).take (s.length - 2), ?_⟩
        apply List.ext_getElem
        · simp; omega
        · intro k h1 h2
          simp only [List.length_append, List.length_cons, List.length_nil, List.length_take,
            List.length_drop] at h2
          by_cases hk : k = 0
          · subst hk; simpa using h0
          · by_cases hk' : k = s.length - 1
            · subst hk'
              rw [List.getElem_append_right (by simp; omega)]
              simp [hl]
            · rw [List.getElem_append_left (by simp; omega), List.getElem_append_right (by simp; omega),
                List.getElem_take, List.getElem_drop]
              simp only [List.length_cons, List.length_nil]
              congr 1; omega
      · rintro ⟨r, rfl⟩
        rw [List.getElem_append_right (by simp)]; simp
    · rw [if_neg h0]
      refine ⟨false, rfl, fun h => by simp at h, ?_⟩
      rintro ⟨r, rfl⟩
      exact absurd rfl h0
  · rw [if_neg h]
    refine ⟨false, rfl, fun h => by simp at h, ?_⟩
    rintro ⟨r, rfl⟩
    exact absurd (by simp) h

end Lolly.An

namespace Lolly.An

/-! ## Spanish -/

/-- What `ispanish_to_spanish` computes, on the remaining bytes. -/
def ispanL : Bytes → Bytes
  | [] => []
  | [c] => [c]
  | c :: d :: r =>
    if c = 39 then
      match spanishCode d with
      | some x => x :: ispanL r
      | none => 39 :: d :: ispanL r
    else c :: ispanL (d :: r)

theorem fromIspanish_eq (s : Bytes) (i : Nat) (r : Bytes) :
    fromIspanish s i r = .ok (r ++ ispanL (s.drop i)) := by
  fun_induction fromIspanish s i r with
  | case1 i r hi ih1 ih2 ih3 =>
    rw [rd_ok hi]
    simp only [Res.ok_bind]
    rw [List.drop_eq_getElem_cons hi]
    by_cases hn : i + 1 < s.length
    · rw [List.drop_eq_getElem_cons hn]
      by_cases hc : s[i] = 39
      · rw [if_pos ⟨hc, hn⟩, rd_ok hn]
        simp only [Res.ok_bind, ispanL]
        rw [if_pos hc]
        cases hs : spanishCode s[i + 1] with
        | some x => dsimp only; rw [ih1 s[i] ⟨hc, hn⟩ x]; simp
        | none => dsimp only; rw [ih2 s[i] ⟨hc, hn⟩]; simp
      · rw [if_neg (by simp [hc]), ih3, ispanL, if_neg hc, List.drop_eq_getElem_cons hn]
        simp
    · rw [if_neg (by simp [hn]), ih3, List.drop_of_length_le (show s.length ≤ i + 1 by omega)]
      simp [ispanL]
  | case2 i r hi =>
    rw [List.drop_of_length_le (by omega)]
    simp [ispanL]

end Lolly.An
