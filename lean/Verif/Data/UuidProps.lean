import Verif.Data.Uuid

set_option autoImplicit false

/-!
# C185: uuid_make gives what the generator made, or throws
-/

namespace Lolly.UuidProps

open Uuid

theorem strlen_eq (t s : Bytes) (h : 0 ∉ t) (f i : Nat) (hi : i ≤ t.length) (hf : t.length - i < f) :
    strlen (t ++ 0 :: s) f i = .ok t.length := by
  induction f generalizing i with
  | zero => omega
  | succ f ih =>
    rw [strlen]
    by_cases hc : i < t.length
    · have : rd (t ++ 0 :: s) i = .ok t[i] := rd_eq_ok.2 (by rw [List.getElem?_append_left hc]; simp [hc])
      have hn : t[i] ≠ 0 := fun e => h (e ▸ List.getElem_mem hc)
      rw [this, Res.ok_bind, if_neg hn, ih (i + 1) (by omega) (by omega)]
    · obtain rfl : i = t.length := by omega
      have : rd (t ++ 0 :: s) t.length = .ok 0 := rd_eq_ok.2 (by simp)
      rw [this, Res.ok_bind, if_pos rfl]

theorem ofCstr_eq (t s : Bytes) (h : 0 ∉ t) : ofCstr (t ++ 0 :: s) = .ok t := by
  rw [ofCstr, strlen_eq t s h _ 0 (by omega) (by simp; omega), Res.ok_bind]
  obtain ⟨r, e, hr⟩ := forUp_spec (lo := 0) (hi := t.length) (s := ([] : Bytes))
    (body := fun i r => do let c ← rd (t ++ 0 :: s) i; .ok (r ++ [c])) (fun i r => r = t.take i) (by omega) (by simp)
    (by
      rintro i r - hi rfl
      have : rd (t ++ 0 :: s) i = .ok t[i] := rd_eq_ok.2 (by rw [List.getElem?_append_left hi]; simp [hi])
      exact ⟨_, by rw [this]; rfl, by simp⟩)
  rw [e, hr]; simp

/-- **C185.** A uuid of 36 characters is returned exactly as the generator made it, whatever was in the memory of the buffer
before, and nothing outside of the buffer is touched; if the generator fails, the function throws. -/
theorem C185_text (m : Bytes) (hm : m.length = 37) :
    (∀ t : Bytes, t.length = 36 → 0 ∉ t → uuidMake (some t) m = .ok t) ∧ uuidMake none m = .thrown := by
  refine ⟨fun t ht h => ?_, rfl⟩
  rw [uuidMake, makeCstr, if_pos (by omega), Res.ok_bind]
  exact ofCstr_eq t _ h

/-- **C185, the size of the buffer.** 37 characters are exactly enough: every shorter text is returned too, every longer one
is written beyond the buffer. -/
theorem C185_buffer (m : Bytes) (hm : m.length = 37) (t : Bytes) (h : 0 ∉ t) :
    (t.length ≤ 36 → uuidMake (some t) m = .ok t) ∧ (36 < t.length → uuidMake (some t) m = .ub) := by
  constructor
  · intro ht
    rw [uuidMake, makeCstr, if_pos (by omega), Res.ok_bind]
    exact ofCstr_eq t _ h
  · intro ht
    rw [uuidMake, makeCstr, if_neg (by omega), Res.ub_bind]

/-- **C185, calls one after another.** The strings of any number of calls are different from each other if the texts of the
generator are, although all calls may use the same memory for the buffer. -/
theorem C185_different (ts : List Bytes) (ms : Nat → Bytes) (hm : ∀ i, (ms i).length = 37)
    (ht : ∀ t ∈ ts, t.length = 36 ∧ 0 ∉ t) (hd : ts.Nodup) :
    ∃ rs : List Bytes, rs.Nodup ∧ rs.length = ts.length ∧
      ∀ i (h : i < ts.length) (h' : i < rs.length), uuidMake (some ts[i]) (ms i) = .ok rs[i] :=
  ⟨ts, hd, rfl, fun i h _ =>
    have := ht _ (List.getElem_mem h)
    (C185_text (ms i) (hm i)).1 _ this.1 this.2⟩

example : (b!"0f8fad5b-d9cb-469f-a165-70867728950e").length = 36 ∧ 0 ∉ (b!"0f8fad5b-d9cb-469f-a165-70867728950e") ∧
    uuidMake (some (b!"0f8fad5b-d9cb-469f-a165-70867728950e")) (List.replicate 37 65) =
      .ok (b!"0f8fad5b-d9cb-469f-a165-70867728950e") := by decide +kernel

end Lolly.UuidProps
