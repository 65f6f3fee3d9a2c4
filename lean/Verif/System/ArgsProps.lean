import Verif.System.Args
import Verif.Data.Utf16Props

set_option autoImplicit false

/-!
# C132: the arguments of `main` on Windows
-/

namespace Lolly.ArgsProps

open Lolly.Args Lolly.Utf16 Lolly.Utf16Props

/-- The characters of an argument: at least one, none of them NUL, and not too many. -/
def Argument (cs : List Nat) : Prop := cs ≠ [] ∧ (∀ c ∈ cs, Scalar c) ∧ 0 ∉ cs ∧ (text8 cs).length ≤ 2 ^ 30

/-- An argument as Windows gives it: units of UTF-16 before a zero. -/
def wide (cs : List Nat) : List UInt16 := (cs.flatMap units).map UInt16.ofNat ++ [0]

theorem fill_ok {conv : Conv} (hc : Converts conv) {l : List (List Nat)} (hl : ∀ cs ∈ l, Argument cs) (i : Nat)
    (ptrs : List (Option Nat)) (heap : List Bytes) (hi : i + l.length ≤ ptrs.length) :
    ∃ ptrs', fill conv (l.map wide) i ptrs heap = .ok (ptrs', heap ++ l.map text8) ∧ ptrs'.length = ptrs.length ∧
      ∀ j, ptrs'[j]? = if i ≤ j ∧ j < i + l.length then some (some (heap.length + (j - i))) else ptrs[j]? := by
  induction l generalizing i ptrs heap with
  | nil => exact ⟨ptrs, by simp [fill], rfl, fun j => by rw [if_neg (by simp)]⟩
  | cons cs l ih =>
    rw [List.length_cons] at hi
    obtain ⟨h1, h2, h3, h4⟩ := hl cs List.mem_cons_self
    have e := C114_wchar conv hc cs h2 h1 h3 h4 []
    obtain ⟨ptrs', e', hlen, hp⟩ := ih (fun x hx => hl x (List.mem_cons_of_mem _ hx)) (i + 1)
      (ptrs.set i (some heap.length)) (heap ++ [text8 cs]) (by rw [List.length_set]; omega)
    refine ⟨ptrs', ?_, by rw [hlen, List.length_set], fun j => ?_⟩
    · rw [List.map_cons, fill]
      unfold wide
      rw [e, Res.ok_bind, wr_ok (by omega), Res.ok_bind]
      unfold wide at e'
      rw [e', List.map_cons, List.append_assoc]
      rfl
    · rw [hp j, List.length_append, List.length_cons, List.length_cons, List.length_nil, List.getElem?_set]
      by_cases hj : i + 1 ≤ j ∧ j < i + 1 + l.length
      · rw [if_pos hj, if_pos (by omega)]
        congr 2
        omega
      · rw [if_neg hj]
        by_cases hij : i = j
        · subst hij
          rw [if_pos rfl, if_pos (by omega), if_pos (by omega), Nat.sub_self, Nat.add_zero]
        · rw [if_neg hij, if_neg (by omega)]

/-- C132: while the object lives, `argc` is the number of arguments of the command line, `argv[i]` is the `i`-th of them in
UTF-8, and `argv[argc]` is null. Afterwards `argc` and `argv` are what they were. Missing: empty arguments. -/
theorem C132_partial {conv : Conv} (hc : Converts conv) {l : List (List Nat)} (hl : ∀ cs ∈ l, Argument cs) (orig : List Bytes) (st : St) :
    ∃ o st', create conv (some (l.map wide)) st = .ok (o, st') ∧ st'.argc = l.length ∧
      (∀ i (h : i < l.length), arg orig st' i = .ok (some (text8 l[i]))) ∧ arg orig st' l.length = .ok none ∧
      (destroy o st').argc = st.argc ∧ (destroy o st').argv = st.argv ∧
      ∀ i s, arg orig st i = .ok s → arg orig (destroy o st') i = .ok s := by
  obtain ⟨ptrs, e, hlen, hp⟩ := fill_ok hc hl 0 (List.replicate (l.length + 1) none) st.heap (by rw [List.length_replicate]; omega)
  refine ⟨⟨st.argc, st.argv⟩, ⟨l.length, .own ptrs, st.heap ++ l.map text8⟩, ?_, rfl, ?_, ?_, rfl, rfl, ?_⟩
  · unfold create fixArgs
    dsimp only
    rw [List.length_map, e]
    rfl
  · intro i h
    obtain ⟨h1, h2, h3, h4⟩ := hl l[i] (List.getElem_mem _)
    have hw := takeWhile_all _ (text8_no_nul l[i] h2 h3) [] (.inl rfl)
    rw [List.append_nil] at hw
    unfold arg
    dsimp only
    rw [hp i, if_pos (by omega)]
    dsimp only
    rw [rd_ok (by rw [List.length_append, List.length_map]; omega), Res.ok_bind, List.getElem_append_right (by omega), List.getElem_map]
    simp only [Nat.sub_zero, Nat.add_sub_cancel_left]
    rw [hw]
  · unfold arg
    dsimp only
    rw [hp l.length, if_neg (by omega)]
    simp
  · intro i s h
    cases st with
    | mk argc argv heap =>
    unfold arg destroy at *
    dsimp only at *
    cases argv with
    | given => exact h
    | dummy => exact h
    | own q =>
      dsimp only at *
      cases hq : q[i]? with
      | none => rw [hq] at h; cases h
      | some o =>
        rw [hq] at h
        cases o with
        | none => exact h
        | some p =>
          dsimp only at *
          by_cases hlt : p < heap.length
          · rw [rd_ok hlt] at h
            rw [rd_ok (by rw [List.length_append]; omega), List.getElem_append_left hlt]
            exact h
          · rw [rd_ub (by omega)] at h
            cases h

example : Argument [0x70, 0xE9, 0x4E2D, 0x1F600] ∧ wide [0xE9, 0x1F600] = [0xE9, 0xD83D, 0xDE00, 0] := by
  refine ⟨⟨by decide, by decide, by decide, by decide⟩, by decide⟩

example : ∃ conv, Converts conv := ⟨_, model_converts.1⟩

/-- C132: after the object has gone `main` has its own arguments again, and the null pointer after them. -/
theorem C132_restored {conv : Conv} {w : Option (List (List UInt16))} {orig : List Bytes} {st : St} (hg : st.argv = .given)
    {o : Obj} {st' : St} (e : create conv w st = .ok (o, st')) :
    (∀ i (h : i < orig.length), arg orig (destroy o st') i = .ok (some orig[i])) ∧
      arg orig (destroy o st') orig.length = .ok none ∧ (destroy o st').argc = st.argc := by
  unfold create at e
  obtain ⟨t, _, e⟩ := Res.bind_eq_ok.1 e
  injection e with e
  injection e with e1 e2
  subst e1 e2
  unfold arg destroy
  dsimp only
  rw [hg]
  dsimp only
  refine ⟨fun i h => ?_, ?_, rfl⟩
  · rw [if_neg (by omega), rd_ok h]
    rfl
  · rw [if_pos rfl]

example : (⟨3, .given, []⟩ : St).argv = .given := rfl

/-- C132: if Windows does not give the arguments there are none, `argv[0]` is null, and `argc` and `argv` are restored too. -/
theorem C132_failure (conv : Conv) (orig : List Bytes) (st : St) :
    ∃ o st', create conv none st = .ok (o, st') ∧ st'.argc = 0 ∧ arg orig st' 0 = .ok none ∧ destroy o st' = st :=
  ⟨_, _, rfl, rfl, rfl, rfl⟩

/-- C132 is violated: if the converter reports an error for the empty text, as it does for other input that it refuses, the
behaviour is undefined as soon as an argument is empty; and the strings made for the arguments are never freed. -/
theorem C132_violated {conv : Conv} (hc : Converts conv) {l : List (List Nat)} (hl : ∀ cs ∈ l, Argument cs) (r : List (List Nat)) (st : St) :
    (∀ n b, conv .utf16 .utf8 [] 0 = (n, b) → n < 0 → create conv (some (l.map wide ++ wide [] :: r.map wide)) st = .ub) ∧
    (∀ o st', create conv (some (l.map wide)) st = .ok (o, st') → (destroy o st').heap = st.heap ++ l.map text8) := by
  constructor
  · intro n b e h
    have key : ∀ (i : Nat) (ptrs : List (Option Nat)) (heap : List Bytes), i + l.length < ptrs.length →
        fill conv (l.map wide ++ wide [] :: r.map wide) i ptrs heap = .ub := by
      induction l with
      | nil =>
        intro i ptrs heap _
        have : wcharToUtf8 conv (wide []) = .ub := by
          show (match conv .utf16 .utf8 [] 0 with | (osize, odata) => take osize odata) = _
          rw [e]
          exact take_neg n b h
        rw [List.map_nil, List.nil_append, fill, this]
        rfl
      | cons cs l ih =>
        intro i ptrs heap hi
        obtain ⟨h1, h2, h3, h4⟩ := hl cs List.mem_cons_self
        have e := C114_wchar conv hc cs h2 h1 h3 h4 []
        rw [List.length_cons] at hi
        rw [List.map_cons, List.cons_append, fill, show wcharToUtf8 conv (wide cs) = _ from e, Res.ok_bind, wr_ok (by omega), Res.ok_bind]
        exact ih (fun x hx => hl x (List.mem_cons_of_mem _ hx)) _ _ _ (by rw [List.length_set]; omega)
    unfold create fixArgs
    dsimp only
    rw [key 0 _ _ (by simp; omega)]
    rfl
  · intro o st' h
    obtain ⟨ptrs, e, -⟩ := fill_ok hc hl 0 (List.replicate (l.length + 1) none) st.heap (by rw [List.length_replicate]; omega)
    unfold create fixArgs at h
    dsimp only at h
    rw [List.length_map, e] at h
    injection h with h
    injection h with h1 h2
    rw [← h2]
    rfl

end Lolly.ArgsProps
