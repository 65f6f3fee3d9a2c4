import Verif.System.Files

set_option autoImplicit false

/-!
# C59, C60: saving, loading and appending

`Target f fs u k`: the calls work on the place `k`.
-/

namespace Lolly.FilesProps

open Lolly.Url Lolly.Files

/-- The place that `u` leads to (C66 tells which it is). -/
def Target (f : Nat) (fs : FS) (u : Url) (k : Nat) : Prop :=
  ∃ t, findTheFirstExist f fs u = .ok t ∧ placeOf fs t = .ok k

/-- The contents of a file, where a missing file counts as an empty one. -/
def contents (fs : FS) (k : Nat) : Bytes :=
  match fs.node k with
  | .regular c => c
  | _ => []

theorem put_put (fs : FS) (k : Nat) (x y : Node) : (fs.put k x).put k y = fs.put k y := by
  simp only [FS.put, FS.mk.injEq, true_and]
  funext i
  split <;> rfl

theorem put_node (fs : FS) (k : Nat) (x : Node) : (fs.put k x).node k = x := by simp [FS.put]

theorem put_self (fs : FS) (k : Nat) {x : Node} (h : fs.node k = x) : fs.put k x = fs := by
  obtain ⟨p, n⟩ := fs
  simp only [FS.put, FS.mk.injEq, true_and]
  funext i
  split
  · next hi => subst hi; exact h.symm
  · rfl

theorem target_unique {f : Nat} {fs : FS} {u : Url} {k j : Nat} (h : Target f fs u k) (h' : Target f fs u j) : j = k := by
  obtain ⟨t, h1, h2⟩ := h
  obtain ⟨t', h3, h4⟩ := h'
  rw [h1] at h3
  injection h3 with h3
  subst h3
  rw [h2] at h4
  injection h4 with h4
  exact h4.symm

theorem firstLoop_put {fs : FS} {k : Nat} (c : Bytes) {e t : Url} (h1 : firstLoop fs e = .ok t) (h2 : placeOf fs t = .ok k) :
    ∃ t', firstLoop (fs.put k (.regular c)) e = .ok t' ∧ placeOf (fs.put k (.regular c)) t' = .ok k := by
  have hp : ∀ u, placeOf (fs.put k (.regular c)) u = placeOf fs u := fun _ => rfl
  induction e with
  | or a b _ ihb =>
    rw [firstLoop] at h1
    obtain ⟨q, hq, h1⟩ := Res.bind_eq_ok.1 h1
    rw [firstLoop]
    by_cases hl : isLocalAndSingle a = true
    · rw [isRegular, hl] at hq
      simp only [Bool.not_true, Bool.false_eq_true, if_false] at hq
      obtain ⟨j, hj, hq⟩ := Res.bind_eq_ok.1 hq
      have hreg : isRegular (fs.put k (.regular c)) a = .ok (if j = k then true else q) := by
        rw [isRegular, hl]
        simp only [Bool.not_true, Bool.false_eq_true, if_false]
        rw [hp, hj, Res.ok_bind]
        injection hq with hq
        by_cases hjk : j = k
        · subst hjk; simp [put_node]
        · rw [← hq]; simp [FS.put, hjk]
      rw [hreg, Res.ok_bind]
      cases q with
      | true =>
        simp only [if_true] at h1
        injection h1 with h1
        subst h1
        rw [hj] at h2
        injection h2 with h2
        exact ⟨a, by simp [h2], by rw [hp, hj, h2]⟩
      | false =>
        simp only [Bool.false_eq_true, if_false] at h1
        by_cases hjk : j = k
        · exact ⟨a, by simp [hjk], by rw [hp, hj, hjk]⟩
        · simp only [hjk, if_false, Bool.false_eq_true]
          exact ihb h1
    · have hl' : isLocalAndSingle a = false := by simpa using hl
      rw [isRegular, hl'] at hq ⊢
      simp only [Bool.not_false, if_true] at hq ⊢
      injection hq with hq
      subst hq
      simp only [Bool.false_eq_true, if_false] at h1
      simp only [Res.ok_bind, Bool.false_eq_true, if_false]
      exact ihb h1
  | _ =>
    rw [firstLoop] at h1
    · injection h1 with h1
      subst h1
      exact ⟨_, rfl, h2⟩
    · simp

/-- Writing to the target of a url does not move its target, whatever other alternatives the url has. -/
theorem target_put {f : Nat} {fs : FS} {u : Url} {k : Nat} (h : Target f fs u k) (c : Bytes) :
    Target f (fs.put k (.regular c)) u k := by
  obtain ⟨t, h1, h2⟩ := h
  rw [findTheFirstExist] at h1
  obtain ⟨e, he, h1⟩ := Res.bind_eq_ok.1 h1
  obtain ⟨t', h3, h4⟩ := firstLoop_put c h1 h2
  exact ⟨t', by rw [findTheFirstExist, he, Res.ok_bind, h3], h4⟩

theorem writing_regular {fs : FS} {k : Nat} {c : Bytes} (h : fs.node k = .regular c) (s : Bytes) :
    writing fs k s = (List.range (s.length + 1)).map fun n => fs.put k (.regular (c ++ s.take n)) := by
  rw [writing, h]

theorem final_writing {fs g : FS} {k : Nat} {c : Bytes} (h : fs.node k = .regular c) (s : Bytes) (b : Bool) :
    Done.final ⟨b, fs :: writing fs k s⟩ g = fs.put k (.regular (c ++ s)) := by
  rw [Done.final, writing_regular h, List.range_succ, List.map_append, ← List.cons_append, List.map_cons, List.map_nil,
    List.getLast?_append]
  simp

theorem finish_ok {A : Type} {fatal failed : Bool} {x y : A} {b : Bool} (h : finish fatal failed x = .ok (y, b)) :
    y = x ∧ b = failed := by
  cases failed <;> cases fatal <;> simp [finish] at h <;> simp [h]

/-! ## C59: saving -/

/-- All answers of the system are good, as far as writing the `n` characters of a string is concerned. -/
def Writing.Good (a : Writing) (n : Nat) : Prop :=
  a.opens = true ∧ a.locks = true ∧ n ≤ a.wrote ∧ a.returns = true ∧ a.leaves = true ∧ a.exits = true

theorem take_length_iff {A : Type} (s : List A) (n : Nat) : (s.take n).length = s.length ↔ s.length ≤ n := by
  rw [List.length_take]; omega

theorem saveTry_eq {f : Nat} {fs : FS} {u : Url} {k : Nat} (h : Target f fs u k) (hk : fs.node k ≠ .special) (a : Writing)
    (s : Bytes) : saveStringTry f a fs u s =
      if isLocalAndSingle u = false then .ok ⟨true, []⟩
      else if a.opens = false then .ok ⟨true, []⟩
      else .ok ⟨(writeLocked a (fs.put k (.regular [])) k s).failed,
        fs.put k (.regular []) :: (writeLocked a (fs.put k (.regular [])) k s).states⟩ := by
  obtain ⟨t, h1, h2⟩ := h
  rw [saveStringTry]
  cases isLocalAndSingle u with
  | false => rfl
  | true =>
    simp only [Bool.not_true, Bool.false_eq_true, if_false]
    rw [h1, Res.ok_bind, h2, Res.ok_bind]
    cases a.opens with
    | false => rfl
    | true =>
      simp only [Bool.not_true, Bool.false_eq_true, if_false, if_neg hk]
      simp

/-- Saving a string reports success exactly if the url is a local file and every answer of the system is good. Then the
file holds the string. Otherwise nothing has changed, or the file holds a first part of the string. No other file
changes. A failure is an exception exactly if the caller asked for it. -/
theorem C59_save {f : Nat} {fs : FS} {u : Url} {k : Nat} (h : Target f fs u k) (hk : fs.node k ≠ .special) (a : Writing)
    (s : Bytes) (fatal : Bool) :
    (isLocalAndSingle u = true ∧ Writing.Good a s.length →
      saveString f a fs u s fatal = .ok (fs.put k (.regular s), false)) ∧
    (¬ (isLocalAndSingle u = true ∧ Writing.Good a s.length) →
      (fatal = true → saveString f a fs u s fatal = .thrown) ∧
      (fatal = false → ∃ fs', saveString f a fs u s fatal = .ok (fs', true) ∧
        (fs' = fs ∨ ∃ n, fs' = fs.put k (.regular (s.take n))))) := by
  rw [saveString, saveTry_eq h hk]
  constructor
  · rintro ⟨hl, ho, hlo, hw, hr, hle, he⟩
    have ht : s.take a.wrote = s := List.take_of_length_le hw
    rw [hl, ho]
    simp only [Bool.true_eq_false, if_false, Res.ok_bind, writeLocked, hlo, Bool.not_true, Bool.false_eq_true, ht, hr, hle, he]
    rw [final_writing (put_node ..), put_put, List.nil_append]
    simp [finish]
  · intro hg
    have main : ∃ d, (if isLocalAndSingle u = false then (.ok ⟨true, []⟩ : Res Done)
      else if a.opens = false then .ok ⟨true, []⟩
      else .ok ⟨(writeLocked a (fs.put k (.regular [])) k s).failed,
        fs.put k (.regular []) :: (writeLocked a (fs.put k (.regular [])) k s).states⟩) = .ok d ∧ d.failed = true ∧
        (d.final fs = fs ∨ ∃ n, d.final fs = fs.put k (.regular (s.take n))) := by
      cases hl : isLocalAndSingle u with
      | false => exact ⟨_, if_pos rfl, rfl, .inl rfl⟩
      | true =>
      cases ho : a.opens with
      | false => exact ⟨⟨true, []⟩, by simp, rfl, .inl rfl⟩
      | true =>
        refine ⟨_, by simp only [Bool.true_eq_false, if_false]; rfl, ?_, .inr ?_⟩
        · rw [writeLocked]
          cases hlo : a.locks with
          | false => rfl
          | true =>
            simp only [Bool.not_true, Bool.false_eq_true, if_false, Bool.not_eq_true', Bool.and_eq_false_iff,
              decide_eq_false_iff_not, take_length_iff]
            cases hr : a.returns <;> cases hle : a.leaves <;> cases he : a.exits <;> simp
            exact Nat.lt_of_not_le fun hw => hg ⟨hl, ho, hlo, hw, hr, hle, he⟩
        · rw [writeLocked]
          cases hlo : a.locks with
          | false => exact ⟨0, by simp [Done.final]⟩
          | true =>
            refine ⟨a.wrote, ?_⟩
            simp only [Bool.not_true, Bool.false_eq_true, if_false]
            rw [final_writing (put_node ..), put_put, List.nil_append]
    obtain ⟨d, hd, h1, h2⟩ := main
    rw [hd, Res.ok_bind, h1]
    refine ⟨fun h => by rw [h]; rfl, fun h => ⟨_, by rw [h]; rfl, h2⟩⟩

theorem appendTry_eq {f : Nat} {fs : FS} {u : Url} {k : Nat} (h : Target f fs u k) (hk : fs.node k ≠ .special) (a : Writing)
    (s : Bytes) : appendStringTry f a fs u s =
      if isLocalAndSingle u = false then .ok ⟨true, []⟩
      else if a.opens = false then .ok ⟨true, []⟩
      else .ok ⟨(writeLocked a (fs.put k (.regular (contents fs k))) k s).failed,
        fs.put k (.regular (contents fs k)) :: (writeLocked a (fs.put k (.regular (contents fs k))) k s).states⟩ := by
  obtain ⟨t, h1, h2⟩ := h
  rw [appendStringTry]
  cases isLocalAndSingle u with
  | false => rfl
  | true =>
    simp only [Bool.not_true, Bool.false_eq_true, if_false]
    rw [h1, Res.ok_bind, h2, Res.ok_bind]
    cases a.opens with
    | false => rfl
    | true =>
      have e : (if fs.node k = .absent then fs.put k (.regular []) else fs) = fs.put k (.regular (contents fs k)) := by
        rw [contents]
        cases hn : fs.node k with
        | absent => rfl
        | special => exact absurd hn hk
        | regular c =>
          simp only [reduceCtorEq, if_false]
          exact (put_self fs k hn).symm
      simp only [Bool.not_true, Bool.false_eq_true, if_false, e]
      simp

/-- Appending reports success exactly if the url is a local file and every answer of the system is good. Then the file
holds what it held before, followed by the string. Otherwise nothing has changed, or a first part of the string was
appended. No other file changes. -/
theorem C59_append {f : Nat} {fs : FS} {u : Url} {k : Nat} (h : Target f fs u k) (hk : fs.node k ≠ .special) (a : Writing)
    (s : Bytes) (fatal : Bool) :
    (isLocalAndSingle u = true ∧ Writing.Good a s.length →
      appendString f a fs u s fatal = .ok (fs.put k (.regular (contents fs k ++ s)), false)) ∧
    (¬ (isLocalAndSingle u = true ∧ Writing.Good a s.length) →
      (fatal = true → appendString f a fs u s fatal = .thrown) ∧
      (fatal = false → ∃ fs', appendString f a fs u s fatal = .ok (fs', true) ∧
        (fs' = fs ∨ ∃ n, fs' = fs.put k (.regular (contents fs k ++ s.take n))))) := by
  rw [appendString, appendTry_eq h hk]
  constructor
  · rintro ⟨hl, ho, hlo, hw, hr, hle, he⟩
    have ht : s.take a.wrote = s := List.take_of_length_le hw
    rw [hl, ho]
    simp only [Bool.true_eq_false, if_false, Res.ok_bind, writeLocked, hlo, Bool.not_true, Bool.false_eq_true, ht, hr, hle, he]
    rw [final_writing (put_node ..), put_put]
    simp [finish]
  · intro hg
    have main : ∃ d, (if isLocalAndSingle u = false then (.ok ⟨true, []⟩ : Res Done)
      else if a.opens = false then .ok ⟨true, []⟩
      else .ok ⟨(writeLocked a (fs.put k (.regular (contents fs k))) k s).failed,
        fs.put k (.regular (contents fs k)) :: (writeLocked a (fs.put k (.regular (contents fs k))) k s).states⟩) = .ok d ∧
        d.failed = true ∧
        (d.final fs = fs ∨ ∃ n, d.final fs = fs.put k (.regular (contents fs k ++ s.take n))) := by
      cases hl : isLocalAndSingle u with
      | false => exact ⟨_, if_pos rfl, rfl, .inl rfl⟩
      | true =>
      cases ho : a.opens with
      | false => exact ⟨⟨true, []⟩, by simp, rfl, .inl rfl⟩
      | true =>
        refine ⟨_, by simp only [Bool.true_eq_false, if_false]; rfl, ?_, .inr ?_⟩
        · rw [writeLocked]
          cases hlo : a.locks with
          | false => rfl
          | true =>
            simp only [Bool.not_true, Bool.false_eq_true, if_false, Bool.not_eq_true', Bool.and_eq_false_iff,
              decide_eq_false_iff_not, take_length_iff]
            cases hr : a.returns <;> cases hle : a.leaves <;> cases he : a.exits <;> simp
            exact Nat.lt_of_not_le fun hw => hg ⟨hl, ho, hlo, hw, hr, hle, he⟩
        · rw [writeLocked]
          cases hlo : a.locks with
          | false => exact ⟨0, by simp [Done.final]⟩
          | true =>
            refine ⟨a.wrote, ?_⟩
            simp only [Bool.not_true, Bool.false_eq_true, if_false]
            rw [final_writing (put_node ..), put_put]
    obtain ⟨d, hd, h1, h2⟩ := main
    rw [hd, Res.ok_bind, h1]
    refine ⟨fun h => by rw [h]; rfl, fun h => ⟨_, by rw [h]; rfl, h2⟩⟩

/-! ## C59: loading -/

/-- All answers of the system are good, and the size is that of the file. -/
def Reading.Good (r : Reading) (c : Bytes) : Prop :=
  r.access = true ∧ r.opens = true ∧ r.size = c.length ∧ (c = [] ∨ (∃ n, r.got = some n ∧ c.length ≤ n) ∧ r.exits = true)

/-- The call fails before it has a complete buffer. -/
theorem C59_failed_load {f : Nat} {r : Reading} {fs : FS} {u : Url} {x y : Strs} {fatal : Bool}
    (h : loadString f r fs u x fatal = .ok (y, true)) : y = x := by
  rw [loadString] at h
  obtain ⟨⟨z, b⟩, h1, h2⟩ := Res.bind_eq_ok.1 h
  obtain ⟨rfl, rfl⟩ := finish_ok h2
  rw [loadStringTry] at h1
  dsimp only at h1
  repeat' first
    | (injection h1 with h1; injection h1 with h1 h3; first | exact h1.symm | cases h3)
    | (obtain ⟨_, _, h1⟩ := Res.bind_eq_ok.1 h1)
    | split at h1
    | cases h1

/-- Loading a file of at most 2^30 characters reports success exactly if the url is a local file and every answer of the
system is good; then the variable holds the contents of the file. -/
theorem C59_load_partial {f : Nat} {fs : FS} {u : Url} {k : Nat} {c : Bytes} (h : Target f fs u k) (hk : fs.node k = .regular c)
    (hc : c.length ≤ 2 ^ 30) (r : Reading) (hr : r.size = c.length) (x : Strs) (hx : x.var < x.objs.length) (fatal : Bool) :
    (isLocalAndSingle u = true ∧ Reading.Good r c →
      ∃ y, loadString f r fs u x fatal = .ok (y, false) ∧ y.value = .ok c) ∧
    (¬ (isLocalAndSingle u = true ∧ Reading.Good r c) →
      loadString f r fs u x fatal = if fatal then .thrown else .ok (x, true)) := by
  obtain ⟨t, h1, h2⟩ := h
  have hfin : ∀ y : Strs, finish fatal true y = if fatal then .thrown else .ok (y, true) := by
    intro y; cases fatal <;> rfl
  rw [loadString, loadStringTry]
  cases hl : isLocalAndSingle u with
  | false => exact ⟨by simp, fun _ => hfin x⟩
  | true =>
    simp only [Bool.not_true, Bool.false_eq_true, if_false, true_and]
    rw [h1, Res.ok_bind, h2, Res.ok_bind]
    cases ha : r.access with
    | false => exact ⟨fun hg => by have := hg.1; rw [ha] at this; exact absurd this (by decide), fun _ => hfin x⟩
    | true =>
    cases ho : r.opens with
    | false => exact ⟨fun hg => by have := hg.2.1; rw [ho] at this; exact absurd this (by decide), fun _ => hfin x⟩
    | true =>
    simp only [Bool.not_true, Bool.false_eq_true, if_false, hk, readable]
    by_cases h0 : c = []
    · subst h0
      have hs : r.size = 0 := by simpa using hr
      rw [if_pos hs]
      refine ⟨fun _ => ⟨⟨x.objs ++ [[]], x.objs.length⟩, rfl, ?_⟩, fun hg => absurd ⟨ha, ho, hr, .inl rfl⟩ hg⟩
      simp [Strs.value, rd]
    · have hs : r.size ≠ 0 := by
        rw [hr]
        exact fun e => h0 (List.length_eq_zero_iff.1 e)
      rw [if_neg hs]
      cases hg : r.got with
      | none =>
        refine ⟨fun hgd => ?_, fun _ => hfin x⟩
        rcases hgd.2.2.2 with e | ⟨⟨n, e, -⟩, -⟩
        · exact absurd e h0
        · rw [hg] at e; cases e
      | some n =>
        simp only
        have ht : c.take r.size = c := List.take_of_length_le (by omega)
        rw [ht]
        by_cases hn : c.length ≤ n
        · have ht2 : c.take n = c := List.take_of_length_le hn
          cases he : r.exits with
          | true =>
            simp only [ht2, hr, decide_true, Bool.and_true, if_true]
            rw [if_pos hc, wr_ok hx, Res.ok_bind]
            refine ⟨fun _ => ⟨⟨x.objs.set x.var c, x.var⟩, rfl, ?_⟩, fun hgd => absurd ⟨ha, ho, hr, .inr ⟨⟨n, hg, hn⟩, he⟩⟩ hgd⟩
            simp [Strs.value, rd, hx]
          | false =>
            simp only [Bool.and_false, Bool.false_eq_true, if_false]
            refine ⟨fun hgd => ?_, fun _ => hfin x⟩
            rcases hgd.2.2.2 with e | ⟨-, e⟩
            · exact absurd e h0
            · rw [he] at e; cases e
        · have : ¬ (c.take n).length = r.size := by rw [hr, take_length_iff]; exact hn
          simp only [this, decide_false, Bool.false_and, Bool.false_eq_true, if_false]
          refine ⟨fun hgd => ?_, fun _ => hfin x⟩
          rcases hgd.2.2.2 with e | ⟨⟨n', e, e'⟩, -⟩
          · exact absurd e h0
          · rw [hg] at e; injection e with e; omega

/-- A string that was saved is loaded again, if both calls report success. -/
theorem C59_save_load_partial {f : Nat} {fs fs' : FS} {u : Url} {k : Nat} (h : Target f fs u k) (hk : fs.node k ≠ .special)
    {a : Writing} {s : Bytes} (hs : s.length ≤ 2 ^ 30) {fatal : Bool} (hsave : saveString f a fs u s fatal = .ok (fs', false))
    {r : Reading} (hr : r.size = (contents fs' k).length) {x y : Strs} (hx : x.var < x.objs.length) {fatal' : Bool}
    (hload : loadString f r fs' u x fatal' = .ok (y, false)) : y.value = .ok s := by
  have hfs : fs' = fs.put k (.regular s) ∧ isLocalAndSingle u = true := by
    obtain ⟨h1, h2⟩ := C59_save h hk a s fatal
    by_cases hg : isLocalAndSingle u = true ∧ Writing.Good a s.length
    · rw [h1 hg] at hsave
      injection hsave with e
      injection e with e
      exact ⟨e.symm, hg.1⟩
    · obtain ⟨h3, h4⟩ := h2 hg
      cases fatal with
      | true => rw [h3 rfl] at hsave; cases hsave
      | false =>
        obtain ⟨_, h5, -⟩ := h4 rfl
        rw [h5] at hsave
        injection hsave with e
        injection e with _ e
        cases e
  obtain ⟨rfl, hl⟩ := hfs
  have hcon : contents (fs.put k (.regular s)) k = s := by simp [contents, put_node]
  obtain ⟨h1, h2⟩ := C59_load_partial (target_put h s) (put_node ..) hs r (by rw [hr, hcon]) x hx fatal'
  by_cases hg : isLocalAndSingle u = true ∧ Reading.Good r s
  · obtain ⟨z, h3, h4⟩ := h1 hg
    rw [h3] at hload
    injection hload with e
    injection e with e
    rw [← e]; exact h4
  · rw [h2 hg] at hload
    cases fatal' with
    | true => cases hload
    | false =>
      simp only [Bool.false_eq_true, if_false] at hload
      injection hload with e
      injection e with _ e
      cases e

/-- The calls without a status: `string_load` gives the contents, or the empty string if something fails; `string_save` and
`string_append_to_file` change the file as the calls with a status do, and never throw. -/
theorem C59_string_partial {f : Nat} {fs : FS} {u : Url} {k : Nat} (h : Target f fs u k) (a : Writing) (s : Bytes) :
    (∀ c (r : Reading), fs.node k = .regular c → c.length ≤ 2 ^ 30 → r.size = c.length →
      (isLocalAndSingle u = true ∧ Reading.Good r c → stringLoad f r fs u = .ok c) ∧
      (¬ (isLocalAndSingle u = true ∧ Reading.Good r c) → stringLoad f r fs u = .ok [])) ∧
    (fs.node k ≠ .special → isLocalAndSingle u = true ∧ Writing.Good a s.length →
      stringSave f a fs s u = .ok (fs.put k (.regular s)) ∧
      stringAppendToFile f a fs s u = .ok (fs.put k (.regular (contents fs k ++ s)))) ∧
    (fs.node k ≠ .special → ¬ (isLocalAndSingle u = true ∧ Writing.Good a s.length) →
      (∃ fs', stringSave f a fs s u = .ok fs' ∧ (fs' = fs ∨ ∃ n, fs' = fs.put k (.regular (s.take n)))) ∧
      ∃ fs', stringAppendToFile f a fs s u = .ok fs' ∧
        (fs' = fs ∨ ∃ n, fs' = fs.put k (.regular (contents fs k ++ s.take n)))) := by
  refine ⟨fun c r hk hc hr => ⟨fun hg => ?_, fun hg => ?_⟩, fun hk hg => ⟨?_, ?_⟩, fun hk hg => ⟨?_, ?_⟩⟩
  · obtain ⟨y, e, hy⟩ := (C59_load_partial h hk hc r hr ⟨[[]], 0⟩ (by simp) false).1 hg
    rw [stringLoad, e]; exact hy
  · have e := (C59_load_partial h hk hc r hr ⟨[[]], 0⟩ (by simp) false).2 hg
    rw [stringLoad, e]; rfl
  · rw [stringSave, (C59_save h hk a s false).1 hg]; rfl
  · rw [stringAppendToFile, (C59_append h hk a s false).1 hg]; rfl
  · obtain ⟨fs', e, h'⟩ := ((C59_save h hk a s false).2 hg).2 rfl
    exact ⟨fs', by rw [stringSave, e]; rfl, h'⟩
  · obtain ⟨fs', e, h'⟩ := ((C59_append h hk a s false).2 hg).2 rfl
    exact ⟨fs', by rw [stringAppendToFile, e]; rfl, h'⟩

/-- `append_to (what, to)` without a message: the contents of `what` are appended to `to`, also if it is the same file. -/
theorem C59_append_to {f : Nat} {fs fs' : FS} {what to : Url} {j k : Nat} {c : Bytes} (hw : Target f fs what j)
    (hj : fs.node j = .regular c) (hc : c.length ≤ 2 ^ 30) (ht : Target f fs to k) (hk : fs.node k ≠ .special)
    {r : Reading} (hr : r.size = c.length) {a : Writing} (h : appendTo f r a fs what to = .ok (fs', false)) :
    fs' = fs.put k (.regular (contents fs k ++ c)) := by
  rw [appendTo] at h
  obtain ⟨⟨x, b⟩, h1, h⟩ := Res.bind_eq_ok.1 h
  obtain ⟨l1, l2⟩ := C59_load_partial hw hj hc r hr ⟨[[]], 0⟩ (by simp) false
  have hx : b = false ∧ x.value = .ok c := by
    by_cases hg : isLocalAndSingle what = true ∧ Reading.Good r c
    · obtain ⟨y, h3, h4⟩ := l1 hg
      rw [h3] at h1
      injection h1 with e
      injection e with e1 e2
      exact ⟨e2.symm, e1 ▸ h4⟩
    · rw [l2 hg] at h1
      simp only [Bool.false_eq_true, if_false] at h1
      injection h1 with e
      injection e with e1 e2
      subst e2
      simp at h
  obtain ⟨rfl, hv⟩ := hx
  simp only [Bool.false_eq_true, if_false] at h
  rw [hv, Res.ok_bind] at h
  obtain ⟨a1, a2⟩ := C59_append ht hk a c false
  by_cases hg : isLocalAndSingle to = true ∧ Writing.Good a c.length
  · rw [a1 hg] at h
    injection h with e
    injection e with e
    exact e.symm
  · obtain ⟨_, h5, -⟩ := (a2 hg).2 rfl
    rw [h5] at h
    injection h with e
    injection e with _ e
    cases e

/-- If the call that tells the size fails, which gives 0, a file is loaded as the empty string and success is reported. -/
theorem C59_size_violated {f : Nat} {fs : FS} {u : Url} {k : Nat} {c : Bytes} (h : Target f fs u k) (hk : fs.node k = .regular c)
    (hl : isLocalAndSingle u = true) {r : Reading} (ha : r.access = true) (ho : r.opens = true) (hs : r.size = 0) (x : Strs)
    (fatal : Bool) : ∃ y, loadString f r fs u x fatal = .ok (y, false) ∧ y.value = .ok [] := by
  obtain ⟨t, h1, h2⟩ := h
  refine ⟨⟨x.objs ++ [[]], x.objs.length⟩, ?_, by simp [Strs.value, rd]⟩
  rw [loadString, loadStringTry, hl]
  simp only [Bool.not_true, Bool.false_eq_true, if_false]
  rw [h1, Res.ok_bind, h2, Res.ok_bind]
  simp [ha, ho, hs, hk, readable, finish]

/-- A file of more than 2^30 characters, such as one made by appending, cannot be loaded although every answer of the
system is good: the call does not return, or from 2^31 characters on, the size does not fit an `int`. -/
theorem C59_large_violated {f : Nat} {fs : FS} {u : Url} {k : Nat} {c : Bytes} (h : Target f fs u k) (hk : fs.node k = .regular c)
    (hl : isLocalAndSingle u = true) {r : Reading} (hg : Reading.Good r c) (hc : 2 ^ 30 < c.length) (x : Strs) (fatal : Bool) :
    loadString f r fs u x fatal = if c.length < 2 ^ 31 then .hang else .ub := by
  obtain ⟨t, h1, h2⟩ := h
  obtain ⟨ha, ho, hs, hg⟩ := hg
  rcases hg with rfl | ⟨⟨n, hn, hle⟩, he⟩
  · simp at hc
  have e1 : c.take r.size = c := List.take_of_length_le (by omega)
  have e2 : c.take n = c := List.take_of_length_le hle
  rw [loadString, loadStringTry, hl]
  simp only [Bool.not_true, Bool.false_eq_true, if_false]
  rw [h1, Res.ok_bind, h2, Res.ok_bind]
  simp only [ha, ho, hk, readable, Bool.not_true, Bool.false_eq_true, if_false]
  rw [if_neg (by omega), hn]
  rw [e1]
  simp only [e2]
  rw [if_pos (by simp [hs, he]), if_neg (by omega), hs]
  split <;> rfl

/-! ## C81: loading changes one variable -/

/-- Loading changes no string object except the one of the variable. -/
theorem C81_partial {f : Nat} {r : Reading} {fs : FS} {u : Url} {x y : Strs} {fatal b : Bool}
    (h : loadString f r fs u x fatal = .ok (y, b)) : ∀ j, j < x.objs.length → j ≠ x.var → y.objs[j]? = x.objs[j]? := by
  intro j hj hne
  rw [loadString] at h
  obtain ⟨⟨z, b'⟩, h1, h2⟩ := Res.bind_eq_ok.1 h
  obtain ⟨rfl, rfl⟩ := finish_ok h2
  rw [loadStringTry] at h1
  dsimp only at h1
  repeat' first
    | (injection h1 with h1; injection h1 with h1 h3; subst h1; rfl)
    | (injection h1 with h1; injection h1 with h1 h3; subst h1; exact List.getElem?_append_left hj)
    | (obtain ⟨objs, hw, h1⟩ := Res.bind_eq_ok.1 h1
       injection h1 with h1
       injection h1 with h1 h3
       subst h1
       rw [wr] at hw
       split at hw
       · injection hw with hw
         subst hw
         exact List.getElem?_set_ne (Ne.symm hne)
       · cases hw)
    | (obtain ⟨_, _, h1⟩ := Res.bind_eq_ok.1 h1)
    | split at h1
    | cases h1

/-- A variable that shares its string with the variable that is loaded changes with it, unless the file is empty. -/
theorem C81_violated {f : Nat} {fs : FS} {u : Url} {k : Nat} {c : Bytes} (h : Target f fs u k) (hk : fs.node k = .regular c)
    (hc : c.length ≤ 2 ^ 30) {r : Reading} (hr : r.size = c.length) {x y : Strs} (hx : x.var < x.objs.length) {fatal : Bool}
    (hload : loadString f r fs u x fatal = .ok (y, false)) :
    (∃ old, x.objs[x.var]? = some old) ∧ (c ≠ [] → y.objs[x.var]? = some c) ∧ (c = [] → y.objs[x.var]? = x.objs[x.var]?) := by
  refine ⟨⟨_, List.getElem?_eq_getElem hx⟩, ?_⟩
  have hv := (C59_load_partial h hk hc r hr x hx fatal)
  by_cases hg : isLocalAndSingle u = true ∧ Reading.Good r c
  · obtain ⟨y', h1, h2⟩ := hv.1 hg
    rw [hload] at h1
    injection h1 with h1
    injection h1 with h1
    subst h1
    rw [loadString] at hload
    obtain ⟨⟨z, b'⟩, h3, h4⟩ := Res.bind_eq_ok.1 hload
    obtain ⟨rfl, rfl⟩ := finish_ok h4
    obtain ⟨t, t1, t2⟩ := h
    rw [loadStringTry, hg.1] at h3
    simp only [Bool.not_true, Bool.false_eq_true, if_false] at h3
    rw [t1, Res.ok_bind, t2, Res.ok_bind] at h3
    simp only [hg.2.1, hg.2.2.1, hk, readable, Bool.not_true, Bool.false_eq_true, if_false] at h3
    by_cases h0 : c = []
    · refine ⟨fun hn => absurd h0 hn, fun _ => ?_⟩
      rw [if_pos (by rw [hr, h0]; rfl)] at h3
      injection h3 with h3
      injection h3 with h3
      subst h3
      exact List.getElem?_append_left hx
    · refine ⟨fun _ => ?_, fun hn => absurd hn h0⟩
      rw [if_neg (by rw [hr]; exact fun e => h0 (List.length_eq_zero_iff.1 e))] at h3
      have hvar : y.var = x.var := by
        repeat' first
          | (injection h3 with h3; injection h3 with h3 h5; subst h3; rfl)
          | (injection h3 with h3; injection h3 with h3 h5; cases h5)
          | (obtain ⟨_, _, h3⟩ := Res.bind_eq_ok.1 h3)
          | split at h3
          | cases h3
      rw [← hvar]
      rw [Strs.value] at h2
      exact rd_eq_ok.1 h2
  · rw [hv.2 hg] at hload
    cases fatal with
    | true => cases hload
    | false =>
      simp only [Bool.false_eq_true, if_false] at hload
      injection hload with e
      injection e with _ e
      cases e

/-! ## C60: a crash while a file is saved -/

/-- The file of a process that dies while it saves: it is as before, or a first part of the new contents. No other file is
changed. -/
theorem C60_partial {f : Nat} {fs : FS} {u : Url} {k : Nat} (h : Target f fs u k) (hk : fs.node k ≠ .special) (a : Writing)
    (s : Bytes) {d : Done} (hd : saveStringTry f a fs u s = .ok d) :
    ∀ g ∈ fs :: d.states, g = fs ∨ ∃ n, g = fs.put k (.regular (s.take n)) := by
  rw [saveTry_eq h hk] at hd
  intro g hg
  rcases List.mem_cons.1 hg with rfl | hg
  · exact .inl rfl
  split at hd
  · injection hd with hd; subst hd; cases hg
  split at hd
  · injection hd with hd; subst hd; cases hg
  injection hd with hd
  subst hd
  refine .inr ?_
  rcases List.mem_cons.1 hg with rfl | hg
  · exact ⟨0, rfl⟩
  · rw [writeLocked] at hg
    split at hg
    · cases hg
    · dsimp only at hg
      rw [writing_regular (put_node ..)] at hg
      simp only [List.mem_map] at hg
      obtain ⟨n, -, rfl⟩ := hg
      exact ⟨min n a.wrote, by rw [put_put, List.nil_append, List.take_take]⟩

/-- Saving over a file is never atomic: whatever is saved over whatever contents, there is a moment at which the file is
empty, so that a crash then loses both the old and the new contents. -/
theorem C60_violated {f : Nat} {fs : FS} {u : Url} {k : Nat} {old : Bytes} (h : Target f fs u k) (hk : fs.node k = .regular old)
    (hl : isLocalAndSingle u = true) {a : Writing} (ho : a.opens = true) {s : Bytes} (hold : old ≠ []) (hs : s ≠ []) :
    ∃ d, saveStringTry f a fs u s = .ok d ∧ ∃ g ∈ d.states, g.node k ≠ .regular old ∧ g.node k ≠ .regular s := by
  refine ⟨_, by rw [saveTry_eq h (by rw [hk]; simp), hl, ho]; simp only [Bool.true_eq_false, if_false]; rfl,
    fs.put k (.regular []), by simp, ?_, ?_⟩
  · rw [put_node]; simpa using hold.symm
  · rw [put_node]; simpa using hs.symm

/-- Without a crash, too: if the file cannot be locked, because another process holds the lock, the call reports failure
and the old contents are lost. -/
theorem C60_lock_violated {f : Nat} {fs : FS} {u : Url} {k : Nat} (h : Target f fs u k) (hk : fs.node k ≠ .special)
    (hl : isLocalAndSingle u = true) {a : Writing} (ho : a.opens = true) (hlo : a.locks = false) (s : Bytes) :
    saveString f a fs u s false = .ok (fs.put k (.regular []), true) := by
  rw [saveString, saveTry_eq h hk, hl, ho]
  simp [writeLocked, hlo, Done.final, finish]

/-! ## A case that meets the hypotheses -/

/-- One file "a" with contents "old". -/
def fs0 : FS := ⟨fun p => if p = b!"a" then 0 else 1, fun i => if i = 0 then .regular (b!"old") else .absent⟩

example : Target 1 fs0 (.atom (b!"a")) 0 := ⟨.atom (b!"a"), rfl, rfl⟩

example : isLocalAndSingle (.atom (b!"a")) = true ∧ Writing.Good ⟨true, true, 3, true, true, true⟩ 3 ∧
    Reading.Good ⟨true, true, 3, some 3, true, []⟩ (b!"new") := by
  refine ⟨by decide, ⟨rfl, rfl, by decide, rfl, rfl, rfl⟩, rfl, rfl, rfl, .inr ⟨⟨3, rfl, by decide⟩, rfl⟩⟩

/-- `a/{x|y}`, where neither is a file yet, is saved as `a/y`. -/
example : Target 3 fs0 (.concat (.atom (b!"a")) (.or (.atom (b!"x")) (.atom (b!"y")))) 1 :=
  ⟨.concat (.atom (b!"a")) (.atom (b!"y")), by
    simp [findTheFirstExist, expand, expand2, mul, alt, firstLoop, isRegular, placeOf, asLocalPath, fs0, isRoot,
      isRootedS, isRootS, isNone, isAtomic, isPseudoAtomic, isSpecialRoot, isRootWeb, ancestor, topRoot, isAtom, parentFirst,
      protocol, isLocalAndSingle, asString, isName, braceLeft, braceRight, cname], rfl⟩

end Lolly.FilesProps
