import Verif.System.OstreamSpec

set_option autoImplicit false

/-!
# Output streams: counts
-/

namespace Lolly.Ostream

/-- Whether the object holds a count of the stream `p`. -/
def holds (p : Nat) (r : Rep) : Nat :=
  match r.alive, r.kind with
  | true, .buf m _ => if m = p then 1 else 0
  | _, _ => 0

def held (reps : List Rep) (p : Nat) : Nat := (reps.map (holds p)).sum

theorem held_set {reps : List Rep} {id : Nat} {r : Rep} (r' : Rep) (h : reps[id]? = some r) (p : Nat) :
    held (reps.set id r') p + holds p r = held reps p + holds p r' := by
  unfold held
  induction reps generalizing id with
  | nil => simp at h
  | cons a l ih =>
    cases id with
    | zero =>
      simp only [List.getElem?_cons_zero, Option.some.injEq] at h
      subst h
      simp only [List.set_cons_zero, List.map_cons, List.sum_cons]
      omega
    | succ n =>
      simp only [List.getElem?_cons_succ] at h
      simp only [List.set_cons_succ, List.map_cons, List.sum_cons]
      have := ih h
      omega

theorem held_append (reps : List Rep) (r : Rep) (p : Nat) : held (reps ++ [r]) p = held reps p + holds p r := by
  simp [held]

theorem held_pos {reps : List Rep} {p : Nat} (h : 0 < held reps p) :
    ∃ (id : Nat) (r : Rep) (d : Bytes), reps[id]? = some r ∧ r.alive = true ∧ r.kind = .buf p d := by
  induction reps with
  | nil => simp [held] at h
  | cons a l ih =>
    simp only [held, List.map_cons, List.sum_cons] at h
    rcases Nat.eq_zero_or_pos (holds p a) with h0 | h0
    · obtain ⟨id, r, d, h1, h2, h3⟩ := ih (by simp only [held]; omega)
      exact ⟨id + 1, r, d, by simpa using h1, h2, h3⟩
    · refine ⟨0, a, ?_⟩
      unfold holds at h0
      split at h0
      · next m d ha hk =>
        split at h0
        · next hm => subst hm; exact ⟨d, rfl, ha, hk⟩
        · omega
      · omega

theorem held_ge {reps : List Rep} {id p : Nat} {r : Rep} (h : reps[id]? = some r) : holds p r ≤ held reps p := by
  have := held_set { r with alive := false } h p
  have e : holds p { r with alive := false } = 0 := by simp [holds]
  omega

/-- The invariant: `vars` are the handles, `n` the number of files from the start. -/
structure Inv (n : Nat) (vars : List Nat) (reps : List Rep) (files : List File) : Prop where
  none : ∀ id : Nat, reps[id]? = none → vars.count id + held reps id = 0
  alive : ∀ (id : Nat) (r : Rep), reps[id]? = some r → r.alive = true →
    r.count = ((vars.count id + held reps id : Nat) : Int) ∧ 1 ≤ vars.count id + held reps id
  dead : ∀ (id : Nat) (r : Rep), reps[id]? = some r → r.alive = false → vars.count id + held reps id = 0
  older : ∀ (id : Nat) (r : Rep) (m : Nat) (d : Bytes), reps[id]? = some r → r.kind = .buf m d → m < id
  given : ∀ (id : Nat) (r : Rep) (k : Nat) (w : Bool), reps[id]? = some r → r.kind = .std (some k) w false → k < n
  mine : ∀ (id : Nat) (r : Rep) (k : Nat) (w : Bool), reps[id]? = some r → r.kind = .std (some k) w true →
    n ≤ k ∧ ∃ f : File, files[k]? = some f ∧ f.isOpen = r.alive
  one : ∀ (id id' : Nat) (r r' : Rep) (k : Nat) (w w' : Bool), reps[id]? = some r → reps[id']? = some r' →
    r.kind = .std (some k) w true → r'.kind = .std (some k) w' true → id = id'
  first : ∀ k : Nat, k < n → ∃ f : File, files[k]? = some f ∧ f.isOpen = true
  /-- every other file belongs to a stream object -/
  owned : ∀ k : Nat, n ≤ k → k < files.length → ∃ (id : Nat) (r : Rep) (w : Bool), reps[id]? = some r ∧ r.kind = .std (some k) w true

/-- The heaps agree except for counts and for what was destroyed. -/
def Older (reps reps' : List Rep) : Prop :=
  reps'.length = reps.length ∧ ∀ (id : Nat) (r : Rep), reps'[id]? = some r → ∃ r0 : Rep, reps[id]? = some r0 ∧ r0.kind = r.kind ∧
    (r.alive = true → r0.alive = true)

theorem Older.refl (reps : List Rep) : Older reps reps := ⟨rfl, fun _ r h => ⟨r, h, rfl, id⟩⟩

theorem Older.trans {a b c : List Rep} (h1 : Older a b) (h2 : Older b c) : Older a c := by
  refine ⟨h2.1.trans h1.1, fun id r hr => ?_⟩
  obtain ⟨r1, e1, k1, a1⟩ := h2.2 id r hr
  obtain ⟨r0, e0, k0, a0⟩ := h1.2 id r1 e1
  exact ⟨r0, e0, k0.trans k1, fun h => a0 (a1 h)⟩

theorem Older.set {reps : List Rep} {id : Nat} {r r' : Rep} (h : reps[id]? = some r) (hk : r.kind = r'.kind)
    (ha : r'.alive = true → r.alive = true) : Older reps (reps.set id r') := by
  refine ⟨by simp, fun j x hx => ?_⟩
  rw [List.getElem?_set] at hx
  split at hx
  · next hij =>
    subst hij
    split at hx
    · injection hx with hx
      subst hx
      exact ⟨r, h, hk, ha⟩
    · cases hx
  · exact ⟨x, hx, rfl, fun h => h⟩

/-- Files keep what was printed. -/
def SameOut (files files' : List File) : Prop := files'.map (·.out) = files.map (·.out)

theorem inc_ok {n : Nat} {vars : List Nat} {reps : List Rep} {files : List File} (h : Inv n vars reps files) {id : Nat}
    (hid : 0 < vars.count id + held reps id) :
    ∃ reps', inc reps id = .ok reps' ∧ Inv n (id :: vars) reps' files ∧ Older reps reps' ∧
      (∀ p, held reps' p = held reps p) ∧
      ∃ r : Rep, reps[id]? = some r ∧ r.alive = true ∧ reps' = reps.set id { r with count := r.count + 1 } := by
  cases hr : reps[id]? with
  | none => have := h.none id hr; omega
  | some r =>
  cases ha : r.alive with
  | false => have := h.dead id r hr ha; omega
  | true =>
  have hlt : id < reps.length := (List.getElem?_eq_some_iff.1 hr).1
  have hh : ∀ p, held (reps.set id { r with count := r.count + 1 }) p = held reps p := by
    intro p
    have := held_set { r with count := r.count + 1 } hr p
    have e : holds p { r with count := r.count + 1 } = holds p r := rfl
    omega
  have hget : ∀ (j : Nat) (x : Rep), (reps.set id { r with count := r.count + 1 })[j]? = some x →
      ∃ x0 : Rep, reps[j]? = some x0 ∧ x0.kind = x.kind ∧ x0.alive = x.alive ∧ x.count = x0.count + (if id = j then 1 else 0) := by
    intro j x hx
    rw [List.getElem?_set] at hx
    by_cases hij : id = j
    · subst hij
      simp only [if_true, hlt, Option.some.injEq] at hx
      subst hx
      exact ⟨r, hr, rfl, rfl, by simp⟩
    · rw [if_neg hij] at hx
      exact ⟨x, hx, rfl, rfl, by simp [hij]⟩
  refine ⟨reps.set id { r with count := r.count + 1 }, by rw [inc, hr]; simp only [ha, if_true], ⟨?_, ?_, ?_, ?_, ?_, ?_, ?_, h.first, ?_⟩,
    Older.set hr rfl (fun _ => ha), hh, r, rfl, ha, rfl⟩
  · intro j hj
    rw [List.getElem?_set] at hj
    by_cases hij : id = j
    · subst hij; simp [hlt] at hj
    · rw [if_neg hij] at hj
      rw [hh, List.count_cons]
      have := h.none j hj
      simp [hij]
      omega
  · intro j x hx hxa
    obtain ⟨x0, h1, h2, h3, h4⟩ := hget j x hx
    obtain ⟨h5, h6⟩ := h.alive j x0 h1 (h3.trans hxa)
    rw [hh, List.count_cons, h4, h5]
    by_cases hij : id = j
    · simp [hij]; omega
    · simp [hij]; omega
  · intro j x hx hxa
    obtain ⟨x0, h1, h2, h3, h4⟩ := hget j x hx
    have := h.dead j x0 h1 (h3.trans hxa)
    rw [hh, List.count_cons]
    by_cases hij : id = j
    · subst hij
      omega
    · simp [hij]; omega
  · intro j x m d hx hk
    obtain ⟨x0, h1, h2, h3, h4⟩ := hget j x hx
    exact h.older j x0 m d h1 (h2.trans hk)
  · intro j x k w hx hk
    obtain ⟨x0, h1, h2, h3, h4⟩ := hget j x hx
    exact h.given j x0 k w h1 (h2.trans hk)
  · intro j x k w hx hk
    obtain ⟨x0, h1, h2, h3, h4⟩ := hget j x hx
    rw [← h3]
    exact h.mine j x0 k w h1 (h2.trans hk)
  · intro j j' x x' k w w' hx hx' hk hk'
    obtain ⟨x0, h1, h2, h3, h4⟩ := hget j x hx
    obtain ⟨x0', h1', h2', h3', h4'⟩ := hget j' x' hx'
    exact h.one j j' x0 x0' k w w' h1 h1' (h2.trans hk) (h2'.trans hk')
  · intro k hk hk'
    obtain ⟨j, x, w, h1, h2⟩ := h.owned k hk hk'
    by_cases hij : id = j
    · subst hij
      rw [hr] at h1; injection h1 with h1; subst h1
      exact ⟨id, { r with count := r.count + 1 }, w, by simp [hlt], h2⟩
    · exact ⟨j, x, w, by rw [List.getElem?_set, if_neg hij]; exact h1, h2⟩

theorem dec_ok {n : Nat} {vars : List Nat} {fuel : Nat} {reps : List Rep} {files : List File} {id : Nat}
    (h : Inv n (id :: vars) reps files) (hf : id < fuel) :
    ∃ reps' files', dec fuel reps files id = .ok (reps', files') ∧ Inv n vars reps' files' ∧ Older reps reps' ∧
      SameOut files files' := by
  induction fuel generalizing reps files id with
  | zero => omega
  | succ fuel ih =>
  have hpos : 0 < (id :: vars).count id + held reps id := by simp; omega
  cases hr : reps[id]? with
  | none => have := h.none id hr; omega
  | some r =>
  cases ha : r.alive with
  | false => have := h.dead id r hr ha; omega
  | true =>
  have hlt : id < reps.length := (List.getElem?_eq_some_iff.1 hr).1
  obtain ⟨hc, hc1⟩ := h.alive id r hr ha
  rw [List.count_cons_self] at hc
  by_cases h1 : r.count - 1 = 0
  · -- the object is destroyed
    have hz : vars.count id + held reps id = 0 := by omega
    let r' : Rep := { r with count := 0, alive := false }
    have hh : ∀ p, held (reps.set id r') p + holds p r = held reps p := by
      intro p
      have := held_set r' hr p
      have e : holds p r' = 0 := by simp [holds, r']
      omega
    have hget : ∀ (j : Nat) (x : Rep), (reps.set id r')[j]? = some x →
        (j = id ∧ x = r') ∨ (j ≠ id ∧ reps[j]? = some x) := by
      intro j x hx
      rw [List.getElem?_set] at hx
      by_cases hij : id = j
      · subst hij
        simp only [if_true, hlt, Option.some.injEq] at hx
        exact .inl ⟨rfl, hx.symm⟩
      · rw [if_neg hij] at hx
        exact .inr ⟨Ne.symm hij, hx⟩
    have hold : Older reps (reps.set id r') := Older.set hr rfl (fun hf => by cases hf)
    -- the invariant afterwards, if the file and the stream below are dealt with
    have mk : ∀ (vars' : List Nat) (files' : List File),
        (∀ p, p ≠ id → vars'.count p + held (reps.set id r') p = vars.count p + held reps p) →
        vars'.count id = 0 →
        (∀ k : Nat, k < n → ∃ f : File, files'[k]? = some f ∧ f.isOpen = true) →
        (files'.length = files.length) →
        (∀ (j : Nat) (x : Rep) (k : Nat) (w : Bool), j ≠ id → reps[j]? = some x → x.kind = .std (some k) w true →
          files'[k]? = files[k]?) →
        (∀ (k : Nat) (w : Bool), r.kind = .std (some k) w true → ∃ f : File, files'[k]? = some f ∧ f.isOpen = false) →
        Inv n vars' (reps.set id r') files' := by
      intro vars' files' hcnt hid0 hfirst hlen hsame hclosed
      have hheld0 : held (reps.set id r') id = 0 := by have := hh id; omega
      refine ⟨?_, ?_, ?_, ?_, ?_, ?_, ?_, hfirst, ?_⟩
      · intro j hj
        by_cases hij : j = id
        · subst hij; simp [hlt] at hj
        · rw [hcnt j hij]
          rw [List.getElem?_set, if_neg (Ne.symm hij)] at hj
          have := h.none j hj
          rw [List.count_cons] at this
          simp [Ne.symm hij] at this
          omega
      · intro j x hx hxa
        rcases hget j x hx with ⟨rfl, rfl⟩ | ⟨hij, hx⟩
        · cases hxa
        · rw [hcnt j hij]
          have := h.alive j x hx hxa
          rw [List.count_cons] at this
          simpa [Ne.symm hij] using this
      · intro j x hx hxa
        rcases hget j x hx with ⟨rfl, rfl⟩ | ⟨hij, hx⟩
        · omega
        · rw [hcnt j hij]
          have := h.dead j x hx hxa
          rw [List.count_cons] at this
          simp [Ne.symm hij] at this
          omega
      · intro j x m d hx hk
        rcases hget j x hx with ⟨rfl, rfl⟩ | ⟨hij, hx⟩
        · exact h.older j r m d hr hk
        · exact h.older j x m d hx hk
      · intro j x k w hx hk
        rcases hget j x hx with ⟨rfl, rfl⟩ | ⟨hij, hx⟩
        · exact h.given j r k w hr hk
        · exact h.given j x k w hx hk
      · intro j x k w hx hk
        rcases hget j x hx with ⟨rfl, rfl⟩ | ⟨hij, hx⟩
        · exact ⟨(h.mine j r k w hr hk).1, hclosed k w hk⟩
        · rw [hsame j x k w hij hx hk]
          exact h.mine j x k w hx hk
      · intro j j' x x' k w w' hx hx' hk hk'
        obtain ⟨x0, e0, k0, -⟩ := hold.2 j x hx
        obtain ⟨x1, e1, k1, -⟩ := hold.2 j' x' hx'
        exact h.one j j' x0 x1 k w w' e0 e1 (k0.trans hk) (k1.trans hk')
      · intro k hk hk'
        obtain ⟨j, x, w, e1, e2⟩ := h.owned k hk (by omega)
        by_cases hij : id = j
        · subst hij
          rw [hr] at e1; injection e1 with e1; subst e1
          exact ⟨id, r', w, by simp [hlt], e2⟩
        · exact ⟨j, x, w, by rw [List.getElem?_set, if_neg hij]; exact e1, e2⟩
    cases hk : r.kind with
    | buf m d =>
      have hm := h.older id r m d hr hk
      have hholds : ∀ p, holds p r = if m = p then 1 else 0 := by intro p; simp [holds, ha, hk]
      have hinv : Inv n (m :: vars) (reps.set id r') files := by
        refine mk _ _ ?_ ?_ h.first rfl (fun _ _ _ _ _ _ _ => rfl) ?_
        · intro p hp
          have := hh p
          rw [hholds] at this
          rw [List.count_cons]
          by_cases hmp : m = p
          · simp [hmp] at this ⊢; omega
          · simp [hmp] at this ⊢; omega
        · rw [List.count_cons]
          have : ¬ m = id := by omega
          simp [this]
          omega
        · intro k w hk'
          rw [hk] at hk'
          cases hk'
      obtain ⟨reps', files', e, hi, ho, hs⟩ := ih hinv (by omega)
      refine ⟨reps', files', ?_, hi, hold.trans ho, hs⟩
      rw [dec, hr]
      simp only [ha, Bool.not_true, Bool.false_eq_true, if_false, h1, if_true]
      simp only [r', hk] at e ⊢
      exact e
    | std file w own =>
      have hholds : ∀ p, holds p r = 0 := by intro p; simp [holds, hk]
      have hcnt : ∀ p, p ≠ id → vars.count p + held (reps.set id r') p = vars.count p + held reps p := by
        intro p _
        have := hh p
        rw [hholds] at this
        omega
      by_cases hclose : ∃ k, file = some k ∧ own = true
      · obtain ⟨k, rfl, rfl⟩ := hclose
        obtain ⟨hkn, f, hf, hfo⟩ := h.mine id r k w hr hk
        have hklt : k < files.length := (List.getElem?_eq_some_iff.1 hf).1
        refine ⟨reps.set id r', files.set k { f with isOpen := false }, ?_, ?_, hold, ?_⟩
        · rw [dec, hr]
          simp only [ha, Bool.not_true, Bool.false_eq_true, if_false, h1, if_true]
          simp only [r', hk, close, hf, hfo, ha, if_true]
          rfl
        · refine mk _ _ hcnt (by omega) ?_ (by simp) ?_ ?_
          · intro k' hk'
            rw [List.getElem?_set, if_neg (by omega)]
            exact h.first k' hk'
          · intro j x k' w' hj hx hxk
            rw [List.getElem?_set, if_neg]
            intro hkk
            subst hkk
            exact hj (h.one j id x r k w' w hx hr hxk hk)
          · intro k' w' hk'
            rw [hk] at hk'
            injection hk' with hk'
            injection hk' with hk'
            subst hk'
            exact ⟨{ f with isOpen := false }, by simp [hklt], rfl⟩
        · unfold SameOut
          rw [List.map_set]
          apply List.ext_getElem?
          intro i
          rw [List.getElem?_set]
          split
          · next hki =>
            subst hki
            have := (List.getElem?_eq_some_iff.1 hf).2
            simp [hklt, this]
          · rfl
      · refine ⟨reps.set id r', files, ?_, ?_, hold, rfl⟩
        · rw [dec, hr]
          simp only [ha, Bool.not_true, Bool.false_eq_true, if_false, h1, if_true]
          simp only [r', hk]
          cases file with
          | none => rfl
          | some k =>
            cases own with
            | false => rfl
            | true => exact absurd ⟨k, rfl, rfl⟩ hclose
        · refine mk _ _ hcnt (by omega) h.first rfl (fun _ _ _ _ _ _ _ => rfl) ?_
          intro k w' hk'
          rw [hk] at hk'
          injection hk' with hk1 hk2 hk3
          exact absurd ⟨k, hk1, hk3⟩ hclose
  · -- there are other handles
    let r' : Rep := { r with count := r.count - 1 }
    have hh : ∀ p, held (reps.set id r') p = held reps p := by
      intro p
      have := held_set r' hr p
      have e : holds p r' = holds p r := rfl
      omega
    have hget : ∀ (j : Nat) (x : Rep), (reps.set id r')[j]? = some x →
        ∃ x0 : Rep, reps[j]? = some x0 ∧ x0.kind = x.kind ∧ x0.alive = x.alive ∧ x0.count = x.count + (if id = j then 1 else 0) := by
      intro j x hx
      rw [List.getElem?_set] at hx
      by_cases hij : id = j
      · subst hij
        simp only [if_true, hlt, Option.some.injEq] at hx
        subst hx
        exact ⟨r, hr, rfl, rfl, by simp [r']⟩
      · rw [if_neg hij] at hx
        exact ⟨x, hx, rfl, rfl, by simp [hij]⟩
    have hcons : ∀ j, (id :: vars).count j = vars.count j + (if id = j then 1 else 0) := by
      intro j; rw [List.count_cons]; simp
    refine ⟨reps.set id r', files, ?_, ⟨?_, ?_, ?_, ?_, ?_, ?_, ?_, h.first, ?_⟩, Older.set hr rfl (fun _ => ha), rfl⟩
    · rw [dec, hr]
      simp only [r', ha, Bool.not_true, Bool.false_eq_true, if_false, h1]
    · intro j hj
      rw [List.getElem?_set] at hj
      by_cases hij : id = j
      · subst hij; simp [hlt] at hj
      · rw [if_neg hij] at hj
        have := h.none j hj
        rw [hcons, if_neg hij] at this
        rw [hh]
        omega
    · intro j x hx hxa
      obtain ⟨x0, h1, h2, h3, h4⟩ := hget j x hx
      obtain ⟨h5, h6⟩ := h.alive j x0 h1 (h3.trans hxa)
      rw [hcons] at h5 h6
      rw [hh]
      by_cases hij : id = j
      · subst hij
        rw [hr] at h1; injection h1 with h1; subst h1
        rw [if_pos rfl] at h4 h5 h6
        omega
      · rw [if_neg hij] at h4 h5 h6
        omega
    · intro j x hx hxa
      obtain ⟨x0, h1, h2, h3, h4⟩ := hget j x hx
      have := h.dead j x0 h1 (h3.trans hxa)
      rw [hcons] at this
      rw [hh]
      omega
    · intro j x m d hx hk
      obtain ⟨x0, h1, h2, h3, h4⟩ := hget j x hx
      exact h.older j x0 m d h1 (h2.trans hk)
    · intro j x k w hx hk
      obtain ⟨x0, h1, h2, h3, h4⟩ := hget j x hx
      exact h.given j x0 k w h1 (h2.trans hk)
    · intro j x k w hx hk
      obtain ⟨x0, h1, h2, h3, h4⟩ := hget j x hx
      rw [← h3]
      exact h.mine j x0 k w h1 (h2.trans hk)
    · intro j j' x x' k w w' hx hx' hk hk'
      obtain ⟨x0, h1, h2, h3, h4⟩ := hget j x hx
      obtain ⟨x0', h1', h2', h3', h4'⟩ := hget j' x' hx'
      exact h.one j j' x0 x0' k w w' h1 h1' (h2.trans hk) (h2'.trans hk')
    · intro k hk hk'
      obtain ⟨j, x, w, e1, e2⟩ := h.owned k hk hk'
      by_cases hij : id = j
      · subst hij
        rw [hr] at e1; injection e1 with e1; subst e1
        exact ⟨id, r', w, by simp [hlt], e2⟩
      · exact ⟨j, x, w, by rw [List.getElem?_set, if_neg hij]; exact e1, e2⟩

theorem release_ok {n : Nat} {vars : List Nat} {reps : List Rep} {files : List File} {id : Nat}
    (h : Inv n (id :: vars) reps files) :
    ∃ reps' files', release reps files id = .ok (reps', files') ∧ Inv n vars reps' files' ∧ Older reps reps' ∧
      SameOut files files' := by
  refine dec_ok h ?_
  rcases Nat.lt_or_ge id reps.length with hlt | hge
  · exact hlt
  · have := h.none id (List.getElem?_eq_none hge)
    simp at this

end Lolly.Ostream
