import Verif.Containers.HashMap

/-! # Helper lemmas for the hashmap model -/

namespace Lolly

variable {K : Type} {V : Type} [DecidableEq K] (hash : K → BitVec 32)

theorem bidx_lt {hv : BitVec 32} {n : Nat} (h : 1 ≤ n) : bidx hv n < n := by
  have := @Nat.and_le_right hv.toNat (n - 1)
  unfold bidx; omega

/-- Lookup by key in an association list of entries. -/
def look (l : List (Entry K V)) (x : K) : Option V := (l.find? (fun e => e.key = x)).map (·.im)

@[simp] theorem look_nil (x : K) : look ([] : List (Entry K V)) x = none := rfl

theorem look_cons (e : Entry K V) (l : List (Entry K V)) (x : K) :
    look (e :: l) x = if e.key = x then some e.im else look l x := by
  by_cases h : e.key = x <;> simp [look, h]

theorem look_eq_none {l : List (Entry K V)} {x : K} :
    look l x = none ↔ x ∉ l.map (·.key) := by
  induction l with
  | nil => simp
  | cons e l ih =>
    rw [look_cons]
    by_cases h : e.key = x
    · simp [h]
    · have h' : x ≠ e.key := fun e' => h e'.symm
      simp [h, h', ih]

theorem look_eq_some {l : List (Entry K V)} (hn : (l.map (·.key)).Nodup) {x : K} {v : V} :
    look l x = some v ↔ ∃ e ∈ l, e.key = x ∧ e.im = v := by
  induction l with
  | nil => simp
  | cons e l ih =>
    rw [List.map_cons, List.nodup_cons] at hn
    rw [look_cons]
    by_cases h : e.key = x
    · simp only [h, if_true, List.mem_cons, Option.some.injEq]
      constructor
      · intro hv; exact ⟨e, .inl rfl, h, hv⟩
      · rintro ⟨e', he' | he', hk, hv⟩
        · rw [← he']; exact hv
        · exfalso; apply hn.1; rw [h, ← hk]; exact List.mem_map_of_mem he'
    · simp only [h, if_false, ih hn.2, List.mem_cons]
      constructor
      · rintro ⟨e', he', r⟩; exact ⟨e', .inr he', r⟩
      · rintro ⟨e', he' | he', r⟩
        · rw [he'] at r; exact absurd r.1 h
        · exact ⟨e', he', r⟩

theorem look_perm {l l' : List (Entry K V)} (hp : l.Perm l') (hn : (l.map (·.key)).Nodup) :
    look l = look l' := by
  funext x
  have hn' : (l'.map (·.key)).Nodup := (hp.map _).nodup_iff.1 hn
  apply Option.ext; intro v
  rw [look_eq_some hn, look_eq_some hn']
  simp [hp.mem_iff]

theorem look_append (l l' : List (Entry K V)) (x : K) :
    look (l ++ l') x = (look l x).or (look l' x) := by
  induction l with
  | nil => simp
  | cons e l ih => simp only [List.cons_append, look_cons, ih]; split <;> simp

theorem findB_eq {l : List (Entry K V)} (hc : ∀ e ∈ l, e.code = hash e.key) (x : K) :
    HashMap.findB (hash x) x l = look l x := by
  induction l with
  | nil => rfl
  | cons e l ih =>
    rw [HashMap.findB, look_cons, ih fun e' he' => hc e' (List.mem_cons_of_mem _ he')]
    have := hc e List.mem_cons_self
    by_cases h : e.key = x
    · subst h; simp [this]
    · simp [h]

theorem flatten_set_perm {α : Type} (a : List (List α)) (i : Nat) (hi : i < a.length)
    (l : List α) : (a.set i l).flatten.Perm (l ++ (a.eraseIdx i).flatten) := by
  induction a generalizing i with
  | nil => simp at hi
  | cons b a ih =>
    cases i with
    | zero => simp
    | succ i =>
      simp only [List.set_cons_succ, List.flatten_cons, List.eraseIdx_cons_succ]
      have := (ih i (by simpa using hi)).append_left b
      refine this.trans ?_
      rw [← List.append_assoc, ← List.append_assoc]
      exact List.perm_append_comm.append_right _

theorem flatten_perm {α : Type} (a : List (List α)) (i : Nat) (hi : i < a.length) :
    a.flatten.Perm (a[i] ++ (a.eraseIdx i).flatten) := by
  have := flatten_set_perm a i hi a[i]
  rwa [List.set_getElem_self] at this

namespace HashMap

/-- Representation invariant. -/
structure WF (h : HashMap K V) : Prop where
  len : h.a.length = h.n
  pos : 1 ≤ h.n
  loc : ∀ i (hi : i < h.a.length), ∀ e ∈ h.a[i],
    e.code = hash e.key ∧ bidx (hash e.key) h.n = i
  nodup : (h.a.flatten.map (·.key)).Nodup
  size : h.size = h.a.flatten.length

/-- The partial function represented by a map. -/
def abs (h : HashMap K V) : K → Option V := look h.a.flatten

variable {hash}

omit [DecidableEq K] in
theorem WF.idx {h : HashMap K V} (w : h.WF hash) (x : K) : bidx (hash x) h.n < h.a.length := by
  rw [w.len]; exact bidx_lt w.pos

omit [DecidableEq K] in
theorem WF.code {h : HashMap K V} (w : h.WF hash) {e : Entry K V} (he : e ∈ h.a.flatten) :
    e.code = hash e.key := by
  obtain ⟨l, hl, hel⟩ := List.mem_flatten.1 he
  obtain ⟨i, hi, rfl⟩ := List.getElem_of_mem hl
  exact (w.loc i hi e hel).1

theorem WF.look_bucket {h : HashMap K V} (w : h.WF hash) (x : K) :
    look (h.a[bidx (hash x) h.n]'(w.idx x)) x = h.abs x := by
  have hp := flatten_perm h.a _ (w.idx x)
  have hi := w.idx x
  unfold abs
  rw [look_perm hp w.nodup, look_append]
  cases hb : look h.a[bidx (hash x) h.n] x with
  | some v => simp
  | none =>
    symm
    rw [Option.none_or, look_eq_none]
    intro hx
    obtain ⟨e, he, hk⟩ := List.mem_map.1 hx
    obtain ⟨l, hl, hel⟩ := List.mem_flatten.1 he
    have hm : e ∈ h.a.flatten := hp.mem_iff.2 (List.mem_append_right _ he)
    obtain ⟨j, hj, rfl⟩ := List.mem_iff_getElem.1 (List.mem_of_mem_eraseIdx hl)
    have := (w.loc j hj e hel).2
    rw [hk] at this
    subst this
    rw [look_eq_none] at hb
    exact hb (List.mem_map.2 ⟨e, hel, hk⟩)

theorem WF.findB {h : HashMap K V} (w : h.WF hash) (x : K) :
    ∃ l, rd h.a (bidx (hash x) h.n) = .ok l ∧ HashMap.findB (hash x) x l = h.abs x := by
  refine ⟨_, rd_ok (w.idx x), ?_⟩
  rw [findB_eq hash (fun e he => (w.loc _ (w.idx x) e he).1), w.look_bucket]

omit [DecidableEq K] in
theorem new_wf (init : V) (n : Nat) (max : Int) (hn : 1 ≤ n) :
    (new init n max : HashMap K V).WF hash := by
  constructor
  · simp [new]
  · exact hn
  · intro i hi e he; simp [new] at he
  · simp [new]
  · simp [new]

theorem new_abs (init : V) (n : Nat) (max : Int) :
    (new init n max : HashMap K V).abs = fun _ => none := by
  funext x; simp [new, abs]

theorem contains_spec {h : HashMap K V} (w : h.WF hash) (x : K) :
    h.contains hash x = .ok (h.abs x).isSome := by
  obtain ⟨l, h1, h2⟩ := w.findB x
  simp [contains, h1, h2]

theorem get_spec {h : HashMap K V} (w : h.WF hash) (x : K) :
    h.get hash x = .ok ((h.abs x).getD h.init) := by
  obtain ⟨l, h1, h2⟩ := w.findB x
  simp [get, h1, h2]

/-- Location invariant alone, for intermediate bucket arrays during a rehash. -/
def Loc (hash : K → BitVec 32) (n : Nat) (a : List (List (Entry K V))) : Prop :=
  a.length = n ∧ ∀ i (hi : i < a.length), ∀ e ∈ a[i],
    e.code = hash e.key ∧ bidx (hash e.key) n = i

omit [DecidableEq K] in
theorem Loc.push {n : Nat} {a : List (List (Entry K V))} (hl : Loc hash n a) {e : Entry K V}
    (hc : e.code = hash e.key) (hi : bidx (hash e.key) n < a.length) :
    Loc hash n (a.set (bidx (hash e.key) n) (e :: a[bidx (hash e.key) n])) := by
  constructor
  · simpa using hl.1
  · intro i h' e' he'
    rw [List.getElem_set] at he'
    split at he'
    · rename_i hij
      rcases List.mem_cons.1 he' with rfl | he'
      · exact ⟨hc, hij⟩
      · subst hij; exact hl.2 _ hi _ he'
    · exact hl.2 _ (by simpa using h') _ he'

omit [DecidableEq K] in
theorem rehash_spec (n2 : Nat) (hn : 1 ≤ n2) (es : List (Entry K V))
    (hc : ∀ e ∈ es, e.code = hash e.key) (a : List (List (Entry K V))) (hl : Loc hash n2 a) :
    ∃ a', rehash hash n2 es a = .ok a' ∧ Loc hash n2 a' ∧ a'.flatten.Perm (es ++ a.flatten) := by
  induction es generalizing a with
  | nil => exact ⟨a, rfl, hl, by simp⟩
  | cons e es ih =>
    have hi : bidx (hash e.key) n2 < a.length := by rw [hl.1]; exact bidx_lt hn
    have hce := hc e List.mem_cons_self
    obtain ⟨a', h1, h2, h3⟩ := ih (fun e' he' => hc e' (List.mem_cons_of_mem _ he'))
      _ (hl.push hce hi)
    refine ⟨a', ?_, h2, ?_⟩
    · simp [rehash, rehash1, rd_ok hi, wr_ok hi, h1]
    · refine h3.trans ?_
      have hp := flatten_set_perm a _ hi (e :: a[bidx (hash e.key) n2])
      have hq := flatten_perm a _ hi
      refine (List.Perm.append_left es (hp.trans ((hq.symm.cons e)))).trans ?_
      exact List.perm_middle

omit [DecidableEq K] in
theorem resize_spec {h : HashMap K V} (w : h.WF hash) {n2 : Nat} (hn : 1 ≤ n2) :
    ∃ h', h.resize hash n2 = .ok h' ∧ h'.WF hash ∧ h'.a.flatten.Perm h.a.flatten ∧
      h'.init = h.init ∧ h'.max = h.max ∧ h'.size = h.size := by
  obtain ⟨a', h1, h2, h3⟩ := rehash_spec (hash := hash) n2 hn h.a.flatten (fun e he => w.code he)
    (List.replicate n2 []) ⟨by simp, by intro i hi e he; simp at he⟩
  have h3 : a'.flatten.Perm h.a.flatten := by simpa using h3
  refine ⟨{ h with n := n2, a := a' }, by simp [resize, h1], ⟨h2.1, hn, h2.2, ?_, ?_⟩, h3, rfl, rfl, rfl⟩
  · exact (h3.map _).nodup_iff.2 w.nodup
  · simp [w.size, h3.length_eq]

theorem abs_congr {h h' : HashMap K V} (w : h.WF hash) (hp : h'.a.flatten.Perm h.a.flatten) :
    h'.abs = h.abs := (look_perm hp.symm w.nodup).symm

theorem push_spec {h : HashMap K V} (w : h.WF hash) (x : K) (hx : h.abs x = none) (v : V) :
    ∃ h' : HashMap K V, (do
        let i := bidx (hash x) h.n
        let rl ← rd h.a i
        let a ← wr h.a i ({ code := hash x, key := x, im := v } :: rl)
        .ok { h with a := a, size := h.size + 1 }) = Res.ok h' ∧ h'.WF hash ∧
      h'.a.flatten.Perm ({ code := hash x, key := x, im := v } :: h.a.flatten) ∧
      h'.init = h.init ∧ h'.max = h.max := by
  have hi := w.idx x
  have hl : Loc hash h.n h.a := ⟨w.len, w.loc⟩
  have hp := (flatten_set_perm h.a _ hi
    ({ code := hash x, key := x, im := v } :: h.a[bidx (hash x) h.n])).trans
    ((flatten_perm h.a _ hi).symm.cons _)
  have hL := hl.push (e := { code := hash x, key := x, im := v }) rfl hi
  refine ⟨{ h with
      a := List.set h.a (bidx (hash x) h.n)
        ({ code := hash x, key := x, im := v } :: h.a[bidx (hash x) h.n])
      size := h.size + 1 },
    by simp [rd_ok hi, wr_ok hi], ⟨hL.1, w.pos, hL.2, ?_, ?_⟩, hp, rfl, rfl⟩
  · rw [(hp.map _).nodup_iff, List.map_cons, List.nodup_cons]
    exact ⟨look_eq_none.1 hx, w.nodup⟩
  · simp only [hp.length_eq, w.size, List.length_cons]; omega

theorem insertNew_spec {h : HashMap K V} (w : h.WF hash) (x : K) (hx : h.abs x = none) :
    ∃ h', h.insertNew hash x = .ok h' ∧ h'.WF hash ∧
      h'.a.flatten.Perm ({ code := hash x, key := x, im := h.init } :: h.a.flatten) ∧
      h'.init = h.init ∧ h'.max = h.max := by
  by_cases hs : h.size ≥ h.n * h.max
  · have hn : 1 ≤ h.n <<< 1 := by have := w.pos; rw [Nat.shiftLeft_eq]; omega
    obtain ⟨h1, e1, w1, p1, i1, m1, s1⟩ := resize_spec w hn
    have hx1 : h1.abs x = none := by rw [abs_congr w p1]; exact hx
    obtain ⟨h2, e2, w2, p2, i2, m2⟩ := push_spec w1 x hx1 h1.init
    refine ⟨h2, ?_, w2, ?_, i2.trans i1, m2.trans m1⟩
    · simp only [insertNew, if_pos hs, e1, Res.ok_bind]; exact e2
    · rw [i1] at p2; exact p2.trans (p1.cons _)
  · obtain ⟨h2, e2, w2, p2, i2, m2⟩ := push_spec w x hx h.init
    refine ⟨h2, ?_, w2, p2, i2, m2⟩
    simp only [insertNew, if_neg hs, Res.ok_bind]; exact e2

theorem abs_of_perm_cons {h h' : HashMap K V} (w' : h'.WF hash) {e : Entry K V}
    (hp : h'.a.flatten.Perm (e :: h.a.flatten)) (y : K) :
    h'.abs y = if e.key = y then some e.im else h.abs y := by
  unfold abs
  rw [look_perm hp w'.nodup, look_cons]

theorem touch_spec {h : HashMap K V} (w : h.WF hash) (x : K) :
    ∃ h', h.touch hash x = .ok h' ∧ h'.WF hash ∧
      h'.abs = (fun y => if y = x then some ((h.abs x).getD h.init) else h.abs y) ∧
      h'.init = h.init ∧ h'.max = h.max := by
  obtain ⟨l, h1, h2⟩ := w.findB x
  cases hx : h.abs x with
  | some v =>
    refine ⟨h, ?_, w, ?_, rfl, rfl⟩
    · simp [touch, h1, h2, hx]
    · funext y
      by_cases hy : y = x
      · subst hy; simp [hx]
      · simp [hy]
  | none =>
    obtain ⟨h', e1, w', p, i, m⟩ := insertNew_spec w x hx
    refine ⟨h', ?_, w', ?_, i, m⟩
    · simp [touch, h1, h2, hx, e1]
    · funext y
      rw [abs_of_perm_cons w' p y]
      by_cases hy : y = x
      · simp [hy]
      · have : x ≠ y := fun e => hy e.symm
        simp [hy, this]

theorem assignB_keys (hv : BitVec 32) (x : K) (v : V) (l : List (Entry K V)) :
    (assignB hv x v l).map (·.key) = l.map (·.key) := by
  induction l with
  | nil => rfl
  | cons e l ih => rw [assignB]; split <;> simp [ih]

theorem assignB_mem {hv : BitVec 32} {x : K} {v : V} {l : List (Entry K V)} {e : Entry K V}
    (he : e ∈ assignB hv x v l) : ∃ e' ∈ l, e'.key = e.key ∧ e'.code = e.code := by
  induction l with
  | nil => simp [assignB] at he
  | cons e0 l ih =>
    rw [assignB] at he
    split at he
    · rcases List.mem_cons.1 he with rfl | he
      · exact ⟨e0, List.mem_cons_self, rfl, rfl⟩
      · exact ⟨e, List.mem_cons_of_mem _ he, rfl, rfl⟩
    · rcases List.mem_cons.1 he with rfl | he
      · exact ⟨e, List.mem_cons_self, rfl, rfl⟩
      · obtain ⟨e', h1, h2⟩ := ih he
        exact ⟨e', List.mem_cons_of_mem _ h1, h2⟩

theorem look_assignB {l : List (Entry K V)} (hc : ∀ e ∈ l, e.code = hash e.key) (x : K) (v : V)
    (y : K) : look (assignB (hash x) x v l) y =
      if y = x then (look l x).map (fun _ => v) else look l y := by
  induction l with
  | nil => simp [assignB]
  | cons e l ih =>
    have hce := hc e List.mem_cons_self
    have ih := ih fun e' he' => hc e' (List.mem_cons_of_mem _ he')
    rw [assignB]
    by_cases h : e.key = x
    · subst h
      simp only [hce, and_self, if_true, look_cons]
      by_cases hy : y = e.key
      · simp [hy]
      · have : e.key ≠ y := fun e' => hy e'.symm
        simp [hy, this]
    · simp only [h, and_false, if_false, look_cons, ih]
      by_cases hy : y = x
      · subst hy; simp [h]
      · simp [hy]

theorem assign_spec {h : HashMap K V} (w : h.WF hash) (x : K) (v : V) :
    ∃ h', h.assign hash x v = .ok h' ∧ h'.WF hash ∧
      h'.abs = (fun y => if y = x then (h.abs x).map (fun _ => v) else h.abs y) ∧
      h'.init = h.init ∧ h'.max = h.max := by
  have hi := w.idx x
  have hc : ∀ e ∈ h.a[bidx (hash x) h.n], e.code = hash e.key := fun e he => (w.loc _ hi e he).1
  have hp := flatten_set_perm h.a _ hi (assignB (hash x) x v h.a[bidx (hash x) h.n])
  have hq := flatten_perm h.a _ hi
  have hkeys : ((h.a.set (bidx (hash x) h.n)
      (assignB (hash x) x v h.a[bidx (hash x) h.n])).flatten.map (·.key)).Perm
      (h.a.flatten.map (·.key)) := by
    refine (hp.map _).trans ?_
    rw [List.map_append, assignB_keys, ← List.map_append]
    exact (hq.map _).symm
  have hnd := hkeys.nodup_iff.2 w.nodup
  refine ⟨{ h with a := List.set h.a (bidx (hash x) h.n) (assignB (hash x) x v h.a[bidx (hash x) h.n]) }, ?_, ⟨?_, w.pos, ?_, hnd, ?_⟩, ?_, rfl, rfl⟩
  · simp [assign, rd_ok hi, wr_ok hi]
  · simpa using w.len
  · intro i hi' e he
    simp only [List.getElem_set] at he
    split at he
    · rename_i hij
      obtain ⟨e', h1, h2, h3⟩ := assignB_mem he
      have := w.loc _ hi e' h1
      rw [h2, h3] at this
      exact ⟨this.1, this.2.trans hij⟩
    · exact w.loc _ (by simpa using hi') _ he
  · simp only [w.size]
    have := hkeys.length_eq
    simp only [List.length_map] at this
    omega
  · funext y
    have e1 : ({ h with a := List.set h.a (bidx (hash x) h.n) (assignB (hash x) x v h.a[bidx (hash x) h.n]) } : HashMap K V).abs y =
      look (assignB (hash x) x v h.a[bidx (hash x) h.n] ++
        (h.a.eraseIdx (bidx (hash x) h.n)).flatten) y := by
      unfold abs; rw [look_perm hp hnd]
    have e2 : ∀ y, h.abs y = look (h.a[bidx (hash x) h.n] ++
        (h.a.eraseIdx (bidx (hash x) h.n)).flatten) y := by
      intro y; unfold abs; rw [look_perm hq w.nodup]
    rw [e1, look_append, look_assignB hc]
    by_cases hy : y = x
    · subst hy
      simp only [if_true]
      rw [w.look_bucket]
      cases hx : h.abs y with
      | some _ => simp
      | none =>
        have := e2 y
        rw [hx, look_append, eq_comm, Option.or_eq_none_iff] at this
        simp [this.2]
    · simp only [hy, if_false]
      rw [e2 y, look_append]

theorem set_spec {h : HashMap K V} (w : h.WF hash) (x : K) (v : V) :
    ∃ h', h.set hash x v = .ok h' ∧ h'.WF hash ∧
      h'.abs = (fun y => if y = x then some v else h.abs y) ∧
      h'.init = h.init ∧ h'.max = h.max := by
  obtain ⟨h1, e1, w1, a1, i1, m1⟩ := touch_spec w x
  obtain ⟨h2, e2, w2, a2, i2, m2⟩ := assign_spec w1 x v
  refine ⟨h2, by simp [set, e1, e2], w2, ?_, i2.trans i1, m2.trans m1⟩
  rw [a2, a1]; funext y
  by_cases hy : y = x <;> simp [hy]

theorem removeB_spec {l : List (Entry K V)} (hc : ∀ e ∈ l, e.code = hash e.key) (x : K) :
    (removeB (hash x) x l = none ∧ look l x = none) ∨
    ∃ l' e, removeB (hash x) x l = some l' ∧ l.Perm (e :: l') ∧ e.key = x ∧ ∀ e ∈ l', e ∈ l := by
  induction l with
  | nil => left; simp [removeB]
  | cons e l ih =>
    have hce := hc e List.mem_cons_self
    rw [removeB, look_cons]
    by_cases h : e.key = x
    · subst h; right
      exact ⟨l, e, by simp [hce], .refl _, rfl, fun e' he' => List.mem_cons_of_mem _ he'⟩
    · rcases ih (fun e' he' => hc e' (List.mem_cons_of_mem _ he')) with ⟨h1, h2⟩ | ⟨l', e', h1, h2, h3, h4⟩
      · left; simp [h, h1, h2]
      · right
        refine ⟨e :: l', e', by simp [h, h1], ?_, h3, ?_⟩
        · exact (h2.cons e).trans (.swap _ _ _)
        · intro e'' he''
          rcases List.mem_cons.1 he'' with rfl | he''
          · exact List.mem_cons_self
          · exact List.mem_cons_of_mem _ (h4 _ he'')

theorem reset_spec {h : HashMap K V} (w : h.WF hash) (x : K) :
    ∃ h', h.reset hash x = .ok h' ∧ h'.WF hash ∧
      h'.abs = (fun y => if y = x then none else h.abs y) ∧
      h'.init = h.init ∧ h'.max = h.max := by
  have hi := w.idx x
  have hc : ∀ e ∈ h.a[bidx (hash x) h.n], e.code = hash e.key := fun e he => (w.loc _ hi e he).1
  rcases removeB_spec hc x with ⟨h1, h2⟩ | ⟨l', e, h1, h2, h3, h4⟩
  · refine ⟨h, by simp [reset, rd_ok hi, h1], w, ?_, rfl, rfl⟩
    rw [w.look_bucket] at h2
    funext y
    by_cases hy : y = x
    · simp [hy, h2]
    · simp [hy]
  · have hp := flatten_set_perm h.a _ hi l'
    have hq := flatten_perm h.a _ hi
    have hpe : h.a.flatten.Perm (e :: (h.a.set (bidx (hash x) h.n) l').flatten) :=
      hq.trans ((h2.append_right _).trans (hp.symm.cons e))
    have hnd : (e.key :: (h.a.set (bidx (hash x) h.n) l').flatten.map (·.key)).Nodup := by
      have := (hpe.map (·.key)).nodup_iff.1 w.nodup
      simpa only [List.map_cons] using this
    rw [List.nodup_cons] at hnd
    let h0 : HashMap K V := { h with a := h.a.set (bidx (hash x) h.n) l', size := h.size - 1 }
    have w0 : h0.WF hash := by
      refine ⟨?_, w.pos, ?_, hnd.2, ?_⟩
      · simpa [h0] using w.len
      · intro i hi' e' he'
        simp only [h0, List.getElem_set] at he'
        split at he'
        · rename_i hij
          have := w.loc _ hi e' (h4 _ he')
          exact ⟨this.1, this.2.trans hij⟩
        · exact w.loc _ (by simpa [h0] using hi') _ he'
      · simp only [h0, w.size]
        have := hpe.length_eq
        simp only [List.length_cons] at this
        omega
    have a0 : h0.abs = (fun y => if y = x then none else h.abs y) := by
      funext y
      have : h.abs y = if e.key = y then some e.im else h0.abs y := by
        unfold abs; rw [look_perm hpe w.nodup, look_cons]
      by_cases hy : y = x
      · subst hy; simp only [if_true]
        unfold abs; rw [look_eq_none]; rw [h3] at hnd; exact hnd.1
      · have hne : e.key ≠ y := fun e' => hy (e'.symm.trans h3)
        simp only [hy, if_false, this, hne]
    by_cases hs : h0.size < ((h0.n >>> 1 : Nat) : Int) * h0.max
    · have hn : 1 ≤ h0.n >>> 1 := by
        rcases Nat.eq_zero_or_pos (h0.n >>> 1) with hz | hz
        · rw [hz] at hs
          have := w0.size
          simp at hs; omega
        · exact hz
      obtain ⟨h', e1, w1, p1, i1, m1, s1⟩ := resize_spec w0 hn
      refine ⟨h', ?_, w1, by rw [abs_congr w0 p1, a0], i1, m1⟩
      simp only [reset, rd_ok hi, Res.ok_bind, h1, wr_ok hi]
      rw [if_pos hs]; exact e1
    · refine ⟨h0, ?_, w0, a0, rfl, rfl⟩
      simp only [reset, rd_ok hi, Res.ok_bind, h1, wr_ok hi]
      rw [if_neg hs]

/-- The effect of storing a list of entries one after the other. -/
def overlay (f : K → Option V) : List (Entry K V) → K → Option V
  | [] => f
  | e :: es => overlay (fun y => if y = e.key then some e.im else f y) es

theorem overlay_eq {l : List (Entry K V)} (hn : (l.map (·.key)).Nodup) (f : K → Option V) (y : K) :
    overlay f l y = (look l y).or (f y) := by
  induction l generalizing f with
  | nil => simp [overlay]
  | cons e l ih =>
    rw [List.map_cons, List.nodup_cons] at hn
    rw [overlay, ih hn.2, look_cons]
    by_cases hy : y = e.key
    · subst hy
      have : look l e.key = none := look_eq_none.2 hn.1
      simp [this]
    · have : e.key ≠ y := fun e' => hy e'.symm
      simp [hy, this]

theorem joinEntries_spec {h : HashMap K V} (w : h.WF hash) (es : List (Entry K V)) :
    ∃ h', h.joinEntries hash es = .ok h' ∧ h'.WF hash ∧ h'.abs = overlay h.abs es ∧
      h'.init = h.init ∧ h'.max = h.max := by
  induction es generalizing h with
  | nil => exact ⟨h, rfl, w, rfl, rfl, rfl⟩
  | cons e es ih =>
    obtain ⟨h1, e1, w1, a1, i1, m1⟩ := set_spec w e.key e.im
    obtain ⟨h2, e2, w2, a2, i2, m2⟩ := ih w1
    refine ⟨h2, by simp [joinEntries, e1, e2], w2, ?_, i2.trans i1, m2.trans m1⟩
    rw [a2, a1]; rfl

theorem join_spec {h g : HashMap K V} (w : h.WF hash) (wg : g.WF hash) :
    ∃ h', h.join hash g = .ok h' ∧ h'.WF hash ∧ h'.abs = (fun y => (g.abs y).or (h.abs y)) ∧
      h'.init = h.init ∧ h'.max = h.max := by
  obtain ⟨h', e1, w1, a1, i1, m1⟩ := joinEntries_spec w g.a.flatten
  refine ⟨h', e1, w1, ?_, i1, m1⟩
  rw [a1]; funext y; rw [overlay_eq wg.nodup]; rfl

theorem writeBack_spec {h base : HashMap K V} (w : h.WF hash) (wb : base.WF hash) (x : K) :
    ∃ h', h.writeBack hash x base = .ok h' ∧ h'.WF hash ∧
      h'.abs = (fun y => if y = x then some ((h.abs x).getD ((base.abs x).getD base.init))
        else h.abs y) ∧ h'.init = h.init ∧ h'.max = h.max := by
  obtain ⟨l, h1, h2⟩ := w.findB x
  cases hx : h.abs x with
  | some v =>
    refine ⟨h, by simp [writeBack, h1, h2, hx], w, ?_, rfl, rfl⟩
    funext y
    by_cases hy : y = x
    · subst hy; simp [hx]
    · simp [hy]
  | none =>
    obtain ⟨ha, e1, w1, p1, i1, m1⟩ := insertNew_spec w x hx
    obtain ⟨bl, b1, b2⟩ := wb.findB x
    obtain ⟨hb, e2, w2, a2, i2, m2⟩ := assign_spec w1 x ((base.abs x).getD base.init)
    refine ⟨hb, ?_, w2, ?_, i2.trans i1, m2.trans m1⟩
    · simp only [writeBack, h1, Res.ok_bind, h2, hx, e1, b1, b2]
      cases hb : base.abs x <;> simp [← e2, hb]
    · rw [a2]; funext y
      rw [abs_of_perm_cons w1 p1, abs_of_perm_cons w1 p1]
      by_cases hy : y = x
      · simp [hy]
      · have : x ≠ y := fun e => hy e.symm
        simp [hy, this]

end HashMap
end Lolly
