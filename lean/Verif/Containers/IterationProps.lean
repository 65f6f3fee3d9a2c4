import Verif.Containers.Iteration
import Verif.Containers.HashMapProps
import Verif.Containers.HashSetProps

set_option autoImplicit false

/-!
# Properties C89 (loops over iterators), C90 (changing a map while iterating over it), C91 (printing containers)
-/

namespace Lolly.IterationProps

open HashMapProps (Spec Enumerates Built)

/-! ## C89: helper lemmas -/

section iter
variable {E : Type}
open Iter

theorem spool_spool (it : Iter E) (hi : it.buckets.length ≤ it.i → it.l = []) : it.spool.spool = it.spool := by
  obtain ⟨_, h2, h3⟩ := spool_spec it hi
  generalize it.spool = s at h2 h3
  unfold spool
  by_cases h : s.i ≥ s.buckets.length
  · simp [h]
  · simp only [h, if_false]
    have : s.l ≠ [] := h3.1 (by rw [← h2]; omega)
    cases hl : s.l with
    | nil => exact absurd hl this
    | cons e l => rfl

theorem spoolL_get (bs : List (List E)) (i : Nat) (h : (spoolL bs i).2 ≠ []) :
    i + 1 ≤ (spoolL bs i).1 ∧ bs[(spoolL bs i).1 - (i + 1)]? = some (spoolL bs i).2 := by
  induction bs generalizing i with
  | nil => simp [spoolL] at h
  | cons b bs ih =>
    cases b with
    | nil =>
      simp only [spoolL] at h ⊢
      obtain ⟨h1, h2⟩ := ih (i + 1) h
      refine ⟨by omega, ?_⟩
      rw [show (spoolL bs (i + 1)).1 - (i + 1) = ((spoolL bs (i + 1)).1 - (i + 1 + 1)) + 1 by omega,
        List.getElem?_cons_succ, h2]
    | cons e l => simp [spoolL]

/-- An iterator in a possible state: at the end nothing is left of the last bucket. -/
def Sound (it : Iter E) : Prop := it.buckets.length ≤ it.i → it.l = []

/-- What `busy` finds. -/
theorem busy_cases (it : Iter E) (hs : Sound it) :
    (it.rest = [] ∧ it.busy.1 = false) ∨
    ∃ e l, it.busy.1 = true ∧ it.spool.l = e :: l ∧ it.spool.spool = it.spool ∧ it.spool.buckets = it.buckets ∧
      it.spool.i < it.buckets.length ∧ it.rest = e :: ({ it.spool with l := l } : Iter E).rest := by
  obtain ⟨h1, h2, h3⟩ := spool_spec it hs
  by_cases hb : it.spool.i < it.buckets.length
  · right
    have hl := h3.1 hb
    cases hl' : it.spool.l with
    | nil => exact absurd hl' hl
    | cons e l =>
      refine ⟨e, l, ?_, rfl, spool_spool it hs, h2, hb, ?_⟩
      · simp [busy, h2, hb]
      · rw [← h1]; simp [rest, hl']
  · left
    have hl : it.spool.l = [] := Classical.byContradiction fun hne => hb (h3.2 hne)
    refine ⟨?_, by simp [busy, h2, hb]⟩
    rw [← h1, rest, hl, List.drop_eq_nil_of_le (by rw [h2]; omega)]; rfl

theorem next_of (it : Iter E) {e : E} {l : List E} (hb : it.busy.1 = true) (hl : it.spool.l = e :: l) :
    it.next = .ok (e, { it.spool with l := l }) := by
  have : (decide (it.spool.i < it.spool.buckets.length)) = true := hb
  simp only [next, busy, this, if_true, hl]

theorem current_of (it : Iter E) {e : E} {l : List E} (hb : it.busy.1 = true) (hl : it.spool.l = e :: l) :
    it.current = .ok (e, it.spool) := by
  have : (decide (it.spool.i < it.spool.buckets.length)) = true := hb
  simp only [current, busy, this, if_true, hl]

theorem busy_spool (it : Iter E) (h : it.spool.spool = it.spool) : it.spool.busy = it.busy := by
  simp only [busy, h]

theorem rangeFor_eq_drain (fuel : Nat) (it : Iter E) (hs : Sound it) : rangeFor fuel it = drain fuel it := by
  induction fuel generalizing it with
  | zero => rfl
  | succ fuel ih =>
    have hbt : it.busy.2 = it.spool := rfl
    rcases busy_cases it hs with ⟨_, hb⟩ | ⟨e, l, hb, hl, hss, hbk, hlt, _⟩
    · unfold rangeFor drain
      rw [show it.busy = (it.busy.1, it.busy.2) from rfl, hb]; rfl
    · unfold rangeFor drain
      have hb' : it.spool.busy.1 = true := by rw [busy_spool it hss]; exact hb
      rw [show it.busy = (it.busy.1, it.spool) from rfl, hb]
      dsimp only
      rw [if_pos rfl, if_pos rfl, current_of it.spool hb' (by rw [hss]; exact hl),
        next_of it.spool hb' (by rw [hss]; exact hl), hss]
      simp only [Res.ok_bind, increase, hl]
      rw [ih _ (by intro h; simp only at h; rw [hbk] at h; omega)]

end iter

/-! ## C89 -/

section C89
variable {K V : Type} [DecidableEq K] [DecidableEq V] {hash : K → BitVec 32}

/-- C89: `for (T k : iterate (h)) ...` over a hash map stops after `N (h)` rounds, never throws, and runs exactly once for
each key present. -/
theorem C89_range_map {h : HashMap K V} {s : Spec K V} (b : Built hash h s) (fuel : Nat) (hf : h.N < fuel) :
    ∃ it es, Iter.new h.a = .ok it ∧ it.rangeFor fuel = .ok es ∧
      Enumerates (es.map (·.key)) (fun x => (s.val x).isSome = true) := by
  obtain ⟨it, es, h1, h2, h3⟩ := HashMapProps.C02_iterator b fuel hf
  refine ⟨it, es, h1, ?_, h3⟩
  rw [rangeFor_eq_drain, h2]
  simp only [Iter.new, Res.bind_eq_ok] at h1
  obtain ⟨l, hl, hit⟩ := h1
  obtain rfl := Res.ok.inj hit
  intro hle
  simp only [Nat.le_zero_eq, List.length_eq_zero_iff] at hle
  rw [hle] at hl; simp [rd] at hl

/-- C89, sets. -/
theorem C89_range_set {T : Type} [DecidableEq T] {hash : T → BitVec 32} {h : HashSet T} {s : T → Prop}
    (b : HashSetProps.Built hash h s) (fuel : Nat) (hf : h.N < fuel) :
    ∃ it es, Iter.new h.a = .ok it ∧ it.rangeFor fuel = .ok es ∧ es.Nodup ∧ ∀ x, x ∈ es ↔ s x := by
  obtain ⟨it, es, h1, h2, h3, h4, _⟩ := HashSetProps.C05_size_iterate b fuel hf
  refine ⟨it, es, h1, ?_, h3, h4⟩
  rw [rangeFor_eq_drain, h2]
  simp only [Iter.new, Res.bind_eq_ok] at h1
  obtain ⟨l, hl, hit⟩ := h1
  obtain rfl := Res.ok.inj hit
  intro hle
  simp only [Nat.le_zero_eq, List.length_eq_zero_iff] at hle
  rw [hle] at hl; simp [rd] at hl

/-- C89: reading the present key with `*it` does not move the iterator: reading again gives the same key, and `next` too
(which then moves on, as `++it` does). Missing: moving on without having read, see `C89_step_twice_violated`. -/
theorem C89_current_partial {E : Type} {it it' : Iter E} {e : E} (hs : it.buckets.length ≤ it.i → it.l = [])
    (h : it.current = .ok (e, it')) :
    it'.current = .ok (e, it') ∧ ∃ it'', it'.increase = .ok it'' ∧ it.next = .ok (e, it'') ∧
      it'.next = .ok (e, it'') := by
  rcases busy_cases it hs with ⟨_, hb⟩ | ⟨e', l, hb, hl, hss, hbk, hlt, _⟩
  · exfalso
    have : decide (it.spool.i < it.spool.buckets.length) = false := hb
    simp only [Iter.current, Iter.busy, this] at h
    exact absurd h (by simp)
  · rw [current_of it hb hl] at h
    obtain ⟨rfl, rfl⟩ := Prod.mk.inj (Res.ok.inj h)
    have hb' : it.spool.busy.1 = true := by rw [busy_spool it hss]; exact hb
    have hl' : it.spool.spool.l = e' :: l := by rw [hss]; exact hl
    have h3 := current_of it.spool hb' hl'
    have h4 := next_of it.spool hb' hl'
    rw [hss] at h3 h4
    exact ⟨h3, { it.spool with l := l }, by simp only [Iter.increase, hl], next_of it hb hl, h4⟩

/-- C89: an iterator that has more to give gives it, and one at its end raises an error, both for `next` and `*it`; nothing
is undefined. -/
theorem C89_end {E : Type} {it : Iter E} (hs : it.buckets.length ≤ it.i → it.l = []) :
    (it.busy.1 = true → ∃ e it' it'', it.current = .ok (e, it') ∧ it.next = .ok (e, it'')) ∧
      (it.busy.1 = false → it.current = .thrown ∧ it.next = .thrown) := by
  rcases busy_cases it hs with ⟨_, hb⟩ | ⟨e', l, hb, hl, _⟩
  · refine ⟨fun h => absurd h (by rw [hb]; decide), fun _ => ?_⟩
    have : decide (it.spool.i < it.spool.buckets.length) = false := hb
    simp [Iter.current, Iter.next, Iter.busy, this]
  · exact ⟨fun _ => ⟨e', _, _, current_of it hb hl, next_of it hb hl⟩, fun h => absurd h (by rw [hb]; decide)⟩

/-- C89: `++it` must follow a test or a reading of the iterator: stepping twice over a map with the two keys 0 and 1 (in
two buckets) dereferences NULL, although there are two keys to step over. -/
theorem C89_step_twice_violated : ∃ h : HashMap Nat Nat, ∃ s it it', Built (fun x => BitVec.ofNat 32 x) h s ∧
    h.N = 2 ∧ Iter.new h.a = .ok it ∧ it.increase = .ok it' ∧ it'.increase = .ub :=
  ⟨_, _, _, _, .set 1 7 (.set 0 7 (.new 0 2 1 (by decide)) rfl) rfl, rfl, rfl, rfl, rfl⟩

/-- `k` steps with `++it` and nothing in between. -/
def steps {E : Type} : Nat → Iter E → Res (Iter E)
  | 0, it => .ok it
  | k + 1, it => it.increase >>= steps k

theorem steps_eq {E : Type} (k : Nat) (it : Iter E) :
    steps k it = if k ≤ it.l.length then .ok { it with l := it.l.drop k } else .ub := by
  induction k generalizing it with
  | zero => rfl
  | succ k ih =>
    unfold steps Iter.increase
    cases hl : it.l with
    | nil => rfl
    | cons e l =>
      simp only [Res.ok_bind]
      rw [ih]
      simp only [List.length_cons, Nat.add_le_add_iff_right, List.drop_succ_cons]

/-- C89 for all maps: from the beginning one can step, without tests and readings, exactly as often as there are keys in the
first bucket, that is keys whose hash codes end with zeros; the step after these dereferences NULL, however many other keys
there are. -/
theorem C89_steps_violated {h : HashMap K V} {s : Spec K V} (b : Built hash h s) :
    ∃ it ks, Iter.new h.a = .ok it ∧
      Enumerates ks (fun x => (s.val x).isSome = true ∧ (hash x).toNat &&& (h.n - 1) = 0) ∧
      (∀ k, k ≤ ks.length → ∃ it', steps k it = .ok it') ∧ ∀ k, ks.length < k → steps k it = .ub := by
  obtain ⟨w, ha, _⟩ := HashMapProps.built_inv b
  have h0 : 0 < h.a.length := by rw [w.len]; exact w.pos
  refine ⟨⟨h.a, 0, h.a[0]⟩, h.a[0].map (·.key), by simp only [Iter.new, rd_ok h0]; rfl, ?_, ?_, ?_⟩
  · have hn : (h.a[0].map (·.key)).Nodup := by
      have := ((flatten_perm h.a 0 h0).map (·.key)).nodup_iff.1 w.nodup
      rw [List.map_append] at this
      exact (List.nodup_append.1 this).1
    refine ⟨hn, fun x => ⟨fun hx => ?_, fun hx => ?_⟩⟩
    · obtain ⟨e, he, rfl⟩ := List.mem_map.1 hx
      have hi := (w.loc 0 h0 e he).2
      refine ⟨?_, hi⟩
      have hb := w.look_bucket e.key
      simp only [hi] at hb
      rw [← ha, ← hb, (look_eq_some hn).2 ⟨e, he, rfl, rfl⟩]
      rfl
    · have hb := w.look_bucket x
      have hi : bidx (hash x) h.n = 0 := hx.2
      simp only [hi] at hb
      rw [ha] at hb
      have hs := hx.1
      rw [← hb] at hs
      cases hl : look h.a[0] x with
      | none => rw [hl] at hs; exact absurd hs (by simp)
      | some v =>
        refine Classical.byContradiction fun hm => ?_
        rw [look_eq_none.2 hm] at hl
        exact absurd hl (by simp)
  · intro k hk
    rw [List.length_map] at hk
    exact ⟨_, by rw [steps_eq, if_pos hk]⟩
  · intro k hk
    rw [List.length_map] at hk
    rw [steps_eq, if_neg (by dsimp only; omega)]

/-- Such maps: the keys 1 and 3 of a map with two buckets are in the second one, and not even one step can be made. -/
example : ∃ h : HashMap Nat Nat, ∃ s it, Built (fun x => BitVec.ofNat 32 x) h s ∧ Iter.new h.a = .ok it ∧
    h.N = 2 ∧ steps 1 it = .ub :=
  ⟨_, _, _, .set 3 7 (.set 1 7 (.new 0 2 1 (by decide)) rfl) rfl, rfl, rfl, rfl⟩

example : ∃ h : HashMap Nat Nat, ∃ s it, Built (fun x => BitVec.ofNat 32 x) h s ∧ Iter.new h.a = .ok it ∧
    h.N = 2 ∧ (it.rangeFor 3).bind (fun l => .ok (l.map (·.key))) = .ok [0, 1] :=
  ⟨_, _, _, .set 1 7 (.set 0 7 (.new 0 2 1 (by decide)) rfl) rfl, rfl, rfl, rfl⟩

end C89

/-! ## C90: helper lemmas -/

section live
variable {K V : Type} [DecidableEq K] [DecidableEq V] {hash : K → BitVec 32}
open HashMap

/-- The keys of a list of entries. -/
abbrev keys (l : List (Entry K V)) : List K := l.map (·.key)

/-- `act` changes keys in no bucket other than the one of the key. -/
def Elsewhere (hash : K → BitVec 32) (h h' : HashMap K V) (k : K) : Prop :=
  h'.n = h.n ∧ ∀ j : Nat, j ≠ bidx (hash k) h.n → h'.a[j]?.map keys = h.a[j]?.map keys

omit [DecidableEq K] [DecidableEq V] in
theorem drop_keys {a b : List (List (Entry K V))} {i : Nat}
    (h : ∀ j : Nat, i < j → b[j]?.map keys = a[j]?.map keys) :
    keys (b.drop (i + 1)).flatten = keys (a.drop (i + 1)).flatten := by
  have : (b.drop (i + 1)).map keys = (a.drop (i + 1)).map keys := by
    apply List.ext_getElem?
    intro j
    simp only [List.getElem?_map, List.getElem?_drop]
    exact h _ (by omega)
  show List.map _ _ = List.map _ _
  rw [List.map_flatten, List.map_flatten]
  exact congrArg _ this

/-- The loop visits the keys that were to come, if each action keeps to the bucket of its key. -/
theorem live_spec (act : HashMap K V → K → Res (HashMap K V)) (I : HashMap K V → List K → Prop)
    (hI : ∀ h k ks, I h (k :: ks) → h.WF hash ∧ ∃ h', act h k = .ok h' ∧ Elsewhere hash h h' k ∧ I h' ks)
    (hW : ∀ h ks, I h ks → h.WF hash)
    (fuel : Nat) (h : HashMap K V) (it : Iter (Entry K V)) (ks : List K)
    (hr : keys ({ it with buckets := h.a } : Iter (Entry K V)).rest = ks)
    (hin : I h ks) (hs : h.a.length ≤ it.i → it.l = []) (hb : ∀ e ∈ it.l, bidx (hash e.key) h.n = it.i)
    (hf : ks.length < fuel) :
    ∃ h', live act fuel h it = .ok (h', ks) ∧ I h' [] := by
  induction fuel generalizing h it ks with
  | zero => omega
  | succ fuel ih =>
    unfold live
    generalize hit : ({ it with buckets := h.a } : Iter (Entry K V)) = it1 at hr
    have hb1 : it1.buckets = h.a := by rw [← hit]
    have hi1 : it1.i = it.i := by rw [← hit]
    have hl1 : it1.l = it.l := by rw [← hit]
    have hs1 : Sound it1 := by rw [← hit]; exact hs
    rcases busy_cases it1 hs1 with ⟨h0, h1⟩ | ⟨e, l, h1, h2, h3, h4, h5, h6⟩
    · rw [show it1.busy = (it1.busy.1, it1.busy.2) from rfl, h1]
      rw [h0] at hr; subst hr
      exact ⟨h, rfl, hin⟩
    · rw [show it1.busy = (it1.busy.1, it1.spool) from rfl, h1]
      dsimp only
      have h1' : it1.spool.busy.1 = true := by rw [busy_spool it1 h3]; exact h1
      rw [if_pos rfl, next_of it1.spool h1' (by rw [h3]; exact h2), h3]
      simp only [Res.ok_bind]
      rw [h6] at hr
      simp only [keys, List.map_cons] at hr
      subst hr
      obtain ⟨w, h', ha, ⟨hn, hel⟩, hI'⟩ := hI _ _ _ hin
      have w' := hW _ _ hI'
      have hlen : h'.a.length = h.a.length := by rw [w'.len, w.len, hn]
      -- the bucket at which the iterator stands
      have hbk : ∀ e' ∈ it1.spool.l, bidx (hash e'.key) h.n = it1.spool.i := by
        have hmem : it1.spool.l ≠ it1.l → ∃ hi : it1.spool.i < h.a.length, it1.spool.l = h.a[it1.spool.i] := by
          unfold Iter.spool
          by_cases hge : it1.i ≥ it1.buckets.length
          · rw [if_pos hge]; intro hne; exact absurd rfl hne
          · rw [if_neg hge]
            cases hl : it1.l with
            | cons e'' l'' => dsimp only; intro hne; exact absurd hl hne
            | nil =>
              dsimp only
              intro hne
              have := spoolL_get (it1.buckets.drop (it1.i + 1)) it1.i hne
              rw [hb1] at this ⊢
              rw [List.getElem?_drop] at this
              obtain ⟨hp, he⟩ := this
              rw [show it1.i + 1 + ((Iter.spoolL (h.a.drop (it1.i + 1)) it1.i).1 - (it1.i + 1)) =
                (Iter.spoolL (h.a.drop (it1.i + 1)) it1.i).1 by omega] at he
              obtain ⟨hlt, he⟩ := List.getElem?_eq_some_iff.1 he
              exact ⟨hlt, he.symm⟩
        intro e' he'
        by_cases hne : it1.spool.l = it1.l
        · have hii : it1.spool.i = it1.i := by
            unfold Iter.spool
            by_cases hge : it1.i ≥ it1.buckets.length
            · rw [if_pos hge]
            · rw [if_neg hge]
              cases hl : it1.l with
              | cons e'' l'' => rfl
              | nil => rw [hne, hl] at h2; cases h2
          rw [hii, hi1]; exact hb e' (by rw [← hl1, ← hne]; exact he')
        · obtain ⟨hi, he⟩ := hmem hne
          rw [he] at he'
          exact (w.loc _ hi e' he').2
      have hke : bidx (hash e.key) h.n = it1.spool.i := hbk e (by rw [h2]; exact List.mem_cons_self)
      obtain ⟨hf', h7, h8⟩ := ih h' { it1.spool with l := l } (keys ({ it1.spool with l := l } : Iter (Entry K V)).rest)
        (by
          simp only [Iter.rest, h4, hb1]
          show List.map _ _ = List.map _ _
          rw [List.map_append, List.map_append]
          congr 1
          exact drop_keys fun j hj => hel j (by omega))
        hI'
        (by intro hle; simp only [hlen] at hle; rw [← hb1] at hle; omega)
        (by
          intro e' he'
          rw [hn]
          exact hbk e' (by rw [h2]; exact List.mem_cons_of_mem _ he'))
        (by
          simp only [List.length_cons] at hf
          exact Nat.lt_of_succ_lt_succ hf)
      refine ⟨hf', ?_, h8⟩
      rw [ha]; simp only [Res.ok_bind]; rw [h7]; rfl

omit [DecidableEq V] in
theorem set_elsewhere {h : HashMap K V} (w : h.WF hash) (k : K) (v : V) (hk : (h.abs k).isSome = true)
    {h' : HashMap K V} (e : h.set hash k v = .ok h') : Elsewhere hash h h' k := by
  obtain ⟨l, h1, h2⟩ := w.findB k
  obtain ⟨v0, hv0⟩ := Option.isSome_iff_exists.1 hk
  have ht : h.touch hash k = .ok h := by simp [touch, h1, h2, hv0]
  have hi := w.idx k
  simp only [HashMap.set, ht, Res.ok_bind, assign, rd_ok hi, wr_ok hi] at e
  obtain rfl := Res.ok.inj e
  refine ⟨rfl, fun j hj => ?_⟩
  simp only [List.getElem?_set]
  rw [if_neg (fun h => hj h.symm)]

omit [DecidableEq V] in
theorem reset_elsewhere {h : HashMap K V} (w : h.WF hash) (k : K)
    (hk : ((h.n >>> 1 : Nat) : Int) * h.max ≤ h.size - 1)
    {h' : HashMap K V} (e : h.reset hash k = .ok h') : Elsewhere hash h h' k ∧ h'.max = h.max := by
  have hi := w.idx k
  simp only [HashMap.reset, rd_ok hi, Res.ok_bind] at e
  cases hr : removeB (hash k) k h.a[bidx (hash k) h.n] with
  | none =>
    rw [hr] at e
    obtain rfl := Res.ok.inj e
    exact ⟨⟨rfl, fun j _ => rfl⟩, rfl⟩
  | some l' =>
    rw [hr] at e
    simp only [wr_ok hi, Res.ok_bind] at e
    rw [if_neg (by omega)] at e
    obtain rfl := Res.ok.inj e
    refine ⟨⟨rfl, fun j hj => ?_⟩, rfl⟩
    simp only [List.getElem?_set]
    rw [if_neg (fun h => hj h.symm)]

end live

/-! ## C90 -/

section C90
variable {K V : Type} [DecidableEq K] [DecidableEq V] {hash : K → BitVec 32}
open HashMap

theorem iterateWith_spec {h : HashMap K V} {s : Spec K V} (b : Built hash h s)
    (act : HashMap K V → K → Res (HashMap K V)) (I : HashMap K V → List K → Prop)
    (hI : ∀ h k ks, I h (k :: ks) → h.WF hash ∧ ∃ h', act h k = .ok h' ∧ Elsewhere hash h h' k ∧ I h' ks)
    (hW : ∀ h ks, I h ks → h.WF hash) (h0 : I h (keys h.a.flatten)) (fuel : Nat) (hf : h.N < fuel) :
    ∃ h', iterateWith act fuel h = .ok (h', keys h.a.flatten) ∧ I h' [] := by
  obtain ⟨w, -, -⟩ := HashMapProps.built_inv b
  have hne : 0 < h.a.length := by rw [w.len]; exact w.pos
  obtain ⟨h', h1, h2⟩ := live_spec act I hI hW fuel h ⟨h.a, 0, h.a[0]⟩ (keys h.a.flatten)
    (by
      show keys (h.a[0] ++ (h.a.drop (0 + 1)).flatten) = _
      rw [← List.flatten_cons, List.getElem_cons_drop, List.drop_zero])
    h0 (fun hle => absurd hle (by simp only; omega))
    (fun e he => (w.loc 0 hne e he).2)
    (by have := w.size; simp only [N] at hf; simp only [keys, List.length_map]; omega)
  refine ⟨h', ?_, h2⟩
  rw [iterateWith, Iter.new, rd_ok hne]
  exact h1

/-- C90: a loop over `iterate (h)` may change the values of the keys it visits, `h(k)= g (k, h[k])`: it visits each key
present exactly once, ends, and afterwards each key has its new value, computed from its old one, and the same keys
are present. -/
theorem C90_update {h : HashMap K V} {s : Spec K V} (b : Built hash h s) (g : K → V → V) (fuel : Nat)
    (hf : h.N < fuel) :
    ∃ h' ks s', iterateWith (fun h k => (h.get hash k).bind fun v => h.set hash k (g k v)) fuel h = .ok (h', ks) ∧
      Enumerates ks (fun x => (s.val x).isSome = true) ∧
      Built hash h' s' ∧ s'.dflt = s.dflt ∧ ∀ x, s'.val x = (s.val x).map (g x) := by
  have he := HashMapProps.wf_enum b
  obtain ⟨h', h1, ⟨s', h2, h3, -, -, h6⟩⟩ := iterateWith_spec b
    (fun h k => (h.get hash k).bind fun v => h.set hash k (g k v))
    (fun h ks => ∃ s', Built hash h s' ∧ s'.dflt = s.dflt ∧ ks.Nodup ∧ (∀ x ∈ ks, (s.val x).isSome = true) ∧
      ∀ x, s'.val x = if x ∈ ks then s.val x else (s.val x).map (g x))
    (by
      rintro h k ks ⟨s', b', hd, hn, hk, hv⟩
      obtain ⟨w, ha, hi⟩ := HashMapProps.built_inv b'
      refine ⟨w, ?_⟩
      obtain ⟨v, hsv⟩ := Option.isSome_iff_exists.1 (hk k List.mem_cons_self)
      have hav : h.abs k = some v := by rw [ha, hv, if_pos List.mem_cons_self, hsv]
      have hg := get_spec w k
      rw [hav] at hg
      obtain ⟨h', hs, w', -, -, -⟩ := set_spec w k (g k v)
      refine ⟨h', by rw [hg]; exact hs, set_elsewhere w k _ (by rw [hav]; rfl) hs, _, b'.set k (g k v) hs, hd,
        (List.nodup_cons.1 hn).2, fun x hx => hk x (List.mem_cons_of_mem _ hx), fun x => ?_⟩
      show (if x = k then some (g k v) else s'.val x) = _
      by_cases hx : x = k
      · subst hx
        rw [if_pos rfl, if_neg (List.nodup_cons.1 hn).1, hsv]; rfl
      · rw [if_neg hx, hv]
        simp only [List.mem_cons, hx, false_or])
    (fun h ks hI => (HashMapProps.built_inv hI.choose_spec.1).1)
    ⟨s, b, rfl, he.1, fun x hx => (he.2 x).1 hx, fun x => by
      by_cases hx : x ∈ keys h.a.flatten
      · rw [if_pos hx]
      · rw [if_neg hx]
        have : s.val x = none := by
          cases hs : s.val x with
          | none => rfl
          | some v => exact absurd ((he.2 x).2 (by simp only [hs]; rfl)) hx
        rw [this]; rfl⟩ fuel hf
  exact ⟨h', _, s', h1, he, h2, h3, fun x => by rw [h6]; simp⟩

/-- C90: a loop that removes the keys for which `p` holds visits each key exactly once and leaves exactly the other keys,
with their values, as long as enough keys stay that the table does not shrink (`max` per bucket of a table of half the
size). -/
theorem C90_remove_partial {h : HashMap K V} {s : Spec K V} (b : Built hash h s) (p : K → Bool) (fuel : Nat)
    (hf : h.N < fuel)
    (hkeep : ((h.n / 2 : Nat) : Int) * h.max ≤ ((h.generate.filter (fun k => !p k)).length : Int)) :
    ∃ h' ks s', iterateWith (fun h k => if p k then h.reset hash k else .ok h) fuel h = .ok (h', ks) ∧
      Enumerates ks (fun x => (s.val x).isSome = true) ∧
      Built hash h' s' ∧ s'.dflt = s.dflt ∧ ∀ x, s'.val x = if p x then none else s.val x := by
  have he := HashMapProps.wf_enum b
  obtain ⟨h', h1, ⟨s', h2, h3, -, -, -, -, h6⟩⟩ := iterateWith_spec b
    (fun h k => if p k then h.reset hash k else .ok h)
    (fun h' ks => ∃ s', Built hash h' s' ∧ s'.dflt = s.dflt ∧ ks.Nodup ∧ (∀ x ∈ ks, (s.val x).isSome = true) ∧
      h'.n = h.n ∧ h'.max = h.max ∧
      ∀ x, s'.val x = if x ∉ ks ∧ p x = true then none else s.val x)
    (by
      rintro h1 k ks ⟨s', b', hd, hn, hk, hn1, hm1, hv⟩
      obtain ⟨w, ha, hi⟩ := HashMapProps.built_inv b'
      refine ⟨w, ?_⟩
      by_cases hp : p k = true
      · have hsz : ((h1.n >>> 1 : Nat) : Int) * h1.max ≤ h1.size - 1 := by
          have hsub : (k :: h.generate.filter (fun k => !p k)).length ≤ h1.generate.length := by
            apply nodup_subset_length
            · refine List.nodup_cons.2 ⟨?_, he.1.filter _⟩
              intro hc
              have := (List.mem_filter.1 hc).2
              rw [hp] at this; exact absurd this (by decide)
            · intro x hx
              have hen := HashMapProps.wf_enum b'
              refine (hen.2 x).2 ?_
              simp only [hv]
              rcases List.mem_cons.1 hx with rfl | hx
              · rw [if_neg (fun hc => hc.1 List.mem_cons_self)]
                exact hk _ List.mem_cons_self
              · obtain ⟨hx1, hx2⟩ := List.mem_filter.1 hx
                rw [if_neg (fun hc => by rw [hc.2] at hx2; exact absurd hx2 (by decide))]
                exact (he.2 x).1 hx1
          have hs1 := w.size
          have hg : h1.generate.length = h1.a.flatten.length := by rw [generate, List.length_map]
          rw [hn1, hm1, Nat.shiftRight_eq_div_pow]
          simp only [List.length_cons] at hsub
          show ((h.n / 2 : Nat) : Int) * h.max ≤ _
          omega
        obtain ⟨h', hr, w', -, -, -⟩ := reset_spec w k
        obtain ⟨hel, hmx⟩ := reset_elsewhere w k hsz hr
        refine ⟨h', by rw [if_pos hp]; exact hr, hel, _, b'.reset k hr, hd, (List.nodup_cons.1 hn).2,
          fun x hx => hk x (List.mem_cons_of_mem _ hx), hel.1.trans hn1, hmx.trans hm1, fun x => ?_⟩
        show (if x = k then none else s'.val x) = _
        by_cases hx : x = k
        · subst hx
          rw [if_pos rfl, if_pos ⟨(List.nodup_cons.1 hn).1, hp⟩]
        · rw [if_neg hx, hv]
          simp only [List.mem_cons, hx, false_or]
      · refine ⟨h1, by rw [if_neg hp], ⟨rfl, fun j _ => rfl⟩, s', b', hd, (List.nodup_cons.1 hn).2,
          fun x hx => hk x (List.mem_cons_of_mem _ hx), hn1, hm1, fun x => ?_⟩
        rw [hv]
        by_cases hx : x = k
        · subst hx
          rw [if_neg (fun hc => hp hc.2), if_neg (fun hc => hp hc.2)]
        · simp only [List.mem_cons, hx, false_or])
    (fun h ks hI => (HashMapProps.built_inv hI.choose_spec.1).1)
    ⟨s, b, rfl, he.1, fun x hx => (he.2 x).1 hx, rfl, rfl, fun x => by
      by_cases hx : x ∈ keys h.a.flatten
      · rw [if_neg (fun hc => hc.1 hx)]
      · have : s.val x = none := by
          cases hs : s.val x with
          | none => rfl
          | some v => exact absurd ((he.2 x).2 (by simp only [hs]; rfl)) hx
        rw [this]; split <;> rfl⟩ fuel hf
  exact ⟨h', _, s', h1, he, h2, h3, fun x => by rw [h6]; simp⟩

/-- C90: without that condition keys are missed. A loop that removes all keys over the map with keys 0, 1, 2, 3 (four
buckets) leaves key 3 in the map: after the removal of 2 the table shrinks, 3 moves to a bucket that was passed. -/
theorem C90_remove_violated : ∃ h h' : HashMap Nat Nat, ∃ s, Built (fun x => BitVec.ofNat 32 x) h s ∧ h.N = 4 ∧
    iterateWith (fun h k => h.reset (fun x => BitVec.ofNat 32 x) k) 10 h = .ok (h', [0, 1, 2]) ∧
    h'.contains (fun x => BitVec.ofNat 32 x) 3 = .ok true :=
  ⟨_, _, _, .set 3 7 (.set 2 7 (.set 1 7 (.set 0 7 (.new 0 4 1 (by decide)) rfl) rfl) rfl) rfl, rfl, rfl, rfl⟩

/-- C90: a loop that adds keys can see a key twice: here key 2 is in bucket 0 of two, and in bucket 2 after the table has
grown. -/
theorem C90_insert_violated : ∃ h h' : HashMap Nat Nat, ∃ s, Built (fun x => BitVec.ofNat 32 x) h s ∧ h.N = 2 ∧
    iterateWith (fun h _ => h.set (fun x => BitVec.ofNat 32 x) 4 0) 10 h = .ok (h', [2, 1, 2]) :=
  ⟨_, _, _, .set 1 7 (.set 2 7 (.new 0 2 1 (by decide)) rfl) rfl, rfl, rfl⟩

/-- The hypotheses of `C90_remove_partial` are met: of the keys 0, 1, 2, 3 in four buckets the keys 0 and 2 are removed. -/
example : ∃ h : HashMap Nat Nat, ∃ s, Built (fun x => BitVec.ofNat 32 x) h s ∧ h.N < 10 ∧
    ((h.n / 2 : Nat) : Int) * h.max ≤ ((h.generate.filter (fun k => !decide (k % 2 = 0))).length : Int) ∧
    ∃ h', iterateWith (fun h k => if decide (k % 2 = 0) then h.reset (fun x => BitVec.ofNat 32 x) k else .ok h) 10 h =
      .ok (h', [0, 1, 2, 3]) ∧ h'.generate = [1, 3] :=
  ⟨_, _, .set 3 7 (.set 2 7 (.set 1 7 (.set 0 7 (.new 0 4 1 (by decide)) rfl) rfl) rfl) rfl, by decide, by decide,
    _, rfl, rfl⟩

/-- A loop that doubles all values. -/
example : ∃ h h' : HashMap Nat Nat, ∃ s, Built (fun x => BitVec.ofNat 32 x) h s ∧ h.N < 10 ∧
    iterateWith (fun h k => (h.get (fun x => BitVec.ofNat 32 x) k).bind fun v =>
      h.set (fun x => BitVec.ofNat 32 x) k (2 * v)) 10 h = .ok (h', [0, 1]) ∧
    h'.a.flatten.map (·.im) = [14, 16] :=
  ⟨_, _, _, .set 1 8 (.set 0 7 (.new 0 1 1 (by decide)) rfl) rfl, by decide, rfl, rfl⟩

end C90

/-! ## C91 -/

section C91

/-- The words with ", " between them. -/
def commas : List Bytes → Bytes
  | [] => []
  | [w] => w
  | w :: w' :: ws => w ++ (b!", ") ++ commas (w' :: ws)

theorem commas_cons (w : Bytes) (ws : List Bytes) (h : ws ≠ []) : commas (w :: ws) = w ++ (b!", ") ++ commas ws := by
  cases ws with
  | nil => exact absurd rfl h
  | cons w' ws => rfl

theorem printItems_spec {E : Type} (pe : E → Bytes) (size : Int) (es : List E) (j : Int) (h : size = j + es.length) :
    HashMap.printItems pe size es j = commas (es.map pe) := by
  induction es generalizing j with
  | nil => rfl
  | cons e es ih =>
    simp only [List.length_cons] at h
    rw [HashMap.printItems, ih (j + 1) (by omega), List.map_cons]
    cases es with
    | nil =>
      simp only [List.length_nil] at h
      rw [if_neg (by omega)]; simp [commas]
    | cons e' es =>
      simp only [List.length_cons] at h
      rw [if_pos (by omega), commas_cons _ _ (by simp)]

theorem printTail_spec {T : Type} (pe : T → Bytes) (x : Bytes) (l : List T) :
    x ++ printTail pe l = commas (x :: l.map pe) := by
  induction l generalizing x with
  | nil => simp [printTail, commas]
  | cons y l ih =>
    rw [printTail, List.map_cons, commas_cons _ _ (by simp), ← ih]
    simp only [List.append_assoc]

theorem printFrom_spec {T : Type} (pe : T → Bytes) (a : List T) (k i : Nat) (h : i + k + 1 = a.length) :
    ∃ r x, printFrom pe a k i = .ok r ∧ a[a.length - 1]? = some x ∧ r ++ pe x = commas ((a.drop i).map pe) := by
  induction k generalizing i with
  | zero =>
    refine ⟨[], a[i]'(by omega), rfl, ?_, ?_⟩
    · rw [show a.length - 1 = i by omega]; exact List.getElem?_eq_getElem _
    · rw [List.drop_eq_getElem_cons (by omega), List.drop_eq_nil_of_le (by omega)]; rfl
  | succ k ih =>
    obtain ⟨r, x, h1, h2, h3⟩ := ih (i + 1) (by omega)
    refine ⟨pe (a[i]'(by omega)) ++ (b!", ") ++ r, x, ?_, h2, ?_⟩
    · rw [printFrom, rd_ok (show i < a.length by omega), Res.ok_bind, h1]; rfl
    · rw [List.drop_eq_getElem_cons (show i < a.length by omega), List.map_cons, commas_cons, ← h3]
      · simp only [List.append_assoc]
      · intro hc
        have := congrArg List.length hc
        simp only [List.length_map, List.length_drop, List.length_nil] at this
        omega

theorem printLoop_spec {E : Type} (pe : E → Bytes) (fuel : Nat) (flag : Bool) (it : Iter E) (hs : Sound it)
    (hf : it.rest.length < fuel) :
    Iter.printLoop pe fuel flag it =
      .ok ((if flag && !it.rest.isEmpty then b!", " else []) ++ commas (it.rest.map pe)) := by
  induction fuel generalizing flag it with
  | zero => omega
  | succ fuel ih =>
    unfold Iter.printLoop
    rcases busy_cases it hs with ⟨h0, hb⟩ | ⟨e, l, hb, hl, hss, hbk, hlt, hr⟩
    · rw [show it.busy = (it.busy.1, it.busy.2) from rfl, hb, h0]
      simp [commas]
    · rw [show it.busy = (it.busy.1, it.spool) from rfl, hb]
      have hb' : it.spool.busy.1 = true := by rw [busy_spool it hss]; exact hb
      dsimp only
      rw [if_pos rfl, next_of it.spool hb' (by rw [hss]; exact hl), hss]
      simp only [Res.ok_bind]
      rw [hr] at hf ⊢
      simp only [List.length_cons] at hf
      rw [ih true { it.spool with l := l } (by intro h; simp only at h; rw [hbk] at h; omega)
        (Nat.lt_of_succ_lt_succ hf)]
      generalize Iter.rest _ = rs
      simp only [Res.ok_bind, List.isEmpty_cons, Bool.not_false, Bool.and_true, Bool.true_and, List.map_cons]
      cases rs with
      | nil => simp [commas]
      | cons r rs => simp [commas]

/-- The text of a collection: the words between brackets. -/
def bracket (o c : Bytes) (ws : List Bytes) : Bytes := o ++ commas ws ++ c

variable {K V : Type} [DecidableEq K] [DecidableEq V] {hash : K → BitVec 32}

/-- C91: a hash map is printed as `{ k->v, ... }` with one pair for each key present and its value. -/
theorem C91_map {h : HashMap K V} {s : Spec K V} (b : Built hash h s) (pk : K → Bytes) (pv : V → Bytes) :
    ∃ l : List (K × V), (l.map (·.1)).Nodup ∧ (∀ x v, (x, v) ∈ l ↔ s.val x = some v) ∧
      h.print pk pv = bracket (b!"{ ") (b!" }") (l.map fun p => pk p.1 ++ (b!"->") ++ pv p.2) := by
  obtain ⟨w, ha, -⟩ := HashMapProps.built_inv b
  refine ⟨h.a.flatten.map (fun e => (e.key, e.im)), ?_, ?_, ?_⟩
  · rw [List.map_map]; exact w.nodup
  · intro x v
    rw [← ha, HashMap.abs, look_eq_some w.nodup]
    simp only [List.mem_map, Prod.mk.injEq]
  · rw [HashMap.print, printItems_spec _ _ _ _ (by rw [w.size]; omega), bracket, List.map_map]
    rfl

/-- C91: a hash set is printed as `{ x, ... }` with each element once. -/
theorem C91_set {T : Type} [DecidableEq T] {hash : T → BitVec 32} {h : HashSet T} {s : T → Prop}
    (b : HashSetProps.Built hash h s) (pe : T → Bytes) :
    ∃ l : List T, l.Nodup ∧ (∀ x, x ∈ l ↔ s x) ∧ h.print pe = bracket (b!"{ ") (b!" }") (l.map pe) := by
  obtain ⟨w, hm⟩ := HashSetProps.built_inv b
  refine ⟨h.a.flatten, w.nodup, hm, ?_⟩
  rw [HashSet.print, printItems_spec _ _ _ _ (by rw [w.size]; omega), bracket]

/-- C91: a list is printed as `[ x, ... ]` with its elements in order; the empty list as `[ ]`. -/
theorem C91_list {T : Type} (pe : T → Bytes) (l : List T) :
    printList pe l = if l = [] then b!"[ ]" else bracket (b!"[ ") (b!" ]") (l.map pe) := by
  cases l with
  | nil => rfl
  | cons x l =>
    rw [if_neg (by simp), bracket, List.map_cons, ← printTail_spec]
    simp [printList]

/-- C91: an array is printed like the list of its elements. -/
theorem C91_array {T : Type} (pe : T → Bytes) (a : List T) : printArray pe a = .ok (printList pe a) := by
  rw [C91_list, printArray]
  by_cases h : a = []
  · subst h; rfl
  · have hl : a.length ≠ 0 := by simpa using h
    rw [if_neg hl, if_neg h]
    obtain ⟨r, x, h1, h2, h3⟩ := printFrom_spec pe a (a.length - 1) 0 (by omega)
    rw [h1, Res.ok_bind]
    rw [show rd a (a.length - 1) = .ok x by rw [rd, h2]; rfl, Res.ok_bind, bracket, ← show a.drop 0 = a from rfl, ← h3]
    simp [List.append_assoc]

/-- C91: printing an iterator over a map shows each key present once, and ends. -/
theorem C91_iterator {h : HashMap K V} {s : Spec K V} (b : Built hash h s) (pk : K → Bytes) (fuel : Nat)
    (hf : h.N < fuel) :
    ∃ it ks, Iter.new h.a = .ok it ∧ Enumerates ks (fun x => (s.val x).isSome = true) ∧
      it.print (fun e => pk e.key) fuel = .ok (bracket (b!"[ ") (b!" ]") (ks.map pk)) := by
  obtain ⟨w, -, -⟩ := HashMapProps.built_inv b
  have hne : 0 < h.a.length := by rw [w.len]; exact w.pos
  have hr : (⟨h.a, 0, h.a[0]⟩ : Iter (Entry K V)).rest = h.a.flatten := by
    show h.a[0] ++ (h.a.drop (0 + 1)).flatten = _
    rw [← List.flatten_cons, List.getElem_cons_drop, List.drop_zero]
  refine ⟨⟨h.a, 0, h.a[0]⟩, h.generate, by rw [Iter.new, rd_ok hne]; rfl, HashMapProps.wf_enum b, ?_⟩
  rw [Iter.print, printLoop_spec _ _ _ _ (fun hle => absurd hle (by simp only; omega))
    (by rw [hr]; have := w.size; simp only [HashMap.N] at hf; omega), hr]
  simp [bracket, HashMap.generate, List.map_map, Function.comp_def]

/-- The words of a text are determined by it as soon as no word contains a comma; e.g. for numbers. -/
example : bracket (b!"{ ") (b!" }") [(b!"0->7"), (b!"1->8")] = b!"{ 0->7, 1->8 }" := rfl

example : printArray (fun n : Nat => if n = 0 then b!"a" else b!"b") [0, 1, 1] = .ok (b!"[ a, b, b ]") := rfl

end C91

end Lolly.IterationProps
