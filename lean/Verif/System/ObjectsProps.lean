import Verif.System.Objects
import Verif.System.AllocProps

set_option autoImplicit false

/-! # C142: objects made by tm_new live once, and their memory comes back -/

namespace Lolly.ObjectsProps

open Lolly.Objects
open Lolly.Alloc (SBlk sstep srun foot LibOks Calms Sound memUsed)

/-! ## Specification -/

/-- What happened to the elements of block `b`, in order. -/
def hist (s : S) (b : Nat) : List (Nat × What) := (s.ev.filter fun e => e.b == b).map fun e => (e.i, e.what)

/-- Elements 0, 1, ..., `n - 1` are constructed one after the other. -/
def built (n : Nat) : List (Nat × What) := (List.range n).flatMap fun i => [(i, .begins), (i, .made)]

/-- Elements `n - 1`, ..., 1, 0 are destroyed one after the other. -/
def torn (n : Nat) : List (Nat × What) := (List.range n).reverse.flatMap fun i => [(i, .ends), (i, .destroyed)]

/-- The life of a block when nothing is under way: it is alive with all its elements constructed once; or all were
destroyed once, in the opposite order, and then the memory was given back; or the constructor of one element failed. -/
def Life (k : Block) (h : List (Nat × What)) : Prop :=
  (k.st = .alive ∧ h = built k.n) ∨ (k.st = .gone ∧ h = built k.n ++ torn k.n) ∨
  (k.st = .lost ∧ ∃ m, m < k.n ∧ h = built m ++ [(m, .begins), (m, .failed)])

/-- The number of bytes that a block was asked for. -/
def size (k : Block) : Nat := if k.isArr then k.n * k.sz + 8 else k.sz

/-- The memory that a block uses: a multiple of eight, with a word for the size before a single object. -/
def used (k : Block) : Nat := (size k + (if k.isArr then 0 else 8) + 7) / 8 * 8

def Fits (s : S) : Prop := ∀ k ∈ s.blocks, k.n * k.sz < 2 ^ 62 ∧ k.sz < 2 ^ 62

/-! ## Lemmas -/

def toS (k : Block) : SBlk := ⟨!k.isArr, List.replicate (size k) none⟩

structure Inv (s : S) : Prop where
  fresh : ∀ b, s.blocks.length ≤ b → hist s b = []
  ops : Fits s → srun [] s.ops = some ((kept s.blocks).map toS)
  plain : ∀ op ∈ s.ops, ∀ k n o o2, op ≠ .realloc k n o o2

/-- What a part of a program does to the blocks `b` with `P b`. -/
structure Fr (P : Nat → Prop) (s s' : S) : Prop where
  len : s.blocks.length ≤ s'.blocks.length
  still : ∀ (b : Nat) (k : Block), P b → s.blocks[b]? = some k → k.st ≠ .alive → s'.blocks[b]? = some k ∧ hist s' b = hist s b
  alive : ∀ (b : Nat) (k : Block), P b → s.blocks[b]? = some k → k.st = .alive → ∃ st, s'.blocks[b]? = some { k with st } ∧
    ((st = .alive ∧ hist s' b = hist s b) ∨ (st = .gone ∧ hist s' b = hist s b ++ torn k.n))
  new : ∀ (b : Nat) (k : Block), P b → s.blocks.length ≤ b → s'.blocks[b]? = some k → Life k (hist s' b)

theorem Fr.refl (P : Nat → Prop) (s : S) : Fr P s s := by
  refine ⟨Nat.le_refl _, fun b k _ h _ => ⟨h, rfl⟩, fun b k _ h a => ⟨k.st, h, .inl ⟨a, rfl⟩⟩, fun b k _ h e => ?_⟩
  rw [List.getElem?_eq_none h] at e
  cases e

theorem Fr.trans {P : Nat → Prop} {s t u : S} (h : Fr P s t) (g : Fr P t u) : Fr P s u := by
  refine ⟨Nat.le_trans h.len g.len, fun b k hb e a => ?_, fun b k hb e a => ?_, fun b k hb l e => ?_⟩
  · obtain ⟨e1, h1⟩ := h.still b k hb e a
    obtain ⟨e2, h2⟩ := g.still b k hb e1 a
    exact ⟨e2, h2.trans h1⟩
  · obtain ⟨st, e1, h1 | h1⟩ := h.alive b k hb e a
    · obtain ⟨st2, e2, h2⟩ := g.alive b _ hb e1 h1.1
      rw [h1.2] at h2
      exact ⟨st2, e2, h2⟩
    · obtain ⟨e2, h2⟩ := g.still b _ hb e1 (by show st ≠ _; rw [h1.1]; decide)
      exact ⟨st, e2, .inr ⟨h1.1, h2.trans h1.2⟩⟩
  · by_cases hl : t.blocks.length ≤ b
    · exact g.new b k hb hl e
    · obtain ⟨k0, e0⟩ : ∃ k0, t.blocks[b]? = some k0 := ⟨_, List.getElem?_eq_getElem (by omega)⟩
      have l0 := h.new b k0 hb l e0
      by_cases a : k0.st = .alive
      · obtain ⟨st, e1, h1⟩ := g.alive b k0 hb e0 a
        rw [e] at e1
        injection e1 with e1
        subst e1
        obtain l0 | l0 | l0 := l0
        · obtain h1 | h1 := h1
          · exact .inl ⟨h1.1, h1.2.trans l0.2⟩
          · exact .inr (.inl ⟨h1.1, by rw [h1.2, l0.2]⟩)
        · rw [l0.1] at a; cases a
        · rw [l0.1] at a; cases a
      · obtain ⟨e1, h1⟩ := g.still b k0 hb e0 a
        rw [e] at e1
        injection e1 with e1
        subst e1
        rw [h1]
        exact l0

theorem Fr.mono {P Q : Nat → Prop} {s t : S} (h : Fr P s t) (hq : ∀ b, Q b → P b) : Fr Q s t :=
  ⟨h.len, fun b k q => h.still b k (hq b q), fun b k q => h.alive b k (hq b q), fun b k q => h.new b k (hq b q)⟩

theorem hist_log (s : S) (b i : Nat) (w : What) (c : Nat) :
    hist (s.log b i w) c = if b = c then hist s c ++ [(i, w)] else hist s c := by
  unfold hist S.log
  by_cases h : b = c
  · simp [h]
  · simp [h, List.filter_append]

theorem inv_log {s : S} (h : Inv s) {b : Nat} (hb : b < s.blocks.length) (i : Nat) (w : What) : Inv (s.log b i w) :=
  ⟨fun c hc => by
    rw [hist_log, if_neg (by intro e; subst e; exact Nat.lt_irrefl _ (Nat.lt_of_lt_of_le hb hc))]
    exact h.fresh c hc, h.ops, h.plain⟩

theorem fr_log (s : S) (b i : Nat) (w : What) : Fr (fun c => c ≠ b) s (s.log b i w) := by
  have e : ∀ c, c ≠ b → hist (s.log b i w) c = hist s c := fun c hc => by
    rw [hist_log, if_neg (fun e => hc e.symm)]
  refine ⟨Nat.le_refl _, fun c k hc h _ => ⟨h, e c hc⟩, fun c k hc h a => ⟨k.st, h, .inl ⟨a, e c hc⟩⟩, fun c k hc h g => ?_⟩
  have g : s.blocks[c]? = some k := g
  rw [List.getElem?_eq_none h] at g
  cases g

theorem hist_setSt (s : S) (b : Nat) (st : Status) (c : Nat) : hist (s.setSt b st) c = hist s c := rfl

theorem get_setSt (s : S) (b : Nat) (st : Status) (c : Nat) :
    (s.setSt b st).blocks[c]? = if b = c then (s.blocks[c]?).map (fun k => { k with st }) else s.blocks[c]? := by
  unfold S.setSt
  simp only [List.getElem?_modify]
  by_cases h : b = c
  · simp [h]
  · simp [h]

theorem fr_setSt (s : S) (b : Nat) (st : Status) : Fr (fun c => c ≠ b) s (s.setSt b st) := by
  have e : ∀ c, c ≠ b → (s.setSt b st).blocks[c]? = s.blocks[c]? := fun c hc => by
    rw [get_setSt, if_neg (fun e => hc e.symm)]
  refine ⟨by simp [S.setSt], fun c k hc h _ => ⟨by rw [e c hc, h], rfl⟩,
    fun c k hc h a => ⟨k.st, by rw [e c hc, h], .inl ⟨a, rfl⟩⟩, fun c k hc h g => ?_⟩
  rw [e c hc, List.getElem?_eq_none h] at g
  cases g

theorem fr_of_eq {P : Nat → Prop} {s t t' : S} (h : Fr P s t) (hb : t'.blocks = t.blocks) (he : t'.ev = t.ev) : Fr P s t' := by
  have eh : ∀ c, hist t' c = hist t c := fun c => by unfold hist; rw [he]
  refine ⟨by rw [hb]; exact h.len, fun b k p e a => ?_, fun b k p e a => ?_, fun b k p l e => ?_⟩
  · rw [hb, eh]; exact h.still b k p e a
  · rw [hb, eh]; exact h.alive b k p e a
  · rw [hb] at e; rw [eh]; exact h.new b k p l e

theorem map_toS_modify (l : List Block) (b : Nat) (st : Status) (hst : st ≠ .gone) (hb : ∀ k, l[b]? = some k → k.st ≠ .gone) :
    (kept (l.modify b fun k => { k with st })).map toS = (kept l).map toS := by
  induction l generalizing b with
  | nil => simp [kept]
  | cons k l ih =>
    cases b with
    | zero =>
      have := hb k (by simp)
      simp [kept, this, hst, toS]; rfl
    | succ b =>
      have := ih b (fun k' h => hb k' (by simpa using h))
      simp only [kept] at this
      by_cases hk : k.st = .gone
      · simpa [kept, hk] using this
      · simpa [kept, hk] using this

theorem map_toS_gone (l : List Block) (b : Nat) (k : Block) (hb : l[b]? = some k) (hk : k.st ≠ .gone) :
    (kept (l.modify b fun k => { k with st := .gone })).map toS =
      ((kept l).map toS).eraseIdx (kept (l.take b)).length ∧
    ((kept l).map toS)[(kept (l.take b)).length]? = some (toS k) := by
  induction l generalizing b with
  | nil => simp at hb
  | cons k' l ih =>
    cases b with
    | zero =>
      have : k' = k := by simpa using hb
      subst this
      simp [kept, hk]
    | succ b =>
      have := ih b (by simpa using hb)
      simp only [kept] at this
      by_cases hk' : k'.st = .gone
      · simpa [kept, hk'] using this
      · simpa [kept, hk'] using this

theorem fits_of_modify {s t : S} {b : Nat} {st : Status} (h : Fits t) (e : t.blocks = s.blocks.modify b fun k => { k with st }) :
    Fits s := by
  intro k hk
  obtain ⟨i, hi, rfl⟩ := List.mem_iff_getElem.1 hk
  have := h ((t.blocks)[i]'(by rw [e]; simpa using hi)) (List.getElem_mem _)
  simp only [e, List.getElem_modify] at this
  split at this <;> exact this

theorem inv_setSt {s : S} (h : Inv s) (b : Nat) (st : Status) (hst : st ≠ .gone) (hb : ∀ k, s.blocks[b]? = some k → k.st ≠ .gone) :
    Inv (s.setSt b st) := by
  refine ⟨fun c hc => ?_, fun hf => ?_, h.plain⟩
  · rw [hist_setSt]
    exact h.fresh c (by simpa [S.setSt] using hc)
  · have := h.ops (fits_of_modify hf rfl)
    show srun [] s.ops = _
    rw [this]
    unfold S.setSt
    simp only
    rw [map_toS_modify _ _ _ hst hb]

theorem srun_append (l : List SBlk) (a b : List Alloc.Op) : srun l (a ++ b) = (srun l a).bind fun l' => srun l' b := by
  induction a generalizing l with
  | nil => rfl
  | cons x a ih =>
    simp only [List.cons_append, srun]
    cases sstep l x with
    | none => rfl
    | some l' => exact ih l'

theorem built_succ (n : Nat) : built (n + 1) = built n ++ [(n, .begins), (n, .made)] := by
  simp [built, List.range_succ]

theorem torn_succ (n : Nat) : torn (n + 1) = [(n, .ends), (n, .destroyed)] ++ torn n := by
  simp [torn, List.range_succ]

/-- What all parts of programs do. -/
def Ok (f : S → Res (Out × S)) : Prop := ∀ s o s', Inv s → f s = .ok (o, s') → Inv s' ∧ Fr (fun _ => True) s s'

theorem lt_of_some {l : List Block} {b : Nat} {k : Block} (h : l[b]? = some k) : b < l.length := by
  obtain ⟨h, -⟩ := List.getElem?_eq_some_iff.1 h
  exact h

theorem construct_ok {body : Nat → S → Res (Out × S)} (hb : ∀ i, Ok (body i)) (b : Nat) (blk : Block) (hst : blk.st = .making) :
    ∀ (k i : Nat) (s : S) (o : Out) (s' : S), Inv s → s.blocks[b]? = some blk → hist s b = built i →
      construct body b k i s = .ok (o, s') →
      Inv s' ∧ Fr (fun c => c ≠ b) s s' ∧ s'.blocks[b]? = some blk ∧
        (o = .normal → hist s' b = built (i + k)) ∧
        (o = .exc → ∃ m, m < i + k ∧ hist s' b = built m ++ [(m, .begins), (m, .failed)]) := by
  intro k
  induction k with
  | zero =>
    intro i s o s' hi he hh h
    injection h with h
    injection h with h1 h2
    subst h1 h2
    exact ⟨hi, Fr.refl _ _, he, fun _ => hh, fun h => by cases h⟩
  | succ k ih =>
    intro i s o s' hi he hh h
    rw [construct] at h
    obtain ⟨⟨o1, s1⟩, e1, h⟩ := Res.bind_eq_ok.1 h
    have i0 := inv_log hi (lt_of_some he) i .begins
    obtain ⟨i1, f1⟩ := hb i _ _ _ i0 e1
    obtain ⟨e2, h2⟩ := f1.still b blk trivial he (by rw [hst]; decide)
    rw [hist_log, if_pos rfl, hh] at h2
    have f01 := (fr_log s b i .begins).trans (f1.mono fun _ _ => trivial)
    cases o1 with
    | exc =>
      injection h with h
      injection h with h3 h4
      subst h3 h4
      refine ⟨inv_log i1 (lt_of_some e2) i .failed, f01.trans (fr_log _ _ _ _), e2, (fun h => by cases h), fun _ => ⟨i, by omega, ?_⟩⟩
      rw [hist_log, if_pos rfl, h2]
      simp
    | normal =>
      have hh2 : hist (s1.log b i .made) b = built (i + 1) := by
        rw [hist_log, if_pos rfl, h2, built_succ]
        simp
      obtain ⟨j1, j2, j3, j4, j5⟩ := ih (i + 1) _ _ _ (inv_log i1 (lt_of_some e2) i .made) e2 hh2 h
      rw [show i + 1 + k = i + (k + 1) by omega] at j4 j5
      exact ⟨j1, (f01.trans (fr_log _ _ _ _)).trans j2, j3, j4, j5⟩

theorem destroy_ok {body : Nat → S → Res (Out × S)} (hb : ∀ i, Ok (body i)) (b : Nat) (blk : Block) (hst : blk.st = .dying) :
    ∀ (k : Nat) (s s' : S), Inv s → s.blocks[b]? = some blk → destroy body b k s = .ok s' →
      Inv s' ∧ Fr (fun c => c ≠ b) s s' ∧ s'.blocks[b]? = some blk ∧ hist s' b = hist s b ++ torn k := by
  intro k
  induction k with
  | zero =>
    intro s s' hi he h
    injection h with h
    subst h
    exact ⟨hi, Fr.refl _ _, he, by simp [torn]⟩
  | succ k ih =>
    intro s s' hi he h
    rw [destroy] at h
    obtain ⟨⟨o1, s1⟩, e1, h⟩ := Res.bind_eq_ok.1 h
    have i0 := inv_log hi (lt_of_some he) k .ends
    obtain ⟨i1, f1⟩ := hb k _ _ _ i0 e1
    obtain ⟨e2, h2⟩ := f1.still b blk trivial he (by rw [hst]; decide)
    rw [hist_log, if_pos rfl] at h2
    cases o1 with
    | exc => cases h
    | normal =>
      obtain ⟨j1, j2, j3, j4⟩ := ih _ _ (inv_log i1 (lt_of_some e2) k .destroyed) e2 h
      refine ⟨j1, (((fr_log s b k .ends).trans (f1.mono fun _ _ => trivial)).trans (fr_log _ _ _ _)).trans j2, j3, ?_⟩
      rw [j4, hist_log, if_pos rfl, h2, torn_succ]
      simp

theorem create_ok {ctor : Nat → S → Res (Out × S)} (hb : ∀ i, Ok (ctor i)) (isArr : Bool) (x n sz : Nat) (o : Alloc.Ora)
    (hn : isArr = false → n = 1) : Ok (create isArr x n sz o ctor) := by
  intro s out s' hi h
  unfold create at h
  obtain ⟨⟨o1, s1⟩, e1, h⟩ := Res.bind_eq_ok.1 h
  generalize hs0 : ({ s with
      blocks := s.blocks ++ [⟨isArr, n, sz, .making⟩]
      ops := s.ops ++ [if isArr then .alloc (n * sz + 8) o else .new sz o] } : S) = s0 at e1
  have b0 : s0.blocks = s.blocks ++ [⟨isArr, n, sz, .making⟩] := by rw [← hs0]
  have v0 : s0.ev = s.ev := by rw [← hs0]
  have o0 : s0.ops = s.ops ++ [if isArr then .alloc (n * sz + 8) o else .new sz o] := by rw [← hs0]
  have eh : ∀ c, hist s0 c = hist s c := fun c => by unfold hist; rw [v0]
  have g0 : s0.blocks[s.blocks.length]? = some ⟨isArr, n, sz, .making⟩ := by rw [b0]; simp
  have i0 : Inv s0 := by
    refine ⟨fun c hc => ?_, fun hf => ?_, fun op hop k m o1 o2 => ?_⟩
    case refine_3 =>
      rw [o0, List.mem_append, List.mem_singleton] at hop
      obtain hop | rfl := hop
      · exact hi.plain op hop k m o1 o2
      · split <;> simp
    · rw [eh]
      exact hi.fresh c (by rw [b0] at hc; simp at hc; omega)
    · have hf' : Fits s := fun k hk => hf k (by rw [b0]; exact List.mem_append_left _ hk)
      obtain ⟨hk1, hk2⟩ := hf ⟨isArr, n, sz, .making⟩ (by rw [b0]; simp)
      simp only at hk1 hk2
      rw [o0, srun_append, hi.ops hf', Option.bind_some, b0]
      have hp : (2 : Nat) ^ 62 + 15 < 2 ^ 64 := by decide
      cases isArr with
      | true =>
        simp only [if_true, srun, sstep]
        rw [if_pos (by omega)]
        simp [kept, toS, size]
      | false =>
        simp only [Bool.false_eq_true, if_false, srun, sstep]
        rw [if_pos (by omega)]
        simp [kept, toS, size]
  have f0 : Fr (fun c => c ≠ s.blocks.length) s s0 := by
    have e : ∀ c, c ≠ s.blocks.length → s0.blocks[c]? = s.blocks[c]? := fun c hc => by
      rw [b0, List.getElem?_append]
      split
      · rfl
      · rename_i hl
        rw [List.getElem?_eq_none (by simp only [List.length_singleton]; omega), List.getElem?_eq_none (by omega)]
    refine ⟨by rw [b0]; simp, fun c k hc h _ => ⟨by rw [e c hc, h], eh c⟩,
      fun c k hc h a => ⟨k.st, by rw [e c hc, h], .inl ⟨a, eh c⟩⟩, fun c k hc h g => ?_⟩
    rw [e c hc, List.getElem?_eq_none h] at g
    cases g
  obtain ⟨j1, j2, j3, j4, j5⟩ := construct_ok hb s.blocks.length _ rfl n 0 s0 o1 s1 i0 g0
    (by rw [eh, hi.fresh _ (Nat.le_refl _)]; rfl) e1
  have fin : ∀ (st : Status) (s2 : S), s2.blocks = (s1.setSt s.blocks.length st).blocks → s2.ev = s1.ev →
      Life ⟨isArr, n, sz, st⟩ (hist s1 s.blocks.length) → Fr (fun _ => True) s s2 := by
    intro st s2 hb2 he2 hl
    have f := fr_of_eq ((f0.trans j2).trans (fr_setSt s1 s.blocks.length st)) hb2 he2
    have eh2 : ∀ c, hist s2 c = hist s1 c := fun c => by unfold hist; rw [he2]
    refine ⟨f.len, fun c k _ e a => f.still c k (Nat.ne_of_lt (lt_of_some e)) e a,
      fun c k _ e a => f.alive c k (Nat.ne_of_lt (lt_of_some e)) e a, fun c k _ l e => ?_⟩
    by_cases hc : c = s.blocks.length
    · subst hc
      rw [hb2, get_setSt, if_pos rfl, j3] at e
      injection e with e
      subst e
      rw [eh2]
      exact hl
    · exact f.new c k hc l e
  have ng : ∀ k, s1.blocks[s.blocks.length]? = some k → k.st ≠ .gone := by
    intro k hk
    rw [j3] at hk
    injection hk with hk
    subst hk
    simp
  cases o1 with
  | exc =>
    injection h with h
    injection h with h1 h2
    subst h1 h2
    refine ⟨inv_setSt j1 _ _ (by decide) ng, fin .lost _ rfl rfl ?_⟩
    obtain ⟨m, hm, hh⟩ := j5 rfl
    exact .inr (.inr ⟨rfl, m, by simpa using hm, hh⟩)
  | normal =>
    injection h with h
    injection h with h1 h2
    subst h1 h2
    have iv := inv_setSt j1 s.blocks.length .alive (by decide) ng
    refine ⟨⟨iv.fresh, iv.ops, iv.plain⟩, fin .alive _ rfl rfl (.inl ⟨rfl, ?_⟩)⟩
    have := j4 rfl
    rw [Nat.zero_add] at this
    exact this

theorem giveBack_ok {dtor : Nat → S → Res (Out × S)} (hb : ∀ i, Ok (dtor i)) (isArr : Bool) (x : Nat) (o : Alloc.Ora) (s s' : S)
    (hi : Inv s) (h : giveBack isArr x o dtor s = .ok s') : Inv s' ∧ Fr (fun _ => True) s s' := by
  unfold giveBack at h
  split at h
  · cases h
  · rename_i b _
    split at h
    · cases h
    · rename_i k ek
      split at h
      · rename_i hk
        obtain ⟨s2, e2, h⟩ := Res.bind_eq_ok.1 h
        have i1 : Inv (s.setSt b .dying) := inv_setSt hi _ _ (by decide) (fun k' hk' => by
          rw [ek] at hk'; injection hk' with hk'; subst hk'; rw [hk.2]; decide)
        have g1 : (s.setSt b .dying).blocks[b]? = some { k with st := .dying } := by
          rw [get_setSt, if_pos rfl, ek]; rfl
        obtain ⟨j1, j2, j3, j4⟩ := destroy_ok hb b _ rfl k.n _ _ i1 g1 e2
        rw [hist_setSt] at j4
        injection h with h
        subst h
        have f := fr_of_eq (t' := { s2.setSt b .gone with ops := s2.ops ++
            [if isArr then .free (place s2 b) o else .del (place s2 b) o] })
          (((fr_setSt s b .dying).trans j2).trans (fr_setSt s2 b .gone)) rfl rfl
        have gb : (s2.setSt b .gone).blocks[b]? = some { k with st := .gone } := by
          rw [get_setSt, if_pos rfl, j3]; rfl
        refine ⟨⟨fun c hc => ?_, fun hf => ?_, fun op hop m1 m2 m3 m4 => ?_⟩, ⟨f.len, fun c k' _ e a => ?_, fun c k' _ e a => ?_, fun c k' _ l e => ?_⟩⟩
        · have hc : s2.blocks.length ≤ c := by simpa [S.setSt] using hc
          exact j1.fresh c hc
        · have hf2 : Fits s2 := fits_of_modify hf rfl
          obtain ⟨m1, m2⟩ := map_toS_gone s2.blocks b _ j3 (by simp)
          show srun [] (s2.ops ++ _) = _
          rw [srun_append, j1.ops hf2, Option.bind_some]
          show _ = some ((kept (s2.blocks.modify b fun k => { k with st := .gone })).map toS)
          rw [m1]
          cases isArr with
          | true =>
            simp only [if_true, srun, sstep, place, m2]
            simp [toS, hk.1]
          | false =>
            simp only [Bool.false_eq_true, if_false, srun, sstep, place, m2]
            simp [toS, hk.1]
        · have hop : op ∈ s2.ops ++ _ := hop
          rw [List.mem_append, List.mem_singleton] at hop
          obtain hop | rfl := hop
          · exact j1.plain op hop _ _ _ _
          · split <;> simp
        · refine f.still c k' ?_ e a
          rintro rfl
          rw [ek] at e
          injection e with e
          subst e
          exact a hk.2
        · by_cases hc : c = b
          · subst hc
            rw [ek] at e
            injection e with e
            subst e
            exact ⟨.gone, gb, .inr ⟨rfl, j4⟩⟩
          · exact f.alive c k' hc e a
        · exact f.new c k' (fun hc => by subst hc; have := lt_of_some ek; omega) l e
      · cases h

theorem exec_ok (c : Cmd) : Ok (exec c) := by
  have seq : ∀ {f g : S → Res (Out × S)}, Ok f → Ok g → Ok (fun s => (f s).bind (andThen g)) := by
    intro f g hf hg s o s' hi h
    obtain ⟨⟨o1, s1⟩, e1, h⟩ := Res.bind_eq_ok.1 h
    obtain ⟨i1, f1⟩ := hf _ _ _ hi e1
    cases o1 with
    | exc =>
      injection h with h
      injection h with _ h
      subst h
      exact ⟨i1, f1⟩
    | normal =>
      obtain ⟨i2, f2⟩ := hg _ _ _ i1 h
      exact ⟨i2, f1.trans f2⟩
  induction c with
  | done | throw =>
    intro s o s' hi h
    injection h with h
    injection h with _ h
    subst h
    exact ⟨hi, Fr.refl _ _⟩
  | new x sz o ctor rest ih1 ih2 => exact seq (create_ok (fun _ => ih1) false x 1 sz o (fun _ => rfl)) ih2
  | newArray x n sz o ctor rest ih1 ih2 => exact seq (create_ok ih1 true x n sz o (fun h => by cases h)) ih2
  | del x o dtor rest ih1 ih2 =>
    intro s out s' hi h
    obtain ⟨s1, e1, h⟩ := Res.bind_eq_ok.1 h
    obtain ⟨i1, f1⟩ := giveBack_ok (fun _ => ih1) _ _ _ _ _ hi e1
    obtain ⟨i2, f2⟩ := ih2 _ _ _ i1 h
    exact ⟨i2, f1.trans f2⟩
  | delArray x o dtor rest ih1 ih2 =>
    intro s out s' hi h
    obtain ⟨s1, e1, h⟩ := Res.bind_eq_ok.1 h
    obtain ⟨i1, f1⟩ := giveBack_ok ih1 _ _ _ _ _ hi e1
    obtain ⟨i2, f2⟩ := ih2 _ _ _ i1 h
    exact ⟨i2, f1.trans f2⟩
  | copy x y rest ih =>
    intro s o s' hi h
    obtain ⟨i2, f2⟩ := ih (s.setVar x (s.vars y)) o s' ⟨hi.fresh, hi.ops, hi.plain⟩ h
    exact ⟨i2, Fr.trans (t := s.setVar x (s.vars y)) (fr_of_eq (Fr.refl _ s) rfl rfl) f2⟩
  | forget x rest ih =>
    intro s o s' hi h
    obtain ⟨i2, f2⟩ := ih (s.setVar x none) o s' ⟨hi.fresh, hi.ops, hi.plain⟩ h
    exact ⟨i2, Fr.trans (t := s.setVar x none) (fr_of_eq (Fr.refl _ s) rfl rfl) f2⟩
  | attempt body handler rest ih1 ih2 ih3 =>
    refine seq (f := fun s => (exec body s).bind (orElse (exec handler))) ?_ ih3
    intro s o s' hi h
    obtain ⟨⟨o1, s1⟩, e1, h⟩ := Res.bind_eq_ok.1 h
    obtain ⟨i1, f1⟩ := ih1 _ _ _ hi e1
    cases o1 with
    | normal =>
      injection h with h
      injection h with _ h
      subst h
      exact ⟨i1, f1⟩
    | exc =>
      obtain ⟨i2, f2⟩ := ih2 _ _ _ i1 h
      exact ⟨i2, f1.trans f2⟩

theorem inv_init : Inv init := ⟨fun _ _ => rfl, fun _ => rfl, fun _ h => by cases h⟩

/-! ## C142 -/

/-- **C142, lives.** However a program ends and whatever constructors, destructors and handlers do: every element of
every block was constructed at most once and in order; a block whose memory was given back had all its elements
destroyed before, each once, in the opposite order; and no element is destroyed otherwise. -/
theorem C142_lives (c : Cmd) (o : Out) (s : S) (h : exec c init = .ok (o, s)) (b : Nat) (k : Block) (hk : s.blocks[b]? = some k) :
    Life k (hist s b) :=
  (exec_ok c _ _ _ inv_init h).2.new b k trivial (Nat.zero_le _) hk

/-- The calls of the allocator are legal, the blocks that were not given back are its live blocks. -/
theorem run_ok {c : Cmd} {o : Out} {s : S} (h : exec c init = .ok (o, s)) (hf : Fits s) :
    srun [] s.ops = some ((kept s.blocks).map toS) :=
  (exec_ok c _ _ _ inv_init h).1.ops hf

/-- **C142, memory.** The blocks that were not given back have the sizes of their objects, lie in memory obtained from the
system, are aligned and share no byte; nothing undefined happens in the allocator. -/
theorem C142_blocks (mem : Nat → UInt8) (c : Cmd) (o : Out) (s : S) (h : exec c init = .ok (o, s)) (hf : Fits s)
    (hl : LibOks (AllocProps.start mem) s.ops) :
    ∃ P, Alloc.run (AllocProps.start mem) s.ops = .ok P ∧
      P.live.map (fun b => (b.isNew, b.req)) = (kept s.blocks).map (fun k => (!k.isArr, size k)) ∧
      (∀ b ∈ P.live, (0 < b.addr ∧ b.addr % 8 = 0) ∧ ∃ r ∈ P.w.heap, r.1 ≤ b.addr ∧ b.addr + b.req ≤ r.1 + r.2) ∧
      (∀ (i j : Nat) (a b : Alloc.Blk), i ≠ j → P.live[i]? = some a → P.live[j]? = some b →
        ∀ x, a.addr ≤ x → x < a.addr + a.req → ¬ (b.addr ≤ x ∧ x < b.addr + b.req)) := by
  obtain ⟨P, e, hs⟩ := AllocProps.C52_blocks mem s.ops _ (run_ok h hf) hl
  refine ⟨P, e, ?_, fun b hb => ⟨hs.aligned b hb, hs.inside b hb⟩, hs.disjoint⟩
  apply List.ext_getElem?
  intro i
  have hn := hs.number
  rw [List.length_map] at hn
  simp only [List.getElem?_map]
  cases hp : P.live[i]? with
  | none =>
    rw [List.getElem?_eq_none_iff] at hp
    rw [List.getElem?_eq_none (by omega)]
    rfl
  | some b =>
    obtain ⟨hi, -⟩ := List.getElem?_eq_some_iff.1 hp
    have hk : (kept s.blocks)[i]? = some (kept s.blocks)[i] := List.getElem?_eq_getElem (by omega)
    obtain ⟨h1, h2⟩ := hs.size i b _ hp (by rw [List.getElem?_map, hk]; rfl)
    rw [hk]
    simp only [Option.map_some, h1, h2, toS, List.length_replicate]

theorem sum_used (l : List Block) : ((l.map toS).map foot).sum = (l.map used).sum := by
  induction l with
  | nil => rfl
  | cons k l ih =>
    simp only [List.map_cons, List.sum_cons, ih]
    congr 1
    simp only [foot, toS, used, List.length_replicate]
    by_cases h : k.isArr = true <;> simp [h]

theorem calms_plain (l : List SBlk) (ops : List Alloc.Op) (h : ∀ op ∈ ops, ∀ k n o o2, op ≠ .realloc k n o o2) :
    Calms l ops := by
  induction ops generalizing l with
  | nil => trivial
  | cons op ops ih =>
    refine ⟨?_, fun l' _ => ih l' fun op' h' => h op' (List.mem_cons_of_mem _ h')⟩
    have := h op (by simp)
    cases op with
    | realloc k n o o2 => exact absurd rfl (this k n o o2)
    | _ => trivial

/-- **C142, what is used.** `mem_used` is exactly the sum of what the blocks use that were not given back: those that are
alive and those left over by constructors that failed. -/
theorem C142_used (mem : Nat → UInt8) (c : Cmd) (o : Out) (s : S) (h : exec c init = .ok (o, s)) (hf : Fits s)
    (hl : LibOks (AllocProps.start mem) s.ops) :
    ∃ P, Alloc.run (AllocProps.start mem) s.ops = .ok P ∧ (65536 * P.w.chunks ≤ 2147483647 →
      ((s.blocks.filter fun k => k.st = .alive ∨ k.st = .lost).map used).sum ≤ 2147483647 →
      ∃ f0, ∀ f, f0 ≤ f →
        memUsed P.w f = .ok (((s.blocks.filter fun k => k.st = .alive ∨ k.st = .lost).map used).sum : Nat)) := by
  have ok := exec_ok c _ _ _ inv_init h
  obtain ⟨P, e, hm⟩ := AllocProps.C54_partial mem s.ops _ (run_ok h hf) hl (calms_plain _ _ ok.1.plain)
  have hk : kept s.blocks = s.blocks.filter fun k => k.st = .alive ∨ k.st = .lost := by
    apply List.filter_congr
    intro k hk
    obtain ⟨b, hb, rfl⟩ := List.mem_iff_getElem.1 hk
    obtain h1 | h1 | h1 := C142_lives c o s h b _ (List.getElem?_eq_getElem hb) <;> simp [h1.1]
  rw [sum_used, hk] at hm
  exact ⟨P, e, hm⟩

/-- **C142, the part that holds.** If no constructor failed and everything that was made was deleted, all memory has come
back: `mem_used` is what it was at the start. Missing: constructors that fail (`C142_violated`). -/
theorem C142_no_leak_partial (mem : Nat → UInt8) (c : Cmd) (o : Out) (s : S) (h : exec c init = .ok (o, s)) (hf : Fits s)
    (hl : LibOks (AllocProps.start mem) s.ops) (hfail : ∀ e ∈ s.ev, e.what ≠ .failed) (hdel : ∀ k ∈ s.blocks, k.st ≠ .alive) :
    ∃ P, Alloc.run (AllocProps.start mem) s.ops = .ok P ∧ (65536 * P.w.chunks ≤ 2147483647 →
      ∃ f0, ∀ f, f0 ≤ f → memUsed P.w f = .ok 0) := by
  obtain ⟨P, e, hm⟩ := C142_used mem c o s h hf hl
  have hk : (s.blocks.filter fun k => k.st = .alive ∨ k.st = .lost) = [] := by
    apply List.filter_eq_nil_iff.2
    intro k hk
    have hk' := hk
    obtain ⟨b, hb, rfl⟩ := List.mem_iff_getElem.1 hk
    obtain h1 | h1 | h1 := C142_lives c o s h b _ (List.getElem?_eq_getElem hb)
    · exact absurd h1.1 (hdel _ hk')
    · simp [h1.1]
    · obtain ⟨-, m, -, h2⟩ := h1
      have : (m, What.failed) ∈ hist s b := by rw [h2]; simp
      unfold hist at this
      obtain ⟨ev, hev, heq⟩ := List.mem_map.1 this
      injection heq with _ h3
      exact absurd h3 (hfail ev (List.mem_filter.1 hev).1)
  rw [hk] at hm
  exact ⟨P, e, fun h1 => hm h1 (by simp)⟩

/-- **C142 does not hold** for a constructor that throws: the exception is caught, no pointer is left and nothing is
alive, but the memory of the object (16 bytes and a word for the size) stays in use. -/
theorem C142_violated :
    ∃ (o : Alloc.Ora) (s : S) (P : Alloc.Prog), exec (.attempt (.new 0 16 o .throw .done) .done .done) init = .ok (.normal, s) ∧
      s.vars 0 = none ∧ (∀ k ∈ s.blocks, k.st ≠ .alive) ∧ Alloc.run (AllocProps.start fun _ => 0) s.ops = .ok P ∧
      memUsed P.w 2 = .ok 24 :=
  ⟨⟨8, fun _ => 0⟩, _, _, rfl, rfl, by decide, rfl, by decide⟩

/-- ... and of an array the elements that were made before are never destroyed. -/
theorem C142_array_violated (o : Alloc.Ora) :
    ∃ s : S, exec (.attempt (.newArray 0 3 16 o (fun i => if i = 1 then .throw else .done) .done) .done .done) init =
        .ok (.normal, s) ∧ s.vars 0 = none ∧ hist s 0 = [(0, .begins), (0, .made), (1, .begins), (1, .failed)] ∧
      (∀ k ∈ s.blocks, k.st ≠ .alive) :=
  ⟨_, rfl, rfl, rfl, by simp [S.setSt, S.log, init]⟩

/-! ## A case -/

/-- An object whose constructor makes an array and whose destructor deletes it; the constructor of another object throws
after it has made one, which is deleted by the handler. -/
def sample : Cmd :=
  let o : Alloc.Ora := ⟨65536, fun _ => 1⟩
  let o2 : Alloc.Ora := ⟨1048576, fun _ => 3⟩
  .new 0 24 o (.newArray 1 3 40 o2 (fun _ => .done) .done) <|
  .attempt (.new 2 300 ⟨16, fun _ => 3⟩ (.new 3 8 o2 .done .throw) .done) (.del 3 o .done .done) <|
  .copy 4 0 <|
  .del 4 o (.delArray 1 o (fun _ => .done) .done) .done

/-- The hypotheses of the theorems hold for it: it runs, all sizes fit, and the system has memory. -/
example : ∃ s, exec sample init = .ok (.normal, s) ∧ Fits s ∧ LibOks (AllocProps.start fun _ => 0) s.ops ∧
    s.blocks.map (·.st) = [.gone, .gone, .lost, .gone] ∧
    hist s 1 = [(0, .begins), (0, .made), (1, .begins), (1, .made), (2, .begins), (2, .made),
      (2, .ends), (2, .destroyed), (1, .ends), (1, .destroyed), (0, .ends), (0, .destroyed)] := by
  refine ⟨_, rfl, by unfold Fits; decide, ?_, by decide, by decide⟩
  repeat' first
    | exact trivial
    | refine AllocProps.libOks_cons rfl (by decide) ?_

/-- Deleting twice, deleting nothing and deleting an array as an object are mistakes. -/
example (o : Alloc.Ora) : exec (.new 0 8 o .done (.copy 1 0 (.del 0 o .done (.del 1 o .done .done)))) init = .ub := rfl
example (o : Alloc.Ora) : exec (.del 0 o .done .done) init = .ub := rfl
example (o : Alloc.Ora) : exec (.newArray 0 2 8 o (fun _ => .done) (.del 0 o .done .done)) init = .ub := rfl

end Lolly.ObjectsProps
