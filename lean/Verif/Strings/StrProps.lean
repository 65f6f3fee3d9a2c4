import Verif.Strings.StrLemmas

/-!
# Properties C14 (string buffers) and C15 (string order, equality and hash)
-/

set_option autoImplicit false

namespace Lolly.StrProps

open Str

/-- The string can be read as the byte sequence `l`: `N (s)` is its length, and every `s[i]` with
`0 <= i < N (s)` is a legal access that gives its `i`-th byte. -/
def Shows (a : Str) (l : Bytes) : Prop :=
  a.n = l.length ∧ ∀ i (h : i < l.length), a.get i = .ok l[i]

/-- All strings of a heap, in order. -/
def ShowsAll (hp : List Str) (L : List Bytes) : Prop :=
  hp.length = L.length ∧
    ∀ (i : Nat) a l, hp[i]? = some a → L[i]? = some l → Shows a l

/-- Client commands on a heap of strings, named by their position. Copying a handle gives the same
position, so two variables may stand for one string. -/
inductive Cmd
  | new (n : Nat)
  | ofBytes (l : Bytes)
  | ofChar (c : UInt8)
  | ofCharN (c : UInt8) (n : Nat)
  | resize (i m : Nat)
  | push (i : Nat) (c : UInt8)
  | put (i j : Nat) (c : UInt8)
  | append (i j : Nat)
  | sub (i : Nat) (b e : Int)
  | copy (i : Nat)
  | concat (i j : Nat)

def step (hp : List Str) : Cmd → Res (List Str)
  | .new n => .ok (hp ++ [Str.new n])
  | .ofBytes l => do .ok (hp ++ [← Str.ofBytes l])
  | .ofChar c => do .ok (hp ++ [← Str.ofChar c])
  | .ofCharN c n => do .ok (hp ++ [← Str.ofCharN c n])
  | .resize i m => do wr hp i (← (← rd hp i).resize m)
  | .push i c => do wr hp i (← (← rd hp i).push c)
  | .put i j c => do wr hp i (← (← rd hp i).put j c)
  | .append i j => appendTo hp i j
  | .sub i b e => do .ok (hp ++ [← (← rd hp i).sub b e])
  | .copy i => do .ok (hp ++ [← (← rd hp i).copy])
  | .concat i j => do .ok (hp ++ [← Str.concat (← rd hp i) (← rd hp j)])

/-- The bytes at the positions `k` with `b <= k < e`. -/
def slice (l : Bytes) (b e : Int) : Bytes :=
  (l.zipIdx.filter (fun p => decide (b ≤ p.2 ∧ (p.2 : Int) < e))).map (·.1)

/-- The meaning of a command on byte sequences, together with its precondition. Note that `append` may
be given the same string twice, and `sub` any bounds. -/
inductive Effect (L : List Bytes) : Cmd → List Bytes → Prop
  | new n : Effect L (.new n) (L ++ [List.replicate n 0])
  | ofBytes l : Effect L (.ofBytes l) (L ++ [l])
  | ofChar c : Effect L (.ofChar c) (L ++ [[c]])
  | ofCharN c n : Effect L (.ofCharN c n) (L ++ [List.replicate n c])
  | resize i m l l' : L[i]? = some l → l'.length = m →
      l'.take (min l.length m) = l.take (min l.length m) → Effect L (.resize i m) (L.set i l')
  | push i c l : L[i]? = some l → Effect L (.push i c) (L.set i (l ++ [c]))
  | put i j c l : L[i]? = some l → j < l.length → Effect L (.put i j c) (L.set i (l.set j c))
  | append i j l m : L[i]? = some l → L[j]? = some m → Effect L (.append i j) (L.set i (l ++ m))
  | sub i b e l : L[i]? = some l → Effect L (.sub i b e) (L ++ [slice l b e])
  | copy i l : L[i]? = some l → Effect L (.copy i) (L ++ [l])
  | concat i j l m : L[i]? = some l → L[j]? = some m → Effect L (.concat i j) (L ++ [l ++ m])

/-- A command whose handles exist and whose index is in range. -/
def Valid (L : List Bytes) : Cmd → Prop
  | .new _ | .ofBytes _ | .ofChar _ | .ofCharN _ _ => True
  | .resize i _ | .push i _ | .sub i _ _ | .copy i => i < L.length
  | .put i j _ => ∃ l, L[i]? = some l ∧ j < l.length
  | .append i j | .concat i j => i < L.length ∧ j < L.length

/-- Heaps reached from the empty heap by valid commands, with what they stand for. -/
inductive Reach : List Str → List Bytes → Prop
  | nil : Reach [] []
  | step {hp L c hp' L'} : Reach hp L → Valid L c → Effect L c L' →
      step hp c = .ok hp' → ShowsAll hp' L' → Reach hp' L'

def Good (hp : List Str) (L : List Bytes) : Prop :=
  hp.map toList = L ∧ ∀ a ∈ hp, a.WF

theorem shows_toList {a : Str} (w : a.WF) : Shows a a.toList :=
  ⟨w.length.symm, fun i h => get_of_toList w (by simp)⟩

theorem shows_unique {a : Str} {l l' : Bytes} (h : Shows a l) (h' : Shows a l') : l = l' := by
  apply List.ext_getElem (by rw [← h.1, ← h'.1])
  intro i h1 h2
  have := (h.2 i h1).symm.trans (h'.2 i h2)
  simpa using this

theorem good_shows {hp : List Str} {L : List Bytes} (g : Good hp L) : ShowsAll hp L := by
  obtain ⟨rfl, w⟩ := g
  refine ⟨by simp, fun i a l ha hl => ?_⟩
  simp only [List.getElem?_map, ha, Option.map_some, Option.some.injEq] at hl
  rw [← hl]
  exact shows_toList (w a (List.mem_of_getElem? ha))

theorem good_set {hp : List Str} {L : List Bytes} (g : Good hp L) (i : Nat) {a : Str}
    {l : Bytes} (w : a.WF) (h : a.toList = l) : Good (hp.set i a) (L.set i l) := by
  refine ⟨?_, fun b hb => ?_⟩
  · rw [List.map_set, g.1, h]
  · rcases List.mem_or_eq_of_mem_set hb with h | rfl
    · exact g.2 b h
    · exact w

theorem good_get {hp : List Str} {L : List Bytes} (g : Good hp L) {i : Nat}
    (h : i < L.length) : ∃ a, hp[i]? = some a ∧ a.WF ∧ L[i]? = some a.toList := by
  obtain ⟨rfl, w⟩ := g
  simp only [List.length_map] at h
  exact ⟨hp[i], by simp, w _ (List.getElem_mem h), by simp [h]⟩

theorem appendTo_good {hp : List Str} {L : List Bytes} (g : Good hp L) {i j : Nat}
    (hi : i < L.length) (hj : j < L.length) :
    ∃ hp' l m, L[i]? = some l ∧ L[j]? = some m ∧ appendTo hp i j = .ok hp' ∧
      Good hp' (L.set i (l ++ m)) := by
  obtain ⟨a, ha, wa, hla⟩ := good_get g hi
  obtain ⟨b, hb, wb, hlb⟩ := good_get g hj
  obtain ⟨a1, e1, w1, n1, t1, _⟩ := Str.resize_spec wa (a.n + b.n)
  have la := wa.length
  have lb := wb.length
  have l1 := w1.length
  have hil : i < hp.length := by rw [show hp.length = L.length by rw [← g.1]; simp]; exact hi
  obtain ⟨hp', e2, a2, rfl, w2, n2, hg⟩ :=
    forUp_spec (lo := 0) (hi := b.n) (s := hp.set i a1)
      (body := fun p hp => do
        let b ← rd hp j
        let x ← b.get p
        let c ← rd hp i
        let c ← c.put (p + a.n) x
        wr hp i c)
      (fun p h => ∃ c, h = hp.set i c ∧ c.WF ∧ c.n = a.n + b.n ∧
        ∀ q, q < a.n + p → c.toList[q]? = (a.toList ++ b.toList)[q]?)
      (by omega)
      ⟨a1, rfl, w1, n1, fun q hq => by
        rw [List.getElem?_append_left (by omega)]
        have := congrArg (fun l => l[q]?) t1
        simp only [List.getElem?_take] at this
        rw [if_pos (by omega), if_pos (by omega)] at this
        exact this⟩
      (by
        rintro p h _ hp2 ⟨c, rfl, wc, nc, hc⟩
        have hcc : (hp.set i c)[i]? = some c := List.getElem?_set_self hil
        -- the source: the other string, or the old part of the same one
        obtain ⟨b', hb', x, ex, hx⟩ : ∃ b' , (hp.set i c)[j]? = some b' ∧ ∃ x, b'.get p = .ok x ∧
            b.toList[p]? = some x := by
          by_cases hij : i = j
          · subst hij
            obtain rfl : a = b := Option.some.inj (ha.symm.trans hb)
            obtain ⟨x, ex, hx⟩ := Str.get_spec wc (i := p) (by omega)
            refine ⟨c, hcc, x, ex, ?_⟩
            rw [← hx, hc p (by omega), List.getElem?_append_left (by omega)]
          · obtain ⟨x, ex, hx⟩ := Str.get_spec wb hp2
            exact ⟨b, by rw [List.getElem?_set_ne hij]; exact hb, x, ex, hx⟩
        obtain ⟨c', e', wc', nc', _, tc'⟩ := Str.put_spec wc (i := p + a.n) (by omega) x
        refine ⟨hp.set i c', ?_, c', rfl, wc', by omega, ?_⟩
        · simp only [rd_eq_ok.2 hb', Res.ok_bind, ex, rd_eq_ok.2 hcc, e']
          rw [wr_ok (by simpa using hil), List.set_set]
        · intro q hq
          rw [tc', List.getElem?_set]
          by_cases h : p + a.n = q
          · subst h
            rw [if_pos rfl, if_pos (by rw [wc.length]; omega),
              List.getElem?_append_right (by omega), show p + a.n - a.toList.length = p by omega, hx]
          · rw [if_neg h]; exact hc q (by omega))
  refine ⟨_, _, _, hla, hlb, ?_, good_set g i w2 ?_⟩
  · simp only [appendTo, rd_eq_ok.2 ha, rd_eq_ok.2 hb, Res.ok_bind, e1, wr_ok hil]
    exact e2
  · apply List.ext_getElem?
    intro q
    by_cases hq : q < a.n + b.n
    · exact hg q hq
    · have := w2.length
      rw [List.getElem?_eq_none (by omega), List.getElem?_eq_none (by simp; omega)]

theorem slice_aux (l : Bytes) (k : Nat) (b e : Int) :
    ((l.zipIdx k).filter (fun p => decide (b ≤ p.2 ∧ (p.2 : Int) < e))).map (·.1) =
      (l.take (e - k).toNat).drop (b - k).toNat := by
  induction l generalizing k with
  | nil => simp
  | cons x l ih =>
    rw [List.zipIdx_cons, List.filter_cons]
    have h2 := ih (k + 1)
    by_cases hb : b ≤ k
    · by_cases he : (k : Int) < e
      · rw [if_pos (by simp [hb, he]), List.map_cons, h2]
        rw [show (e - (k : Int)).toNat = (e - ((k + 1 : Nat) : Int)).toNat + 1 by omega,
          show (b - (k : Int)).toNat = 0 by omega,
          show (b - ((k + 1 : Nat) : Int)).toNat = 0 by omega]
        simp
      · rw [if_neg (by simp; omega), h2]
        rw [show (e - (k : Int)).toNat = 0 by omega, show (e - ((k + 1 : Nat) : Int)).toNat = 0 by omega]
        simp
    · rw [if_neg (by simp; omega), h2]
      by_cases he : (k : Int) < e
      · rw [show (e - (k : Int)).toNat = (e - ((k + 1 : Nat) : Int)).toNat + 1 by omega,
          show (b - (k : Int)).toNat = (b - ((k + 1 : Nat) : Int)).toNat + 1 by omega]
        simp
      · rw [show (e - (k : Int)).toNat = 0 by omega, show (e - ((k + 1 : Nat) : Int)).toNat = 0 by omega]
        simp

theorem slice_eq (l : Bytes) (b e : Int) : slice l b e = (l.take e.toNat).drop b.toNat := by
  have := slice_aux l 0 b e
  simpa [slice] using this

theorem sub_good {a : Str} (w : a.WF) (b e : Int) :
    ∃ r, a.sub b e = .ok r ∧ r.WF ∧ r.toList = slice a.toList b e := by
  have la := w.length
  rw [slice_eq]
  unfold Str.sub
  by_cases h : e ≤ b
  · rw [if_pos h]
    obtain ⟨w0, n0, t0⟩ := new_spec 0
    refine ⟨_, rfl, w0, ?_⟩
    rw [t0]
    apply Eq.symm
    rw [List.drop_of_length_le (by simp; omega)]; rfl
  · rw [if_neg h]
    dsimp only
    generalize hB : (max (min (a.n : Int) b) 0).toNat = B
    generalize hE : (max (min (a.n : Int) e) 0).toNat = E
    have hBE : B ≤ E := by omega
    obtain ⟨w0, n0, t0⟩ := new_spec (E - B)
    obtain ⟨r, e1, wr, _, hl⟩ := forUp_spec (lo := B) (hi := E) (s := new (E - B))
      (body := fun k r => do let x ← a.get k; r.put (k - B) x)
      (fun k c => c.WF ∧ c.n = E - B ∧ ∀ p, p < k - B → c.toList[p]? = a.toList[B + p]?)
      hBE ⟨w0, n0, by omega⟩
      (by
        intro k c hk1 hk2 ⟨wc, hn, hc⟩
        obtain ⟨x, ex, hx⟩ := get_spec w (i := k) (by omega)
        obtain ⟨c', e, wc', hn', _, ht⟩ := put_spec wc (i := k - B) (by omega) x
        refine ⟨c', by simp [ex, e], wc', hn'.trans hn, ?_⟩
        intro p hp
        rw [ht, List.getElem?_set, wc.length]
        by_cases h : k - B = p
        · subst h
          rw [if_pos rfl, if_pos (by omega), show B + (k - B) = k by omega, hx]
        · rw [if_neg h, hc p (by omega)])
    refine ⟨r, e1, wr, ?_⟩
    have lr := wr.length
    apply List.ext_getElem?
    intro p
    rw [List.getElem?_drop, List.getElem?_take]
    by_cases hp : p < E - B
    · rw [hl p hp, if_pos (by omega)]
      congr 1; omega
    · rw [List.getElem?_eq_none (by omega)]
      by_cases hq : b.toNat + p < e.toNat
      · rw [if_pos hq, List.getElem?_eq_none (by omega)]
      · rw [if_neg hq]

theorem copy_good {a : Str} (w : a.WF) :
    ∃ r, a.copy = .ok r ∧ r.WF ∧ r.toList = a.toList := by
  obtain ⟨w0, n0, t0⟩ := new_spec a.n
  have la := w.length
  obtain ⟨r, e, wr, _, _, ht⟩ := fill_spec w0 a.toList 0 (by omega)
    (body := fun i r => do let x ← a.get i; r.put i x)
    (by intro i x c h; simp [get_of_toList w h])
  refine ⟨r, ?_, wr, ?_⟩
  · rw [la] at e; exact e
  · rw [ht, t0]; simp [la]

theorem ofCharN_good (c : UInt8) (n : Nat) :
    ∃ r, ofCharN c n = .ok r ∧ r.WF ∧ r.toList = List.replicate n c := by
  obtain ⟨w0, n0, t0⟩ := new_spec n
  obtain ⟨r, e, wr, _, _, ht⟩ := fill_spec w0 (List.replicate n c) 0 (by simp; omega)
    (body := fun i r => r.put i c)
    (by intro i x s h; rw [List.eq_of_mem_replicate (List.mem_of_getElem? h)]; rfl)
  refine ⟨r, ?_, wr, ?_⟩
  · rw [List.length_replicate] at e; exact e
  · rw [ht, t0]; simp

theorem ofChar_good (c : UInt8) : ∃ r, ofChar c = .ok r ∧ r.WF ∧ r.toList = [c] := by
  obtain ⟨w0, n0, t0⟩ := new_spec 1
  obtain ⟨r, e, w, _, _, t⟩ := put_spec w0 (i := 0) (by omega) c
  exact ⟨r, e, w, by rw [t, t0]; rfl⟩

theorem step_good {hp : List Str} {L : List Bytes} (g : Good hp L) {c : Cmd}
    (v : Valid L c) : ∃ hp' L', step hp c = .ok hp' ∧ Effect L c L' ∧ Good hp' L' := by
  have hlen : hp.length = L.length := by rw [← g.1]; simp
  have happ : ∀ a l, a.WF → a.toList = l → Good (hp ++ [a]) (L ++ [l]) := by
    intro a l w h
    refine ⟨by rw [List.map_append, g.1]; simp [h], fun b hb => ?_⟩
    simp only [List.mem_append, List.mem_singleton] at hb
    rcases hb with h | rfl
    · exact g.2 b h
    · exact w
  cases c with
  | new n =>
    obtain ⟨w, _, t⟩ := Str.new_spec n
    exact ⟨_, _, rfl, .new n, happ _ _ w t⟩
  | ofBytes l =>
    obtain ⟨a, e, w, _, t⟩ := Str.ofBytes_spec l
    exact ⟨hp ++ [a], _, by simp [step, e], .ofBytes l, happ _ _ w t⟩
  | ofChar c =>
    obtain ⟨a, e, w, t⟩ := ofChar_good c
    exact ⟨hp ++ [a], _, by simp [step, e], .ofChar c, happ _ _ w t⟩
  | ofCharN c n =>
    obtain ⟨a, e, w, t⟩ := ofCharN_good c n
    exact ⟨hp ++ [a], _, by simp [step, e], .ofCharN c n, happ _ _ w t⟩
  | resize i m =>
    obtain ⟨a, ha, w, hl⟩ := good_get g v
    obtain ⟨a', e, w', n', t', _⟩ := Str.resize_spec w m
    refine ⟨hp.set i a', L.set i a'.toList, ?_, ?_, good_set g i w' rfl⟩
    · simp only [step, rd_eq_ok.2 ha, Res.ok_bind, e]
      exact wr_ok (by rw [hlen]; exact v)
    · refine .resize i m _ _ hl (by rw [w'.length, n']) ?_
      rw [w.length]; exact t'
  | push i x =>
    obtain ⟨a, ha, w, hl⟩ := good_get g v
    obtain ⟨a', e, w', n', t'⟩ := Str.push_spec w x
    refine ⟨hp.set i a', _, ?_, .push i x _ hl, good_set g i w' t'⟩
    simp only [step, rd_eq_ok.2 ha, Res.ok_bind, e]
    exact wr_ok (by rw [hlen]; exact v)
  | put i j x =>
    obtain ⟨l, hl', hj⟩ := v
    have hi : i < L.length := (List.getElem?_eq_some_iff.1 hl').1
    obtain ⟨a, ha, w, hl⟩ := good_get g hi
    rw [hl] at hl'; obtain rfl := Option.some.inj hl'
    obtain ⟨a', e, w', n', _, t'⟩ := Str.put_spec w (i := j) (by rw [← w.length]; exact hj) x
    refine ⟨hp.set i a', _, ?_, .put i j x _ hl hj, good_set g i w' t'⟩
    simp only [step, rd_eq_ok.2 ha, Res.ok_bind, e]
    exact wr_ok (by rw [hlen]; exact hi)
  | append i j =>
    obtain ⟨hp', l, m, h1, h2, e, g'⟩ := appendTo_good g v.1 v.2
    exact ⟨hp', _, e, .append i j l m h1 h2, g'⟩
  | sub i b e =>
    obtain ⟨a, ha, w, hl⟩ := good_get g v
    obtain ⟨r, er, wr, tr⟩ := sub_good w b e
    exact ⟨hp ++ [r], _, by simp [step, rd_eq_ok.2 ha, er], .sub i b e _ hl, happ _ _ wr tr⟩
  | copy i =>
    obtain ⟨a, ha, w, hl⟩ := good_get g v
    obtain ⟨r, er, wr, tr⟩ := copy_good w
    exact ⟨hp ++ [r], _, by simp [step, rd_eq_ok.2 ha, er], .copy i _ hl, happ _ _ wr tr⟩
  | concat i j =>
    obtain ⟨a, ha, wa, hla⟩ := good_get g v.1
    obtain ⟨b, hb, wb, hlb⟩ := good_get g v.2
    obtain ⟨r, er, wr, tr⟩ := concat_spec wa wb
    exact ⟨hp ++ [r], _, by simp [step, rd_eq_ok.2 ha, rd_eq_ok.2 hb, er], .concat i j _ _ hla hlb,
      happ _ _ wr tr⟩

theorem effect_det {L : List Bytes} {c : Cmd} {L1 L2 : List Bytes} (h1 : Effect L c L1)
    (h2 : Effect L c L2) : (∀ i m, c ≠ .resize i m) → L1 = L2 := by
  intro hc
  cases h1 <;> cases h2 <;> simp_all

theorem reach_good {hp : List Str} {L : List Bytes} (r : Reach hp L) : Good hp L := by
  induction r with
  | nil => exact ⟨rfl, fun a h => by simp at h⟩
  | step r v ef e sh ih =>
    rename_i hp L c hp' L'
    obtain ⟨hp2, L2, e2, _, g2⟩ := step_good ih v
    rw [e] at e2; obtain rfl := Res.ok.inj e2
    refine ⟨?_, g2.2⟩
    obtain ⟨hl, hs⟩ := sh
    apply List.ext_getElem?
    intro i
    by_cases hi : i < hp'.length
    · have h1 : hp'[i]? = some hp'[i] := by simp [hi]
      have h2 : L'[i]? = some (L'[i]'(by omega)) := by simp
      have := hs i _ _ h1 h2
      have w := g2.2 _ (List.getElem_mem hi)
      have := shows_unique this (shows_toList w)
      simp [hi, h2, this]
    · rw [List.getElem?_eq_none (by simpa using hi), List.getElem?_eq_none (by omega)]

/-- **C14, memory safety and meaning.** From any heap reached by valid commands, every further valid
command, including appending a string to itself, is executed without an illegal access, and does to
the strings exactly what it does to byte sequences. -/
theorem C14_progress {hp : List Str} {L : List Bytes} (r : Reach hp L) {c : Cmd} (v : Valid L c) :
    ∃ hp' L', step hp c = .ok hp' ∧ Effect L c L' ∧ ShowsAll hp' L' ∧ Reach hp' L' := by
  obtain ⟨hp', L', e, ef, g'⟩ := step_good (reach_good r) v
  exact ⟨hp', L', e, ef, good_shows g', .step r v ef e (good_shows g')⟩

/-- **C14, contents.** Whatever the history, the strings show their byte sequences, and the sequences
are determined by the strings. -/
theorem C14_contents {hp : List Str} {L : List Bytes} (r : Reach hp L) :
    ShowsAll hp L ∧ ∀ L', ShowsAll hp L' → L' = L := by
  refine ⟨good_shows (reach_good r), fun L' h => ?_⟩
  obtain ⟨hl, hs⟩ := good_shows (reach_good r)
  apply List.ext_getElem (by rw [← hl, ← h.1])
  intro i h1 h2
  have hi : i < hp.length := by omega
  exact shows_unique (h.2 i hp[i] _ (by simp [hi]) (by simp [h1])) (hs i hp[i] _ (by simp [hi]) (by simp [h2]))

/-- **C14, block.** An empty string has no block; otherwise the block holds at least `N (s)` bytes and
fewer than `2 N (s) + 6`. -/
theorem C14_block {hp : List Str} {L : List Bytes} (r : Reach hp L) {a : Str} (ha : a ∈ hp) :
    (a.n = 0 → a.blk = none) ∧
    (0 < a.n → ∃ b, a.blk = some b ∧ a.n ≤ b.length ∧ b.length < 2 * a.n + 6) := by
  have w := (reach_good r).2 a ha
  refine ⟨w.1.2, fun h => ⟨a.cells, w.blk h, w.n_le, ?_⟩⟩
  rw [w.2]; exact roundLength_lt a.n

/-- **C14, substrings.** `s(i,j)` consists of the bytes at positions `k` of `s` with `i <= k < j`,
whatever the integers `i` and `j`; in particular it is empty when `j <= i`, and all of `s` when
`i <= 0` and `N(s) <= j`. -/
theorem C14_sub (l : Bytes) (b e : Int) :
    (e ≤ b → slice l b e = []) ∧ (b ≤ 0 → l.length ≤ e → slice l b e = l) ∧
    (0 ≤ b → b ≤ e → e ≤ l.length → (slice l b e).length = (e - b).toNat) := by
  rw [slice_eq]
  refine ⟨fun h => ?_, fun h1 h2 => ?_, fun h1 h2 h3 => ?_⟩
  · rw [List.drop_of_length_le (by simp; omega)]
  · rw [show b.toNat = 0 by omega, List.take_of_length_le (by omega), List.drop_zero]
  · simp; omega

/-- **C14, C strings.** `as_charp` returns `N(s) + 1` bytes: those of the string, then a NUL. -/
theorem C14_as_charp {a : Str} {hp : List Str} {L : List Bytes} (r : Reach hp L) (ha : a ∈ hp)
    {l : Bytes} (hs : Shows a l) : a.asCharp = .ok (l ++ [0]) := by
  have w := (reach_good r).2 a ha
  obtain rfl : l = a.toList := shows_unique hs (shows_toList w)
  have la := w.length
  obtain ⟨b, e, hb⟩ := forUp_spec (lo := 0) (hi := a.n) (s := List.replicate (a.n + 1) 0)
    (body := fun i l => do let x ← a.get i; wr l i x)
    (fun t b => b.length = a.n + 1 ∧ ∀ p, p < t → b[p]? = a.toList[p]?)
    (Nat.zero_le _) ⟨by simp, fun p h => by omega⟩
    (by
      rintro t b _ ht ⟨hl, hb⟩
      obtain ⟨x, ex, hx⟩ := get_spec w ht
      refine ⟨b.set t x, by simp only [ex, Res.ok_bind]; exact wr_ok (by omega), by simpa using hl, ?_⟩
      intro p hp
      rw [List.getElem?_set]
      by_cases h : t = p
      · subst h; rw [if_pos rfl, if_pos (by omega), hx]
      · rw [if_neg h]; exact hb p (by omega))
  unfold asCharp
  rw [e]
  simp only [Res.ok_bind]
  rw [wr_ok (by omega)]
  congr 1
  apply List.ext_getElem?
  intro p
  rw [List.getElem?_set]
  by_cases h : a.n = p
  · subst h
    rw [if_pos rfl, if_pos (by omega), List.getElem?_append_right (by omega)]; simp [la]
  · rw [if_neg h]
    by_cases h2 : p < a.n
    · rw [hb.2 p h2, List.getElem?_append_left (by omega)]
    · rw [List.getElem?_eq_none (by omega), List.getElem?_eq_none (by simp; omega)]

/-! ## C15 -/

/-- The order: lexicographic on bytes read as signed characters; a proper prefix is smaller. -/
def lexLE : Bytes → Bytes → Bool
  | [], _ => true
  | _ :: _, [] => false
  | x :: xs, y :: ys => decide (schar x < schar y) || (decide (x = y) && lexLE xs ys)

theorem schar_inj {x y : UInt8} (h : schar x = schar y) : x = y := by
  unfold schar at h
  have := Int8.toInt_inj.1 h
  simpa using congrArg Int8.toUInt8 this

theorem lexLE_refl (l : Bytes) : lexLE l l = true := by
  induction l with
  | nil => rfl
  | cons x l ih => simp [lexLE, ih]

theorem lexLE_antisymm : ∀ (l m : Bytes), lexLE l m = true → lexLE m l = true → l = m
  | [], [], _, _ => rfl
  | [], _ :: _, _, h => by simp [lexLE] at h
  | _ :: _, [], h, _ => by simp [lexLE] at h
  | x :: l, y :: m, h1, h2 => by
    simp only [lexLE, Bool.or_eq_true, decide_eq_true_eq, Bool.and_eq_true] at h1 h2
    rcases h1 with h1 | ⟨rfl, h1⟩
    · rcases h2 with h2 | ⟨rfl, h2⟩
      · omega
      · omega
    · rcases h2 with h2 | ⟨_, h2⟩
      · omega
      · rw [lexLE_antisymm l m h1 h2]

theorem lexLE_trans : ∀ (l m k : Bytes), lexLE l m = true → lexLE m k = true → lexLE l k = true
  | [], _, _, _, _ => by simp [lexLE]
  | _ :: _, [], _, h, _ => by simp [lexLE] at h
  | _ :: _, _ :: _, [], _, h => by simp [lexLE] at h
  | x :: l, y :: m, z :: k, h1, h2 => by
    simp only [lexLE, Bool.or_eq_true, decide_eq_true_eq, Bool.and_eq_true] at h1 h2 ⊢
    rcases h1 with h1 | ⟨rfl, h1⟩
    · rcases h2 with h2 | ⟨rfl, h2⟩
      · left; omega
      · left; omega
    · rcases h2 with h2 | ⟨rfl, h2⟩
      · left; omega
      · right; exact ⟨rfl, lexLE_trans l m k h1 h2⟩

theorem lexLE_total : ∀ (l m : Bytes), lexLE l m = true ∨ lexLE m l = true
  | [], _ => by simp [lexLE]
  | _ :: _, [] => by simp [lexLE]
  | x :: l, y :: m => by
    simp only [lexLE, Bool.or_eq_true, decide_eq_true_eq, Bool.and_eq_true]
    by_cases h : schar x = schar y
    · obtain rfl := schar_inj h
      rcases lexLE_total l m with h | h
      · left; right; exact ⟨rfl, h⟩
      · right; right; exact ⟨rfl, h⟩
    · rcases Int.lt_or_gt_of_ne h with h | h
      · left; left; exact h
      · right; left; exact h

/-- The first decided comparison, going through both lists. -/
def firstDiff : Bytes → Bytes → Option Bool
  | x :: xs, y :: ys =>
    if schar x < schar y then some true else if schar y < schar x then some false else firstDiff xs ys
  | _, _ => none

theorem cmpLoop_spec {a b : Str} (wa : a.WF) (wb : b.WF) :
    cmpLoop a b = .ok (firstDiff a.toList b.toList) := by
  have la := wa.length
  have lb := wb.length
  unfold cmpLoop forRet
  have gen : ∀ n i, i + n = min a.n b.n →
      retN (fun i => do
        let x ← a.get i
        let y ← b.get i
        .ok (if schar x < schar y then some true else if schar y < schar x then some false else none))
        n i = .ok (firstDiff (a.toList.drop i) (b.toList.drop i)) := by
    intro n
    induction n with
    | zero =>
      intro i hi
      rw [retN]
      by_cases h : a.n ≤ b.n
      · rw [List.drop_of_length_le (l := a.toList) (by omega)]; simp [firstDiff]
      · rw [List.drop_of_length_le (l := b.toList) (by omega)]
        cases List.drop i a.toList <;> simp [firstDiff]
    | succ n ih =>
      intro i hi
      have ha : i < a.toList.length := by omega
      have hb : i < b.toList.length := by omega
      have ga := get_of_toList wa (i := i) (x := a.toList[i]) (by simp)
      have gb := get_of_toList wb (i := i) (x := b.toList[i]) (by simp)
      rw [retN, ga, gb, List.drop_eq_getElem_cons ha, List.drop_eq_getElem_cons hb, firstDiff]
      simp only [Res.ok_bind]
      by_cases h1 : schar a.toList[i] < schar b.toList[i]
      · rw [if_pos h1, if_pos h1]
      · rw [if_neg h1, if_neg h1]
        by_cases h2 : schar b.toList[i] < schar a.toList[i]
        · rw [if_pos h2, if_pos h2]
        · rw [if_neg h2, if_neg h2]
          exact ih (i + 1) (by omega)
  have := gen (min a.n b.n) 0 (by omega)
  simpa using this

theorem firstDiff_le : ∀ (l m : Bytes),
    (match firstDiff l m with | some r => r | none => decide (l.length ≤ m.length)) = lexLE l m
  | [], _ => by simp [firstDiff, lexLE]
  | _ :: _, [] => by simp [firstDiff, lexLE]
  | x :: l, y :: m => by
    have ih := firstDiff_le l m
    rw [firstDiff, lexLE]
    by_cases h1 : schar x < schar y
    · simp [h1]
    · rw [if_neg h1]
      by_cases h2 : schar y < schar x
      · have : x ≠ y := by rintro rfl; omega
        rw [if_pos h2]; simp [h1, this]
      · obtain rfl := schar_inj (show schar x = schar y by omega)
        rw [if_neg h2]; simpa [h1] using ih

theorem firstDiff_lt : ∀ (l m : Bytes),
    (match firstDiff l m with | some r => r | none => decide (l.length < m.length)) = !lexLE m l
  | [], [] => by simp [firstDiff, lexLE]
  | [], _ :: _ => by simp [firstDiff, lexLE]
  | _ :: _, [] => by simp [firstDiff, lexLE]
  | x :: l, y :: m => by
    have ih := firstDiff_lt l m
    rw [firstDiff, lexLE]
    by_cases h1 : schar x < schar y
    · have : y ≠ x := by rintro rfl; omega
      rw [if_pos h1]; simp [this]; omega
    · rw [if_neg h1]
      by_cases h2 : schar y < schar x
      · rw [if_pos h2]; simp [h2]
      · obtain rfl := schar_inj (show schar x = schar y by omega)
        rw [if_neg h2]; simpa [h1] using ih

theorem le_spec {a b : Str} (wa : a.WF) (wb : b.WF) : a.le b = .ok (lexLE a.toList b.toList) := by
  rw [Str.le, cmpLoop_spec wa wb, ← firstDiff_le, wa.length, wb.length]
  cases firstDiff a.toList b.toList <;> rfl

theorem lt_spec {a b : Str} (wa : a.WF) (wb : b.WF) : a.lt b = .ok (!lexLE b.toList a.toList) := by
  rw [Str.lt, cmpLoop_spec wa wb, ← firstDiff_lt, wa.length, wb.length]
  cases firstDiff a.toList b.toList <;> rfl

/-- **C15, equality.** `==` holds exactly when the bytes are the same, `!=` otherwise. -/
theorem C15_eq {hp : List Str} {L : List Bytes} (r : Reach hp L) {a b : Str} (ha : a ∈ hp)
    (hb : b ∈ hp) {l m : Bytes} (hl : Shows a l) (hm : Shows b m) :
    a.eqv b = .ok (decide (l = m)) ∧ a.neq b = .ok (decide (l ≠ m)) := by
  have wa := (reach_good r).2 a ha
  have wb := (reach_good r).2 b hb
  obtain rfl := shows_unique hl (shows_toList wa)
  obtain rfl := shows_unique hm (shows_toList wb)
  exact ⟨eqv_spec wa wb, neq_spec wa wb⟩

/-- **C15, meaning of the order.** `<=` is the lexicographic order on signed characters, `<` the
negation of the converse. -/
theorem C15_meaning {hp : List Str} {L : List Bytes} (r : Reach hp L) {a b : Str} (ha : a ∈ hp)
    (hb : b ∈ hp) {l m : Bytes} (hl : Shows a l) (hm : Shows b m) :
    a.le b = .ok (lexLE l m) ∧ a.lt b = .ok (!lexLE m l) := by
  have wa := (reach_good r).2 a ha
  have wb := (reach_good r).2 b hb
  obtain rfl := shows_unique hl (shows_toList wa)
  obtain rfl := shows_unique hm (shows_toList wb)
  exact ⟨le_spec wa wb, lt_spec wa wb⟩

/-- **C15, laws.** On the strings of any reachable heap, `<=` is reflexive, total, transitive and
antisymmetric with respect to `==`, and `<` is its strict part. -/
theorem C15_laws {hp : List Str} {L : List Bytes} (r : Reach hp L) {a b c : Str} (ha : a ∈ hp)
    (hb : b ∈ hp) (hc : c ∈ hp) :
    a.le a = .ok true ∧
    (a.le b = .ok true ∨ b.le a = .ok true) ∧
    (a.le b = .ok true → b.le c = .ok true → a.le c = .ok true) ∧
    (a.le b = .ok true → b.le a = .ok true → a.eqv b = .ok true) ∧
    (a.eqv b = .ok true → a.le b = .ok true) ∧
    (a.lt b = .ok true ↔ a.le b = .ok true ∧ a.eqv b = .ok false) ∧
    (a.lt b = .ok true ∨ a.eqv b = .ok true ∨ b.lt a = .ok true) := by
  have wa := (reach_good r).2 a ha
  have wb := (reach_good r).2 b hb
  have wc := (reach_good r).2 c hc
  simp only [le_spec wa wa, le_spec wa wb, le_spec wb wa, le_spec wb wc, le_spec wa wc, lt_spec wa wb,
    lt_spec wb wa, eqv_spec wa wb, Res.ok.injEq, decide_eq_true_eq, decide_eq_false_iff_not]
  have tot := lexLE_total a.toList b.toList
  have anti := lexLE_antisymm a.toList b.toList
  refine ⟨lexLE_refl _, tot, lexLE_trans _ _ _, anti, ?_, ?_, ?_⟩
  · intro h; rw [h]; exact lexLE_refl _
  · constructor
    · intro h
      have h' : ¬ lexLE b.toList a.toList = true := by simpa using h
      exact ⟨tot.resolve_right h', fun e => h' (by rw [e]; exact lexLE_refl _)⟩
    · rintro ⟨h1, h2⟩
      cases h : lexLE b.toList a.toList with
      | false => rfl
      | true => exact absurd (anti h1 h) h2
  · cases h1 : lexLE b.toList a.toList with
    | false => left; rfl
    | true =>
      cases h2 : lexLE a.toList b.toList with
      | false => right; right; rfl
      | true => right; left; exact anti h2 h1

/-- The hash of a string as a fold over its bytes. -/
theorem hashCode_key {c : Str} (w : c.WF) : c.hashCode = .ok (c.toList.foldl
    (fun (h : BitVec 32) x => (h <<< 9) + h.sshiftRight 23 + BitVec.ofInt 32 (schar x)) 0#32) := by
  have lc := w.length
  obtain ⟨s, e, h⟩ := forUp_spec (lo := 0) (hi := c.n) (s := 0#32)
    (body := fun i h => do
      let x ← c.get i
      .ok ((h <<< 9) + h.sshiftRight 23 + BitVec.ofInt 32 (schar x)))
    (fun i h => h = (c.toList.take i).foldl
      (fun (h : BitVec 32) x => (h <<< 9) + h.sshiftRight 23 + BitVec.ofInt 32 (schar x)) 0#32)
    (by omega) rfl
    (by
      intro i h _ hi hI
      obtain ⟨x, ex, hx⟩ := get_spec w hi
      refine ⟨(h <<< 9) + h.sshiftRight 23 + BitVec.ofInt 32 (schar x),
        by simp only [ex, Res.ok_bind], ?_⟩
      rw [List.take_add_one, hx, hI]
      simp [List.foldl_append])
  rw [Str.hashCode, e, h, List.take_of_length_le (by omega)]

/-- **C15, hash.** Equal strings have equal hashes; hashing never fails if sums wrap (see C137). -/
theorem C15_hash {hp : List Str} {L : List Bytes} (r : Reach hp L) {a b : Str} (ha : a ∈ hp)
    (hb : b ∈ hp) :
    (∃ h, a.hashCode = .ok h) ∧ (a.eqv b = .ok true → a.hashCode = b.hashCode) := by
  have wa := (reach_good r).2 a ha
  have wb := (reach_good r).2 b hb
  refine ⟨⟨_, hashCode_key wa⟩, fun h => ?_⟩
  rw [eqv_spec wa wb] at h
  have : a.toList = b.toList := by simpa using h
  rw [hashCode_key wa, hashCode_key wb, this]

/-- **C15, C strings.** Comparing with a C string `c` (no NUL inside, then a NUL) reads nothing beyond
its NUL and tests whether the bytes are the same. -/
theorem C15_eq_c {hp : List Str} {L : List Bytes} (r : Reach hp L) {a : Str} (ha : a ∈ hp)
    {l : Bytes} (hl : Shows a l) (c : Bytes) (hc : (0 : UInt8) ∉ c) :
    a.eqC c = .ok (decide (l = c)) ∧ a.neC c = .ok (decide (l ≠ c)) := by
  have w := (reach_good r).2 a ha
  obtain rfl := shows_unique hl (shows_toList w)
  have la := w.length
  -- a generic description of the loop
  have gen : ∀ (v : Bool) (n i : Nat), i + n = a.n → i ≤ c.length → a.toList.take i = c.take i →
      (retN (fun i => do
          let x ← rd (c ++ [0]) i
          let y ← a.get i
          .ok (if x ≠ y then some v else if x = 0 then some v else none)) n i = .ok (some v) ∧
        a.toList ≠ c) ∨
      (retN (fun i => do
          let x ← rd (c ++ [0]) i
          let y ← a.get i
          .ok (if x ≠ y then some v else if x = 0 then some v else none)) n i = .ok none ∧
        a.n ≤ c.length ∧ a.toList = c.take a.n) := by
    intro v n
    induction n with
    | zero =>
      intro i hi hic hp
      right
      refine ⟨rfl, by omega, ?_⟩
      obtain rfl : i = a.n := by omega
      rw [← hp, List.take_of_length_le (by omega)]
    | succ n ih =>
      intro i hi hic hp
      have hia : i < a.toList.length := by omega
      have ga := get_of_toList w (i := i) (x := a.toList[i]) (by simp)
      have gc : rd (c ++ [0]) i = .ok ((c ++ [0])[i]'(by simp; omega)) := rd_ok (by simp; omega)
      rw [retN, ga, gc]
      simp only [Res.ok_bind]
      by_cases hx : (c ++ [0])[i]'(by simp; omega) = a.toList[i]
      · rw [if_neg (by simpa using hx)]
        by_cases h0 : (c ++ [0])[i]'(by simp; omega) = 0
        · rw [if_pos h0]
          left
          refine ⟨rfl, fun e => hc ?_⟩
          rw [← e]
          have : a.toList[i] = 0 := by rw [← hx]; exact h0
          rw [← this]; exact List.getElem_mem hia
        · rw [if_neg h0]
          have hic' : i < c.length := by
            rcases Nat.lt_or_ge i c.length with h | h
            · exact h
            · exfalso; apply h0
              rw [List.getElem_append_right h]; simp
          refine ih (i + 1) (by omega) (by omega) ?_
          rw [List.getElem_append_left hic'] at hx
          rw [List.take_add_one, List.take_add_one, hp]
          simp [hia, hic', hx]
      · rw [if_pos hx]
        left
        refine ⟨rfl, fun e => hx ?_⟩
        have hic' : i < c.length := by rw [← e]; exact hia
        rw [List.getElem_append_left hic']
        simp [e]
  have fin : a.n ≤ c.length → a.toList = c.take a.n →
      ∃ x, rd (c ++ [0]) a.n = .ok x ∧ (x = 0 ↔ a.toList = c) := by
    intro hle ht
    refine ⟨(c ++ [0])[a.n]'(by simp; omega), rd_ok (by simp; omega), ?_⟩
    rcases Nat.lt_or_ge a.n c.length with h | h
    · rw [List.getElem_append_left h]
      constructor
      · intro h0; exfalso; exact hc (by rw [← h0]; exact List.getElem_mem h)
      · intro e; rw [← la, e] at h; omega
    · have : a.n = c.length := by omega
      rw [List.getElem_append_right h]
      simp only [List.getElem_singleton, true_iff]
      rw [ht, this, List.take_of_length_le (Nat.le_refl _)]
  constructor
  · unfold eqC forRet
    rcases gen false a.n 0 (by omega) (by omega) rfl with ⟨e, h⟩ | ⟨e, h1, h2⟩
    · simp only [Nat.sub_zero, e, Res.ok_bind]; simp [h]
    · obtain ⟨x, ex, hx⟩ := fin h1 h2
      simp only [Nat.sub_zero, e, Res.ok_bind, ex]
      congr 1
      rw [Bool.eq_iff_iff]; simpa using hx
  · unfold neC forRet
    rcases gen true a.n 0 (by omega) (by omega) rfl with ⟨e, h⟩ | ⟨e, h1, h2⟩
    · simp only [Nat.sub_zero, e, Res.ok_bind]; simp [h]
    · obtain ⟨x, ex, hx⟩ := fin h1 h2
      simp only [Nat.sub_zero, e, Res.ok_bind, ex]
      congr 1
      rw [Bool.eq_iff_iff]; simpa using not_congr hx

/-! ## Reachable heaps exist -/

/-- A history with a growing self-append, a clamped substring, and a shrinking resize. -/
example : ∃ hp L, Reach hp L ∧ L = [b!"abcabc", b!"cab", b!"ca"] := by
  have r0 := Reach.nil
  obtain ⟨_, _, _, e1, _, r1⟩ := C14_progress r0 (c := .ofBytes (b!"abc")) (by simp [Valid])
  cases e1
  obtain ⟨_, _, _, e2, _, r2⟩ := C14_progress r1 (c := .append 0 0) (by simp [Valid])
  cases e2 with | append _ _ l m h1 h2 =>
  obtain rfl : b!"abc" = l := by simpa using h1
  obtain rfl : b!"abc" = m := by simpa using h2
  obtain ⟨_, _, _, e3, _, r3⟩ := C14_progress r2 (c := .sub 0 2 5) (by simp [Valid])
  cases e3 with | sub _ _ _ l h =>
  obtain rfl : b!"abcabc" = l := by simpa using h
  obtain ⟨_, _, _, e4, _, r4⟩ := C14_progress r3 (c := .sub 1 (-4) 2) (by simp [Valid])
  cases e4 with | sub _ _ _ l h =>
  obtain rfl : b!"cab" = l := by
    have : some (slice (b!"abcabc") 2 5) = some l := by simpa using h
    have e : slice (b!"abcabc") 2 5 = b!"cab" := by decide
    rw [e] at this; exact Option.some.inj this
  exact ⟨_, _, r4, by decide⟩

example : (Str.new 24).blk.map List.length = some 32 ∧ (Str.new 5).blk.map List.length = some 8 := by
  constructor <;> simp [Str.new, roundLength, pow2up]

end Lolly.StrProps
