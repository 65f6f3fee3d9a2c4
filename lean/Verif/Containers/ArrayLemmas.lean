import Verif.Containers.Array

/-!
# Lemmas on the model of `array<T>`
-/

namespace Lolly

theorem le_pow2up (n i : Nat) (hi : 0 < i) : n ≤ pow2up n i := by
  fun_induction pow2up n i with
  | case1 i h ih => exact ih (by omega)
  | case2 i h => omega

theorem pow2up_pos (n i : Nat) (hi : 0 < i) : i ≤ pow2up n i := by
  fun_induction pow2up n i with
  | case1 i h ih => have := ih (by omega); omega
  | case2 i h => omega

/-- The capacity stays below twice the length. -/
theorem pow2up_lt (n i : Nat) (hi : i < 2 * n) : pow2up n i < 2 * n := by
  fun_induction pow2up n i with
  | case1 i h ih => exact ih (by omega)
  | case2 i h => omega

namespace Arr

variable {T : Type}

theorem le_roundLength (n : Nat) : n ≤ roundLength n := by
  unfold roundLength; split
  · omega
  · exact le_pow2up n 8 (by omega)

theorem roundLength_eq_zero {n : Nat} : roundLength n = 0 ↔ n = 0 := by
  unfold roundLength; split
  · omega
  · have := pow2up_pos n 8 (by omega); omega

theorem roundLength_lt (n : Nat) (h : 0 < n) : roundLength n < 2 * n := by
  unfold roundLength; split
  · omega
  · exact pow2up_lt n 8 (by omega)

/-- The cells of the block. -/
def cells (a : Arr T) : List T := a.blk.getD []

/-- The sequence an array stands for. -/
def toList (a : Arr T) : List T := a.cells.take a.n

/-- NULL exactly when empty; otherwise a block of the rounded length. -/
def WF (a : Arr T) : Prop := (a.blk = none ↔ a.n = 0) ∧ a.cells.length = roundLength a.n

theorem WF.n_le {a : Arr T} (w : a.WF) : a.n ≤ a.cells.length := by
  rw [w.2]; exact le_roundLength _

theorem WF.length {a : Arr T} (w : a.WF) : a.toList.length = a.n := by
  have := w.n_le
  simp [toList]; omega

theorem WF.blk {a : Arr T} (w : a.WF) (h : 0 < a.n) : a.blk = some a.cells := by
  cases hb : a.blk with
  | none => have := w.1.1 hb; omega
  | some b => simp [cells, hb]

theorem toList_get? (a : Arr T) (i : Nat) (h : i < a.n) : a.toList[i]? = a.cells[i]? := by
  simp [toList, h]

theorem new_spec (dv : T) (n : Nat) :
    (new dv n).WF ∧ (new dv n).n = n ∧ (new dv n).toList = List.replicate n dv := by
  by_cases h : n = 0
  · subst h; refine ⟨⟨by simp [new], ?_⟩, rfl, rfl⟩
    simp [new, cells, roundLength]
  · refine ⟨⟨by simp [new, h], by simp [new, h, cells]⟩, rfl, ?_⟩
    simp [new, toList, cells, h, Nat.min_eq_left (le_roundLength n)]

theorem get_spec {a : Arr T} (w : a.WF) {i : Nat} (h : i < a.n) :
    ∃ x, a.get i = .ok x ∧ a.toList[i]? = some x := by
  have hc : i < a.cells.length := by have := w.n_le; omega
  refine ⟨a.cells[i], ?_, ?_⟩
  · simp [get, w.blk (by omega), rd_ok hc]
  · rw [toList_get? a i h]; simp [hc]

theorem put_spec {a : Arr T} (w : a.WF) {i : Nat} (h : i < a.n) (x : T) :
    ∃ a', a.put i x = .ok a' ∧ a'.WF ∧ a'.n = a.n ∧ a'.gen = a.gen ∧
      a'.toList = a.toList.set i x := by
  have hc : i < a.cells.length := by have := w.n_le; omega
  refine ⟨{ a with blk := some (a.cells.set i x) }, ?_, ⟨?_, ?_⟩, rfl, rfl, ?_⟩
  · simp [put, w.blk (by omega), wr_ok hc]
  · simp; omega
  · simpa [cells] using w.2
  · simp [toList, cells, List.take_set]

theorem resize_spec {a : Arr T} (w : a.WF) (dv : T) (m : Nat) :
    ∃ a', a.resize dv m = .ok a' ∧ a'.WF ∧ a'.n = m ∧
      a'.toList.take (min a.n m) = a.toList.take (min a.n m) ∧
      (a'.gen = a.gen ↔ roundLength m = roundLength a.n) := by
  have hn := le_roundLength a.n
  have hm := le_roundLength m
  unfold resize
  simp only
  by_cases h1 : roundLength m = roundLength a.n
  · rw [if_neg (by simpa using h1)]
    refine ⟨_, rfl, ⟨?_, ?_⟩, rfl, ?_, by simp [h1]⟩
    · show a.blk = none ↔ m = 0
      rw [w.1, ← roundLength_eq_zero (n := m), ← roundLength_eq_zero (n := a.n), h1]
    · simpa [cells, h1] using w.2
    · simp only [toList, cells, List.take_take]
      congr 1; omega
  · rw [if_pos h1]
    by_cases h2 : roundLength m = 0
    · rw [if_neg (by simpa using h2)]
      have hm0 := roundLength_eq_zero.1 h2
      refine ⟨_, rfl, ⟨by simp [hm0], by simp [cells, hm0, roundLength]⟩, rfl, ?_, ?_⟩
      · simp [hm0]
      · simp [h1]
    · rw [if_pos h2]
      have hm0 : m ≠ 0 := fun e => h2 (roundLength_eq_zero.2 e)
      by_cases h3 : roundLength a.n = 0
      · rw [if_neg (by simpa using h3)]
        have hn0 := roundLength_eq_zero.1 h3
        refine ⟨_, rfl, ⟨by simp [hm0], by simp [cells]⟩, rfl, ?_, by simp [h1]⟩
        simp [hn0]
      · rw [if_pos h3]
        have hn0 : 0 < a.n := by
          have : a.n ≠ 0 := fun e => h3 (roundLength_eq_zero.2 e)
          omega
        rw [w.blk hn0]
        refine ⟨_, rfl, ⟨by simp [hm0], ?_⟩, rfl, ?_, by simp [h1]⟩
        · simp only [cells, Option.getD_some, resizeCells, List.length_append, List.length_take,
            List.length_replicate]
          omega
        · have hl := w.2
          simp only [toList, resizeCells]
          apply List.ext_getElem?
          intro j
          by_cases hj : j < min a.n m
          · have e1 : j < m := by omega
            have e2 : j < a.n := by omega
            have e3 : j < a.cells.length := by omega
            have e4 : j < roundLength m := by omega
            simp only [List.getElem?_take, hj, e1, e2, if_true]
            simp only [cells, Option.getD_some]
            rw [List.getElem?_append_left (by simp only [List.length_take]; exact Nat.lt_min.2 ⟨e4, e3⟩)]
            simp [e4]
          · simp only [List.getElem?_take, hj, if_false]

/-- Loops that write `c[i + off]` for `i < l.length`. -/
theorem fill_spec {a : Arr T} (w : a.WF) (l : List T) (off : Nat) (hoff : off + l.length ≤ a.n)
    {body : Nat → Arr T → Res (Arr T)}
    (hb : ∀ i x (c : Arr T), l[i]? = some x → body i c = c.put (i + off) x) :
    ∃ a', forUp 0 l.length a body = .ok a' ∧ a'.WF ∧ a'.n = a.n ∧ a'.gen = a.gen ∧
      a'.toList = a.toList.take off ++ l ++ a.toList.drop (off + l.length) := by
  obtain ⟨a', e, w', hn, hg, hl⟩ := forUp_spec (lo := 0) (hi := l.length) (s := a) (body := body)
    (fun i c => c.WF ∧ c.n = a.n ∧ c.gen = a.gen ∧ ∀ j, c.toList[j]? =
      if off ≤ j ∧ j < off + i then l[j - off]? else a.toList[j]?)
    (by omega) ⟨w, rfl, rfl, fun j => by
      by_cases h : off ≤ j ∧ j < off + 0
      · omega
      · rw [if_neg h]⟩
    (by
      intro i c _ hi ⟨wc, hn, hg, hc⟩
      have hx : l[i]? = some l[i] := by simp [hi]
      obtain ⟨c', e, wc', hn', hg', ht⟩ := put_spec wc (i := i + off) (by omega) l[i]
      refine ⟨c', by rw [hb i l[i] c hx, e], wc', hn'.trans hn, hg'.trans hg, ?_⟩
      intro j
      rw [ht, List.getElem?_set, wc.length, hc]
      by_cases hj : i + off = j
      · subst hj
        have h2 : i + off < c.n := by omega
        have h3 : off ≤ i + off ∧ i + off < off + (i + 1) := by omega
        rw [if_pos rfl, if_pos h2, if_pos h3, show i + off - off = i by omega, hx]
      · rw [if_neg hj]
        by_cases h : off ≤ j ∧ j < off + i
        · rw [if_pos h, if_pos (by omega)]
        · rw [if_neg h, if_neg (by omega)])
  refine ⟨a', e, w', hn, hg, ?_⟩
  apply List.ext_getElem?
  intro j
  rw [hl j]
  have hlen := w.length
  by_cases h : off ≤ j ∧ j < off + l.length
  · rw [if_pos h, List.getElem?_append_left (by simp; omega),
      List.getElem?_append_right (by simp; omega)]
    congr 1; simp; omega
  · rw [if_neg h]
    by_cases h2 : j < off
    · rw [List.getElem?_append_left (by simp; omega), List.getElem?_append_left (by simp; omega)]
      simp [h2]
    · rw [List.getElem?_append_right (by simp; omega)]
      simp only [List.length_append, List.length_take, List.getElem?_drop]
      congr 1; omega

theorem ofList_spec (dv : T) (l : List T) :
    ∃ a, ofList dv l = .ok a ∧ a.WF ∧ a.n = l.length ∧ a.toList = l := by
  obtain ⟨w, hn, ht⟩ := new_spec dv l.length
  obtain ⟨a, e, w', hn', _, ht'⟩ := fill_spec w l 0 (by omega)
    (body := fun i a => do let x ← rd l i; a.put i x)
    (by intro i x c h; simp [rd, h])
  refine ⟨a, e, w', by omega, ?_⟩
  simpa [ht] using ht'

theorem push_spec {a : Arr T} (w : a.WF) (dv x : T) :
    ∃ a', a.push dv x = .ok a' ∧ a'.WF ∧ a'.n = a.n + 1 ∧ a'.toList = a.toList ++ [x] := by
  obtain ⟨a1, e1, w1, n1, t1, _⟩ := resize_spec w dv (a.n + 1)
  obtain ⟨a2, e2, w2, n2, _, t2⟩ := put_spec w1 (i := a1.n - 1) (by omega) x
  refine ⟨a2, by simp [push, e1, e2], w2, by omega, ?_⟩
  have hl := w1.length
  have hl0 := w.length
  rw [show min a.n (a.n + 1) = a.n by omega, List.take_of_length_le (l := a.toList) (by omega)] at t1
  rw [t2, n1, show a.n + 1 - 1 = a.n by omega]
  rw [List.set_eq_take_append_cons_drop, if_pos (by omega), t1, List.drop_of_length_le (by omega)]

/-- `N`-bounded reads, as used by the loops over a whole array. -/
theorem get_of_toList {a : Arr T} (w : a.WF) {i : Nat} {x : T} (h : a.toList[i]? = some x) :
    a.get i = .ok x := by
  have hi : i < a.toList.length := (List.getElem?_eq_some_iff.1 h).1
  rw [w.length] at hi
  obtain ⟨y, e, h'⟩ := get_spec w hi
  rw [h] at h'; obtain rfl := Option.some.inj h'; exact e

theorem cons_spec {b : Arr T} (w : b.WF) (dv x : T) :
    ∃ c, cons dv x b = .ok c ∧ c.WF ∧ c.toList = x :: b.toList := by
  obtain ⟨w0, n0, t0⟩ := new_spec dv (b.n + 1)
  obtain ⟨c1, e1, w1, n1, _, t1⟩ := put_spec w0 (i := 0) (by omega) x
  have hlen := w.length
  obtain ⟨c2, e2, w2, n2, _, t2⟩ := fill_spec w1 b.toList 1 (by omega)
    (body := fun i c => do let y ← b.get i; c.put (i + 1) y)
    (by intro i y c h; simp [get_of_toList w h])
  refine ⟨c2, ?_, w2, ?_⟩
  · rw [hlen] at e2; simp [cons, e1, e2]
  · rw [t2, t1, t0, hlen]
    simp [List.replicate_succ]
    omega

theorem append_spec {a b : Arr T} (wa : a.WF) (wb : b.WF) (dv : T) :
    ∃ c, append dv a b = .ok c ∧ c.WF ∧ c.toList = a.toList ++ b.toList := by
  obtain ⟨w0, n0, t0⟩ := new_spec dv (a.n + b.n)
  have la := wa.length
  have lb := wb.length
  obtain ⟨c1, e1, w1, n1, _, t1⟩ := fill_spec w0 a.toList 0 (by omega)
    (body := fun i c => do let y ← a.get i; c.put i y)
    (by intro i y c h; simp [get_of_toList wa h])
  obtain ⟨c2, e2, w2, n2, _, t2⟩ := fill_spec w1 b.toList a.n (by omega)
    (body := fun i c => do let y ← b.get i; c.put (i + a.n) y)
    (by intro i y c h; simp [get_of_toList wb h])
  refine ⟨c2, ?_, w2, ?_⟩
  · rw [la] at e1; rw [lb] at e2; simp [append, e1, e2]
  · rw [t2, t1, t0, la, lb]
    simp [← la]

theorem range_spec {a : Arr T} (w : a.WF) (dv : T) {i j : Nat} (hij : i ≤ j) (hj : j ≤ a.n) :
    ∃ r, range dv a i j = .ok r ∧ r.WF ∧ r.toList = (a.toList.take j).drop i := by
  obtain ⟨w0, n0, t0⟩ := new_spec dv (j - i)
  have la := w.length
  unfold range
  rw [if_pos (by omega), if_neg (by omega)]
  have e1 : ((j : Int) - (i : Int)).toNat = j - i := by omega
  rw [e1]
  simp only [Int.toNat_natCast]
  obtain ⟨r, e, wr, _, hl⟩ := forUp_spec (lo := i) (hi := j) (s := new dv (j - i))
    (body := fun k r => do let x ← a.get k; r.put (k - i) x)
    (fun k c => c.WF ∧ c.n = j - i ∧ ∀ p, p < k - i → c.toList[p]? = a.toList[i + p]?)
    hij ⟨w0, n0, by omega⟩
    (by
      intro k c hk1 hk2 ⟨wc, hn, hc⟩
      obtain ⟨x, ex, hx⟩ := get_spec w (i := k) (by omega)
      obtain ⟨c', e, wc', hn', _, ht⟩ := put_spec wc (i := k - i) (by omega) x
      refine ⟨c', by simp [ex, e], wc', hn'.trans hn, ?_⟩
      intro p hp
      rw [ht, List.getElem?_set, wc.length]
      by_cases h : k - i = p
      · subst h
        rw [if_pos rfl, if_pos (by omega), show i + (k - i) = k by omega, hx]
      · rw [if_neg h, hc p (by omega)])
  refine ⟨r, e, wr, ?_⟩
  have lr := wr.length
  apply List.ext_getElem?
  intro p
  by_cases hp : p < j - i
  · rw [hl p hp, List.getElem?_drop, List.getElem?_take, if_pos (by omega)]
  · rw [List.getElem?_eq_none (by omega), List.getElem?_eq_none (by simp; omega)]

theorem reverse_spec {a : Arr T} (w : a.WF) (dv : T) :
    ∃ r, reverse dv a = .ok r ∧ r.WF ∧ r.toList = a.toList.reverse := by
  obtain ⟨w0, n0, t0⟩ := new_spec dv a.n
  have la := w.length
  obtain ⟨r, e, wr, hn, _, ht⟩ := fill_spec w0 a.toList.reverse 0 (by simp; omega)
    (body := fun i r => do let x ← a.get (a.n - 1 - i); r.put i x)
    (by
      intro i x c h
      have hi : i < a.toList.length := by
        have := (List.getElem?_eq_some_iff.1 h).1; simpa using this
      rw [List.getElem?_reverse hi] at h
      have : a.toList.length - 1 - i = a.n - 1 - i := by omega
      rw [this] at h
      simp [get_of_toList w h])
  refine ⟨r, ?_, wr, ?_⟩
  · rw [List.length_reverse, la] at e; exact e
  · rw [ht, t0]; simp [la]

theorem mapScalar_spec {a : Arr T} (w : a.WF) (dv : T) (op : T → T → T) (x : T) :
    ∃ r, mapScalar dv op a x = .ok r ∧ r.WF ∧ r.toList = a.toList.map (fun y => op y x) := by
  obtain ⟨w0, n0, t0⟩ := new_spec dv a.n
  have la := w.length
  obtain ⟨r, e, wr, hn, _, ht⟩ := fill_spec w0 (a.toList.map (fun y => op y x)) 0 (by simp; omega)
    (body := fun i r => do let y ← a.get i; r.put i (op y x))
    (by
      intro i z c h
      simp only [List.getElem?_map, Option.map_eq_some_iff] at h
      obtain ⟨y, h, rfl⟩ := h
      simp [get_of_toList w h])
  refine ⟨r, ?_, wr, ?_⟩
  · rw [List.length_map, la] at e; exact e
  · rw [ht, t0]; simp [la]

theorem diff_loop [DecidableEq T] {a b : Arr T} (wa : a.WF) (wb : b.WF) (h : a.n = b.n) :
    ∃ r : Option Unit, (forRet 0 a.n fun i => do
      let x ← a.get i
      let y ← b.get i
      .ok (if x ≠ y then some () else none)) = .ok r ∧ (r = none ↔ a.toList = b.toList) := by
  have la := wa.length
  have lb := wb.length
  have hb : ∀ i, 0 ≤ i → i < a.n → (do
      let x ← a.get i
      let y ← b.get i
      Res.ok (if x ≠ y then some () else none)) =
      .ok (if a.toList[i]? = b.toList[i]? then none else some ()) := by
    intro i _ hi
    obtain ⟨x, ex, hx⟩ := get_spec wa hi
    obtain ⟨y, ey, hy⟩ := get_spec wb (i := i) (by omega)
    simp only [ex, ey, Res.ok_bind, hx, hy, Option.some.injEq]
    by_cases hxy : x = y <;> simp [hxy]
  rcases forRet_spec hb with ⟨e, h1⟩ | ⟨i, r, _, h2, h3, _, e⟩
  · refine ⟨none, e, ⟨fun _ => ?_, fun _ => rfl⟩⟩
    apply List.ext_getElem?
    intro i
    by_cases hi : i < a.n
    · have := h1 i (by omega) hi
      simp at this; exact this
    · rw [List.getElem?_eq_none (by omega), List.getElem?_eq_none (by omega)]
  · refine ⟨some r, e, ⟨fun h => by simp at h, fun h => ?_⟩⟩
    rw [h] at h3; simp at h3

theorem eqv_spec [DecidableEq T] {a b : Arr T} (wa : a.WF) (wb : b.WF) :
    eqv a b = .ok (decide (a.toList = b.toList)) := by
  unfold eqv
  by_cases h : a.n = b.n
  · obtain ⟨r, e, hr⟩ := diff_loop wa wb h
    rw [if_neg (by simpa using h), e]
    cases r <;> simp_all
  · rw [if_pos h]
    have : a.toList ≠ b.toList := fun e => h (by rw [← wa.length, ← wb.length, e])
    simp [this]

theorem neq_spec [DecidableEq T] {a b : Arr T} (wa : a.WF) (wb : b.WF) :
    neq a b = .ok (decide (a.toList ≠ b.toList)) := by
  unfold neq
  by_cases h : a.n = b.n
  · obtain ⟨r, e, hr⟩ := diff_loop wa wb h
    rw [if_neg (by simpa using h), e]
    cases r <;> simp_all
  · rw [if_pos h]
    have : a.toList ≠ b.toList := fun e => h (by rw [← wa.length, ← wb.length, e])
    simp [this]

theorem contains_spec [DecidableEq T] {b : Arr T} (w : b.WF) (x : T) :
    contains x b = .ok (decide (x ∈ b.toList)) := by
  have lb := w.length
  have hb : ∀ i, 0 ≤ i → i < b.n → (do
      let y ← b.get i
      Res.ok (if x = y then some () else none)) =
      .ok (if b.toList[i]? = some x then some () else none) := by
    intro i _ hi
    obtain ⟨y, ey, hy⟩ := get_spec w hi
    simp only [ey, Res.ok_bind, hy, Option.some.injEq, eq_comm (a := x)]
  unfold contains
  rcases forRet_spec hb with ⟨e, h1⟩ | ⟨i, r, _, h2, h3, _, e⟩
  · rw [e]
    have : x ∉ b.toList := by
      intro hx
      obtain ⟨i, hi, he⟩ := List.mem_iff_getElem.1 hx
      have := h1 i (by omega) (by omega)
      simp [hi, he] at this
    simp [this]
  · rw [e]
    have : x ∈ b.toList := by
      by_cases h : b.toList[i]? = some x
      · exact List.mem_of_getElem? h
      · simp [h] at h3
    simp [this]

/-- The hash of a sequence. -/
def hashL (hash : T → BitVec 32) (l : List T) : BitVec 32 :=
  l.foldl (fun h x => hash x ^^^ ((h <<< 7) + h.sshiftRight 25)) 0#32

theorem hashCode_spec {a : Arr T} (w : a.WF) (hash : T → BitVec 32) :
    hashCode hash a = .ok (hashL hash a.toList) := by
  have la := w.length
  obtain ⟨s, e, h⟩ := forUp_spec (lo := 0) (hi := a.n) (s := 0#32)
    (body := fun i h => do let x ← a.get i; .ok (hash x ^^^ ((h <<< 7) + h.sshiftRight 25)))
    (fun i h => h = hashL hash (a.toList.take i)) (by omega) rfl
    (by
      intro i h _ hi hI
      obtain ⟨x, ex, hx⟩ := get_spec w hi
      refine ⟨hash x ^^^ ((h <<< 7) + h.sshiftRight 25), by simp only [ex, Res.ok_bind], ?_⟩
      rw [List.take_add_one, hx, hI]
      simp [hashL, List.foldl_append])
  rw [hashCode, e, h, List.take_of_length_le (by omega)]

end Arr
end Lolly
