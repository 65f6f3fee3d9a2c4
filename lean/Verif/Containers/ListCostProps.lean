import Verif.Containers.ListCost
import Verif.Containers.LinkedListProps

set_option autoImplicit false

/-!
# C164: the cost of building lists and of going through them

The cost is the number of calls and rounds. `Chain h p as xs` says that the items of the list `p` are `xs`.
-/

namespace Lolly.ListCostProps

open Lolly.LL Lolly.LinkedListProps Lolly.ListCost

variable {T : Type}

theorem forget_plus {α : Type} (n : Nat) (x : Res (α × Nat)) : forget (plus n x) = forget x := by
  cases x <;> rfl

theorem push_same (x : T) (f : Nat) (s : State T) (r : Ref) : forget (pushC x f s r) = pushF x f s r := by
  induction f generalizing r with
  | zero => rfl
  | succ f ih =>
    unfold pushC pushF
    cases load s r with
    | ok p =>
      cases p with
      | none =>
        simp only [Res.ok_bind, mk]
        cases store { s with cells := s.cells ++ [⟨x, none⟩] } r (some s.cells.length) <;> rfl
      | some a => simp only [Res.ok_bind, forget_plus]; exact ih _
    | _ => rfl

theorem nth_same (h : Cells T) (f : Nat) (p : Ptr) (i : Int) : forget (nthC h f p i) = nthF h f p i := by
  induction f generalizing p i with
  | zero => rfl
  | succ f ih =>
    unfold nthC nthF
    cases derefA h p with
    | ok c =>
      simp only [Res.ok_bind]
      split
      · rfl
      · rw [forget_plus]; exact ih _ _
    | _ => rfl

theorem lenLoop_same (h : Cells T) (f : Nat) (c : Cell T) (n : Nat) : forget (lenLoopC h f c n) = lenLoop h f c n := by
  induction f generalizing c n with
  | zero => rfl
  | succ f ih =>
    unfold lenLoopC lenLoop
    cases c.next with
    | none => rfl
    | some a =>
      dsimp only
      cases rd h a with
      | ok d => simp only [Res.ok_bind, forget_plus]; exact ih _ _
      | _ => rfl

theorem len_same (h : Cells T) (p : Ptr) : forget (lenC h p) = len h p := by
  cases p with
  | none => rfl
  | some a =>
    unfold lenC len
    dsimp only
    cases rd h a with
    | ok d => exact lenLoop_same _ _ _ _
    | _ => rfl

theorem reverse_same (f : Nat) (h : Cells T) (p r : Ptr) : forget (reverseLoopC f h p r) = reverseLoop f h p r := by
  induction f generalizing h p r with
  | zero => rfl
  | succ f ih =>
    unfold reverseLoopC reverseLoop
    cases p with
    | none => rfl
    | some a =>
      dsimp only
      cases rd h a with
      | ok d => simp only [Res.ok_bind, forget_plus]; exact ih _ _ _
      | _ => rfl

/-- The counted functions have the outcomes of those of the model of lists. -/
theorem C164_same (x : T) (f : Nat) (s : State T) (r : Ref) (h : Cells T) (p q : Ptr) (i : Int) :
    forget (pushC x f s r) = pushF x f s r ∧ forget (nthC h f p i) = nthF h f p i ∧
    forget (lenC h p) = len h p ∧ forget (reverseLoopC f h p q) = reverseLoop f h p q :=
  ⟨push_same x f s r, nth_same h f p i, len_same h p, reverse_same f h p q⟩

theorem forget_ok {α : Type} {x : Res (α × Nat)} {a : α} (h : forget x = .ok a) : ∃ n, x = .ok (a, n) := by
  cases x with
  | ok v => obtain ⟨b, n⟩ := v; cases h; exact ⟨n, rfl⟩
  | _ => cases h

theorem plus_ok {α : Type} {x : Res (α × Nat)} {a : α} {m n : Nat} : plus m x = .ok (a, n) ↔
    ∃ k, x = .ok (a, k) ∧ n = m + k := by
  cases x with
  | ok v =>
    obtain ⟨b, k⟩ := v
    constructor
    · intro h; cases h; exact ⟨k, rfl, rfl⟩
    · rintro ⟨k', h, rfl⟩; cases h; rfl
  | _ => simp [plus]

theorem push_cost {s : State T} {p : Ptr} {as : List Nat} {xs : List T} (x : T) (c : Chain s.cells p as xs) {f : Nat}
    (r : Ref) (hr : load s r = .ok p) {s' : State T} {n : Nat} (e : pushC x f s r = .ok (s', n)) : n = xs.length + 1 := by
  induction c generalizing f r n with
  | nil =>
    cases f with
    | zero => cases e
    | succ f =>
      unfold pushC at e
      simp only [hr, Res.ok_bind, mk] at e
      obtain ⟨_, _, e⟩ := Res.bind_eq_ok.1 e
      cases e
      rfl
  | @cons a y p as xs ea c ih =>
    cases f with
    | zero => cases e
    | succ f =>
      unfold pushC at e
      simp only [hr, Res.ok_bind] at e
      obtain ⟨k, e0, rfl⟩ := plus_ok.1 e
      have := ih (.nxt a) (by simp [load, rd_eq_ok.2 ea]) e0
      rw [this, List.length_cons]
      omega

/-- Appending one item. -/
theorem push_spec {s : State T} {v : Nat} {p : Ptr} {as : List Nat} {ys : List T} (x : T)
    (hv : s.vars[v]? = some p) (c : Chain s.cells p as ys) :
    ∃ s' q bs, pushC x (s.cells.length + 1) s (.var v) = .ok (s', ys.length + 1) ∧ s'.vars[v]? = some q ∧
      Chain s'.cells q bs (ys ++ [x]) := by
  have hl : load s (.var v) = .ok p := by simp [load, rd_eq_ok.2 hv]
  have hlen : v < s.vars.length := (List.getElem?_eq_some_iff.1 hv).1
  by_cases hne : as = []
  · subst hne
    cases c
    obtain ⟨s', e, h1, h2, _⟩ := C12_push_nil v x hv
    obtain ⟨n, e'⟩ := forget_ok ((push_same x _ s (.var v)).trans e)
    have := push_cost x .nil (.var v) hl e'
    subst this
    exact ⟨s', _, _, e', by rw [h1, List.getElem?_set_self hlen], h2⟩
  · obtain ⟨s', e, h1, h2, _⟩ := C12_push v x hv c hne
    obtain ⟨n, e'⟩ := forget_ok ((push_same x _ s (.var v)).trans e)
    have := push_cost x c (.var v) hl e'
    subst this
    obtain ⟨a, ha⟩ := List.exists_mem_of_ne_nil as hne
    exact ⟨s', p, _, e', by rw [h1]; exact hv, h2 p as ys c ⟨a, ha, ha⟩⟩

/-- Appending the items `xs` to a list of `k` items, one after the other, makes exactly
`(k + 1) + (k + 2) + ... + (k + N (xs))` calls. -/
theorem C164_append_exact {s : State T} {v : Nat} {p : Ptr} {as : List Nat} {ys : List T} (xs : List T)
    (hv : s.vars[v]? = some p) (c : Chain s.cells p as ys) :
    ∃ s' n q bs, appendAll v xs s = .ok (s', n) ∧ 2 * n = xs.length * (2 * ys.length + xs.length + 1) ∧
      s'.vars[v]? = some q ∧ Chain s'.cells q bs (ys ++ xs) := by
  induction xs generalizing s p as ys with
  | nil => exact ⟨s, 0, p, as, rfl, by simp, hv, by simpa using c⟩
  | cons x xs ih =>
    obtain ⟨s1, q1, bs1, e1, h1, c1⟩ := push_spec x hv c
    obtain ⟨s2, n, q, bs, e2, hn, h2, c2⟩ := ih h1 c1
    refine ⟨s2, ys.length + 1 + n, q, bs, ?_, ?_, h2, by simpa using c2⟩
    · rw [appendAll, e1, Res.ok_bind]
      dsimp only
      rw [e2]; rfl
    · simp only [List.length_append, List.length_cons, List.length_nil] at hn ⊢
      generalize ys.length = k at hn ⊢
      generalize xs.length = m at hn ⊢
      have e : 2 * (k + 1 + n) = 2 * (k + 1) + m * (2 * (k + (0 + 1)) + m + 1) := by omega
      rw [e, Nat.add_mul m 1, Nat.one_mul]
      have : m * (2 * k + (m + 1) + 1) = m * (2 * (k + (0 + 1)) + m + 1) - m * 1 := by
        rw [← Nat.mul_sub]; congr 1; omega
      have h3 : m * 1 ≤ m * (2 * (k + (0 + 1)) + m + 1) := Nat.mul_le_mul_left _ (by omega)
      omega

theorem consAll_spec {s : State T} {v : Nat} {p : Ptr} {as : List Nat} {ys : List T} (xs : List T)
    (hv : s.vars[v]? = some p) (c : Chain s.cells p as ys) :
    ∃ s' q bs, consAll v xs s = .ok (s', xs.length) ∧ s'.vars[v]? = some q ∧ Chain s'.cells q bs (xs.reverse ++ ys) := by
  induction xs generalizing s p as ys with
  | nil => exact ⟨s, p, as, rfl, hv, c⟩
  | cons x xs ih =>
    have hlen : v < s.vars.length := (List.getElem?_eq_some_iff.1 hv).1
    obtain ⟨s1, e1, h1, c1, _⟩ := C12_cons v x hv c
    obtain ⟨s2, q, bs, e2, h2, c2⟩ := ih (by rw [h1, List.getElem?_set_self hlen]) c1
    refine ⟨s2, q, bs, ?_, h2, by simpa using c2⟩
    rw [consAll, e1, Res.ok_bind, e2, List.length_cons, Nat.add_comm]
    rfl

theorem reverse_cost {h0 h : Cells T} {p : Ptr} {as : List Nat} {xs : List T} (c : Chain h0 p as xs) {ext : Cells T}
    (hh : h = h0 ++ ext) {f : Nat} {r : Ptr} {v : Ptr × Cells T} {n : Nat} (e : reverseLoopC f h p r = .ok (v, n)) :
    n = xs.length := by
  induction c generalizing f h ext r n with
  | nil =>
    cases f with
    | zero => cases e
    | succ f => cases e; rfl
  | @cons a y p as xs ea c ih =>
    cases f with
    | zero => cases e
    | succ f =>
      subst hh
      have ha : (h0 ++ ext)[a]? = some ⟨y, p⟩ := by
        rw [List.getElem?_append_left (List.getElem?_eq_some_iff.1 ea).1]; exact ea
      unfold reverseLoopC at e
      simp only [rd_eq_ok.2 ha, Res.ok_bind, mk] at e
      obtain ⟨k, e0, rfl⟩ := plus_ok.1 e
      rw [ih (ext := ext ++ [⟨y, r⟩]) (by simp) e0, List.length_cons]
      omega

/-- Putting items in front of an empty list and reversing it gives the same list in exactly `2 * N (xs)` steps. -/
theorem C164_prepend_exact {s : State T} {v : Nat} (xs : List T) (hv : s.vars[v]? = some none) :
    ∃ s' q bs, consReverse v xs s = .ok (s', 2 * xs.length) ∧ s'.vars[v]? = some q ∧ Chain s'.cells q bs xs := by
  obtain ⟨s1, p, as, e1, h1, c1⟩ := consAll_spec xs hv .nil
  rw [List.append_nil] at c1
  obtain ⟨q, ext, bs, e2, c2, _⟩ := C11_reverse c1
  obtain ⟨n, e3⟩ := forget_ok ((reverse_same (s1.cells.length + 1) s1.cells p none).trans e2)
  have hn := reverse_cost c1 (ext := []) (by simp) e3
  rw [List.length_reverse] at hn
  subst hn
  have hlen : v < s1.vars.length := (List.getElem?_eq_some_iff.1 h1).1
  refine ⟨⟨s1.cells ++ ext, s1.vars.set v q⟩, q, bs, ?_, by simp [hlen], by simpa using c2⟩
  rw [consReverse, e1, Res.ok_bind]
  dsimp only
  rw [show load s1 (.var v) = .ok p by simp [load, rd_eq_ok.2 h1], Res.ok_bind, e3, Res.ok_bind]
  dsimp only
  rw [store, wr_ok hlen]
  simp only [Res.ok_bind]
  rw [Nat.two_mul]

theorem lenLoop_cost {h : Cells T} {p : Ptr} {as : List Nat} {xs : List T} (c : Chain h p as xs) {f : Nat} {x : T}
    {k m n : Nat} (e : lenLoopC h f ⟨x, p⟩ k = .ok (m, n)) : n = xs.length := by
  induction c generalizing f x k n with
  | nil =>
    cases f with
    | zero => cases e
    | succ f => cases e; rfl
  | @cons a y p as xs ea c ih =>
    cases f with
    | zero => cases e
    | succ f =>
      unfold lenLoopC at e
      simp only [rd_eq_ok.2 ea, Res.ok_bind] at e
      obtain ⟨k, e0, rfl⟩ := plus_ok.1 e
      rw [ih e0, List.length_cons]
      omega

theorem len_spec {h : Cells T} {p : Ptr} {as : List Nat} {xs : List T} (c : Chain h p as xs) :
    lenC h p = .ok (xs.length, xs.length - 1) := by
  obtain ⟨n, e⟩ := forget_ok ((len_same h p).trans (C11_length c))
  rw [e]
  cases c with
  | nil => cases e; rfl
  | cons ea c =>
    unfold lenC at e
    simp only [rd_eq_ok.2 ea, Res.ok_bind] at e
    rw [lenLoop_cost c e]
    rfl

theorem nth_cost {h : Cells T} {f : Nat} {p : Ptr} {i : Nat} {x : T} {n : Nat} (e : nthC h f p i = .ok (x, n)) :
    n = i + 1 := by
  induction f generalizing p i n with
  | zero => cases e
  | succ f ih =>
    unfold nthC at e
    obtain ⟨c, _, e⟩ := Res.bind_eq_ok.1 e
    cases i with
    | zero => cases e; rfl
    | succ i =>
      rw [if_neg (by omega)] at e
      obtain ⟨k, e0, rfl⟩ := plus_ok.1 e
      rw [show ((i + 1 : Nat) : Int) - 1 = i by omega] at e0
      rw [ih e0]
      omega

theorem nth_spec {h : Cells T} {p : Ptr} {as : List Nat} {xs : List T} (c : Chain h p as xs) {i : Nat} {x : T}
    (hx : xs[i]? = some x) : nthC h (h.length + 1) p i = .ok (x, i + 1) := by
  have hle := c.length_le
  have := (nthF_spec c (f := h.length + 1) (by omega) i).1 i x rfl hx
  obtain ⟨n, e⟩ := forget_ok ((nth_same h _ p i).trans this)
  rw [e, nth_cost e]

theorem indexLoop_spec {h : Cells T} {p : Ptr} {as : List Nat} {xs : List T} (c : Chain h p as xs) (m i : Nat)
    (hm : i + m = xs.length) : ∃ n, indexLoop h p (m + 1) i (xs.take i) = .ok (xs, n) ∧
      2 * n = 2 * (m + 1) * (xs.length - 1) + m * (2 * i + m + 1) := by
  induction m generalizing i with
  | zero =>
    refine ⟨xs.length - 1, ?_, by simp⟩
    unfold indexLoop
    rw [len_spec c, Res.ok_bind]
    dsimp only
    rw [if_neg (by omega), List.take_of_length_le (by omega)]
  | succ m ih =>
    obtain ⟨n, e, hn⟩ := ih (i + 1) (by omega)
    have hi : i < xs.length := by omega
    refine ⟨xs.length - 1 + (i + 1) + n, ?_, ?_⟩
    · rw [indexLoop, len_spec c, Res.ok_bind]
      dsimp only
      rw [if_pos (by omega), nth_spec c (List.getElem?_eq_getElem hi), Res.ok_bind]
      dsimp only
      rw [List.take_add_one, List.getElem?_eq_getElem hi] at e
      rw [show ((i : Nat) : Int) + 1 = (i + 1 : Nat) by omega]
      rw [show ∀ y : T, xs.take i ++ [y] = xs.take i ++ (some y).toList from fun y => rfl, e]
      rfl
    · generalize xs.length - 1 = L at hn ⊢
      have e1 : 2 * (m + 1 + 1) * L = 2 * (m + 1) * L + 2 * L := by
        rw [Nat.mul_assoc, Nat.mul_assoc, Nat.add_mul (m + 1) 1, Nat.one_mul, Nat.mul_add]
      have e2 : (m + 1) * (2 * i + (m + 1) + 1) = m * (2 * (i + 1) + m + 1) - m * 1 + (2 * i + (m + 1) + 1) := by
        rw [Nat.add_mul m 1, Nat.one_mul, ← Nat.mul_sub]
        congr 2; omega
      have h3 : m * 1 ≤ m * (2 * (i + 1) + m + 1) := Nat.mul_le_mul_left _ (by omega)
      omega

/-- Going through the items of a list by index takes exactly `n + 1` times `n - 1` rounds for its length `n` and
`1 + 2 + ... + n` calls for the items. -/
theorem C164_index_exact {h : Cells T} {p : Ptr} {as : List Nat} {xs : List T} (c : Chain h p as xs) :
    ∃ n, indexLoop h p (xs.length + 1) 0 [] = .ok (xs, n) ∧
      2 * n = 2 * (xs.length + 1) * (xs.length - 1) + xs.length * (xs.length + 1) := by
  obtain ⟨n, e, hn⟩ := indexLoop_spec c xs.length 0 (by omega)
  exact ⟨n, e, by simpa using hn⟩

theorem walkLoop_spec {h : Cells T} {p : Ptr} {as : List Nat} {xs : List T} (c : Chain h p as xs) (acc : List T) :
    walkLoop h (xs.length + 1) p acc = .ok (acc ++ xs, xs.length) := by
  induction c generalizing acc with
  | nil => simp [walkLoop]
  | @cons a y p as xs ea c ih =>
    rw [List.length_cons, walkLoop, rd_eq_ok.2 ea, Res.ok_bind, ih]
    simp only [plus, Res.ok_bind]
    rw [List.append_assoc, Nat.add_comm]
    rfl

/-- Going from node to node takes one round for every item. -/
theorem C164_walk_exact {h : Cells T} {p : Ptr} {as : List Nat} {xs : List T} (c : Chain h p as xs) :
    walkLoop h (xs.length + 1) p [] = .ok (xs, xs.length) := by
  simpa using walkLoop_spec c []

/-- Neither appending items one after the other nor going through a list by index has a cost proportional to the number of
items. -/
theorem C164_violated (x : T) (k : Nat) : ∃ m, 0 < m ∧
    (∃ s n, appendAll 0 (List.replicate m x) ⟨[], [none]⟩ = .ok (s, n) ∧ k * m < n ∧
      ∃ q bs, s.vars[0]? = some q ∧ Chain s.cells q bs (List.replicate m x) ∧
        ∃ n, indexLoop s.cells q (m + 1) 0 [] = .ok (List.replicate m x, n) ∧ k * m < n) := by
  refine ⟨2 * k + 1, by omega, ?_⟩
  obtain ⟨s, n, q, bs, e, hn, hv, c⟩ := C164_append_exact (s := ⟨[], [none]⟩) (v := 0) (List.replicate (2 * k + 1) x) rfl .nil
  simp only [List.length_replicate, List.length_nil, List.nil_append] at hn c
  have hb : k * (2 * k + 1) < n := by
    have : 2 * (k * (2 * k + 1)) < (2 * k + 1) * (2 * 0 + (2 * k + 1) + 1) := by
      rw [← Nat.mul_assoc, Nat.mul_comm (2 * k)]
      exact Nat.mul_lt_mul_of_pos_left (by omega) (by omega)
    omega
  refine ⟨s, n, e, hb, q, bs, hv, c, ?_⟩
  obtain ⟨n', e', hn'⟩ := C164_index_exact c
  simp only [List.length_replicate] at e' hn'
  refine ⟨n', e', ?_⟩
  have : 2 * (k * (2 * k + 1)) < (2 * k + 1) * (2 * k + 1 + 1) := by
    rw [← Nat.mul_assoc, Nat.mul_comm (2 * k)]
    exact Nat.mul_lt_mul_of_pos_left (by omega) (by omega)
  omega

/-- Three items. -/
example : (do let (s, n) ← appendAll 0 [5, 6, 7] (⟨[], [none]⟩ : State Nat)
              let p ← load s (.var 0)
              let (l, m) ← indexLoop s.cells p 4 0 []
              let (l', m') ← walkLoop s.cells 4 p []
              let (_, k) ← consReverse 0 [5, 6, 7] (⟨[], [none]⟩ : State Nat)
              Res.ok (n, l, m, l', m', k)) = .ok (6, [5, 6, 7], 14, [5, 6, 7], 3, 6) := by decide +kernel

end Lolly.ListCostProps
