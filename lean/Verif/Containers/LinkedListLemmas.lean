import Verif.Containers.LinkedList
import Verif.ListUtil

/-!
# Lemmas on the model of `list<T>`
-/

set_option autoImplicit false

namespace Lolly.LL

variable {T : Type}

/-- From `p`, following `next`, one meets the nodes `as` holding the items `xs`, then nil. -/
inductive Chain (h : Cells T) : Ptr → List Nat → List T → Prop
  | nil : Chain h none [] []
  | cons {a x p as xs} : h[a]? = some ⟨x, p⟩ → Chain h p as xs → Chain h (some a) (a :: as) (x :: xs)

theorem Chain.length {h : Cells T} {p : Ptr} {as : List Nat} {xs : List T} (c : Chain h p as xs) :
    as.length = xs.length := by
  induction c with
  | nil => rfl
  | cons _ _ ih => simp [ih]

theorem Chain.det {h : Cells T} {p : Ptr} {as bs : List Nat} {xs ys : List T}
    (c : Chain h p as xs) (d : Chain h p bs ys) : as = bs ∧ xs = ys := by
  induction c generalizing bs ys with
  | nil => cases d; exact ⟨rfl, rfl⟩
  | cons e c ih =>
    cases d with
    | cons e' d =>
      rw [e] at e'; obtain ⟨rfl, rfl⟩ := Cell.mk.inj (Option.some.inj e')
      obtain ⟨rfl, rfl⟩ := ih d
      exact ⟨rfl, rfl⟩

theorem Chain.mem_lt {h : Cells T} {p : Ptr} {as : List Nat} {xs : List T} (c : Chain h p as xs)
    {a : Nat} (ha : a ∈ as) : a < h.length := by
  induction c with
  | nil => simp at ha
  | cons e _ ih =>
    rcases List.mem_cons.1 ha with rfl | h'
    · exact (List.getElem?_eq_some_iff.1 e).1
    · exact ih h'

/-- The chain from any of its nodes. -/
theorem Chain.suffix {h : Cells T} {p : Ptr} {as : List Nat} {xs : List T} (c : Chain h p as xs)
    {a : Nat} (ha : a ∈ as) :
    ∃ pre bs ys, as = pre ++ a :: bs ∧ a ∉ pre ∧ Chain h (some a) (a :: bs) ys := by
  induction c with
  | nil => simp at ha
  | @cons b x p as xs e c ih =>
    by_cases hab : a = b
    · subst hab; exact ⟨[], as, x :: xs, rfl, by simp, .cons e c⟩
    · obtain ⟨pre, bs, ys, h1, h2, h3⟩ := ih ((List.mem_cons.1 ha).resolve_left hab)
      exact ⟨b :: pre, bs, ys, by rw [h1]; rfl, by simp [hab, h2], h3⟩

theorem Chain.nodup {h : Cells T} {p : Ptr} {as : List Nat} {xs : List T} (c : Chain h p as xs) :
    as.Nodup := by
  induction c with
  | nil => simp
  | @cons a x p as xs e c ih =>
    refine List.nodup_cons.2 ⟨fun ha => ?_, ih⟩
    obtain ⟨pre, bs, ys, h1, _, h3⟩ := c.suffix ha
    have := (h3.det (.cons e c)).1
    have hl := congrArg List.length h1
    have hl2 := congrArg List.length this
    simp at hl hl2; omega

theorem Chain.length_le {h : Cells T} {p : Ptr} {as : List Nat} {xs : List T}
    (c : Chain h p as xs) : xs.length ≤ h.length := by
  rw [← c.length]
  have := nodup_subset_length c.nodup (l' := List.range h.length)
    (fun a ha => List.mem_range.2 (c.mem_lt ha))
  simpa using this

/-- Nodes are only ever added at the end. -/
theorem Chain.mono {h : Cells T} {p : Ptr} {as : List Nat} {xs : List T} (c : Chain h p as xs)
    (ext : Cells T) : Chain (h ++ ext) p as xs := by
  induction c with
  | nil => exact .nil
  | @cons a x p as xs e c ih =>
    refine .cons ?_ ih
    rw [List.getElem?_append_left (List.getElem?_eq_some_iff.1 e).1]; exact e

/-- The outcome of a function that allocates: old nodes are untouched, and the result is a chain
of `xs` consisting of new nodes only. -/
def Fresh (h : Cells T) (r : Res (Ptr × Cells T)) (xs : List T) : Prop :=
  ∃ p ext as, r = .ok (p, h ++ ext) ∧ Chain (h ++ ext) p as xs ∧ ∀ a ∈ as, h.length ≤ a

theorem mk_fresh {h ext : Cells T} {q : Ptr} {as : List Nat} {xs : List T} (x : T)
    (c : Chain (h ++ ext) q as xs) (hf : ∀ a ∈ as, h.length ≤ a) :
    Fresh h (.ok (mk (h ++ ext) x q)) (x :: xs) := by
  refine ⟨some (h ++ ext).length, ext ++ [⟨x, q⟩], (h ++ ext).length :: as, by simp [mk], ?_, ?_⟩
  · rw [← List.append_assoc]
    refine .cons ?_ (c.mono _)
    simp
  · intro a ha
    rcases List.mem_cons.1 ha with rfl | h'
    · simp
    · exact hf a h'

theorem copyF_fresh {h0 h : Cells T} {ext : Cells T} (he : h = h0 ++ ext) {p : Ptr} {as : List Nat}
    {xs : List T} (c : Chain h p as xs) {f : Nat} (hf : xs.length < f) :
    Fresh h0 (copyF f h p) xs := by
  induction c generalizing f with
  | nil =>
    obtain ⟨f, rfl⟩ : ∃ g, f = g + 1 := ⟨f - 1, by omega⟩
    exact ⟨none, ext, [], by simp [copyF, he], .nil, by simp⟩
  | @cons a x p as xs e c ih =>
    obtain ⟨f, rfl⟩ : ∃ g, f = g + 1 := ⟨f - 1, by omega⟩
    obtain ⟨q, ext, bs, e1, c1, h1⟩ := ih (f := f) (by simp at hf; omega)
    have : copyF (f + 1) h (some a) = .ok (mk (h0 ++ ext) x q) := by
      simp [copyF, rd_eq_ok.2 e, e1]
    rw [this]; exact mk_fresh x c1 h1

theorem concatF_fresh {h : Cells T} {p q : Ptr} {as bs : List Nat} {xs ys : List T}
    (c : Chain h p as xs) (d : Chain h q bs ys) {f f2 : Nat} (hf : xs.length < f)
    (hf2 : ys.length < f2) : Fresh h (concatF q f2 f h p) (xs ++ ys) := by
  induction c generalizing f with
  | nil =>
    obtain ⟨f, rfl⟩ : ∃ g, f = g + 1 := ⟨f - 1, by omega⟩
    exact copyF_fresh (h0 := h) (ext := []) (by simp) d hf2
  | @cons a x p as xs e c ih =>
    obtain ⟨f, rfl⟩ : ∃ g, f = g + 1 := ⟨f - 1, by omega⟩
    obtain ⟨q1, ext, cs, e1, c1, h1⟩ := ih (f := f) (by simp at hf; omega)
    have : concatF q f2 (f + 1) h (some a) = .ok (mk (h ++ ext) x q1) := by
      simp [concatF, rd_eq_ok.2 e, e1]
    rw [this]; exact mk_fresh x c1 h1

theorem snocF_fresh {h : Cells T} {p : Ptr} {as : List Nat} {xs : List T} (x : T)
    (c : Chain h p as xs) {f : Nat} (hf : xs.length < f) : Fresh h (snocF x f h p) (xs ++ [x]) := by
  induction c generalizing f with
  | nil =>
    obtain ⟨f, rfl⟩ : ∃ g, f = g + 1 := ⟨f - 1, by omega⟩
    have := mk_fresh (h := h) (ext := []) x (q := none) (as := []) (xs := []) .nil (by simp)
    simpa [snocF] using this
  | @cons a y p as xs e c ih =>
    obtain ⟨f, rfl⟩ : ∃ g, f = g + 1 := ⟨f - 1, by omega⟩
    obtain ⟨q1, ext, cs, e1, c1, h1⟩ := ih (f := f) (by simp at hf; omega)
    have : snocF x (f + 1) h (some a) = .ok (mk (h ++ ext) y q1) := by
      simp [snocF, rd_eq_ok.2 e, e1]
    rw [this]; exact mk_fresh y c1 h1

theorem removeF_fresh [DecidableEq T] {h : Cells T} {p : Ptr} {as : List Nat} {xs : List T} (x : T)
    (c : Chain h p as xs) {f : Nat} (hf : xs.length < f) :
    Fresh h (removeF x f h p) (xs.filter (· ≠ x)) := by
  induction c generalizing f with
  | nil =>
    obtain ⟨f, rfl⟩ : ∃ g, f = g + 1 := ⟨f - 1, by omega⟩
    exact ⟨none, [], [], by simp [removeF], .nil, by simp⟩
  | @cons a y p as xs e c ih =>
    obtain ⟨f, rfl⟩ : ∃ g, f = g + 1 := ⟨f - 1, by omega⟩
    have ih := ih (f := f) (by simp at hf; omega)
    by_cases hy : y = x
    · have : removeF x (f + 1) h (some a) = removeF x f h p := by
        simp [removeF, rd_eq_ok.2 e, hy]
      rw [this, List.filter_cons_of_neg (by simpa using hy)]; exact ih
    · obtain ⟨q1, ext, cs, e1, c1, h1⟩ := ih
      have : removeF x (f + 1) h (some a) = .ok (mk (h ++ ext) y q1) := by
        simp [removeF, rd_eq_ok.2 e, hy, e1]
      rw [this, List.filter_cons_of_pos (by simpa using hy)]; exact mk_fresh y c1 h1

theorem headF_fresh {h : Cells T} {p : Ptr} {as : List Nat} {xs : List T}
    (c : Chain h p as xs) {f : Nat} (hf : xs.length < f) (n : Nat) (hn : n ≤ xs.length) :
    Fresh h (headF f h p n) (xs.take n) := by
  induction c generalizing f n with
  | nil =>
    obtain ⟨f, rfl⟩ : ∃ g, f = g + 1 := ⟨f - 1, by omega⟩
    obtain rfl : n = 0 := by simpa using hn
    exact ⟨none, [], [], by simp [headF], .nil, by simp⟩
  | @cons a y p as xs e c ih =>
    obtain ⟨f, rfl⟩ : ∃ g, f = g + 1 := ⟨f - 1, by omega⟩
    cases n with
    | zero => exact ⟨none, [], [], by simp [headF], .nil, by simp⟩
    | succ n =>
      obtain ⟨q1, ext, cs, e1, c1, h1⟩ := ih (f := f) (by simp at hf; omega) n (by simpa using hn)
      have hne : ((n + 1 : Nat) : Int) ≠ 0 := by omega
      have : headF (f + 1) h (some a) ((n + 1 : Nat) : Int) = .ok (mk (h ++ ext) y q1) := by
        rw [headF, if_neg hne]
        have : ((n + 1 : Nat) : Int) - 1 = n := by omega
        simp only [derefA, rd_eq_ok.2 e, Res.ok_bind, this, e1]
      rw [this]; exact mk_fresh y c1 h1

theorem headF_throws {h : Cells T} {p : Ptr} {as : List Nat} {xs : List T}
    (c : Chain h p as xs) {f : Nat} (hf : xs.length < f) (n : Int) (hn : n < 0 ∨ xs.length < n) :
    headF f h p n = .thrown := by
  induction c generalizing f n with
  | nil =>
    obtain ⟨f, rfl⟩ : ∃ g, f = g + 1 := ⟨f - 1, by omega⟩
    have : n ≠ 0 := by rintro rfl; simp at hn
    simp [headF, this, derefA]
  | @cons a y p as xs e c ih =>
    obtain ⟨f, rfl⟩ : ∃ g, f = g + 1 := ⟨f - 1, by omega⟩
    simp only [List.length_cons] at hn hf
    have : n ≠ 0 := by omega
    simp [headF, this, derefA, rd_eq_ok.2 e, ih (f := f) (by omega) (n - 1) (by omega)]

theorem tailN_spec {h : Cells T} {p : Ptr} {as : List Nat} {xs : List T}
    (c : Chain h p as xs) (n : Nat) :
    (n ≤ xs.length → ∃ q, tailN h n p = .ok q ∧ Chain h q (as.drop n) (xs.drop n)) ∧
    (xs.length < n → tailN h n p = .thrown) := by
  induction c generalizing n with
  | nil =>
    cases n with
    | zero => exact ⟨fun _ => ⟨none, rfl, .nil⟩, by simp⟩
    | succ n => exact ⟨by simp, fun _ => by simp [tailN, derefA]⟩
  | @cons a y p as xs e c ih =>
    cases n with
    | zero => exact ⟨fun _ => ⟨some a, rfl, .cons e c⟩, by simp⟩
    | succ n =>
      have := ih n
      refine ⟨fun hn => ?_, fun hn => ?_⟩
      · obtain ⟨q, e1, c1⟩ := this.1 (by simpa using hn)
        exact ⟨q, by simp [tailN, derefA, rd_eq_ok.2 e, e1], by simpa using c1⟩
      · simp [tailN, derefA, rd_eq_ok.2 e, this.2 (by simpa using hn)]

theorem reverseLoop_fresh {h0 h : Cells T} {p : Ptr} {as : List Nat} {xs : List T}
    (c : Chain h0 p as xs) {ext : Cells T} (hh : h = h0 ++ ext) {r : Ptr} {bs : List Nat}
    {ys : List T} (d : Chain h r bs ys) (hfr : ∀ a ∈ bs, h0.length ≤ a) {f : Nat}
    (hf : xs.length < f) : Fresh h0 (reverseLoop f h p r) (xs.reverse ++ ys) := by
  induction c generalizing f h ext r bs ys with
  | nil =>
    obtain ⟨f, rfl⟩ : ∃ g, f = g + 1 := ⟨f - 1, by omega⟩
    subst hh
    exact ⟨r, ext, bs, by simp [reverseLoop], d, hfr⟩
  | @cons a y p as xs e c ih =>
    obtain ⟨f, rfl⟩ : ∃ g, f = g + 1 := ⟨f - 1, by omega⟩
    subst hh
    obtain ⟨q, ext2, cs, e1, c1, h1⟩ := mk_fresh (h := h0) y d hfr
    have ha : (h0 ++ ext)[a]? = some ⟨y, p⟩ := by
      rw [List.getElem?_append_left (List.getElem?_eq_some_iff.1 e).1]; exact e
    have e1' : mk (h0 ++ ext) y r = (q, h0 ++ ext2) := Res.ok.inj e1
    have := ih (h := h0 ++ ext2) rfl c1 h1 (f := f) (by simp at hf; omega)
    have e2 : reverseLoop (f + 1) (h0 ++ ext) (some a) r = reverseLoop f (h0 ++ ext2) p q := by
      simp only [reverseLoop, rd_eq_ok.2 ha, Res.ok_bind, e1']
    rw [e2]
    simpa using this

theorem lenLoop_spec {h : Cells T} {p : Ptr} {as : List Nat} {xs : List T}
    (c : Chain h p as xs) {f : Nat} (hf : xs.length < f) (x : T) (n : Nat) :
    lenLoop h f ⟨x, p⟩ n = .ok (n + xs.length) := by
  induction c generalizing f x n with
  | nil =>
    obtain ⟨f, rfl⟩ : ∃ g, f = g + 1 := ⟨f - 1, by omega⟩
    simp [lenLoop]
  | @cons a y p as xs e c ih =>
    obtain ⟨f, rfl⟩ : ∃ g, f = g + 1 := ⟨f - 1, by omega⟩
    simp only [lenLoop, rd_eq_ok.2 e, Res.ok_bind]
    rw [ih (by simp at hf; omega)]
    simp; omega

theorem lastLoop_spec {h : Cells T} {p : Ptr} {as : List Nat} {xs : List T}
    (c : Chain h p as xs) {f : Nat} (hf : xs.length < f) (x : T) :
    lastLoop h f ⟨x, p⟩ = .ok ((x :: xs).getLast (by simp)) := by
  induction c generalizing f x with
  | nil =>
    obtain ⟨f, rfl⟩ : ∃ g, f = g + 1 := ⟨f - 1, by omega⟩
    simp [lastLoop]
  | @cons a y p as xs e c ih =>
    obtain ⟨f, rfl⟩ : ∃ g, f = g + 1 := ⟨f - 1, by omega⟩
    simp only [lastLoop, rd_eq_ok.2 e, Res.ok_bind]
    rw [ih (by simp at hf; omega)]
    simp

theorem nthF_spec {h : Cells T} {p : Ptr} {as : List Nat} {xs : List T}
    (c : Chain h p as xs) {f : Nat} (hf : xs.length < f) (i : Int) :
    (∀ n : Nat, ∀ x, i = n → xs[n]? = some x → nthF h f p i = .ok x) ∧
    (i < 0 ∨ xs.length ≤ i → nthF h f p i = .thrown) := by
  induction c generalizing f i with
  | nil =>
    obtain ⟨f, rfl⟩ : ∃ g, f = g + 1 := ⟨f - 1, by omega⟩
    simp [nthF, derefA]
  | @cons a y p as xs e c ih =>
    obtain ⟨f, rfl⟩ : ∃ g, f = g + 1 := ⟨f - 1, by omega⟩
    simp only [List.length_cons] at hf ⊢
    have ih := ih (f := f) (by omega) (i - 1)
    constructor
    · rintro n x rfl hx
      cases n with
      | zero => simp at hx; simp [nthF, derefA, rd_eq_ok.2 e, hx]
      | succ n =>
        have h1 := ih.1 n x (by omega) (by simpa using hx)
        have : ((n + 1 : Nat) : Int) ≠ 0 := by omega
        simp only [nthF, derefA, rd_eq_ok.2 e, Res.ok_bind, if_neg this]; exact h1
    · intro hi
      have : i ≠ 0 := by omega
      simp only [nthF, derefA, rd_eq_ok.2 e, Res.ok_bind, if_neg this]
      exact ih.2 (by omega)

section
variable [DecidableEq T]

theorem containsF_spec {h : Cells T} {p : Ptr} {as : List Nat} {xs : List T} (x : T)
    (c : Chain h p as xs) {f : Nat} (hf : xs.length < f) :
    containsF h x f p = .ok (decide (x ∈ xs)) := by
  induction c generalizing f with
  | nil =>
    obtain ⟨f, rfl⟩ : ∃ g, f = g + 1 := ⟨f - 1, by omega⟩
    simp [containsF]
  | @cons a y p as xs e c ih =>
    obtain ⟨f, rfl⟩ : ∃ g, f = g + 1 := ⟨f - 1, by omega⟩
    have ih := ih (f := f) (by simp at hf; omega)
    by_cases hy : y = x
    · simp [containsF, rd_eq_ok.2 e, hy]
    · have : ¬ x = y := fun e => hy e.symm
      simp [containsF, rd_eq_ok.2 e, hy, this, ih]

theorem cmp_spec {h : Cells T} {p q : Ptr} {as bs : List Nat} {xs ys : List T}
    (c : Chain h p as xs) (d : Chain h q bs ys) {f : Nat} (hf : xs.length < f) :
    eqF h f p q = .ok (decide (xs = ys)) ∧ neF h f p q = .ok (decide (xs ≠ ys)) ∧
    leF h f p q = .ok (decide (xs <+: ys)) ∧
    ltF h f p q = .ok (decide (xs <+: ys ∧ xs ≠ ys)) := by
  induction c generalizing f q bs ys with
  | nil =>
    obtain ⟨f, rfl⟩ : ∃ g, f = g + 1 := ⟨f - 1, by omega⟩
    cases d <;> simp [eqF, neF, leF, ltF]
  | @cons a y p as xs e c ih =>
    obtain ⟨f, rfl⟩ : ∃ g, f = g + 1 := ⟨f - 1, by omega⟩
    cases d with
    | nil => simp [eqF, neF, leF, ltF]
    | @cons b z q bs ys e' d =>
      obtain ⟨h1, h2, h3, h4⟩ := ih d (f := f) (by simp at hf; omega)
      by_cases hyz : y = z
      · subst hyz
        simp [eqF, neF, leF, ltF, deref, rd_eq_ok.2 e, rd_eq_ok.2 e', h1, h2, h3, h4,
          List.cons_prefix_cons]
      · simp [eqF, neF, leF, ltF, deref, rd_eq_ok.2 e, rd_eq_ok.2 e', hyz, List.cons_prefix_cons]

end

/-! ## In-place operations -/

/-- Updating a node that is not on the chain. -/
theorem Chain.set_off {h : Cells T} {p : Ptr} {as : List Nat} {xs : List T} (c : Chain h p as xs)
    {b : Nat} (hb : b ∉ as) (y : Cell T) : Chain (h.set b y) p as xs := by
  induction c with
  | nil => exact .nil
  | @cons a x p as xs e c ih =>
    simp only [List.mem_cons, not_or] at hb
    refine .cons ?_ (ih hb.2)
    rw [List.getElem?_set_ne hb.1]; exact e

/-- Cutting a chain at a node and continuing it elsewhere. -/
theorem Chain.redirect {h : Cells T} {p : Ptr} {as bs cs : List Nat} {xs ys : List T} {b : Nat}
    {q : Ptr} {y : T} {o : Ptr} (c : Chain h p (as ++ b :: bs) xs) (hb : h[b]? = some ⟨y, o⟩)
    (d : Chain (h.set b ⟨y, q⟩) q cs ys) :
    Chain (h.set b ⟨y, q⟩) p (as ++ b :: cs) (xs.take (as.length + 1) ++ ys) := by
  induction as generalizing p xs with
  | nil =>
    cases c with
    | cons e c =>
      rw [e] at hb
      obtain ⟨rfl, rfl⟩ := Cell.mk.inj (Option.some.inj hb)
      simp only [List.nil_append, List.length_nil, Nat.zero_add, List.take_succ_cons,
        List.take_zero, List.cons_append]
      refine .cons ?_ d
      exact List.getElem?_set_self (List.getElem?_eq_some_iff.1 e).1
  | cons a as ih =>
    have hn := c.nodup
    cases c with
    | cons e c =>
      have hab : b ≠ a := by
        rintro rfl
        simp at hn
      simp only [List.cons_append, List.length_cons, List.take_succ_cons]
      refine .cons ?_ (ih c)
      rw [List.getElem?_set_ne hab]; exact e

/-- Walking to the last node, for the three operations that do. -/
theorem pushF_spec {s : State T} {p : Ptr} {as : List Nat} {xs : List T} (x : T)
    (c : Chain s.cells p as xs) {f : Nat} (hf : xs.length < f) (r : Ref) (hr : load s r = .ok p) :
    (as = [] → pushF x f s r = store { s with cells := s.cells ++ [⟨x, none⟩] } r
      (some s.cells.length)) ∧
    (∀ pre b, as = pre ++ [b] → ∃ y, s.cells[b]? = some ⟨y, none⟩ ∧
      pushF x f s r = .ok { s with cells := (s.cells ++ [(⟨x, none⟩ : Cell T)]).set b ⟨y, some s.cells.length⟩ }) := by
  induction c generalizing f r with
  | nil =>
    obtain ⟨f, rfl⟩ : ∃ g, f = g + 1 := ⟨f - 1, by omega⟩
    exact ⟨fun _ => by simp [pushF, hr, mk], by simp⟩
  | @cons a y p as xs e c ih =>
    obtain ⟨f, rfl⟩ : ∃ g, f = g + 1 := ⟨f - 1, by omega⟩
    refine ⟨by simp, fun pre b hb => ?_⟩
    have hl : load s (.nxt a) = .ok p := by simp [load, rd_eq_ok.2 e]
    obtain ⟨i1, i2⟩ := ih (f := f) (by simp at hf; omega) (.nxt a) hl
    have step : pushF x (f + 1) s r = pushF x f s (.nxt a) := by simp [pushF, hr]
    have hal : a < s.cells.length := (List.getElem?_eq_some_iff.1 e).1
    cases as with
    | nil =>
      have : pre = [] ∧ a = b := by
        cases pre <;> simp_all
      obtain ⟨rfl, rfl⟩ := this
      cases c
      refine ⟨y, e, ?_⟩
      rw [step, i1 rfl]
      have e2 : (s.cells ++ [(⟨x, none⟩ : Cell T)])[a]? = some ⟨y, none⟩ := by
        rw [List.getElem?_append_left hal]; exact e
      simp only [store, rd_eq_ok.2 e2, Res.ok_bind]
      rw [wr_ok (by simp; omega)]; rfl
    | cons a' as' =>
      obtain ⟨pre', rfl⟩ : ∃ pre', pre = a :: pre' := by
        cases pre with
        | nil => simp at hb
        | cons z pre' => simp at hb; exact ⟨pre', by rw [hb.1]⟩
      obtain ⟨z, e1, e2⟩ := i2 pre' b (by simpa using hb)
      exact ⟨z, e1, by rw [step, e2]⟩

theorem joinF_spec {s : State T} {p : Ptr} {as : List Nat} {xs : List T} (q : Ptr)
    (c : Chain s.cells p as xs) {f : Nat} (hf : xs.length < f) (r : Ref) (hr : load s r = .ok p) :
    (as = [] → joinF q f s r = store s r q) ∧
    (∀ pre b, as = pre ++ [b] → ∃ y, s.cells[b]? = some ⟨y, none⟩ ∧
      joinF q f s r = .ok { s with cells := s.cells.set b ⟨y, q⟩ }) := by
  induction c generalizing f r with
  | nil =>
    obtain ⟨f, rfl⟩ : ∃ g, f = g + 1 := ⟨f - 1, by omega⟩
    exact ⟨fun _ => by simp [joinF, hr], by simp⟩
  | @cons a y p as xs e c ih =>
    obtain ⟨f, rfl⟩ : ∃ g, f = g + 1 := ⟨f - 1, by omega⟩
    refine ⟨by simp, fun pre b hb => ?_⟩
    have hl : load s (.nxt a) = .ok p := by simp [load, rd_eq_ok.2 e]
    obtain ⟨i1, i2⟩ := ih (f := f) (by simp at hf; omega) (.nxt a) hl
    have step : joinF q (f + 1) s r = joinF q f s (.nxt a) := by simp [joinF, hr]
    have hal : a < s.cells.length := (List.getElem?_eq_some_iff.1 e).1
    cases as with
    | nil =>
      have : pre = [] ∧ a = b := by
        cases pre <;> simp_all
      obtain ⟨rfl, rfl⟩ := this
      cases c
      refine ⟨y, e, ?_⟩
      rw [step, i1 rfl]
      simp only [store, rd_eq_ok.2 e, Res.ok_bind]
      rw [wr_ok hal]; rfl
    | cons a' as' =>
      obtain ⟨pre', rfl⟩ : ∃ pre', pre = a :: pre' := by
        cases pre with
        | nil => simp at hb
        | cons z pre' => simp at hb; exact ⟨pre', by rw [hb.1]⟩
      obtain ⟨z, e1, e2⟩ := i2 pre' b (by simpa using hb)
      exact ⟨z, e1, by rw [step, e2]⟩

theorem setLastF_spec {s : State T} {p : Ptr} {as : List Nat} {xs : List T} (x : T)
    (c : Chain s.cells p as xs) {f : Nat} (hf : xs.length < f) (r : Ref) (hr : load s r = .ok p) :
    (as = [] → setLastF x f s r = .thrown) ∧
    (∀ pre b, as = pre ++ [b] →
      setLastF x f s r = .ok { s with cells := s.cells.set b ⟨x, none⟩ }) := by
  induction c generalizing f r with
  | nil =>
    obtain ⟨f, rfl⟩ : ∃ g, f = g + 1 := ⟨f - 1, by omega⟩
    exact ⟨fun _ => by simp [setLastF, hr], by simp⟩
  | @cons a y p as xs e c ih =>
    obtain ⟨f, rfl⟩ : ∃ g, f = g + 1 := ⟨f - 1, by omega⟩
    refine ⟨by simp, fun pre b hb => ?_⟩
    have hl : load s (.nxt a) = .ok p := by simp [load, rd_eq_ok.2 e]
    obtain ⟨i1, i2⟩ := ih (f := f) (by simp at hf; omega) (.nxt a) hl
    have hal : a < s.cells.length := (List.getElem?_eq_some_iff.1 e).1
    cases c with
    | nil =>
      have : pre = [] ∧ a = b := by
        cases pre <;> simp_all
      obtain ⟨rfl, rfl⟩ := this
      simp [setLastF, hr, rd_eq_ok.2 e, wr_ok hal]
    | @cons a' y' p' as' xs' e' c' =>
      obtain ⟨pre', rfl⟩ : ∃ pre', pre = a :: pre' := by
        cases pre with
        | nil => simp at hb
        | cons z pre' => simp at hb; exact ⟨pre', by rw [hb.1]⟩
      have := i2 pre' b (by simpa using hb)
      simp [setLastF, hr, rd_eq_ok.2 e, this]

theorem suppressF_spec {s : State T} {p : Ptr} {as : List Nat} {xs : List T}
    (c : Chain s.cells p as xs) {f : Nat} (hf : xs.length < f) (r : Ref) (hr : load s r = .ok p) :
    (as = [] → suppressF f s r = .thrown) ∧
    (∀ b, as = [b] → suppressF f s r = store s r none) ∧
    (∀ pre a b, as = pre ++ [a, b] → ∃ y, s.cells[a]? = some ⟨y, some b⟩ ∧
      suppressF f s r = .ok { s with cells := s.cells.set a ⟨y, none⟩ }) := by
  induction c generalizing f r with
  | nil =>
    obtain ⟨f, rfl⟩ : ∃ g, f = g + 1 := ⟨f - 1, by omega⟩
    exact ⟨fun _ => by simp [suppressF, hr], by simp, by simp⟩
  | @cons a y p as xs e c ih =>
    obtain ⟨f, rfl⟩ : ∃ g, f = g + 1 := ⟨f - 1, by omega⟩
    have hl : load s (.nxt a) = .ok p := by simp [load, rd_eq_ok.2 e]
    obtain ⟨i1, i2, i3⟩ := ih (f := f) (by simp at hf; omega) (.nxt a) hl
    have hal : a < s.cells.length := (List.getElem?_eq_some_iff.1 e).1
    cases c with
    | nil =>
      refine ⟨by simp, fun b hb => ?_, fun pre a' b hb => ?_⟩
      · simp [suppressF, hr, rd_eq_ok.2 e]
      · have := congrArg List.length hb
        simp at this
    | @cons a2 y2 p2 as2 xs2 e2 c2 =>
      have step : suppressF (f + 1) s r = suppressF f s (.nxt a) := by
        simp [suppressF, hr, rd_eq_ok.2 e]
      refine ⟨by simp, by simp, fun pre a' b hb => ?_⟩
      cases as2 with
      | nil =>
        have : pre = [] ∧ a = a' ∧ a2 = b := by
          cases pre with
          | nil => simp at hb; exact ⟨rfl, hb.1, hb.2⟩
          | cons z pre' =>
            have := congrArg List.length hb
            simp at this
        obtain ⟨rfl, rfl, rfl⟩ := this
        refine ⟨y, e, ?_⟩
        rw [step, i2 a2 rfl]
        simp only [store, rd_eq_ok.2 e, Res.ok_bind]
        rw [wr_ok hal]; rfl
      | cons a3 as3 =>
        obtain ⟨pre', rfl⟩ : ∃ pre', pre = a :: pre' := by
          cases pre with
          | nil => simp at hb
          | cons z pre' => simp at hb; exact ⟨pre', by rw [hb.1]⟩
        obtain ⟨z, h1, h2⟩ := i3 pre' a' b (by simpa using hb)
        exact ⟨z, h1, by rw [step, h2]⟩

end Lolly.LL
