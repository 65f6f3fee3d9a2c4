import Verif.Containers.LinkedListProps

/-!
# Property C143 (items written through lists, and `strong_equal`)

`Chain h p as xs` reads: in the heap `h`, the list handle `p` is the acyclic chain of nodes `as` with items `xs`.
-/

set_option autoImplicit false

namespace Lolly.ListIdentityProps

open LL

variable {T : Type} {h : Cells T} {p q : Ptr} {as bs : List Nat} {xs ys : List T} {s : State T}

theorem setNthF_spec (x : T) (c : Chain s.cells p as xs) {f : Nat} (hf : xs.length < f) (i : Int) :
    (∀ n a : Nat, i = n → as[n]? = some a → ∃ o, s.cells[a]? = some o ∧
      setNthF x f s p i = .ok { s with cells := s.cells.set a { o with item := x } }) ∧
    (i < 0 ∨ xs.length ≤ i → setNthF x f s p i = .thrown) := by
  induction c generalizing f i with
  | nil =>
    obtain ⟨f, rfl⟩ : ∃ g, f = g + 1 := ⟨f - 1, by omega⟩
    simp [setNthF]
  | @cons a y p as xs e c ih =>
    obtain ⟨f, rfl⟩ : ∃ g, f = g + 1 := ⟨f - 1, by omega⟩
    simp only [List.length_cons] at hf ⊢
    have ih := ih (f := f) (by omega) (i - 1)
    have hal : a < s.cells.length := (List.getElem?_eq_some_iff.1 e).1
    constructor
    · rintro n b rfl hb
      cases n with
      | zero =>
        simp at hb; subst hb
        exact ⟨_, e, by simp [setNthF, rd_eq_ok.2 e, wr_ok hal]⟩
      | succ n =>
        obtain ⟨o, h1, h2⟩ := ih.1 n b (by omega) (by simpa using hb)
        have : ((n + 1 : Nat) : Int) ≠ 0 := by omega
        exact ⟨o, h1, by simp only [setNthF, rd_eq_ok.2 e, Res.ok_bind, if_neg this]; exact h2⟩
    · intro hi
      have : i ≠ 0 := by omega
      simp only [setNthF, rd_eq_ok.2 e, Res.ok_bind, if_neg this]
      exact ih.2 (by omega)

/-- Writing the item of a node of a chain. -/
theorem chain_write (x : T) (c : Chain h p as xs) {a : Nat} {o : Cell T} (ho : h[a]? = some o) (j : Nat)
    (hj : as[j]? = some a) : Chain (h.set a { o with item := x }) p as (xs.set j x) := by
  induction c generalizing j with
  | nil => simp at hj
  | @cons b y p as xs e c ih =>
    have hn := (Chain.cons e c).nodup
    cases j with
    | zero =>
      simp at hj; subst hj
      rw [ho] at e; cases e
      rw [List.set_cons_zero]
      exact .cons (List.getElem?_set_self (List.getElem?_eq_some_iff.1 ho).1)
        (c.set_off (List.nodup_cons.1 hn).1 _)
    | succ j =>
      have hm : a ∈ as := List.mem_of_getElem? (by simpa using hj)
      have hab : a ≠ b := by rintro rfl; exact (List.nodup_cons.1 hn).1 hm
      rw [List.set_cons_succ]
      refine .cons ?_ (ih j (by simpa using hj))
      rw [List.getElem?_set_ne hab]; exact e

/-- `l[i]= x`: item `i` of `l` becomes `x`, in every list that runs through the same node the item of that node, and
nothing else changes; other indices throw. -/
theorem C143_write (v : Nat) (x : T) (hv : s.vars[v]? = some p) (c : Chain s.cells p as xs) :
    (∀ i : Nat, ∀ hi : i < as.length, ∃ s', setNth s v i x = .ok s' ∧ s'.vars = s.vars ∧
      Chain s'.cells p as (xs.set i x) ∧
      (∀ q bs ys j, Chain s.cells q bs ys → bs[j]? = some as[i] → Chain s'.cells q bs (ys.set j x)) ∧
      (∀ q bs ys, Chain s.cells q bs ys → as[i] ∉ bs → Chain s'.cells q bs ys)) ∧
    (∀ i : Int, i < 0 ∨ xs.length ≤ i → setNth s v i x = .thrown) := by
  have hl : load s (.var v) = .ok p := by simp [load, rd_eq_ok.2 hv]
  have hle := c.length_le
  refine ⟨fun i hi => ?_, fun i hi => ?_⟩
  · obtain ⟨o, h1, h2⟩ := (setNthF_spec x c (f := s.cells.length + 1) (by omega) i).1 i as[i] rfl
      (List.getElem?_eq_getElem hi)
    refine ⟨{ s with cells := s.cells.set as[i] { o with item := x } }, by rw [setNth, hl, Res.ok_bind, h2], rfl, chain_write x c h1 i (List.getElem?_eq_getElem hi),
      fun q bs ys j d hj => chain_write x d h1 j hj, fun q bs ys d hd => d.set_off hd _⟩
  · rw [setNth, hl, Res.ok_bind, (setNthF_spec x c (f := s.cells.length + 1) (by omega) i).2 hi]

/-- `is_atom`: lists of exactly one item. -/
theorem C143_is_atom (c : Chain h p as xs) : isAtom h p = .ok (decide (xs.length = 1)) := by
  cases c with
  | nil => rfl
  | cons e c =>
    simp only [isAtom, rd_eq_ok.2 e, Res.ok_bind]
    cases c <;> simp

/-- What holds of the documented meaning of `strong_equal` ("the same items in the same order"): lists for which it is
true have the same items, two empty lists are strongly equal, and so are two handles on one list. -/
theorem C143_strong_equal_partial (c : Chain h p as xs) (d : Chain h q bs ys) :
    (strongEqual p q = true → xs = ys) ∧ (xs = [] → ys = [] → strongEqual p q = true) ∧
    strongEqual p p = true := by
  refine ⟨fun e => ?_, ?_, by simp [strongEqual]⟩
  · simp only [strongEqual, decide_eq_true_eq] at e
    subst e
    exact (c.det d).2
  · rintro rfl rfl
    cases c; cases d; rfl

/-- What `strong_equal` tells: whether writing the first item of one list shows in the first item of the other (or both
are empty). -/
theorem C143_identity (v : Nat) (hv : s.vars[v]? = some p) (c : Chain s.cells p as xs) (d : Chain s.cells q bs ys)
    (x : T) (hx : ys.head? ≠ some x) :
    strongEqual p q = true ↔
      (xs = [] ∧ ys = []) ∨ ∃ s', setNth s v 0 x = .ok s' ∧ nth s'.cells q 0 = .ok x := by
  constructor
  · intro e
    simp only [strongEqual, decide_eq_true_eq] at e
    subst e
    obtain ⟨rfl, rfl⟩ := c.det d
    cases hxs : xs with
    | nil => exact .inl ⟨rfl, rfl⟩
    | cons z zs =>
      subst hxs
      have hp : 0 < as.length := by rw [c.length]; simp
      obtain ⟨s', e, -, c', -⟩ := (C143_write v x hv c).1 0 hp
      exact .inr ⟨s', e, (LinkedListProps.C11_nth c').1 0 (by simp)⟩
  · rintro (⟨rfl, rfl⟩ | ⟨s', e, hn⟩)
    · cases c; cases d; rfl
    · cases has : as with
      | nil =>
        subst has
        have : xs = [] := by cases c; rfl
        subst this
        rw [show ((0 : Int)) = ((0 : Nat) : Int) from rfl, (C143_write v x hv c).2 _ (by simp)] at e
        cases e
      | cons a as' =>
        subst has
        obtain ⟨s'', e', -, -, on, off⟩ := (C143_write v x hv c).1 0 (by simp)
        have e : setNth s v ((0 : Nat) : Int) x = .ok s' := e
        rw [e] at e'
        cases e'
        cases c with
        | cons ec c =>
          cases d with
          | nil =>
            have := (LinkedListProps.C11_nth (off none [] [] .nil (by simp))).2 0 (by simp)
            rw [this] at hn; cases hn
          | @cons b y q' bs' ys' ed d =>
            by_cases hab : a = b
            · subst hab; simp [strongEqual]
            · exfalso
              have hy : y ≠ x := by simpa using hx
              have key : ∃ zs, Chain s'.cells (some b) (b :: bs') (y :: zs) := by
                by_cases hm : a ∈ bs'
                · obtain ⟨j, hj⟩ := List.mem_iff_getElem?.1 hm
                  exact ⟨_, on _ _ _ (j + 1) (.cons ed d) (by simpa using hj)⟩
                · exact ⟨_, off _ _ _ (.cons ed d) (by simp [hab, hm])⟩
              obtain ⟨zs, k⟩ := key
              have := (LinkedListProps.C11_nth k).1 0 (by simp)
              have hn : nth s'.cells (some b) ((0 : Nat) : Int) = .ok x := hn
              rw [this] at hn
              injection hn with hn
              exact hy hn

/-- Three handles: `l` (nodes 0, 1), its tail and a separate list of the same items; `l[1]= 9` shows in the first two. -/
example : ∃ s : State Nat, s.vars[0]? = some (some 0) ∧ Chain s.cells (some 0) [0, 1] [7, 8] ∧
    Chain s.cells (some 1) [1] [8] ∧ Chain s.cells (some 2) [2] [8] ∧
    setNth s 0 1 9 = .ok { s with cells := [⟨7, some 1⟩, ⟨9, none⟩, ⟨8, none⟩] } ∧ setNth s 0 2 9 = .thrown ∧
    isAtom s.cells (some 1) = .ok true ∧ isAtom s.cells (some 0) = .ok false :=
  ⟨⟨[⟨7, some 1⟩, ⟨8, none⟩, ⟨8, none⟩], [some 0, some 1, some 2]⟩, rfl, .cons rfl (.cons rfl .nil), .cons rfl .nil,
    .cons rfl .nil, rfl, rfl, rfl, rfl⟩

/-- Lists of the same items that do not begin with the same node are equal, but never strongly equal, although the documentation
of `strong_equal` says that it compares the items in order. In particular no nonempty list is strongly equal to its copy. -/
theorem C143_violated [DecidableEq T] (c : Chain h p as xs) (hx : xs ≠ []) :
    (∀ q bs, Chain h q bs xs → as.head? ≠ bs.head? → eq h p q = .ok true ∧ strongEqual p q = false) ∧
    ∃ q h', copy h p = .ok (q, h') ∧ eq h' p q = .ok true ∧ strongEqual p q = false := by
  have key : ∀ (h : Cells T) q bs, Chain h p as xs → Chain h q bs xs → as.head? ≠ bs.head? →
      eq h p q = .ok true ∧ strongEqual p q = false := by
    intro h q bs c d hne
    have hl := c.length_le
    refine ⟨?_, ?_⟩
    · rw [LL.eq, (cmp_spec c d (by omega)).1]; simp
    · refine decide_eq_false ?_
      rintro rfl
      cases c with
      | nil => exact hx rfl
      | cons e c =>
        cases d with
        | cons e' d => exact hne rfl
  refine ⟨fun q bs => key h q bs c, ?_⟩
  have hl := c.length_le
  obtain ⟨q, ext, cs, e, d, hf⟩ := copyF_fresh (h0 := h) (ext := []) (by simp) c (f := h.length + 1) (by omega)
  refine ⟨q, h ++ ext, e, key _ q cs (c.mono ext) d ?_⟩
  cases c with
  | nil => exact absurd rfl hx
  | @cons a x p as xs ea c =>
    cases d with
    | @cons b y p' bs ys e' d =>
      have h1 := (List.getElem?_eq_some_iff.1 ea).1
      have h2 := hf b (by simp)
      simp only [List.head?_cons, ne_eq, Option.some.injEq]
      omega

/-- `strong_equal (list<int> (1), list<int> (1))` is false. -/
example : Chain (T := Nat) [⟨1, none⟩, ⟨1, none⟩] (some 0) [0] [1] ∧ Chain (T := Nat) [⟨1, none⟩, ⟨1, none⟩] (some 1) [1] [1] ∧
    eq (T := Nat) [⟨1, none⟩, ⟨1, none⟩] (some 0) (some 1) = .ok true ∧ strongEqual (some 0) (some 1) = false :=
  ⟨.cons rfl .nil, .cons rfl .nil, rfl, rfl⟩

end Lolly.ListIdentityProps
