import Verif.Data.LollyTreeProps
import Verif.Strings.ConvertProps

/-!
# C115: values in trees

`Den h T t` says that node `t` of the heap is the root of the tree `T`.
-/

set_option autoImplicit false

namespace Lolly.TreeValueProps

open LTree LTreeProps ConvProps

/-! ## Lemmas -/

theorem atom_inv {h : Heap} {s : Bytes} {t : Nat} (d : Den h (.atom s) t) : op h t = .ok 0 ∧ label h t = .ok s := by
  rw [Den, DenP] at d
  obtain ⟨_, i, h1, _, h2⟩ := d
  exact ⟨op_ok h1, label_ok h1 h2⟩

theorem node_inv {h : Heap} {o : Int} {Ts : List Tree} {t : Nat} (d : Den h (.node o Ts) t) :
    o ≠ 0 ∧ op h t = .ok o ∧ N h t = .ok Ts.length := by
  have a := C45_access d
  rw [Den, DenP] at d
  obtain ⟨_, ho, _, _, h1, _⟩ := d
  exact ⟨ho, op_ok h1, a.1⟩

/-- A new leaf. -/
theorem leaf_den (h : Heap) (s : Bytes) : Den (ofStr (newStr h s).1 (newStr h s).2).1 (.atom s) (ofStr (newStr h s).1 (newStr h s).2).2 := by
  rw [Den, DenP]
  refine ⟨trivial, h.strs.length, ?_, trivial, ?_⟩
  · simp [ofStr, newNode, newStr]
  · simp [ofStr, newNode, newStr]

/-! ## C115 -/

/-- A leaf that is made from an integer gives it back, in the type with the limits `-lim` and `lim`; the integer
`-lim` itself is left out (see C16). -/
theorem C115_int_partial {lim : Int} (h : Heap) (i : Int) (h1 : -lim < i) (h2 : i < lim) :
    let p := ofStr (newStr h (Conv.asString i)).1 (newStr h (Conv.asString i)).2
    LTree.isInt p.1 p.2 = .ok true ∧ LTree.asInt lim p.1 p.2 = .ok i ∧ isString p.1 p.2 = .ok true := by
  obtain ⟨e1, e2⟩ := atom_inv (leaf_den h (Conv.asString i))
  obtain ⟨_, r1, r2⟩ := C16_round_trip_partial i h1 h2
  dsimp only
  unfold LTree.isInt LTree.asInt isString isAtomic
  rw [e1, e2]
  exact ⟨r1, r2, rfl⟩

/-- A leaf that is made from a truth value gives it back. -/
theorem C115_bool (h : Heap) (b : Bool) :
    let p := ofStr (newStr h (Conv.asStringBool b)).1 (newStr h (Conv.asStringBool b)).2
    LTree.isBool p.1 p.2 = .ok true ∧ LTree.asBool p.1 p.2 = .ok b := by
  obtain ⟨e1, e2⟩ := atom_inv (leaf_den h (Conv.asStringBool b))
  dsimp only
  unfold LTree.isBool LTree.asBool isAtomic
  rw [e1, e2]
  cases b <;> exact ⟨by decide +kernel, by decide +kernel⟩

/-- The tests and conversions on a leaf are those of its string. -/
theorem C115_leaf {h : Heap} {s : Bytes} {t : Nat} (d : Den h (.atom s) t) (lim : Int) :
    LTree.isInt h t = Conv.isInt (rd s) s.length ∧ LTree.isDouble h t = Conv.isDouble (rd s) s.length ∧
    LTree.isBool h t = .ok (decide (s = b!"true" ∨ s = b!"false")) ∧
    LTree.asBool h t = .ok (decide (s = b!"true" ∨ s = b!"#t")) ∧
    LTree.asInt lim h t = Conv.asInt lim s ∧ isString h t = .ok true ∧
    isCompound h t = .ok false ∧ isGeneric h t = .ok false ∧
    (∀ s', neStr h t s' = .ok (decide (s ≠ s'))) ∧ (∀ l, l ≠ 0 → neLab h t l = .ok true ∧ isFuncAny h t l = .ok false) := by
  obtain ⟨e1, e2⟩ := atom_inv d
  unfold LTree.isInt LTree.isDouble LTree.isBool LTree.asBool LTree.asInt isString isCompound isGeneric neStr neLab
    isFuncAny isAtomic
  rw [e1, e2]
  refine ⟨rfl, rfl, ?_, ?_, rfl, rfl, rfl, rfl, fun s' => ?_, fun l hl => ?_⟩
  · show Res.ok (Conv.isBool s) = _
    congr 1; rw [Bool.eq_iff_iff]; simp [Conv.isBool]
  · show Res.ok (Conv.asBool s) = _
    congr 1; rw [Bool.eq_iff_iff]; simp [Conv.asBool]
  · simp
  · rw [Res.ok_bind, Res.ok_bind, if_pos (Ne.symm hl), if_neg (Ne.symm hl)]
    exact ⟨rfl, rfl⟩

/-- A tree with an operator is no value: all tests say no and all conversions give the default. Its operator tells
whether it is compound or generic, and `!=` is the negation of `==`. -/
theorem C115_node {h : Heap} {o : Int} {Ts : List Tree} {t : Nat} (d : Den h (.node o Ts) t) (lim : Int) :
    LTree.isInt h t = .ok false ∧ LTree.isDouble h t = .ok false ∧ LTree.isBool h t = .ok false ∧
    isString h t = .ok false ∧ LTree.asBool h t = .ok false ∧ LTree.asInt lim h t = .ok 0 ∧
    isCompound h t = .ok (decide (o > 0)) ∧ isGeneric h t = .ok (decide (o < 0)) ∧
    (∀ s, neStr h t s = .ok true) ∧
    (∀ l, neLab h t l = .ok (decide (¬ (o = l ∧ Ts = [])))) ∧
    (∀ l, isFuncAny h t l = .ok (decide (o = l ∧ Ts ≠ []))) := by
  obtain ⟨ho, e1, e2⟩ := node_inv d
  have ha : isAtomic h t = .ok false := by unfold isAtomic; rw [e1]; simp [ho]
  unfold LTree.isInt LTree.isDouble LTree.isBool isString LTree.asBool LTree.asInt isCompound isGeneric neStr neLab isFuncAny
  rw [ha, e1, e2]
  refine ⟨rfl, rfl, rfl, rfl, rfl, rfl, rfl, rfl, fun s => ?_, fun l => ?_, fun l => ?_⟩
  · rw [Res.ok_bind, if_pos ho]
  · rw [Res.ok_bind]
    by_cases hl : o = l
    · rw [if_neg (by simpa using hl)]; simp [hl]
    · rw [if_pos hl]; simp [hl]
  · rw [Res.ok_bind]
    by_cases hl : o = l
    · rw [if_pos hl]; simp [hl]
    · rw [if_neg hl]; simp [hl]

/-- Exactly one of `is_atomic`, `is_compound` and `is_generic` holds for a tree. -/
theorem C115_kinds {h : Heap} {T : Tree} {t : Nat} (d : Den h T t) :
    ∃ a c g, isAtomic h t = .ok a ∧ isCompound h t = .ok c ∧ isGeneric h t = .ok g ∧
      (a = true ∧ c = false ∧ g = false ∨ a = false ∧ c = true ∧ g = false ∨ a = false ∧ c = false ∧ g = true) ∧
      (a = true ↔ ∃ s, T = .atom s) := by
  cases T with
  | atom s =>
    obtain ⟨e1, _⟩ := atom_inv d
    unfold isAtomic isCompound isGeneric
    rw [e1]
    exact ⟨true, false, false, rfl, rfl, rfl, .inl ⟨rfl, rfl, rfl⟩, fun _ => ⟨s, rfl⟩, fun _ => rfl⟩
  | node o Ts =>
    obtain ⟨ho, e1, _⟩ := node_inv d
    unfold isAtomic isCompound isGeneric
    rw [e1]
    refine ⟨_, _, _, rfl, rfl, rfl, ?_, ?_⟩
    · simp only [decide_eq_true_eq, decide_eq_false_iff_not]; omega
    · simp [ho]

/-- The values that the tests accept are not those that the conversions know: `#t` is converted to true but is no
truth value, and a leaf with "+-1" is an integer that is converted to 0. -/
theorem C115_accept_violated {h : Heap} {t u : Nat} (d : Den h (.atom (b!"#t")) t) (e : Den h (.atom (b!"+-1")) u) :
    LTree.isBool h t = .ok false ∧ LTree.asBool h t = .ok true ∧
    LTree.isInt h u = .ok true ∧ LTree.asInt (2 ^ 31) h u = .ok 0 := by
  obtain ⟨_, _, a, b, _⟩ := C115_leaf d 0
  obtain ⟨c, _, _, _, f, _⟩ := C115_leaf e (2 ^ 31)
  rw [a, b, c, f]
  have := C16_sign_violated (lim := 2 ^ 31) (by decide) (b!"1") (by decide) (by unfold Digits Digit; decide)
  exact ⟨by decide, by decide, this.1, this.2.2⟩

/-- `t (i, i)` of a leaf is a node that says it is a leaf but has no string: reading its value is undefined. -/
theorem C115_slice_violated {h : Heap} {s : Bytes} {t : Nat} (d : Den h (.atom s) t) (i : Nat) :
    ∃ h' r, slice h t i i = .ok (h', r) ∧ isString h' r = .ok true ∧ LTree.toString h' r = .ub ∧
      LTree.isInt h' r = .ub ∧ LTree.asBool h' r = .ub := by
  obtain ⟨e1, _⟩ := atom_inv d
  obtain ⟨a, ks, _, x2, _⟩ := ofN_spec h 0 0
  refine ⟨(ofN h 0 0).1, (ofN h 0 0).2, ?_, ?_⟩
  · unfold slice
    rw [if_neg (by omega), e1, Res.ok_bind, Nat.sub_self]
    unfold forUp
    rw [Nat.sub_self]
    rfl
  · have o1 := op_ok x2
    have l1 : label (ofN h 0 0).1 (ofN h 0 0).2 = .ub := by unfold label; rw [rd_eq_ok.2 x2]; rfl
    unfold isString LTree.toString LTree.isInt LTree.asBool isAtomic
    rw [o1, l1]
    exact ⟨rfl, rfl, rfl, rfl⟩

/-! ## Examples -/

example : Den h0 (.node 1 [.atom (b!"a"), .atom (b!"b")]) 2 := h0_den
example : Den (ofStr (newStr h0 (b!"#t")).1 (newStr h0 (b!"#t")).2).1 (.atom (b!"#t")) 4 := leaf_den h0 (b!"#t")

end Lolly.TreeValueProps
