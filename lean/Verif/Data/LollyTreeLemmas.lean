import Verif.Data.LollyTree

set_option autoImplicit false

/-!
# Trees denoted by heap nodes
-/

namespace Lolly.LTree

/-- Abstract trees. -/
inductive Tree where
  | atom (s : Bytes)
  | node (op : Int) (kids : List Tree)

/-- A set of objects. -/
structure Region where
  tree : Nat → Prop
  arr : Nat → Prop
  str : Nat → Prop

/-- All objects. -/
def Region.all : Region := ⟨fun _ => True, fun _ => True, fun _ => True⟩

mutual
/-- Node `t` is the root of the tree, all of whose objects are in the region. -/
def DenP (P : Region) (h : Heap) : Tree → Nat → Prop
  | .atom l, t => P.tree t ∧ ∃ s, h.trees[t]? = some ⟨0, .str s⟩ ∧ P.str s ∧ h.strs[s]? = some l
  | .node o ts, t => P.tree t ∧ o ≠ 0 ∧ ∃ a ks, h.trees[t]? = some ⟨o, .arr a⟩ ∧ P.arr a ∧ h.arrs[a]? = some ks ∧
    DensP P h ts ks
/-- The same for lists. -/
def DensP (P : Region) (h : Heap) : List Tree → List Nat → Prop
  | [], ks => ks = []
  | t :: ts, ks => ∃ k ks', ks = k :: ks' ∧ DenP P h t k ∧ DensP P h ts ks'
end

mutual
/-- A bound for the recursion. -/
def Tree.depth : Tree → Nat
  | .atom _ => 1
  | .node _ ts => depths ts + 1
/-- The largest of the depths. -/
def depths : List Tree → Nat
  | [] => 0
  | t :: ts => max t.depth (depths ts)
end

theorem densP_iff (P : Region) (h : Heap) : ∀ (ts : List Tree) (ks : List Nat),
    DensP P h ts ks ↔ ks.length = ts.length ∧ ∀ i (hi : i < ts.length) (hk : i < ks.length), DenP P h ts[i] ks[i]
  | [], ks => by simp [DensP]
  | t :: ts, ks => by
    rw [DensP]
    cases ks with
    | nil => simp
    | cons k ks =>
      simp only [List.cons.injEq]
      constructor
      · rintro ⟨k', ks', ⟨rfl, rfl⟩, h1, h2⟩
        obtain ⟨h3, h4⟩ := (densP_iff P h ts ks).1 h2
        refine ⟨by simp [h3], fun i hi hk => ?_⟩
        cases i with
        | zero => exact h1
        | succ i => exact h4 i (by simpa using hi) (by simpa using hk)
      · rintro ⟨h1, h2⟩
        refine ⟨k, ks, ⟨rfl, rfl⟩, h2 0 (by simp) (by simp), (densP_iff P h ts ks).2 ⟨by simpa using h1, fun i hi hk => ?_⟩⟩
        exact h2 (i + 1) (by simpa using hi) (by simpa using hk)

theorem depth_le {ts : List Tree} {i : Nat} (hi : i < ts.length) : ts[i].depth ≤ depths ts := by
  induction ts generalizing i with
  | nil => simp at hi
  | cons t ts ih =>
    rw [depths]
    cases i with
    | zero => exact Nat.le_max_left _ _
    | succ i =>
      have := ih (i := i) (by simpa using hi)
      simp only [List.getElem_cons_succ]
      omega

/-- `h'` has the objects of `h` that are in the region, unchanged. -/
def Keeps (P : Region) (h h' : Heap) : Prop :=
  (∀ i x, P.tree i → h.trees[i]? = some x → h'.trees[i]? = some x) ∧
  (∀ i x, P.arr i → h.arrs[i]? = some x → h'.arrs[i]? = some x) ∧
  (∀ i x, P.str i → h.strs[i]? = some x → h'.strs[i]? = some x)

mutual
theorem DenP.keep {P Q : Region} {h h' : Heap} (k : Keeps P h h') (p : (∀ i, P.tree i → Q.tree i) ∧
    (∀ i, P.arr i → Q.arr i) ∧ ∀ i, P.str i → Q.str i) : ∀ (T : Tree) {t : Nat}, DenP P h T t → DenP Q h' T t
  | .atom l, t => by
    rw [DenP, DenP]
    rintro ⟨p1, s, h1, p2, h2⟩
    exact ⟨p.1 _ p1, s, k.1 _ _ p1 h1, p.2.2 _ p2, k.2.2 _ _ p2 h2⟩
  | .node o ts, t => by
    rw [DenP, DenP]
    rintro ⟨p1, ho, a, ks, h1, p2, h2, h3⟩
    exact ⟨p.1 _ p1, ho, a, ks, k.1 _ _ p1 h1, p.2.1 _ p2, k.2.1 _ _ p2 h2, DensP.keep k p ts h3⟩
theorem DensP.keep {P Q : Region} {h h' : Heap} (k : Keeps P h h') (p : (∀ i, P.tree i → Q.tree i) ∧
    (∀ i, P.arr i → Q.arr i) ∧ ∀ i, P.str i → Q.str i) : ∀ (Ts : List Tree) {ts : List Nat},
    DensP P h Ts ts → DensP Q h' Ts ts
  | [], ts => by rw [DensP, DensP]; exact id
  | T :: Ts, ts => by
    rw [DensP, DensP]
    rintro ⟨x, xs, e, h1, h2⟩
    exact ⟨x, xs, e, DenP.keep k p T h1, DensP.keep k p Ts h2⟩
end

mutual
theorem DenP.unique {P Q : Region} {h : Heap} : ∀ {T U : Tree} {t : Nat}, DenP P h T t → DenP Q h U t → T = U
  | .atom l, .atom l', t => by
    rw [DenP, DenP]
    rintro ⟨_, s, h1, _, h2⟩ ⟨_, s', h1', _, h2'⟩
    rw [h1] at h1'; cases h1'
    rw [h2] at h2'; cases h2'; rfl
  | .atom l, .node o ts, t => by
    rw [DenP, DenP]
    rintro ⟨_, s, h1, _, h2⟩ ⟨_, _, a, ks, h1', _⟩
    rw [h1] at h1'; cases h1'
  | .node o ts, .atom l, t => by
    rw [DenP, DenP]
    rintro ⟨_, _, a, ks, h1', _⟩ ⟨_, s, h1, _, h2⟩
    rw [h1] at h1'; cases h1'
  | .node o ts, .node o' ts', t => by
    rw [DenP, DenP]
    rintro ⟨_, _, a, ks, h1, _, h2, h3⟩ ⟨_, _, a', ks', h1', _, h2', h3'⟩
    rw [h1] at h1'; cases h1'
    rw [h2] at h2'; cases h2'
    rw [DensP.unique h3 h3']
theorem DensP.unique {P Q : Region} {h : Heap} : ∀ {Ts Us : List Tree} {ts : List Nat},
    DensP P h Ts ts → DensP Q h Us ts → Ts = Us
  | [], [], _ => fun _ _ => rfl
  | [], U :: Us, ts => by
    rw [DensP, DensP]; rintro rfl ⟨_, _, e, _⟩; cases e
  | T :: Ts, [], ts => by
    rw [DensP, DensP]; rintro ⟨_, _, e, _⟩ rfl; cases e
  | T :: Ts, U :: Us, ts => by
    rw [DensP, DensP]
    rintro ⟨k, ks, rfl, h1, h2⟩ ⟨k', ks', e, h1', h2'⟩
    cases e
    rw [DenP.unique h1 h1', DensP.unique h2 h2']
end

theorem op_ok {h : Heap} {t : Nat} {x : Node} (e : h.trees[t]? = some x) : op h t = .ok x.op := by
  unfold op; rw [rd_eq_ok.2 e]; rfl

theorem label_ok {h : Heap} {t s : Nat} {o : Int} {l : Bytes} (e : h.trees[t]? = some ⟨o, .str s⟩)
    (e2 : h.strs[s]? = some l) : label h t = .ok l := by
  unfold label; rw [rd_eq_ok.2 e, Res.ok_bind]; exact rd_eq_ok.2 e2

theorem A_ok {h : Heap} {t a : Nat} {o : Int} (e : h.trees[t]? = some ⟨o, .arr a⟩) : A h t = .ok a := by
  unfold A; rw [rd_eq_ok.2 e, Res.ok_bind]

theorem kids_ok {h : Heap} {t a : Nat} {o : Int} {l : List Nat} (e : h.trees[t]? = some ⟨o, .arr a⟩)
    (e2 : h.arrs[a]? = some l) : kids h t = .ok l := by
  unfold kids; rw [A_ok e, Res.ok_bind]; exact rd_eq_ok.2 e2

theorem N_ok {h : Heap} {t a : Nat} {o : Int} {l : List Nat} (e : h.trees[t]? = some ⟨o, .arr a⟩)
    (e2 : h.arrs[a]? = some l) : N h t = .ok l.length := by
  unfold N; rw [kids_ok e e2, Res.ok_bind]

theorem child_ok {h : Heap} {t a : Nat} {o : Int} {l : List Nat} (e : h.trees[t]? = some ⟨o, .arr a⟩)
    (e2 : h.arrs[a]? = some l) {i : Nat} (hi : i < l.length) : child h t i = .ok l[i] := by
  unfold child; rw [kids_ok e e2, Res.ok_bind]; exact rd_ok hi

theorem setChild_ok {h : Heap} {t a : Nat} {o : Int} {l : List Nat} (e : h.trees[t]? = some ⟨o, .arr a⟩)
    (e2 : h.arrs[a]? = some l) {i : Nat} (hi : i < l.length) (c : Nat) :
    setChild h t i c = .ok { h with arrs := h.arrs.set a (l.set i c) } := by
  unfold setChild; rw [A_ok e, Res.ok_bind, rd_eq_ok.2 e2, Res.ok_bind, wr_ok hi]; rfl

/-- `h'` only has additional objects. -/
def Ext (h h' : Heap) : Prop := Keeps .all h h' ∧ h.trees.length ≤ h'.trees.length ∧
  h.arrs.length ≤ h'.arrs.length ∧ h.strs.length ≤ h'.strs.length

theorem getElem?_append_some {α : Type} {l m : List α} {i : Nat} {x : α} (e : l[i]? = some x) :
    (l ++ m)[i]? = some x := by
  rw [List.getElem?_append_left]
  · exact e
  · exact (List.getElem?_eq_some_iff.1 e).1

theorem Ext.refl (h : Heap) : Ext h h := ⟨⟨fun _ _ _ e => e, fun _ _ _ e => e, fun _ _ _ e => e⟩, by omega, by omega, by omega⟩

theorem Ext.trans {a b c : Heap} (h1 : Ext a b) (h2 : Ext b c) : Ext a c :=
  ⟨⟨fun i x p e => h2.1.1 i x p (h1.1.1 i x p e), fun i x p e => h2.1.2.1 i x p (h1.1.2.1 i x p e),
    fun i x p e => h2.1.2.2 i x p (h1.1.2.2 i x p e)⟩, by have := h1.2; have := h2.2; omega,
    by have := h1.2; have := h2.2; omega, by have := h1.2; have := h2.2; omega⟩

theorem newStr_ext (h : Heap) (l : Bytes) : Ext h (newStr h l).1 :=
  ⟨⟨fun _ _ _ e => e, fun _ _ _ e => e, fun _ _ _ e => getElem?_append_some e⟩, by simp [newStr]⟩

theorem newNode_ext (h : Heap) (x : Node) : Ext h (newNode h x).1 :=
  ⟨⟨fun _ _ _ e => getElem?_append_some e, fun _ _ _ e => e, fun _ _ _ e => e⟩, by simp [newNode]⟩

theorem newArr_ext (h : Heap) (x : List Nat) : Ext h (newArr h x).1 :=
  ⟨⟨fun _ _ _ e => e, fun _ _ _ e => getElem?_append_some e, fun _ _ _ e => e⟩, by simp [newArr]⟩

theorem dflt_ext (h : Heap) : Ext h (dflt h).1 := (newStr_ext h []).trans (newNode_ext _ _)

theorem dflts_ext : ∀ (n : Nat) (h : Heap), Ext h (dflts n h).1
  | 0, h => Ext.refl h
  | n + 1, h => (dflt_ext h).trans (dflts_ext n _)

theorem dflts_length : ∀ (n : Nat) (h : Heap), (dflts n h).2.length = n
  | 0, h => rfl
  | n + 1, h => by simp [dflts, dflts_length n]

theorem dflts_arrs : ∀ (n : Nat) (h : Heap), (dflts n h).1.arrs = h.arrs
  | 0, h => rfl
  | n + 1, h => by simp only [dflts]; rw [dflts_arrs n]; rfl

/-- A new node with `n` places: only additions; its array is new. -/
theorem ofN_spec (h : Heap) (l : Int) (n : Nat) : ∃ a ks, Ext h (ofN h l n).1 ∧
    (ofN h l n).1.trees[(ofN h l n).2]? = some ⟨l, .arr a⟩ ∧ (ofN h l n).1.arrs[a]? = some ks ∧ ks.length = n ∧
    a = h.arrs.length ∧ (ofN h l n).1.arrs.length = h.arrs.length + 1 ∧ h.trees.length ≤ (ofN h l n).2 ∧
    (ofN h l n).2 < (ofN h l n).1.trees.length := by
  refine ⟨(dflts n h).1.arrs.length, (dflts n h).2, ?_, ?_, ?_, dflts_length n h, by rw [dflts_arrs], ?_, ?_, ?_⟩
  · exact ((dflts_ext n h).trans (newArr_ext _ _)).trans (newNode_ext _ _)
  · simp [ofN, ofArr, newNode, arrayN, newArr]
  · simp [ofN, ofArr, newNode, arrayN, newArr]
  · simp [ofN, ofArr, newNode, arrayN, newArr, dflts_arrs]
  · have := (dflts_ext n h).2.1
    simpa [ofN, ofArr, newNode, arrayN, newArr] using this
  · simp [ofN, ofArr, newNode, arrayN, newArr]

end Lolly.LTree
