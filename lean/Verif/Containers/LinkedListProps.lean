import Verif.Containers.LinkedListLemmas

/-!
# Properties C11 (list operations) and C12 (in-place list operations)

`Chain h p as xs` reads: in the heap `h`, the list handle `p` is the acyclic chain of nodes `as` with
items `xs`. `Fresh h r xs` reads: the call returned a list of the items `xs` made of new nodes only,
and left every old node as it was.
-/

set_option autoImplicit false

namespace Lolly.LinkedListProps

open LL

variable {T : Type} {h : Cells T} {p q : Ptr} {as bs : List Nat} {xs ys : List T}

/-- C11: `N`. -/
theorem C11_length (c : Chain h p as xs) : len h p = .ok xs.length := by
  have hl := c.length_le
  cases c with
  | nil => rfl
  | cons e c =>
    simp only [len, rd_eq_ok.2 e, Res.ok_bind]
    rw [lenLoop_spec c (by simp at hl; omega)]
    simp; omega

/-- C11: `l[i]` for `0 <= i < N (l)`; any other index throws. -/
theorem C11_nth (c : Chain h p as xs) :
    (∀ i, ∀ hi : i < xs.length, nth h p i = .ok xs[i]) ∧
    (∀ i : Int, i < 0 ∨ xs.length ≤ i → nth h p i = .thrown) := by
  have hl := c.length_le
  refine ⟨fun i hi => ?_, fun i hi => ?_⟩
  · exact (nthF_spec c (by omega) i).1 i _ rfl (by simp)
  · exact (nthF_spec c (by omega) i).2 hi

/-- C11: `last_item`; it throws on nil. -/
theorem C11_last_item (c : Chain h p as xs) :
    (xs = [] → lastItem h p = .thrown) ∧
    (∀ hx : xs ≠ [], lastItem h p = .ok (xs.getLast hx)) := by
  have hl := c.length_le
  cases c with
  | nil => exact ⟨fun _ => rfl, fun h => absurd rfl h⟩
  | cons e c =>
    refine ⟨by simp, fun hx => ?_⟩
    simp only [lastItem, derefA, rd_eq_ok.2 e, Res.ok_bind]
    exact lastLoop_spec c (by simp at hl; omega) _

/-- C11: `copy` is a fresh list of the same items. -/
theorem C11_copy (c : Chain h p as xs) : Fresh h (copy h p) xs := by
  have hl := c.length_le
  exact copyF_fresh (ext := []) (by simp) c (by omega)

/-- C11: `l * x`. -/
theorem C11_snoc (c : Chain h p as xs) (x : T) : Fresh h (snoc h p x) (xs ++ [x]) := by
  have hl := c.length_le
  exact snocF_fresh x c (by omega)

/-- C11: `l * m` is a fresh concatenation (`m` may share nodes with `l`, or be `l`). -/
theorem C11_concat (c : Chain h p as xs) (d : Chain h q bs ys) : Fresh h (concat h p q) (xs ++ ys) := by
  have hl := c.length_le
  have hl2 := d.length_le
  exact concatF_fresh c d (by omega) (by omega)

/-- C11: `head (l, n)`; it throws when the list is too short or `n` negative. -/
theorem C11_head (c : Chain h p as xs) :
    (∀ n : Nat, n ≤ xs.length → Fresh h (head h p n) (xs.take n)) ∧
    (∀ n : Int, n < 0 ∨ xs.length < n → head h p n = .thrown) := by
  have hl := c.length_le
  exact ⟨fun n hn => headF_fresh c (by omega) n hn, fun n hn => headF_throws c (by omega) n hn⟩

/-- C11: `tail (l, n)` shares the nodes of `l`; it throws when the list is too short. -/
theorem C11_tail (c : Chain h p as xs) :
    (∀ n : Nat, n ≤ xs.length → ∃ q, tail h p n = .ok q ∧ Chain h q (as.drop n) (xs.drop n)) ∧
    (∀ n : Int, xs.length < n → tail h p n = .thrown) ∧
    (∀ n : Int, n ≤ 0 → tail h p n = .ok p) := by
  refine ⟨fun n hn => ?_, fun n hn => ?_, fun n hn => ?_⟩
  · have := (tailN_spec c n).1 hn
    simpa [tail] using this
  · exact (tailN_spec c n.toNat).2 (by omega)
  · rw [tail, Int.toNat_of_nonpos hn]; rfl

/-- C11: `reverse`. -/
theorem C11_reverse (c : Chain h p as xs) : Fresh h (reverse h p) xs.reverse := by
  have hl := c.length_le
  have := reverseLoop_fresh c (h := h) (ext := []) (by simp) (r := none) .nil (by simp)
    (f := h.length + 1) (by omega)
  rw [List.append_nil] at this
  exact this

section
variable [DecidableEq T]

/-- C11: `remove` drops every occurrence and keeps the order of the rest. -/
theorem C11_remove (c : Chain h p as xs) (x : T) :
    Fresh h (remove h p x) (xs.filter (fun y => decide (y ≠ x))) := by
  have hl := c.length_le
  exact removeF_fresh x c (by omega)

/-- C11: `contains`. -/
theorem C11_contains (c : Chain h p as xs) (x : T) :
    ∃ b, contains h p x = .ok b ∧ (b = true ↔ x ∈ xs) := by
  have hl := c.length_le
  exact ⟨_, containsF_spec x c (by omega), decide_eq_true_iff⟩

/-- C11: `==` and `!=`. -/
theorem C11_eq (c : Chain h p as xs) (d : Chain h q bs ys) :
    ∃ b b', eq h p q = .ok b ∧ ne h p q = .ok b' ∧ (b = true ↔ xs = ys) ∧ (b' = true ↔ xs ≠ ys) := by
  have hl := c.length_le
  have := cmp_spec c d (f := h.length + 1) (by omega)
  exact ⟨_, _, this.1, this.2.1, decide_eq_true_iff, decide_eq_true_iff⟩

/-- C11: `<=` is "is a prefix of", `<` is "is a proper prefix of". -/
theorem C11_prefix (c : Chain h p as xs) (d : Chain h q bs ys) :
    ∃ b b', le h p q = .ok b ∧ lt h p q = .ok b' ∧ (b = true ↔ ∃ zs, ys = xs ++ zs) ∧
      (b' = true ↔ ∃ zs, zs ≠ [] ∧ ys = xs ++ zs) := by
  have hl := c.length_le
  have := cmp_spec c d (f := h.length + 1) (by omega)
  refine ⟨_, _, this.2.2.1, this.2.2.2, ?_, ?_⟩
  · rw [decide_eq_true_iff]
    exact ⟨fun ⟨z, hz⟩ => ⟨z, hz.symm⟩, fun ⟨z, hz⟩ => ⟨z, hz.symm⟩⟩
  · rw [decide_eq_true_iff]
    constructor
    · rintro ⟨⟨z, hz⟩, hne⟩
      refine ⟨z, ?_, hz.symm⟩
      rintro rfl; simp at hz; exact hne hz
    · rintro ⟨z, hz, rfl⟩
      exact ⟨⟨z, rfl⟩, fun e => hz (by simpa using e)⟩

end

/-- Lists that were there before a `Fresh` call read the same after it. -/
theorem C11_frame {r : Res (Ptr × Cells T)} (hr : Fresh h r ys) (c : Chain h p as xs) :
    ∃ q' h', r = .ok (q', h') ∧ Chain h' p as xs ∧ ∃ cs, Chain h' q' cs ys ∧ ∀ a ∈ cs, a ∉ as := by
  obtain ⟨q', ext, cs, e, d, hf⟩ := hr
  refine ⟨q', h ++ ext, e, c.mono ext, cs, d, fun a ha hb => ?_⟩
  have := c.mem_lt hb
  have := hf a ha
  omega

/-- Non-vacuity: a list of three nodes, not stored in order. -/
example : Chain [⟨30, none⟩, ⟨10, some 2⟩, ⟨20, some 0⟩] (some 1) [1, 2, 0] [10, 20, 30] :=
  .cons rfl (.cons rfl (.cons rfl .nil))

/-! ## C12 -/

variable {s : State T}

theorem last_split {as : List Nat} (hne : as ≠ []) : ∃ pre b, as = pre ++ [b] :=
  ⟨as.dropLast, as.getLast hne, (List.dropLast_concat_getLast hne).symm⟩

/-- Two chains that share a node end in the same node. -/
theorem share_last (c : Chain h p as xs) (d : Chain h q bs ys) {pre : List Nat} {b : Nat}
    (hb : as = pre ++ [b]) {a : Nat} (h1 : a ∈ as) (h2 : a ∈ bs) : ∃ pre', bs = pre' ++ [b] := by
  obtain ⟨u, as1, zs, e1, _, c1⟩ := c.suffix h1
  obtain ⟨v, bs1, ws, e2, _, c2⟩ := d.suffix h2
  obtain ⟨h3, _⟩ := c1.det c2
  rw [h3, hb] at e1
  have hne : a :: bs1 ≠ [] := by simp
  obtain ⟨t, z, hz⟩ := last_split hne
  rw [hz, ← List.append_assoc] at e1
  have := List.append_inj' e1 rfl
  have hbz : b = z := by simpa using this.2
  rw [e2, hz, hbz]
  exact ⟨v ++ t, by simp⟩

/-- C12, `l << x` on a nil variable: only that variable changes; it becomes the list `x`. -/
theorem C12_push_nil (v : Nat) (x : T) (hv : s.vars[v]? = some none) :
    ∃ s', push s v x = .ok s' ∧ s'.vars = s.vars.set v (some s.cells.length) ∧
      Chain s'.cells (some s.cells.length) [s.cells.length] [x] ∧
      (∀ q bs ys, Chain s.cells q bs ys → Chain s'.cells q bs ys) := by
  have hl : load s (.var v) = .ok none := by simp [load, rd_eq_ok.2 hv]
  have hlen : v < s.vars.length := (List.getElem?_eq_some_iff.1 hv).1
  have := (pushF_spec (s := s) x .nil (f := s.cells.length + 1) (by simp) (.var v) hl).1 rfl
  refine ⟨{ cells := s.cells ++ [⟨x, none⟩], vars := s.vars.set v (some s.cells.length) }, ?_,
    rfl, ?_, fun q bs ys c => c.mono _⟩
  · rw [push, this]; simp [store, wr_ok hlen]
  · exact .cons (by simp) .nil

/-- C12, `l << x` on a non-empty list: no variable changes; exactly the lists that share a node with
`l` (among them `l` itself) get `x` at their end, all others read the same as before. -/
theorem C12_push (v : Nat) (x : T) (hv : s.vars[v]? = some p) (c : Chain s.cells p as xs)
    (hne : as ≠ []) :
    ∃ s', push s v x = .ok s' ∧ s'.vars = s.vars ∧
      (∀ q bs ys, Chain s.cells q bs ys → (∃ a, a ∈ as ∧ a ∈ bs) →
        Chain s'.cells q (bs ++ [s.cells.length]) (ys ++ [x])) ∧
      (∀ q bs ys, Chain s.cells q bs ys → (∀ a, a ∈ as → a ∉ bs) → Chain s'.cells q bs ys) := by
  have hl : load s (.var v) = .ok p := by simp [load, rd_eq_ok.2 hv]
  have hle := c.length_le
  obtain ⟨pre, b, hb⟩ := last_split hne
  obtain ⟨y, e1, e2⟩ := (pushF_spec (s := s) x c (f := s.cells.length + 1) (by omega) (.var v) hl).2
    pre b hb
  refine ⟨_, e2, rfl, ?_, ?_⟩
  · rintro q bs ys d ⟨a, h1, h2⟩
    obtain ⟨pre', hb'⟩ := share_last c d hb h1 h2
    have hbl : b < s.cells.length := (List.getElem?_eq_some_iff.1 e1).1
    have e1' : (s.cells ++ [(⟨x, none⟩ : Cell T)])[b]? = some (⟨y, none⟩ : Cell T) := by
      rw [List.getElem?_append_left hbl]; exact e1
    have hnew : Chain ((s.cells ++ [(⟨x, none⟩ : Cell T)]).set b ⟨y, some s.cells.length⟩)
        (some s.cells.length) [s.cells.length] [x] := by
      refine .cons ?_ .nil
      rw [List.getElem?_set_ne (by omega)]; simp
    have := Chain.redirect (as := pre') (bs := []) (b := b) (by rw [← hb']; exact d.mono [⟨x, none⟩])
      e1' hnew
    have hlen : pre'.length + 1 = ys.length := by
      have := d.length; rw [hb'] at this; simpa using this
    rw [hlen, List.take_length] at this
    rw [hb']; simpa using this
  · intro q bs ys d hd
    apply Chain.set_off (d.mono _)
    exact hd b (by rw [hb]; simp)

/-- C12, `l << m` on a nil variable: it becomes the same list as `m`, nothing else changes. -/
theorem C12_join_nil (v : Nat) (q : Ptr) (hv : s.vars[v]? = some none) :
    join s v q = .ok { s with vars := s.vars.set v q } := by
  have hl : load s (.var v) = .ok none := by simp [load, rd_eq_ok.2 hv]
  have hlen : v < s.vars.length := (List.getElem?_eq_some_iff.1 hv).1
  have := (joinF_spec (s := s) q .nil (f := s.cells.length + 1) (by simp) (.var v) hl).1 rfl
  rw [join, this]; simp [store, wr_ok hlen]

/-- C12, `l << m` on a non-empty list, with `m` sharing no node with `l`: exactly the lists that share
a node with `l` get the nodes of `m` at their end, and all others (`m` too) read the same. In
particular the chain of `l` stays acyclic. -/
theorem C12_join (v : Nat) (hv : s.vars[v]? = some p) (c : Chain s.cells p as xs) (hne : as ≠ [])
    (d : Chain s.cells q bs ys) (hdis : ∀ a, a ∈ as → a ∉ bs) :
    ∃ s', join s v q = .ok s' ∧ s'.vars = s.vars ∧ s'.cells.length = s.cells.length ∧
      (∀ r cs zs, Chain s.cells r cs zs → (∃ a, a ∈ as ∧ a ∈ cs) →
        Chain s'.cells r (cs ++ bs) (zs ++ ys)) ∧
      (∀ r cs zs, Chain s.cells r cs zs → (∀ a, a ∈ as → a ∉ cs) → Chain s'.cells r cs zs) := by
  have hl : load s (.var v) = .ok p := by simp [load, rd_eq_ok.2 hv]
  have hle := c.length_le
  obtain ⟨pre, b, hb⟩ := last_split hne
  obtain ⟨y, e1, e2⟩ := (joinF_spec (s := s) q c (f := s.cells.length + 1) (by omega) (.var v) hl).2
    pre b hb
  have hbm : b ∈ as := by rw [hb]; simp
  refine ⟨_, e2, rfl, by simp, ?_, ?_⟩
  · rintro r cs zs k ⟨a, h1, h2⟩
    obtain ⟨pre', hb'⟩ := share_last c k hb h1 h2
    have := Chain.redirect (as := pre') (bs := []) (b := b) (by rw [← hb']; exact k) e1
      (d.set_off (hdis b hbm) ⟨y, q⟩)
    have hlen : pre'.length + 1 = zs.length := by
      have := k.length; rw [hb'] at this; simpa using this
    rw [hlen, List.take_length] at this
    rw [hb']; simpa using this
  · intro r cs zs k hk
    exact k.set_off (hk b hbm) _

/-- Following a chain one comes to a node of it, unless one is at its end. -/
theorem chain_next (c : Chain h p as xs) {a : Nat} (ha : a ∈ as) :
    (∃ x, h[a]? = some ⟨x, none⟩ ∧ as.getLast? = some a) ∨ ∃ x e, h[a]? = some ⟨x, some e⟩ ∧ e ∈ as := by
  induction c with
  | nil => simp at ha
  | @cons b x p as xs e c ih =>
    rcases List.mem_cons.1 ha with rfl | ha'
    · cases c with
      | nil => exact .inl ⟨x, e, rfl⟩
      | cons e' c => exact .inr ⟨x, _, e, by simp⟩
    · rcases ih ha' with ⟨y, h1, h2⟩ | ⟨y, k, h1, h2⟩
      · refine .inl ⟨y, h1, ?_⟩
        rw [List.getLast?_cons, h2]; rfl
      · exact .inr ⟨y, k, h1, List.mem_cons_of_mem _ h2⟩

/-- Nodes from which one always comes to such nodes are in no acyclic chain, and loops over them never end. -/
theorem endless {S : Nat → Prop} (hS : ∀ a, S a → ∃ x e, h[a]? = some ⟨x, some e⟩ ∧ S e) {a : Nat} (ha : S a) :
    (∀ cs zs, ¬ Chain h (some a) cs zs) ∧
    ∀ f x n, lenLoop h f ⟨x, some a⟩ n = .hang ∧ lastLoop h f ⟨x, some a⟩ = .hang := by
  constructor
  · intro cs zs c
    suffices H : ∀ r cs zs, Chain h r cs zs → ∀ a, r = some a → ¬ S a from H _ _ _ c a rfl ha
    intro r cs zs c
    induction c with
    | nil => intro a h; simp at h
    | cons e c ih =>
      rintro a ⟨⟩ ha
      obtain ⟨x, k, h1, h2⟩ := hS _ ha
      rw [e] at h1
      simp only [Option.some.injEq, Cell.mk.injEq] at h1
      exact ih k h1.2 h2
  · intro f
    induction f generalizing a with
    | zero => intro x n; exact ⟨rfl, rfl⟩
    | succ f ih =>
      intro x n
      obtain ⟨y, k, h1, h2⟩ := hS a ha
      simp only [lenLoop, lastLoop, rd_eq_ok.2 h1, Res.ok_bind]
      exact ⟨(ih h2 y (n + 1)).1, (ih h2 y 0).2⟩

/-- C12, why disjointness is needed: if `m` shares a node with `l`, for instance if it is `l`, then `l << m` makes all lists that
share a node with `l` cyclic, so that loops over them never end, as those of `N` and `last_item`. -/
theorem C12_self_join_cyclic (v : Nat) (hv : s.vars[v]? = some p) (c : Chain s.cells p as xs)
    (d : Chain s.cells q bs ys) (hsh : ∃ a, a ∈ as ∧ a ∈ bs) :
    ∃ s', join s v q = .ok s' ∧ s'.vars = s.vars ∧
      ∀ r cs zs, Chain s.cells r cs zs → (∃ a, a ∈ as ∧ a ∈ cs) →
        (∀ cs' zs', ¬ Chain s'.cells r cs' zs') ∧
        ∀ f x n, lenLoop s'.cells f ⟨x, r⟩ n = .hang ∧ lastLoop s'.cells f ⟨x, r⟩ = .hang := by
  have hl : load s (.var v) = .ok p := by simp [load, rd_eq_ok.2 hv]
  have hle := c.length_le
  have hne : as ≠ [] := by rintro rfl; simp at hsh
  obtain ⟨pre, b, hb⟩ := last_split hne
  obtain ⟨y, e1, e2⟩ := (joinF_spec (s := s) q c (f := s.cells.length + 1) (by omega) (.var v) hl).2
    pre b hb
  refine ⟨_, e2, rfl, fun r cs zs k hk => ?_⟩
  dsimp only
  have hS : ∀ a, (∃ r cs zs, Chain s.cells r cs zs ∧ (∃ a, a ∈ as ∧ a ∈ cs) ∧ a ∈ cs) →
      ∃ x e, (s.cells.set b ⟨y, q⟩)[a]? = some ⟨x, some e⟩ ∧
        ∃ r cs zs, Chain s.cells r cs zs ∧ (∃ a, a ∈ as ∧ a ∈ cs) ∧ e ∈ cs := by
    rintro a ⟨r, cs, zs, k, hk, ha⟩
    by_cases hab : a = b
    · subst hab
      cases d with
      | nil => simp at hsh
      | @cons e x p' bs ys he d =>
        exact ⟨y, e, List.getElem?_set_self (List.getElem?_eq_some_iff.1 e1).1, some e, e :: bs, x :: ys, .cons he d, hsh,
          by simp⟩
    · rw [List.getElem?_set_ne (Ne.symm hab)]
      rcases chain_next k ha with ⟨x, h1, h2⟩ | ⟨x, e, h1, h2⟩
      · obtain ⟨i, hi1, hi2⟩ := hk
        obtain ⟨pre', hb'⟩ := share_last c k hb hi1 hi2
        rw [hb'] at h2
        simp at h2
        exact absurd h2.symm hab
      · exact ⟨x, e, h1, r, cs, zs, k, hk, h2⟩
  cases k with
  | nil => simp at hk
  | @cons a x p' cs zs e k => exact endless hS ⟨_, _, _, .cons e k, hk, by simp⟩

/-- `l << l` for the list [7, 8] meets the hypotheses. -/
example : Chain (T := Nat) [⟨7, some 1⟩, ⟨8, none⟩] (some 0) [0, 1] [7, 8] ∧
    join (T := Nat) ⟨[⟨7, some 1⟩, ⟨8, none⟩], [some 0]⟩ 0 (some 0) = .ok ⟨[⟨7, some 1⟩, ⟨8, some 0⟩], [some 0]⟩ := by
  exact ⟨.cons rfl (.cons rfl .nil), rfl⟩

/-- C12, `x >> l`: only the variable changes. -/
theorem C12_cons (v : Nat) (x : T) (hv : s.vars[v]? = some p) (c : Chain s.cells p as xs) :
    ∃ s', cons s x v = .ok s' ∧ s'.vars = s.vars.set v (some s.cells.length) ∧
      Chain s'.cells (some s.cells.length) (s.cells.length :: as) (x :: xs) ∧
      (∀ q bs ys, Chain s.cells q bs ys → Chain s'.cells q bs ys) := by
  have hl : load s (.var v) = .ok p := by simp [load, rd_eq_ok.2 hv]
  have hlen : v < s.vars.length := (List.getElem?_eq_some_iff.1 hv).1
  refine ⟨{ cells := s.cells ++ [⟨x, p⟩], vars := s.vars.set v (some s.cells.length) }, ?_, rfl, ?_,
    fun q bs ys c => c.mono _⟩
  · simp [cons, hl, mk, store, wr_ok hlen]
  · exact .cons (by simp) (c.mono _)

/-- C12, `x << l` (pop): gives the first item and moves the variable on; undefined on nil. -/
theorem C12_pop (v : Nat) :
    (∀ a as x xs, s.vars[v]? = some (some a) → Chain s.cells (some a) (a :: as) (x :: xs) →
      ∃ p', pop s v = .ok (x, { s with vars := s.vars.set v p' }) ∧ Chain s.cells p' as xs) ∧
    (s.vars[v]? = some none → pop s v = .ub) := by
  constructor
  · intro a as x xs hv c
    have hlen : v < s.vars.length := (List.getElem?_eq_some_iff.1 hv).1
    cases c with
    | @cons _ _ p' _ _ e c =>
      exact ⟨p', by simp [pop, load, rd_eq_ok.2 hv, deref, rd_eq_ok.2 e, store, wr_ok hlen], c⟩
  · intro hv
    simp [pop, load, rd_eq_ok.2 hv, deref]

/-- C12, `access_last (l)= x`: the last item changes in every list that shares a node with `l`, and
nowhere else; it throws on nil. -/
theorem C12_access_last (v : Nat) (x : T) (hv : s.vars[v]? = some p) (c : Chain s.cells p as xs) :
    (as = [] → setLast s v x = .thrown) ∧
    (as ≠ [] → ∃ s', setLast s v x = .ok s' ∧ s'.vars = s.vars ∧
      (∀ q bs ys, Chain s.cells q bs ys → (∃ a, a ∈ as ∧ a ∈ bs) →
        Chain s'.cells q bs (ys.dropLast ++ [x])) ∧
      (∀ q bs ys, Chain s.cells q bs ys → (∀ a, a ∈ as → a ∉ bs) → Chain s'.cells q bs ys)) := by
  have hl : load s (.var v) = .ok p := by simp [load, rd_eq_ok.2 hv]
  have hle := c.length_le
  have sp := setLastF_spec (s := s) x c (f := s.cells.length + 1) (by omega) (.var v) hl
  refine ⟨sp.1, fun hne => ?_⟩
  obtain ⟨pre, b, hb⟩ := last_split hne
  refine ⟨_, sp.2 pre b hb, rfl, ?_, ?_⟩
  · rintro q bs ys d ⟨a, h1, h2⟩
    obtain ⟨pre', hb'⟩ := share_last c d hb h1 h2
    subst hb'
    have key : ∀ (pre' : List Nat) q ys, Chain s.cells q (pre' ++ [b]) ys →
        Chain (s.cells.set b ⟨x, none⟩) q (pre' ++ [b]) (ys.dropLast ++ [x]) := by
      intro pre'
      induction pre' with
      | nil =>
        intro q ys d
        cases d with
        | cons e d =>
          cases d
          exact .cons (List.getElem?_set_self (List.getElem?_eq_some_iff.1 e).1) .nil
      | cons z pre' ih =>
        intro q ys d
        have hn := d.nodup
        cases d with
        | @cons _ w p' _ ws e d =>
          have hzb : b ≠ z := by rintro rfl; simp at hn
          have hws : ws ≠ [] := by
            have := d.length
            rintro rfl; simp at this
          have := ih _ _ d
          rw [List.dropLast_cons_of_ne_nil hws, List.cons_append, List.cons_append]
          refine .cons ?_ this
          rw [List.getElem?_set_ne hzb]; exact e
    exact key pre' q ys d
  · intro q bs ys d hd
    exact d.set_off (hd b (by rw [hb]; simp)) _

/-- C12, `suppress_last (l)`. It throws on nil. On a one-element list only the variable changes (it
becomes nil). Otherwise the last node is cut off in every list that goes through the last but one
node of `l`, and nothing else changes. -/
theorem C12_suppress_last (v : Nat) (hv : s.vars[v]? = some p) (c : Chain s.cells p as xs) :
    (as = [] → suppressLast s v = .thrown) ∧
    (∀ b, as = [b] → suppressLast s v = .ok { s with vars := s.vars.set v none }) ∧
    (∀ pre a b, as = pre ++ [a, b] → ∃ s', suppressLast s v = .ok s' ∧ s'.vars = s.vars ∧
      (∀ q bs ys, Chain s.cells q bs ys → a ∈ bs → Chain s'.cells q bs.dropLast ys.dropLast) ∧
      (∀ q bs ys, Chain s.cells q bs ys → a ∉ bs → Chain s'.cells q bs ys)) := by
  have hl : load s (.var v) = .ok p := by simp [load, rd_eq_ok.2 hv]
  have hlen : v < s.vars.length := (List.getElem?_eq_some_iff.1 hv).1
  have hle := c.length_le
  have sp := suppressF_spec (s := s) c (f := s.cells.length + 1) (by omega) (.var v) hl
  refine ⟨sp.1, fun b hb => ?_, fun pre a b hb => ?_⟩
  · rw [suppressLast, sp.2.1 b hb]; simp [store, wr_ok hlen]
  · obtain ⟨y, e1, e2⟩ := sp.2.2 pre a b hb
    refine ⟨_, e2, rfl, fun q bs ys d ha => ?_, fun q bs ys d ha => d.set_off ha _⟩
    obtain ⟨u, bs1, ws, f1, _, c1⟩ := d.suffix ha
    obtain ⟨u', as1, zs, f2, hnu, c2⟩ := c.suffix (a := a) (by rw [hb]; simp)
    have hh := (c1.det c2).1
    have has : as1 = [b] := by
      have hn := c.nodup
      have e : pre ++ a :: [b] = u' ++ a :: as1 := by rw [← f2, hb]
      have hp : a ∉ pre := by
        rw [hb] at hn
        intro hm
        have := (List.nodup_append.1 hn).2.2 a hm a (by simp)
        exact this rfl
      rcases List.append_eq_append_iff.1 e with ⟨w, h1, h2⟩ | ⟨w, h1, h2⟩
      · cases w with
        | nil => simp at h2; exact h2.symm
        | cons k w =>
          exfalso; simp at h2
          apply hnu; rw [h1, ← h2.1]; simp
      · cases w with
        | nil => simp at h2; exact h2
        | cons k w =>
          exfalso; simp at h2
          apply hp; rw [h1, ← h2.1]; simp
    have hbs1 : bs1 = [b] := by
      have := hh; simp at this; rw [this, has]
    subst hbs1
    have := Chain.redirect (as := u) (bs := [b]) (b := a) (by rw [← f1]; exact d) e1
      (q := none) .nil
    have hyl : ys.length = u.length + 2 := by
      have := d.length; rw [f1] at this; simp at this; omega
    have hy : ys.dropLast = ys.take (u.length + 1) ++ [] := by
      rw [List.dropLast_eq_take, hyl]; simp
    have hbd : bs.dropLast = u ++ a :: [] := by
      rw [f1, List.dropLast_append_of_ne_nil (by simp)]; rfl
    rw [hy, hbd]; exact this

/-- Non-vacuity: two variables sharing a tail and a third disjoint list. -/
example : ∃ s : State Nat, s.vars = [some 0, some 1, some 3] ∧
    Chain s.cells (some 0) [0, 1, 2] [1, 2, 3] ∧ Chain s.cells (some 1) [1, 2] [2, 3] ∧
    Chain s.cells (some 3) [3] [9] ∧ (∃ a, a ∈ [0, 1, 2] ∧ a ∈ [1, 2]) ∧
    ∀ a, a ∈ [0, 1, 2] → a ∉ [3] :=
  ⟨⟨[⟨1, some 1⟩, ⟨2, some 2⟩, ⟨3, none⟩, ⟨9, none⟩], [some 0, some 1, some 3]⟩, rfl,
    .cons rfl (.cons rfl (.cons rfl .nil)), .cons rfl (.cons rfl .nil), .cons rfl .nil,
    ⟨1, by simp, by simp⟩, by simp⟩

end Lolly.LinkedListProps
