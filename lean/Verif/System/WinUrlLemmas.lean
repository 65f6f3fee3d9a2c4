import Verif.System.WinUrl
import Verif.System.UrlParseLemmas

set_option autoImplicit false

/-!
# Lemmas on urls on Windows
-/

namespace Lolly.WinUrl

open Url (Url Env Elem P R here parent isRoot isAtom isAtomic isConcat isPseudoAtomic parentFirst second topRoot isNone
  push strip joinL isRootS isRootWeb skipIpv6 lt_skipIpv6 skipHex skipHex_spec isAtom_here isAtom_empty isAtom_parent
  isNone_eq P_eq_here P_ne_none topRoot_P elem_joinL)

/-! ## The product -/

theorem mul_plain (u1 u2 : Url) (h : topRoot u2 = false) : mul u1 u2 =
    (if isAtom u1 (b!".") || isAtom u1 [] then .ok u2
    else if isAtom u2 (b!".") then .ok u1
    else if isNone u1 || isNone u2 then .ok .none
    else if isAtom u2 (b!"..") && isRoot u1 then .ok u1
    else if isAtom u2 (b!"..") && isPseudoAtomic u1 && !isAtom u1 (b!"..") then .ok here
    else if isAtom u2 (b!"..") && isSemiRoot u1 then .ok u1
    else if parentFirst u2 && isRoot u1 then mul u1 (second u2)
    else if parentFirst u2 && isPseudoAtomic u1 && !isAtom u1 (b!"..") then .ok (second u2)
    else if parentFirst u2 && isSemiRoot u1 then mul u1 (second u2)
    else
      match u1 with
      | .concat a b => mul b u2 >>= fun r => mul a r
      | _ => .ok (.concat u1 u2)) := by
  rw [mul.eq_def, if_neg (by simp [h])]
  cases u1 <;> rfl

theorem mul_here_left (u : Url) : mul here u = .ok u := by
  by_cases h : topRoot u
  · rw [mul.eq_def, if_pos h, if_neg (by decide)]
    rfl
  · rw [mul_plain _ _ (by simpa using h), if_pos (by decide)]

theorem mul_elem {x : Url} {l : List Url} (hx : Elem x) (hl : ∀ y ∈ l, Elem y) :
    mul x (P l) = .ok (P (push x l)) := by
  have hr := hx.not_root
  have hc := hx.not_concat
  have hn := hx.ne_none
  obtain ⟨hp, hh, he⟩ := hx
  have hsemi : isSemiRoot x = false := by cases x <;> simp_all [isSemiRoot, isConcat]
  rw [mul_plain _ _ (topRoot_P hl)]
  rw [if_neg (by simp [isAtom_here, hh, isAtom_empty, he])]
  match l, hl with
  | [], _ =>
    rw [if_pos (by simp [isAtom_here, P])]
    rfl
  | [y], hl =>
    have hy := hl y (by simp)
    rw [if_neg (by simp [isAtom_here, P, hy.2.1]), if_neg (by simp [isNone_eq, P, hn, hy.ne_none]),
      if_neg (by simp [hr])]
    by_cases hpar : y = parent ∧ x ≠ parent
    · rw [if_pos (by simp [isAtom_parent, P, hp, hpar])]
      simp [push, hpar, P]
    · rw [if_neg (by simp [isAtom_parent, P, hp]; exact fun h => Classical.not_not.1 fun h' => hpar ⟨h, h'⟩),
        if_neg (by simp [hsemi])]
      have : parentFirst (P [y]) = false := by
        have := hy.not_concat
        rw [P]
        cases y <;> simp_all [parentFirst, isConcat]
      rw [if_neg (by simp [this]), if_neg (by simp [this]), if_neg (by simp [this])]
      simp only [push, if_neg hpar, P]
      cases x <;> simp_all [isConcat]
  | y :: z :: l, hl =>
    rw [if_neg (by simp [isAtom_here, P, here]), if_neg (by simp [isNone_eq, P, hn]),
      if_neg (by simp [hr]), if_neg (by simp [isAtom_parent, P, parent]), if_neg (by simp [hsemi]),
      if_neg (by simp [hr])]
    by_cases hpar : y = parent ∧ x ≠ parent
    · rw [if_pos (by simp [isAtom_parent, P, hp, hpar, parentFirst])]
      simp [push, hpar, P, second]
    · rw [if_neg (by simp [isAtom_parent, P, hp, parentFirst]; exact fun h => Classical.not_not.1 fun h' => hpar ⟨h, h'⟩),
        if_neg (by simp [hsemi])]
      simp only [push, if_neg hpar, P]
      cases x <;> simp_all [isConcat]

theorem mul_here_right {u : Url} (h : u ≠ .atom []) : mul u here = .ok u := by
  rw [mul_plain _ _ rfl]
  by_cases hu : u = here
  · rw [hu]; decide
  · rw [if_neg (by simp [isAtom_here, hu, isAtom_empty, h]), if_pos (by decide)]

theorem mul_concat {a b u2 : Url} (h : topRoot u2 = false) (hh : u2 ≠ here) (hn : u2 ≠ .none)
    (hs : isSemiRoot (.concat a b) = false ∨ (u2 ≠ parent ∧ parentFirst u2 = false)) :
    mul (.concat a b) u2 = (mul b u2 >>= fun r => mul a r) := by
  rw [mul_plain _ _ h, if_neg (by simp [isAtom]), if_neg (by simp [isAtom_here, hh]),
    if_neg (by simp [isNone_eq, hn]), if_neg (by simp [isRoot]), if_neg (by simp [isPseudoAtomic])]
  rcases hs with hs | ⟨hs1, hs2⟩
  · rw [if_neg (by simp [hs]), if_neg (by simp [isRoot]), if_neg (by simp [isPseudoAtomic]), if_neg (by simp [hs])]
  · rw [if_neg (by simp [isAtom_parent, hs1]), if_neg (by simp [isRoot]), if_neg (by simp [isPseudoAtomic]),
      if_neg (by simp [hs2])]

theorem mul_P {l1 l2 : List Url} (h1 : ∀ y ∈ l1, Elem y) (h2 : ∀ y ∈ l2, Elem y) (hne : l2 ≠ []) :
    mul (P l1) (P l2) = .ok (P (joinL l1 l2)) := by
  induction l1 with
  | nil => exact mul_here_left _
  | cons x l ih =>
    have hx := h1 x (by simp)
    have hl : ∀ y ∈ l, Elem y := fun y hy => h1 y (by simp [hy])
    cases l with
    | nil => exact mul_elem hx h2
    | cons y l =>
      rw [P, mul_concat (topRoot_P h2) (fun e => hne (P_eq_here h2 e)) (P_ne_none h2)
        (.inl (by simp [isSemiRoot, hx.not_root]))]
      rw [ih hl, Res.ok_bind]
      exact mul_elem hx (elem_joinL hl h2)

theorem mul_root_P (r : Bytes) {l : List Url} (hl : ∀ y ∈ l, Elem y) :
    mul (.root r) (P l) = .ok (R r (strip l)) := by
  induction l with
  | nil => rw [P, mul_here_right (by simp)]; rfl
  | cons x l ih =>
    have hx := hl x (by simp)
    have hl' : ∀ y ∈ l, Elem y := fun y hy => hl y (by simp [hy])
    rw [mul_plain _ _ (topRoot_P hl), if_neg (by simp [isAtom]),
      if_neg (by simp [isAtom_here]; exact fun e => by simpa using P_eq_here hl e),
      if_neg (by simp [isNone_eq]; exact P_ne_none hl)]
    rw [strip]
    by_cases hp : x = parent
    · subst hp
      cases l with
      | nil => rw [if_pos (by simp [P, isAtom_parent, isRoot])]; rfl
      | cons y l =>
        rw [if_neg (by simp [P, isAtom_parent, parent]), if_neg (by simp [isPseudoAtomic]), if_neg (by simp [isSemiRoot]),
          if_pos (by simp [P, parentFirst, isAtom_parent, isRoot])]
        rw [if_pos rfl]
        exact ih hl'
    · rw [if_neg hp]
      have e1 : isAtom (P (x :: l)) (b!"..") = false := by
        cases l with
        | nil => simp [P, isAtom_parent, hp]
        | cons y l => simp [P, isAtom_parent, parent]
      have e2 : parentFirst (P (x :: l)) = false := by
        cases l with
        | nil => have := hx.not_concat; rw [P]; cases x <;> simp_all [parentFirst, isConcat]
        | cons y l => simp [P, parentFirst, isAtom_parent, hp]
      rw [if_neg (by simp [e1]), if_neg (by simp [e1]), if_neg (by simp [e1]), if_neg (by simp [e2]), if_neg (by simp [e2]),
        if_neg (by simp [e2])]
      simp [R]

/-! ## Separators -/

/-- Is this a separator of names? -/
def isSep (c : UInt8) : Bool := c == c! '/' || c == c! '\\'

theorem isSep_cases {c : UInt8} (h : isSep c = true) : c = c! '/' ∨ c = c! '\\' := by
  simpa [isSep] using h

theorem skip_noSep (s : Bytes) (i : Nat) (hi : i < s.length) (hb : s[i]? = some (c! '[')) :
    skipIpv6 s i ≤ s.length ∧ ∀ k c, i ≤ k → k < skipIpv6 s i → s[k]? = some c → isSep c = false := by
  obtain ⟨h1, h2⟩ := skipHex_spec s (i + 1) hi
  have hex : ∀ k c, i ≤ k → k < skipHex s (i + 1) → s[k]? = some c → isSep c = false := by
    intro k c hk hk' e
    by_cases hki : k = i
    · subst hki; rw [hb] at e; injection e with e; rw [← e]; decide
    · cases hc : isSep c with
      | false => rfl
      | true =>
        rcases h2 k _ (by omega) hk' e with h | h
        · rw [h] at hc; exact absurd hc (by decide)
        · rcases isSep_cases hc with rfl | rfl <;> exact absurd h (by decide)
  unfold skipIpv6
  dsimp only
  split
  · next h =>
    have hl : skipHex s (i + 1) < s.length := by
      rcases Nat.lt_or_ge (skipHex s (i + 1)) s.length with h' | h'
      · exact h'
      · rw [List.getElem?_eq_none h'] at h; simp at h
    refine ⟨hl, fun k c hk hk' e => ?_⟩
    by_cases hki : k = skipHex s (i + 1)
    · rw [hki, h] at e; injection e with e; rw [← e]; decide
    · exact hex k c hk (by omega) e
  · exact ⟨h1, hex⟩

theorem nextSep_eq (s : Bytes) (i j : Nat) (hij : i ≤ j) (hj : j ≤ s.length)
    (hno : ∀ k c, i ≤ k → k < j → s[k]? = some c → isSep c = false)
    (hat : j = s.length ∨ ∃ c, s[j]? = some c ∧ isSep c = true) : nextSep true s i = j := by
  fun_induction nextSep true s i with
  | case1 i h hs =>
    rcases Nat.lt_or_ge i j with h' | h'
    · have := hno i s[i] (by omega) h' (List.getElem?_eq_getElem h)
      simp [isSep] at this
      simp at hs
      rcases hs with hs | hs
      · exact absurd hs this.1
      · exact absurd hs this.2
    · omega
  | case2 i h hs hb ih =>
    obtain ⟨h1, h2⟩ := skip_noSep s i h (by rw [List.getElem?_eq_getElem h, hb])
    have hlt := lt_skipIpv6 s i
    apply ih
    · rcases Nat.lt_or_ge j (skipIpv6 s i) with h' | h'
      · rcases hat with rfl | ⟨c, hat, hc⟩
        · omega
        · rw [h2 j c hij h' hat] at hc; cases hc
      · exact h'
    · exact fun k c hk hk' => hno k c (by omega) hk'
  | case3 i h hs hb ih =>
    apply ih
    · rcases Nat.lt_or_ge i j with h' | h'
      · exact h'
      · have : i = j := by omega
        subst this
        rcases hat with e | ⟨c, e, hc⟩
        · omega
        · rw [List.getElem?_eq_getElem h] at e
          injection e with e
          rw [e] at hs
          rcases isSep_cases hc with rfl | rfl <;> exact absurd hs (by decide)
    · exact fun k c hk hk' => hno k c (by omega) hk'
  | case4 i h => omega

/-- A separator is skipped. -/
theorem components_skip (s : Bytes) (i : Nat) (c : UInt8) (hc : s[i]? = some c) (hs : isSep c = true)
    (hl : i + 1 < s.length) : components true s i = components true s (i + 1) := by
  rw [components, if_pos (by omega), nextSep_eq s i i (by omega) (by omega) (fun k _ _ _ => by omega) (.inr ⟨c, hc, hs⟩)]
  dsimp only
  rw [if_neg (by omega), if_neg (by omega)]

/-- A name. -/
theorem components_name (pre x r : Bytes) (hx : ∀ c ∈ x, isSep c = false) (hne : x ≠ [])
    (hr : r = [] ∨ ∃ c t, r = c :: t ∧ isSep c = true) :
    components true (pre ++ x ++ r) pre.length = x :: components true (pre ++ x ++ r) (pre.length + x.length) := by
  have hpos : 0 < x.length := List.length_pos_iff.2 hne
  have hn : nextSep true (pre ++ x ++ r) pre.length = pre.length + x.length := by
    apply nextSep_eq
    · omega
    · simp
    · intro k c hk hk' e
      rw [List.append_assoc, List.getElem?_append_right hk, List.getElem?_append_left (by omega)] at e
      exact hx c (List.mem_of_getElem? e)
    · rcases hr with rfl | ⟨c, t, rfl, hc⟩
      · left; simp
      · right
        refine ⟨c, ?_, hc⟩
        rw [List.getElem?_append_right (by simp)]
        simp
  rw [components, if_pos (by simp; omega), hn]
  dsimp only
  rw [if_pos (by omega)]
  congr 1
  rw [An.sub_nat]; simp [List.take_append]

/-- A text that consists of the given names with `\` or `/` between them. -/
inductive Spelled : List Bytes → Bytes → Prop
  | one (x : Bytes) : Spelled [x] x
  | cons (x : Bytes) (c : UInt8) {ns : List Bytes} {s : Bytes} : isSep c = true → Spelled ns s →
      Spelled (x :: ns) (x ++ c :: s)

theorem Spelled.ne_nil {ns : List Bytes} {s : Bytes} (h : Spelled ns s) (hn : ∀ x ∈ ns, x ≠ []) : s ≠ [] := by
  cases h with
  | one x => exact hn _ (by simp)
  | cons x c _ _ => simp

theorem components_spelled {ns : List Bytes} {s : Bytes} (h : Spelled ns s)
    (hn : ∀ x ∈ ns, x ≠ [] ∧ ∀ c ∈ x, isSep c = false) (pre : Bytes) :
    components true (pre ++ s) pre.length = ns := by
  induction h generalizing pre with
  | one x =>
    obtain ⟨h1, h2⟩ := hn x (by simp)
    have := components_name pre x [] h2 h1 (.inl rfl)
    rw [List.append_nil] at this
    rw [this, components, if_neg (by simp)]
  | cons x c hc hs ih =>
    rename_i ns s
    obtain ⟨h1, h2⟩ := hn x (by simp)
    have hs0 := hs.ne_nil fun y hy => (hn y (by simp [hy])).1
    have e : pre ++ (x ++ c :: s) = pre ++ x ++ c :: s := by simp
    rw [e, components_name pre x (c :: s) h2 h1 (.inr ⟨c, s, rfl, hc⟩)]
    have := ih (fun y hy => hn y (by simp [hy])) (pre ++ x ++ [c])
    rw [components_skip _ _ c (by simp) hc (by
      have := List.length_pos_iff.2 hs0
      simp; omega)]
    have e2 : pre ++ x ++ c :: s = pre ++ x ++ [c] ++ s := by simp
    have e3 : pre.length + x.length + 1 = (pre ++ x ++ [c]).length := by simp; omega
    rw [e2, e3, this]

/-! ## Names -/

/-- What the name of a component becomes: the letter of a drive loses its colon. -/
def atomOf (s : Bytes) : Bytes := if s.length = 2 ∧ An.ends s (b!":") = true then s.take 1 else s

/-- A name that is not replaced: not empty, without separators and wildcards, no home directory and no variable. -/
structure Plain (s : Bytes) : Prop where
  nonempty : s ≠ []
  no_sep : ∀ c ∈ s, isSep c = false
  no_star : c! '*' ∉ s
  not_home : s ≠ b!"~"
  no_var : s.head? ≠ some (c! '$')
  not_here : atomOf s ≠ b!"."

theorem getAtom_plain (env : Env) (gen : Bytes → Res Url) {s : Bytes} (h : Plain s) :
    getAtom env gen true s = .ok (.atom (atomOf s)) := by
  unfold getAtom
  rw [if_neg (fun hh => h.not_home hh.2)]
  have hd : An.starts s (b!"$") = .ok false := by
    rw [Url.starts_eq]
    congr 1
    have hv := h.no_var
    cases s with
    | nil => rfl
    | cons c s =>
      simp only [List.head?_cons, ne_eq, Option.some.injEq] at hv
      simp [List.isPrefixOf, Ne.symm hv]
  simp only [hd, Res.ok_bind]
  rw [if_neg (by simp), (SearchProps.C20_index_of s (c! '*')).2, Res.ok_bind]
  rw [if_neg (by simp [h.no_star])]
  rfl

theorem getAtoms_plain (env : Env) (gen : Bytes → Res Url) (ns : List Bytes) (h : ∀ x ∈ ns, Plain x) :
    getAtoms env gen true ns = .ok (ns.map fun x => .atom (atomOf x)) := by
  induction ns with
  | nil => rfl
  | cons x ns ih =>
    rw [getAtoms, if_neg (h x (by simp)).nonempty, getAtom_plain env gen (h x (by simp)), Res.ok_bind,
      ih fun y hy => h y (by simp [hy])]
    rfl

theorem Plain.elem {s : Bytes} (h : Plain s) : Elem (.atom (atomOf s)) := by
  refine ⟨rfl, ?_, ?_⟩
  · intro e; injection e with e; exact h.not_here e
  · intro e
    injection e with e
    unfold atomOf at e
    split at e
    · next h2 =>
      have : (s.take 1).length = 0 := by rw [e]; rfl
      rw [List.length_take] at this; omega
    · exact h.nonempty e

theorem assemble_atoms (l : List Url) (h : ∀ x ∈ l, Elem x ∧ isAtomic x = true) (hne : l ≠ []) :
    assemble l = .ok (P l) := by
  induction l with
  | nil => exact absurd rfl hne
  | cons x l ih =>
    cases l with
    | nil => rfl
    | cons y l =>
      have e := ih (fun z hz => h z (by simp [hz])) (by simp)
      rw [assemble, e, Res.ok_bind]
      · obtain ⟨hx, hat⟩ := h x (by simp)
        rw [addFront, if_neg (by simp [isAtom_here, isAtom_empty, hx.2.1, hx.2.2]), if_pos hat, P]
      · simp

theorem getName_of (env : Env) (gen : Bytes → Res Url) (s : Bytes) (ns : List Bytes) (h : ∀ x ∈ ns, Plain x)
    (hne : ns ≠ []) (hc : components true s 0 = ns) :
    getName env gen true s = .ok (P (ns.map fun x => .atom (atomOf x))) := by
  rw [getName, hc, getAtoms_plain env gen ns h, Res.ok_bind]
  apply assemble_atoms
  · intro x hx
    obtain ⟨y, hy, rfl⟩ := List.mem_map.1 hx
    exact ⟨(h y hy).elem, rfl⟩
  · simpa using hne

theorem dropEmpty_P (l : List Url) (h : ∀ x ∈ l, Elem x) : dropEmpty (P l) = P l := by
  match l, h with
  | [], _ => rfl
  | [x], h =>
    have := (h x (by simp)).not_concat
    rw [P]
    cases x <;> simp_all [dropEmpty, isConcat]
  | x :: y :: l, h =>
    rw [P, dropEmpty, if_neg]
    rw [isAtom_empty]
    simp only [decide_eq_true_eq]
    exact Url.P_ne_empty fun z hz => h z (by simp [hz])

end Lolly.WinUrl
