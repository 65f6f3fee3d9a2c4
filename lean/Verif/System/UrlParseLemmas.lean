import Verif.System.UrlLemmas
import Verif.Strings.SearchProps
import Verif.Strings.CharsLemmas

set_option autoImplicit false

/-!
# Lemmas on reading and printing urls
-/

namespace Lolly.Url

/-! ## Finding separators -/

theorem skipHex_spec (s : Bytes) (i : Nat) (hi : i ≤ s.length) : skipHex s i ≤ s.length ∧
    ∀ k c, i ≤ k → k < skipHex s i → s[k]? = some c → c = c! ':' ∨ An.isHexDigit c = true := by
  fun_induction skipHex s i with
  | case1 i h hc ih =>
    obtain ⟨h1, h2⟩ := ih h
    refine ⟨h1, fun k c hk hk' e => ?_⟩
    by_cases hki : k = i
    · subst hki
      rw [List.getElem?_eq_getElem h] at e
      injection e with e
      rw [← e]
      simpa using hc
    · exact h2 k c (by omega) hk' e
  | case2 i h hc => exact ⟨hi, fun k c hk hk' => by omega⟩
  | case3 i h => exact ⟨hi, fun k c hk hk' => by omega⟩

theorem skipIpv6_spec (s : Bytes) (i : Nat) (hi : i < s.length) (hb : s[i]? = some (c! '[')) :
    skipIpv6 s i ≤ s.length ∧ ∀ k, i ≤ k → k < skipIpv6 s i → s[k]? ≠ some (c! '/') := by
  obtain ⟨h1, h2⟩ := skipHex_spec s (i + 1) hi
  have hex : ∀ k, i ≤ k → k < skipHex s (i + 1) → s[k]? ≠ some (c! '/') := by
    intro k hk hk' e
    by_cases hki : k = i
    · subst hki; rw [hb] at e; simp at e
    · rcases h2 k _ (by omega) hk' e with h | h
      · exact absurd h (by decide)
      · exact absurd h (by decide)
  unfold skipIpv6
  dsimp only
  split
  · next h =>
    have hl : skipHex s (i + 1) < s.length := by
      rcases Nat.lt_or_ge (skipHex s (i + 1)) s.length with h' | h'
      · exact h'
      · rw [List.getElem?_eq_none h'] at h; simp at h
    refine ⟨hl, fun k hk hk' e => ?_⟩
    by_cases hki : k = skipHex s (i + 1)
    · rw [hki, h] at e; simp at e
    · exact hex k hk (by omega) e
  · exact ⟨h1, hex⟩

/-- The next `/` after `i`, brackets or not. -/
theorem nextSlash (s : Bytes) (i j : Nat) (hij : i ≤ j) (hj : j ≤ s.length)
    (hno : ∀ k, i ≤ k → k < j → s[k]? ≠ some (c! '/')) (hat : j = s.length ∨ s[j]? = some (c! '/')) :
    nextSep (c! '/') s i = j := by
  fun_induction nextSep (c! '/') s i with
  | case1 i h hs =>
    rcases Nat.lt_or_ge i j with h' | h'
    · exact absurd (by rw [List.getElem?_eq_getElem h, hs]) (hno i (by omega) h')
    · omega
  | case2 i h hs hb ih =>
    obtain ⟨h1, h2⟩ := skipIpv6_spec s i h (by rw [List.getElem?_eq_getElem h, hb])
    have hlt := lt_skipIpv6 s i
    apply ih
    · rcases Nat.lt_or_ge j (skipIpv6 s i) with h' | h'
      · rcases hat with rfl | hat
        · omega
        · exact absurd hat (h2 j hij h')
      · exact h'
    · exact fun k hk hk' => hno k (by omega) hk'
  | case3 i h hs hb ih =>
    apply ih
    · rcases Nat.lt_or_ge i j with h' | h'
      · exact h'
      · have : i = j := by omega
        subst this
        rcases hat with e | e
        · omega
        · rw [List.getElem?_eq_getElem h] at e
          injection e with e
          exact absurd e hs
    · exact fun k hk hk' => hno k (by omega) hk'
  | case4 i h => omega

/-- Without separator the search goes to the end. -/
theorem nextSep_none (sep : UInt8) (s : Bytes) (i : Nat) (h : sep ∉ s) : s.length ≤ nextSep sep s i := by
  fun_induction nextSep sep s i with
  | case1 i hi hs => exact absurd (hs ▸ List.getElem_mem hi) h
  | case2 i _ _ _ ih => exact ih
  | case3 i _ _ _ ih => exact ih
  | case4 i hi => omega

theorem isPath_false {s : Bytes} (h : c! ':' ∉ s) : isPath s = false := by
  unfold isPath
  have := nextSep_none (c! ':') s 0 h
  simp; omega

/-! ## The components of a path -/

theorem nextSlash_name (pre x r : Bytes) (hx : c! '/' ∉ x) (hr : r = [] ∨ r.head? = some (c! '/')) :
    nextSep (c! '/') (pre ++ x ++ r) pre.length = pre.length + x.length := by
  apply nextSlash
  · omega
  · simp
  · intro k hk hk' e
    rw [List.append_assoc, List.getElem?_append_right hk, List.getElem?_append_left (by omega)] at e
    exact hx (List.mem_of_getElem? e)
  · rcases hr with rfl | hr
    · left; simp
    · right
      rw [List.getElem?_append_right (by simp)]
      simpa [List.head?_eq_getElem?] using hr

theorem text_cons (x : Bytes) (ns : List Bytes) (h : ns ≠ []) : text (x :: ns) = x ++ b!"/" ++ text ns :=
  An.join_cons h

theorem components_at (pre : Bytes) (ns : List Bytes) (h : ∀ x ∈ ns, x ≠ [] ∧ c! '/' ∉ x) (hne : ns ≠ []) :
    components (pre ++ text ns) pre.length = ns := by
  induction ns generalizing pre with
  | nil => exact absurd rfl hne
  | cons x ns ih =>
    obtain ⟨hx, hs⟩ := h x (by simp)
    have hpos : 0 < x.length := List.length_pos_iff.2 hx
    by_cases hn : ns = []
    · subst hn
      have e : pre ++ text [x] = pre ++ x ++ [] := by simp [text, An.join]
      rw [e, components, if_pos (by simp; omega), nextSlash_name pre x [] hs (.inl rfl)]
      dsimp only
      rw [if_pos (by omega)]
      congr 1
      · rw [An.sub_nat]; simp [List.take_append]
      · rw [components, if_neg (by simp)]
    · have e : pre ++ text (x :: ns) = pre ++ x ++ (b!"/" ++ text ns) := by
        rw [text_cons _ _ hn]; simp
      rw [e, components, if_pos (by simp; omega), nextSlash_name pre x _ hs (.inr rfl)]
      dsimp only
      rw [if_pos (by omega)]
      congr 1
      · rw [An.sub_nat]; simp [List.take_append]
      · have e2 : pre ++ x ++ (b!"/" ++ text ns) = (pre ++ x ++ b!"/") ++ text ns := by simp
        have hnx := ih (pre ++ x ++ b!"/") (fun y hy => h y (by simp [hy])) hn
        have htl : 0 < (text ns).length := by
          cases ns with
          | nil => exact absurd rfl hn
          | cons y ns =>
            have := List.length_pos_iff.2 (h y (by simp)).1
            by_cases hns : ns = []
            · subst hns; simpa [text, An.join] using this
            · rw [text_cons _ _ hns]; simp; omega
        rw [components, if_pos (by simp)]
        have hsep : nextSep (c! '/') (pre ++ x ++ (b!"/" ++ text ns)) (pre.length + x.length) = pre.length + x.length := by
          have := nextSlash_name (pre ++ x) [] (b!"/" ++ text ns) (by simp) (.inr rfl)
          simpa using this
        rw [hsep]
        dsimp only
        rw [if_neg (by omega), if_neg (by simp; omega)]
        rw [e2]
        have : pre.length + x.length + 1 = (pre ++ x ++ b!"/").length := by simp; omega
        rw [this, hnx]

/-! ## Atoms -/

theorem Name.elem {s : Bytes} (h : Name s) : Elem (elemOf s) := by
  unfold elemOf Elem here
  split
  · exact ⟨rfl, by simp, by simp⟩
  · refine ⟨rfl, ?_, ?_⟩
    · intro e; injection e with e; exact h.not_here e
    · intro e; injection e with e; exact h.nonempty e

theorem getAtom_name (env : Env) (gen : Bytes → Res Url) (type : Nat) {s : Bytes} (h : Name s) :
    getAtom env gen type s = .ok (elemOf s) := by
  unfold getAtom
  rw [if_neg (fun hh => h.not_home hh.2)]
  have hd : An.starts s (b!"$") = .ok false := by
    rw [An.starts, An.test_eq, List.drop_zero]
    congr 1
    have hv := h.no_var
    cases s with
    | nil => rfl
    | cons c s =>
      simp only [List.head?_cons, ne_eq, Option.some.injEq] at hv
      simp [List.isPrefixOf, Ne.symm hv]
  simp only [hd, Res.ok_bind]
  rw [if_neg (by simp), (SearchProps.C20_index_of s (c! '*')).2, Res.ok_bind]
  unfold elemOf
  by_cases hs : c! '*' ∈ s
  · simp [hs]
  · simp [hs]

theorem getAtoms_names (env : Env) (gen : Bytes → Res Url) (type : Nat) (ns : List Bytes) (h : ∀ x ∈ ns, Name x) :
    getAtoms env gen type ns = .ok (ns.map elemOf) := by
  induction ns with
  | nil => rfl
  | cons x ns ih =>
    rw [getAtoms, if_neg (h x (by simp)).nonempty, getAtom_name env gen type (h x (by simp)), Res.ok_bind,
      ih fun y hy => h y (by simp [hy])]
    rfl

theorem assemble_names (ns : List Bytes) (h : ∀ x ∈ ns, Name x) (hw : ∀ x ∈ ns.dropLast, c! '*' ∉ x) (hne : ns ≠ []) :
    assemble (ns.map elemOf) = .ok (P (ns.map elemOf)) := by
  induction ns with
  | nil => exact absurd rfl hne
  | cons x ns ih =>
    cases ns with
    | nil => rfl
    | cons y ns =>
      have e := ih (fun z hz => h z (by simp [hz])) (fun z hz => hw z (by simp [List.dropLast, hz])) (by simp)
      simp only [List.map_cons] at e ⊢
      rw [assemble, e, Res.ok_bind]
      · have hx := (h x (by simp)).elem
        have hat : elemOf x = .atom x := by simp [elemOf, hw x (by simp)]
        rw [addFront, if_neg (by simp [isAtom_here, isAtom_empty, hx.2.1, hx.2.2]), if_pos (by simp [hat, isAtomic]), P]
      · simp

theorem getName_text (env : Env) (gen : Bytes → Res Url) (type : Nat) (ns : List Bytes) (h : ∀ x ∈ ns, Name x)
    (hw : ∀ x ∈ ns.dropLast, c! '*' ∉ x) (hne : ns ≠ []) :
    getName env gen (text ns) type = .ok (P (ns.map elemOf)) := by
  have := components_at [] ns (fun x hx => ⟨(h x hx).nonempty, (h x hx).no_slash⟩) hne
  simp only [List.nil_append, List.length_nil] at this
  rw [getName, this, getAtoms_names env gen type ns h, Res.ok_bind, assemble_names ns h hw hne]

theorem text_ne_nil {ns : List Bytes} (h : ∀ x ∈ ns, x ≠ []) (hne : ns ≠ []) : text ns ≠ [] := by
  cases ns with
  | nil => exact absurd rfl hne
  | cons x ns =>
    by_cases hn : ns = []
    · subst hn; simpa [text, An.join] using h x (by simp)
    · rw [text_cons _ _ hn]; simp

theorem getName_slash_text (env : Env) (gen : Bytes → Res Url) (type : Nat) (ns : List Bytes) (h : ∀ x ∈ ns, Name x)
    (hw : ∀ x ∈ ns.dropLast, c! '*' ∉ x) (hne : ns ≠ []) :
    getName env gen (b!"/" ++ text ns) type = .ok (P (ns.map elemOf)) := by
  have hc := components_at (b!"/") ns (fun x hx => ⟨(h x hx).nonempty, (h x hx).no_slash⟩) hne
  have hl : 0 < (text ns).length := List.length_pos_iff.2 (text_ne_nil (fun x hx => (h x hx).nonempty) hne)
  have hsep : nextSep (c! '/') (b!"/" ++ text ns) 0 = 0 :=
    nextSlash _ 0 0 (by omega) (by omega) (fun k _ hk => by omega) (.inr rfl)
  have : components (b!"/" ++ text ns) 0 = ns := by
    rw [components, if_pos (by simp), hsep]
    dsimp only
    rw [if_neg (by omega), if_neg (by simp; intro e; rw [e] at hl; simp at hl)]
    exact hc
  rw [getName, this, getAtoms_names env gen type ns h, Res.ok_bind, assemble_names ns h hw hne]

/-! ## Printing -/

theorem asString_elemOf (s : Bytes) : asString (elemOf s) = s := by
  unfold elemOf; split <;> simp [asString]

theorem asString_P (ns : List Bytes) (hw : ∀ x ∈ ns.dropLast, c! '*' ∉ x) (hne : ns ≠ []) :
    asString (P (ns.map elemOf)) = text ns := by
  induction ns with
  | nil => exact absurd rfl hne
  | cons x ns ih =>
    cases ns with
    | nil => simp only [List.map_cons, List.map_nil, P, asString_elemOf, text, An.join]
    | cons y ns =>
      have e := ih (fun z hz => hw z (by simp [List.dropLast, hz])) (by simp)
      have hat : elemOf x = .atom x := by simp [elemOf, hw x (by simp)]
      have hb : braceRight (P ((y :: ns).map elemOf)) (text (y :: ns)) = text (y :: ns) := by
        unfold braceRight
        rw [if_neg]
        cases ns with
        | nil =>
          simp only [List.map_cons, List.map_nil, P]
          unfold elemOf; split <;> simp [isConcat, isAtomic, isWild1]
        | cons z ns => simp [P, isConcat]
      simp only [List.map_cons] at e hb ⊢
      rw [P, asString]
      simp only [e, hb, hat, isRootS, asString, braceLeft, isName]
      rw [text_cons x (y :: ns) (by simp)]
      simp

theorem braceRight_P (ns : List Bytes) (hne : ns ≠ []) (t : Bytes) : braceRight (P (ns.map elemOf)) t = t := by
  unfold braceRight
  rw [if_neg]
  match ns, hne with
  | [x], _ =>
    simp only [List.map_cons, List.map_nil, P]
    unfold elemOf; split <;> simp [isConcat, isAtomic, isWild1]
  | x :: y :: ns, _ => simp [P, isConcat]

theorem asString_R (r : Bytes) (ns : List Bytes) (hw : ∀ x ∈ ns.dropLast, c! '*' ∉ x) (hne : ns ≠ []) :
    asString (R r (ns.map elemOf)) =
      (if r = b!"default" then [] else asString (.root r)) ++ b!"/" ++ text ns := by
  rw [R_cons _ _ (by simpa using hne), asString]
  simp only [asString_P ns hw hne, braceRight_P ns hne]
  have : ∀ t, braceLeft (.root r) t = t := fun t => by simp [braceLeft, isName, isRoot]
  rw [this]
  simp [isRootS]

/-! ## No double slash, no colon -/

theorem colon_not_in_text {ns : List Bytes} (h : ∀ x ∈ ns, c! ':' ∉ x) : c! ':' ∉ text ns := by
  induction ns with
  | nil => simp [text, An.join]
  | cons x ns ih =>
    by_cases hn : ns = []
    · subst hn; simpa [text, An.join] using h x (by simp)
    · rw [text_cons _ _ hn]
      have := h x (by simp)
      have := ih fun y hy => h y (by simp [hy])
      simp_all

/-- No two consecutive slashes. -/
def NoDouble : Bytes → Prop
  | c :: d :: s => ¬ (c = c! '/' ∧ d = c! '/') ∧ NoDouble (d :: s)
  | _ => True

theorem noDouble_append {x y : Bytes} (hx : c! '/' ∉ x) (hy : NoDouble y) : NoDouble (x ++ y) := by
  induction x with
  | nil => exact hy
  | cons c x ih =>
    simp only [List.mem_cons, not_or] at hx
    have := ih hx.2
    cases hxy : x ++ y with
    | nil => rw [List.cons_append, hxy]; trivial
    | cons d s =>
      rw [List.cons_append, hxy]
      rw [hxy] at this
      exact ⟨fun h => hx.1 h.1.symm, this⟩

theorem not_noDouble (a b : Bytes) : ¬ NoDouble (a ++ (c! '/') :: (c! '/') :: b) := by
  induction a with
  | nil => exact fun h => h.1 ⟨rfl, rfl⟩
  | cons c a ih =>
    intro h
    cases hab : a ++ (c! '/') :: (c! '/') :: b with
    | nil => simp at hab
    | cons d s =>
      rw [List.cons_append, hab] at h
      rw [hab] at ih
      exact ih h.2

theorem noDouble_text {ns : List Bytes} (h : ∀ x ∈ ns, x ≠ [] ∧ c! '/' ∉ x) : NoDouble (text ns) := by
  induction ns with
  | nil => trivial
  | cons x ns ih =>
    have ih := ih fun y hy => h y (by simp [hy])
    by_cases hn : ns = []
    · subst hn
      have := noDouble_append (h x (by simp)).2 (y := []) trivial
      simpa [text, An.join] using this
    · rw [text_cons _ _ hn, List.append_assoc]
      refine noDouble_append (h x (by simp)).2 ?_
      cases ns with
      | nil => exact absurd rfl hn
      | cons y ns =>
        obtain ⟨hy1, hy2⟩ := h y (by simp)
        cases y with
        | nil => exact absurd rfl hy1
        | cons d y =>
          simp only [List.mem_cons, not_or] at hy2
          have : ∃ s, text ((d :: y) :: ns) = d :: s := by
            by_cases hns : ns = []
            · subst hns; exact ⟨y, rfl⟩
            · exact ⟨y ++ b!"/" ++ text ns, by rw [text_cons _ _ hns]; simp⟩
          obtain ⟨s, e⟩ := this
          rw [e] at ih ⊢
          exact ⟨fun hh => hy2.1 hh.2.symm, ih⟩

theorem head_text {ns : List Bytes} (h : ∀ x ∈ ns, x ≠ [] ∧ c! '/' ∉ x) : (text ns).head? ≠ some (c! '/') := by
  cases ns with
  | nil => simp [text, An.join]
  | cons x ns =>
    obtain ⟨h1, h2⟩ := h x (by simp)
    cases x with
    | nil => exact absurd rfl h1
    | cons c x =>
      simp only [List.mem_cons, not_or] at h2
      by_cases hns : ns = []
      · subst hns; simp [text, An.join]; exact fun e => h2.1 e.symm
      · rw [text_cons _ _ hns]; simp; exact fun e => h2.1 e.symm

theorem noProtocol {t : Bytes} (h : NoDouble t) (q : Nat) : ¬ An.OccursAt (b!"://") t q := by
  rintro ⟨a, b, e, _⟩
  have : t = (a ++ [c! ':']) ++ (c! '/') :: (c! '/') :: b := by rw [e]; simp
  rw [this] at h
  exact not_noDouble _ _ h

theorem starts_eq (s what : Bytes) : An.starts s what = .ok (what.isPrefixOf s) := by
  rw [An.starts, An.test_eq, List.drop_zero]

end Lolly.Url
