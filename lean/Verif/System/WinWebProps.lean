import Verif.System.WinUrlProps
import Verif.System.UrlHomeProps
import Verif.System.UrlListProps

set_option autoImplicit false

/-!
# Property C122: urls of the web and of files on Windows

`system env (f + 1) s` is `url_system (s)`, `asString true u` is `as_string (u)`.
-/

namespace Lolly.WinWebProps

open WinUrl WinUrlProps
open Url (Url Env Elem P R parent here elemOf text isAtom isAtomic strip)

/-! ## Specification -/

/-- A name as it may occur on the web: not empty, not `.`, without `/`, and not one character and a colon. It may have `\`,
be `~` and begin with `$`. -/
structure WebName (s : Bytes) : Prop where
  nonempty : s ≠ []
  not_here : s ≠ b!"."
  no_slash : c! '/' ∉ s
  not_drive : ∀ c, s ≠ [c, c! ':']

/-- The protocols of the web. -/
def Web (p : Bytes) : Prop := p = b!"http" ∨ p = b!"https" ∨ p = b!"ftp"

/-! ## Lemmas -/

theorem nextSep_web (s : Bytes) (i : Nat) : nextSep false s i = Url.nextSep (c! '/') s i := by
  fun_induction Url.nextSep (c! '/') s i with
  | case1 i h hs => rw [nextSep, dif_pos h, if_pos (by simp [hs])]
  | case2 i h hs hb ih => rw [nextSep, dif_pos h, if_neg (by simp [hs]), if_pos hb, ih]
  | case3 i h hs hb ih => rw [nextSep, dif_pos h, if_neg (by simp [hs]), if_neg hb, ih]
  | case4 i h => rw [nextSep, dif_neg h]

theorem components_web (s : Bytes) (i : Nat) : components false s i = Url.components s i := by
  fun_induction Url.components s i with
  | case1 i h j hj ih =>
    rw [components, if_pos h]
    dsimp only
    rw [nextSep_web, if_pos hj, ih]
  | case2 i h j hj hl =>
    rw [components, if_pos h]
    dsimp only
    rw [nextSep_web, if_neg hj, if_pos hl]
  | case3 i h j hj hl ih =>
    rw [components, if_pos h]
    dsimp only
    rw [nextSep_web, if_neg hj, if_neg hl, ih]
  | case4 i h => rw [components, if_neg h]

theorem WebName.atom {s : Bytes} (h : WebName s) : atomOf s = s := by
  unfold atomOf
  rw [if_neg]
  rintro ⟨h1, h2⟩
  unfold An.ends at h2
  rw [if_neg (by simp [h1]), h1] at h2
  match s, h1 with
  | [a, b], _ =>
    simp [An.sub] at h2
    exact h.not_drive a (by rw [h2])

theorem WebName.elem {s : Bytes} (h : WebName s) : Elem (elemOf s) :=
  UrlHomeProps.WebName.elem ⟨h.nonempty, h.not_here, h.no_slash⟩

/-- What a name on the web is read as. -/
def webElem (s : Bytes) : Url := if c! '*' ∈ s then .wild1 s else .atom (atomOf s)

theorem WebName.webElem {s : Bytes} (h : WebName s) : webElem s = elemOf s := by
  rw [WinWebProps.webElem, h.atom]; rfl

theorem getAtom_any (env : Env) (gen : Bytes → Res Url) (s : Bytes) :
    getAtom env gen false s = .ok (webElem s) := by
  unfold getAtom
  rw [if_neg (by simp)]
  simp only [Url.starts_eq, Res.ok_bind, (SearchProps.C20_index_of s (c! '*')).2]
  rw [if_neg (by simp)]
  by_cases h : c! '*' ∈ s <;> simp [h, webElem, atomOf]

theorem assemble_any (ns : List Bytes) (hne : ns ≠ []) (h : ∀ x ∈ ns, Elem (webElem x))
    (hw : ∀ x ∈ ns.dropLast, c! '*' ∉ x) : assemble (ns.map webElem) = .ok (P (ns.map webElem)) := by
  induction ns with
  | nil => exact absurd rfl hne
  | cons x l ih =>
    cases l with
    | nil => rfl
    | cons y l =>
      have e := ih (by simp) (fun z hz => h z (by simp [hz])) (fun z hz => hw z (by simp [List.dropLast, hz]))
      simp only [List.map_cons] at e ⊢
      rw [assemble, e, Res.ok_bind]
      · have hx := h x (by simp)
        have hxa : webElem x = .atom (atomOf x) := by simp [webElem, hw x (by simp)]
        rw [addFront, if_neg (by simp [Url.isAtom_here, Url.isAtom_empty, hx.2.1, hx.2.2]),
          if_pos (by simp [hxa, isAtomic]), P]
      · simp

theorem getName_any (env : Env) (gen : Bytes → Res Url) (ns : List Bytes) (hne : ns ≠ [])
    (h : ∀ x ∈ ns, x ≠ [] ∧ c! '/' ∉ x ∧ Elem (webElem x)) (hw : ∀ x ∈ ns.dropLast, c! '*' ∉ x) :
    getName env gen false (text ns) = .ok (P (ns.map webElem)) := by
  have hc := Url.components_at [] ns (fun x hx => ⟨(h x hx).1, (h x hx).2.1⟩) hne
  simp only [List.nil_append, List.length_nil] at hc
  have hat : ∀ l : List Bytes, (∀ x ∈ l, x ≠ []) → getAtoms env gen false l = .ok (l.map webElem) := by
    intro l
    induction l with
    | nil => intro _; rfl
    | cons x l ih =>
      intro hl
      rw [getAtoms, if_neg (hl x (by simp)), getAtom_any, Res.ok_bind, ih fun y hy => hl y (by simp [hy])]
      rfl
  rw [getName, components_web, hc, hat ns fun x hx => (h x hx).1, Res.ok_bind,
    assemble_any ns hne (fun x hx => (h x hx).2.2) hw]

theorem getName_web (env : Env) (gen : Bytes → Res Url) (ns : List Bytes) (hne : ns ≠ [])
    (h : ∀ x ∈ ns, WebName x) (hw : ∀ x ∈ ns.dropLast, c! '*' ∉ x) :
    getName env gen false (text ns) = .ok (P (ns.map elemOf)) := by
  have e : ns.map elemOf = ns.map webElem := List.map_congr_left fun x hx => (h x hx).webElem.symm
  rw [e]
  exact getName_any env gen ns hne (fun x hx => ⟨(h x hx).nonempty, (h x hx).no_slash, by
    rw [(h x hx).webElem]; exact (h x hx).elem⟩) hw

/-- The protocol of a url. -/
theorem system_protocol (env : Env) (f : Nat) (p path : Bytes) (hp : ∀ c ∈ p, An.isAlpha c || An.isDigit c)
    (hl : 2 ≤ p.length) (hpath : ∀ q, ¬ An.OccursAt (b!"://") path q) :
    system env (f + 1) (p ++ b!"://" ++ path) =
      rooted env (system env f) p path (!(decide (p = (b!"http") ∨ p = (b!"https") ∨ p = (b!"ftp")))) := by
  have hocc : An.OccursAt (b!"://") (p ++ b!"://" ++ path) p.length := ⟨p, path, rfl, rfl⟩
  obtain ⟨b, e, hb⟩ := SearchProps.C20_occurs (b!"://") (p ++ b!"://" ++ path)
  have : b = true := hb.2 ⟨_, hocc⟩
  subst this
  have hcolon : c! ':' ∉ p := fun h => absurd (hp _ h) (by decide)
  have hfirst : ∀ q, q < p.length → ¬ An.OccursAt (b!"://") (p ++ b!"://" ++ path) q := by
    rintro q hq ⟨a, r, e, hlen⟩
    have h1 : (p ++ b!"://" ++ path)[q]? = some (c! ':') := by
      rw [e, ← hlen, List.append_assoc, List.getElem?_append_right (Nat.le_refl _), Nat.sub_self]
      rfl
    rw [List.append_assoc, List.getElem?_append_left hq] at h1
    exact hcolon (List.mem_of_getElem? h1)
  obtain ⟨ps, et, _, hc, _⟩ := SearchProps.C22_tokenize (p ++ b!"://" ++ path) (b!"://") (by decide)
    ((p ++ b!"://" ++ path).length + 1) (by omega)
  have hps : ps = [p, path] := An.cuts_unique hc (.cut p path [path] hfirst (.last _ hpath))
  subst hps
  have hne : p ≠ [] := by intro e; subst e; simp at hl
  have han : An.allBytes (fun c => An.isAlpha c || An.isDigit c) p = .ok true := by
    rw [An.allBytes_eq]
    have : p.all (fun c => An.isAlpha c || An.isDigit c) = true := by
      rw [List.all_eq_true]; exact hp
    cases p with
    | nil => exact absurd rfl hne
    | cons c p => simp only [this]; rfl
  have : withProtocol env (system env f) (p ++ b!"://" ++ path) =
      (rooted env (system env f) p path (!(decide (p = (b!"http") ∨ p = (b!"https") ∨ p = (b!"ftp")))) >>=
        fun u => .ok (some u)) := by
    unfold withProtocol
    rw [et]
    simp only [Res.ok_bind, han]
    rw [if_pos ⟨trivial, hne, trivial, hl⟩]
  rw [system, e]
  simp only [Res.ok_bind, if_true, this]
  cases rooted env (system env f) p path (!(decide (p = (b!"http") ∨ p = (b!"https") ∨ p = (b!"ftp")))) <;> rfl

theorem asString_step (x : Bytes) (b : Url) : asString false (.concat (.atom x) b) =
    x ++ b!"/" ++ Url.braceRight b (asString false b) := by
  cases b <;> rfl

theorem asString_elemOf (s : Bytes) : asString false (elemOf s) = s := by
  unfold elemOf; split <;> simp [asString]

theorem asString_web (ns : List Bytes) (hw : ∀ x ∈ ns.dropLast, c! '*' ∉ x) (hne : ns ≠ []) :
    asString false (P (ns.map elemOf)) = text ns := by
  induction ns with
  | nil => exact absurd rfl hne
  | cons x ns ih =>
    cases ns with
    | nil => simp only [List.map_cons, List.map_nil, P, asString_elemOf, text, An.join]
    | cons y ns =>
      have e := ih (fun z hz => hw z (by simp [List.dropLast, hz])) (by simp)
      have hat : elemOf x = .atom x := by simp [elemOf, hw x (by simp)]
      have hb := Url.braceRight_P (y :: ns) (by simp) (text (y :: ns))
      simp only [List.map_cons] at e hb ⊢
      rw [P, hat, asString_step, e, hb, Url.text_cons x (y :: ns) (by simp)]

theorem asString_R_web (p : Bytes) (hp : Web p) (ns : List Bytes) (hw : ∀ x ∈ ns.dropLast, c! '*' ∉ x) (hne : ns ≠ []) :
    asString true (R p (ns.map elemOf)) = p ++ b!"://" ++ text ns := by
  have hs : ∀ b, asString true (.concat (.root p) b) = p ++ b!":/" ++ b!"/" ++ Url.braceRight b (asString false b) := by
    intro b
    rcases hp with rfl | rfl | rfl <;> cases b <;> rfl
  rw [Url.R_cons _ _ (by simpa using hne), hs, asString_web ns hw hne, Url.braceRight_P ns hne]
  simp

/-! ## C122 -/

/-- C122: on Windows as elsewhere, `p://` followed by names with `/` between them is read as these names below the protocol
and printed again as it was. Neither `\` nor `~` nor `$` has a special meaning on the web. -/
theorem C122_web_partial (env : Env) (f : Nat) (p : Bytes) (hp : Web p) (ns : List Bytes) (hne : ns ≠ [])
    (h : ∀ x ∈ ns, WebName x) (hw : ∀ x ∈ ns.dropLast, c! '*' ∉ x) (hpar : ns.head? ≠ some (b!"..")) :
    system env (f + 1) (p ++ b!"://" ++ text ns) = .ok (R p (ns.map elemOf)) ∧
    asString true (R p (ns.map elemOf)) = p ++ b!"://" ++ text ns := by
  refine ⟨?_, asString_R_web p hp ns hw hne⟩
  have hn : ∀ x ∈ ns, x ≠ [] ∧ c! '/' ∉ x := fun x hx => ⟨(h x hx).nonempty, (h x hx).no_slash⟩
  have hp1 : (∀ c ∈ p, An.isAlpha c || An.isDigit c) ∧ 2 ≤ p.length := by
    rcases hp with rfl | rfl | rfl <;> decide
  have hstrip : strip (ns.map elemOf) = ns.map elemOf := by
    apply Url.strip_eq_self
    cases ns with
    | nil => simp
    | cons x ns =>
      simp only [List.map_cons, List.head?_cons, ne_eq, Option.some.injEq] at hpar ⊢
      unfold elemOf parent
      split
      · simp
      · intro e; injection e with e; exact hpar e
  have he : ∀ y ∈ ns.map elemOf, Elem y := by
    intro y hy
    obtain ⟨x, hx, rfl⟩ := List.mem_map.1 hy
    exact (h x hx).elem
  rw [system_protocol env f p _ hp1.1 hp1.2 (Url.noProtocol (Url.noDouble_text hn))]
  have hweb : (!(decide (p = (b!"http") ∨ p = (b!"https") ∨ p = (b!"ftp")))) = false := by
    rw [Bool.not_eq_false', decide_eq_true_eq]; exact hp
  rw [hweb, rooted, getName_web env _ ns hne h hw, Res.ok_bind, mul_root_P _ he, hstrip]

/-- `http://host:80/~u/$x/a\b/*.txt` -/
example : (∀ x ∈ [b!"host:80", b!"~u", b!"$x", b!"a\\b", b!"*.txt"], WebName x) ∧
    text [b!"host:80", b!"~u", b!"$x", b!"a\\b", b!"*.txt"] = (b!"host:80/~u/$x/a\\b/*.txt") := by
  refine ⟨?_, by decide⟩
  intro x hx
  simp only [List.mem_cons, List.not_mem_nil, or_false] at hx
  rcases hx with rfl | rfl | rfl | rfl | rfl <;> exact ⟨by decide, by decide, by decide, by simp⟩

/-- C122: a text that begins with `www.` is an address of the web, one that begins with `ftp.` is one of ftp. -/
theorem C122_www (env : Env) (f : Nat) (ns : List Bytes) (hne : ns ≠ []) (h : ∀ x ∈ ns, WebName x ∧ c! ':' ∉ x ∧ c! ';' ∉ x)
    (hw : ∀ x ∈ ns.dropLast, c! '*' ∉ x) :
    ((b!"www.") <+: text ns → system env (f + 1) (text ns) = .ok (R (b!"http") (ns.map elemOf))) ∧
    ((b!"ftp.") <+: text ns → system env (f + 1) (text ns) = .ok (R (b!"ftp") (ns.map elemOf))) := by
  have hn : ∀ x ∈ ns, x ≠ [] ∧ c! '/' ∉ x := fun x hx => ⟨(h x hx).1.nonempty, (h x hx).1.no_slash⟩
  have hcol := Url.colon_not_in_text fun x hx => (h x hx).2.1
  have hsem : c! ';' ∉ text ns := by
    intro hc
    rcases UrlListProps.mem_text hc with e | ⟨x, hx, e⟩
    · exact absurd e (by decide)
    · exact (h x hx).2.2 e
  have he : ∀ y ∈ ns.map elemOf, Elem y := by
    intro y hy
    obtain ⟨x, hx, rfl⟩ := List.mem_map.1 hy
    exact (h x hx).1.elem
  have hg := getName_web env (system env f) ns hne (fun x hx => (h x hx).1) hw
  have hstrip : ∀ a b c, text ns = a :: b :: c → a ≠ c! '.' → strip (ns.map elemOf) = ns.map elemOf := by
    intro a b c ht ha
    apply Url.strip_eq_self
    cases ns with
    | nil => simp
    | cons x ns =>
      simp only [List.map_cons, List.head?_cons, ne_eq, Option.some.injEq]
      unfold elemOf parent
      split
      · simp
      · intro e
        injection e with e
        subst e
        by_cases hns : ns = []
        · subst hns
          simp only [text, An.join, List.cons.injEq] at ht
          exact ha ht.1.symm
        · rw [Url.text_cons _ _ hns] at ht
          simp only [List.cons_append, List.cons.injEq] at ht
          exact ha ht.1.symm
  constructor
  · rintro ⟨t, ht⟩
    have hl := system_plain env f (text ns) (noOcc_of_colon hcol) (notPrefix (c! ':') (by decide) hcol)
      (by rw [← ht]; rfl) hsem
    have hd : isDefault (text ns) = .ok false := by rw [← ht]; rfl
    rw [hl, hd, Res.ok_bind, if_neg (by simp), if_pos (by rw [List.isPrefixOf_iff_prefix]; exact ⟨t, ht⟩), rooted, hg,
      Res.ok_bind, mul_root_P _ he, hstrip _ _ _ ht.symm (by decide)]
  · rintro ⟨t, ht⟩
    have hl := system_plain env f (text ns) (noOcc_of_colon hcol) (notPrefix (c! ':') (by decide) hcol)
      (by rw [← ht]; rfl) hsem
    have hd : isDefault (text ns) = .ok false := by rw [← ht]; rfl
    rw [hl, hd, Res.ok_bind, if_neg (by simp), if_neg (by rw [← ht]; simp [List.isPrefixOf]),
      if_pos (by rw [List.isPrefixOf_iff_prefix]; exact ⟨t, ht⟩), rooted, hg,
      Res.ok_bind, mul_root_P _ he, hstrip _ _ _ ht.symm (by decide)]

/-- `www.gnu.org/a` is `http://www.gnu.org/a`. -/
example : (b!"www.") <+: text [b!"www.gnu.org", b!"a"] ∧ WebName (b!"www.gnu.org") ∧
    asString true (R (b!"http") ([b!"www.gnu.org", b!"a"].map elemOf)) = b!"http://www.gnu.org/a" :=
  ⟨by decide, ⟨by decide, by decide, by decide, by simp⟩, by decide⟩

/-- C122 is violated by a last name of one character and a colon: it is taken for a drive and loses its colon, so that another
address is read. -/
theorem C122_colon_violated (env : Env) (f : Nat) (p : Bytes) (hp : Web p) (ns : List Bytes) (hne : ns ≠ [])
    (h : ∀ x ∈ ns, WebName x ∧ c! '*' ∉ x) (hpar : ns.head? ≠ some (b!"..")) (c : UInt8)
    (hc : c ≠ c! '/' ∧ c ≠ c! '*' ∧ c ≠ c! '.') :
    ∃ u, system env (f + 1) (p ++ b!"://" ++ text (ns ++ [[c, c! ':']])) = .ok u ∧
      asString true u = p ++ b!"://" ++ text (ns ++ [[c]]) := by
  refine ⟨R p ((ns ++ [[c]]).map elemOf), ?_, asString_R_web p hp _ (fun x hx => ?_) (by simp)⟩
  · have hs := C122_web_partial env f p hp
    have hn : ∀ x ∈ ns ++ [[c, c! ':']], x ≠ [] ∧ c! '/' ∉ x := by
      intro x hx
      rcases List.mem_append.1 hx with hx | hx
      · exact ⟨(h x hx).1.nonempty, (h x hx).1.no_slash⟩
      · rw [List.mem_singleton.1 hx]
        exact ⟨by simp, by simp [Ne.symm hc.1]⟩
    have hstar : c! '*' ∉ [c, c! ':'] := by simp [Ne.symm hc.2.1]
    have hec : webElem [c, c! ':'] = .atom [c] := by
      rw [webElem, if_neg hstar, atomOf, if_pos ⟨rfl, by simp [An.ends, An.sub]⟩]; rfl
    have hm : (ns ++ [[c, c! ':']]).map webElem = (ns ++ [[c]]).map elemOf := by
      rw [List.map_append, List.map_append, List.map_congr_left fun x hx => (h x hx).1.webElem]
      congr 1
      rw [List.map_cons, hec, List.map_cons, elemOf, if_neg (by simp [Ne.symm hc.2.1])]
      rfl
    have he : ∀ y ∈ (ns ++ [[c]]).map elemOf, Elem y := by
      intro y hy
      obtain ⟨x, hx, rfl⟩ := List.mem_map.1 hy
      rcases List.mem_append.1 hx with hx | hx
      · exact (h x hx).1.elem
      · rw [List.mem_singleton.1 hx]
        exact WebName.elem ⟨by simp, by simp [hc.2.2], by simp [Ne.symm hc.1], by simp⟩
    have hg := getName_any env (system env f) (ns ++ [[c, c! ':']]) (by simp) (fun x hx => ⟨(hn x hx).1, (hn x hx).2, by
      rcases List.mem_append.1 hx with hx | hx
      · rw [(h x hx).1.webElem]; exact (h x hx).1.elem
      · rw [List.mem_singleton.1 hx, hec]
        exact ⟨rfl, by simp [here, hc.2.2], by simp⟩⟩) (fun x hx => by
          rw [List.dropLast_concat] at hx; exact (h x hx).2)
    have hp1 : (∀ c ∈ p, An.isAlpha c || An.isDigit c) ∧ 2 ≤ p.length := by
      rcases hp with rfl | rfl | rfl <;> decide
    have hweb : (!(decide (p = (b!"http") ∨ p = (b!"https") ∨ p = (b!"ftp")))) = false := by
      rw [Bool.not_eq_false', decide_eq_true_eq]; exact hp
    have hstrip : strip ((ns ++ [[c]]).map elemOf) = (ns ++ [[c]]).map elemOf := by
      apply Url.strip_eq_self
      cases ns with
      | nil => exact absurd rfl hne
      | cons x ns =>
        simp only [List.cons_append, List.map_cons, List.head?_cons, ne_eq, Option.some.injEq] at hpar ⊢
        unfold elemOf parent
        split
        · simp
        · intro e; injection e with e; exact hpar e
    rw [system_protocol env f p _ hp1.1 hp1.2 (Url.noProtocol (Url.noDouble_text hn)), hweb, rooted, hg, Res.ok_bind, hm,
      mul_root_P _ he, hstrip]
  · rw [List.dropLast_concat] at hx
    exact (h x hx).2

/-- `http://h/c:` is read as `http://h/c`. -/
example : text ([b!"h"] ++ [[c! 'c', c! ':']]) = b!"h/c:" ∧ text ([b!"h"] ++ [[c! 'c']]) = b!"h/c" ∧ WebName (b!"h") :=
  ⟨by decide, by decide, ⟨by decide, by decide, by decide, by simp⟩⟩

/-! ## Files -/

theorem asString_R_file (x : Bytes) (ns : List Bytes) : asString true (R (b!"file") (.atom x :: names ns)) =
    if x.length = 1 then b!"file:///" ++ x ++ b!":\\" ++ wtext ns else b!"file://" ++ x ++ b!"/" ++ wtext ns := by
  rw [Url.R_cons _ _ (by simp)]
  cases ns with
  | nil =>
    show place true true (b!"file://") x [] = _
    unfold place
    simp [wtext, An.join]
  | cons y ns =>
    have e := asString_P (y :: ns) (by simp)
    rw [names, List.map_cons, P, ← List.map_cons (f := Url.atom), ← names]
    rw [asString]
    simp only [Url.isRootS, decide_true, Bool.or_true, if_true, e]
    show place true true (b!"file://") x (wtext (y :: ns)) = _
    unfold place
    simp

/-- Reading the path of a url of a file, after separators. -/
theorem rooted_file (env : Env) (gen : Bytes → Res Url) (pre : Bytes) (hpre : ∀ c ∈ pre, isSep c = true) (cs : List Bytes)
    (s : Bytes) (hs : Spelled cs s) (h : ∀ x ∈ cs, Plain x) (hp : ∀ x, cs.head? = some x → atomOf x ≠ b!"..") :
    rooted env gen (b!"file") (pre ++ s) true = .ok (R (b!"file") (cs.map fun x => .atom (atomOf x))) := by
  have hne : cs ≠ [] := by cases hs <;> simp
  have hs0 := List.length_pos_iff.2 (hs.ne_nil fun x hx => (h x hx).nonempty)
  have hc := components_spelled hs (fun x hx => ⟨(h x hx).nonempty, (h x hx).no_sep⟩) pre
  have hskip : ∀ k, k ≤ pre.length → components true (pre ++ s) 0 = components true (pre ++ s) k := by
    intro k
    induction k with
    | zero => intro _; rfl
    | succ k ih =>
      intro hk
      have hg : (pre ++ s)[k]? = some pre[k] := by
        rw [List.getElem?_append_left (by omega), List.getElem?_eq_getElem (by omega)]
      rw [ih (by omega), components_skip _ k pre[k] hg (hpre _ (List.getElem_mem _)) (by simp; omega)]
  have hc0 := (hskip pre.length (Nat.le_refl _)).trans hc
  have he : ∀ y ∈ cs.map (fun x => Url.atom (atomOf x)), Elem y := by
    intro y hy
    obtain ⟨x, hx, rfl⟩ := List.mem_map.1 hy
    exact (h x hx).elem
  rw [rooted, getName_of env gen _ cs h hne hc0, Res.ok_bind, mul_root_P _ he, Url.strip_eq_self]
  cases cs with
  | nil => exact absurd rfl hne
  | cons x cs =>
    have := hp x rfl
    simp only [List.map_cons, List.head?_cons, ne_eq, Option.some.injEq, parent, Url.atom.injEq]
    exact this

/-- C122: `file:///x:` followed by a path is read as the names below the drive `x`, and printed with `\`; what is printed is
read as the same url. -/
theorem C122_file_drive (env : Env) (f : Nat) (x sep : UInt8) (hx : An.isAlpha x = true) (hsep : isSep sep = true)
    (ns : List Bytes) (s : Bytes) (hs : Spelled ns s) (hn : ∀ y ∈ ns, FileName y) :
    system env (f + 1) (b!"file:///" ++ (x :: c! ':' :: sep :: s)) = .ok (R (b!"file") (.atom [x] :: names ns)) ∧
    asString true (R (b!"file") (.atom [x] :: names ns)) = b!"file:///" ++ (x :: c! ':' :: c! '\\' :: wtext ns) ∧
    system env (f + 1) (asString true (R (b!"file") (.atom [x] :: names ns))) = .ok (R (b!"file") (.atom [x] :: names ns)) := by
  have key : ∀ (sep : UInt8) (s : Bytes), isSep sep = true → Spelled ns s →
      system env (f + 1) (b!"file:///" ++ (x :: c! ':' :: sep :: s)) = .ok (R (b!"file") (.atom [x] :: names ns)) := by
    intro sep s hsep hs
    obtain ⟨p1, p2⟩ := plain_drive x hx
    have hall : ∀ y ∈ [x, c! ':'] :: ns, Plain y := by
      intro y hy
      rcases List.mem_cons.1 hy with rfl | hy
      · exact p1
      · exact (hn y hy).plain
    have hsp : Spelled ([x, c! ':'] :: ns) (x :: c! ':' :: sep :: s) := .cons [x, c! ':'] sep hsep hs
    have hr := rooted_file env (system env f) (b!"/") (by decide) _ _ hsp hall (by
      intro y hy
      injection hy with hy
      rw [← hy, p2]
      intro e; cases e)
    rw [List.map_cons, p2, map_atomOf hn] at hr
    have hocc : ∀ q, ¬ An.OccursAt (b!"://") ((b!"/") ++ (x :: c! ':' :: sep :: s)) q := by
      obtain ⟨c, t, e, hc⟩ := spelled_head hs hn
      obtain ⟨n1, n2⟩ := spelled_no hs hn
      have hsep2 : sep ≠ c! ':' := by rintro rfl; exact absurd hsep (by decide)
      have hx2 : x ≠ c! ':' := by rintro rfl; exact absurd hx (by decide)
      rintro q ⟨a, b, h, _⟩
      match a with
      | [] => injection h with h _; exact absurd h (by decide)
      | [y] =>
        simp only [List.cons_append, List.nil_append, List.cons.injEq] at h
        exact hx2 h.2.1
      | [y, z] =>
        simp only [List.cons_append, List.nil_append, List.cons.injEq] at h
        obtain ⟨_, _, _, _, h⟩ := h
        rw [e] at h
        injection h with h _
        rw [h] at hc; cases hc
      | [y, z, w] =>
        simp only [List.cons_append, List.nil_append, List.cons.injEq] at h
        exact hsep2 h.2.2.2.1
      | y :: z :: w :: v :: a =>
        simp only [List.cons_append, List.nil_append, List.cons.injEq] at h
        exact n1 (by rw [h.2.2.2.2]; simp)
    have := system_protocol env f (b!"file") ((b!"/") ++ (x :: c! ':' :: sep :: s)) (by decide) (by decide) hocc
    rw [show b!"file:///" ++ (x :: c! ':' :: sep :: s) =
      b!"file" ++ b!"://" ++ ((b!"/") ++ (x :: c! ':' :: sep :: s)) from rfl, this]
    exact hr
  have hpr : asString true (R (b!"file") (.atom [x] :: names ns)) = b!"file:///" ++ (x :: c! ':' :: c! '\\' :: wtext ns) := by
    rw [asString_R_file, if_pos (show [x].length = 1 from rfl)]
    simp
  refine ⟨key sep s hsep hs, hpr, ?_⟩
  rw [hpr]
  exact key (c! '\\') _ rfl (spelled_wtext ns (by cases hs <;> simp))

/-- C122: `file://` followed by the name of a computer and a path is read as the names below the computer and printed so that
the same is read again. The name has at least two characters. -/
theorem C122_file_remote_partial (env : Env) (f : Nat) (host : Bytes) (hh : FileName host) (hl : host.length ≠ 1)
    (hp : host ≠ b!"..") (sep : UInt8) (hsep : isSep sep = true) (ns : List Bytes) (s : Bytes) (hs : Spelled ns s)
    (hn : ∀ y ∈ ns, FileName y) :
    system env (f + 1) (b!"file://" ++ (host ++ sep :: s)) = .ok (R (b!"file") (.atom host :: names ns)) ∧
    asString true (R (b!"file") (.atom host :: names ns)) = b!"file://" ++ (host ++ c! '/' :: wtext ns) ∧
    system env (f + 1) (asString true (R (b!"file") (.atom host :: names ns))) =
      .ok (R (b!"file") (.atom host :: names ns)) := by
  have hall : ∀ y ∈ host :: ns, FileName y := by
    intro y hy
    rcases List.mem_cons.1 hy with rfl | hy
    · exact hh
    · exact hn y hy
  have key : ∀ (sep : UInt8) (s : Bytes), isSep sep = true → Spelled ns s →
      system env (f + 1) (b!"file://" ++ (host ++ sep :: s)) = .ok (R (b!"file") (.atom host :: names ns)) := by
    intro sep s hsep hs
    have hsp : Spelled (host :: ns) (host ++ sep :: s) := .cons host sep hsep hs
    have hr := rooted_file env (system env f) [] (by simp) _ _ hsp (fun y hy => (hall y hy).plain) (by
      intro y hy
      injection hy with hy
      rw [← hy, hh.atom]
      exact hp)
    rw [map_atomOf hall, List.nil_append] at hr
    have := system_protocol env f (b!"file") (host ++ sep :: s) (by decide) (by decide)
      (noOcc_of_colon (spelled_no hsp hall).1)
    rw [show b!"file://" ++ (host ++ sep :: s) = b!"file" ++ b!"://" ++ (host ++ sep :: s) from rfl, this]
    exact hr
  have hpr : asString true (R (b!"file") (.atom host :: names ns)) = b!"file://" ++ (host ++ c! '/' :: wtext ns) := by
    rw [asString_R_file, if_neg hl]
    simp
  refine ⟨key sep s hsep hs, hpr, ?_⟩
  rw [hpr]
  exact key (c! '/') _ rfl (spelled_wtext ns (by cases hs <;> simp))

/-- A text that begins with `local:`. -/
theorem system_local (env : Env) (f : Nat) (t : Bytes) (hc : c! ':' ∉ t) (hh : t.head? ≠ some (c! '/')) :
    system env (f + 1) (b!"local:" ++ t) = rooted env (system env f) (b!"file") t true := by
  have hno : ∀ q, ¬ An.OccursAt (b!"://") (b!"local:" ++ t) q := by
    rintro q ⟨a, b, e, _⟩
    rw [show b!"local:" ++ t = b!"local" ++ (c! ':' :: t) from rfl, List.append_assoc, List.append_eq_append_iff] at e
    rcases e with ⟨a', h1, h2⟩ | ⟨c', h1, h2⟩
    · cases a' with
      | nil =>
        simp only [List.nil_append, List.cons_append, List.cons.injEq] at h2
        rw [h2.2] at hh; exact hh rfl
      | cons x a' =>
        simp only [List.cons_append, List.cons.injEq] at h2
        exact hc (by rw [h2.2]; simp)
    · cases c' with
      | nil =>
        simp only [List.nil_append, List.cons_append, List.cons.injEq] at h2
        rw [← h2.2] at hh; exact hh rfl
      | cons x c' =>
        simp only [List.cons_append, List.cons.injEq] at h2
        have : c! ':' ∈ (b!"local") := by rw [h1, h2.1]; simp
        exact absurd this (by decide)
  obtain ⟨b, eb, hb⟩ := SearchProps.C20_occurs (b!"://") (b!"local:" ++ t)
  have : b = false := by
    cases b with
    | false => rfl
    | true => obtain ⟨p, hp⟩ := hb.1 rfl; exact absurd hp (hno p)
  subst this
  rw [system, eb]
  show withoutProtocol env (system env f) (b!"local:" ++ t) = _
  unfold withoutProtocol
  have hs : An.sub (b!"local:" ++ t) 6 (b!"local:" ++ t).length = t := by
    have := An.sub_nat (b!"local:" ++ t) 6 (b!"local:" ++ t).length
    rw [List.take_length] at this
    exact this
  have hp : (b!"local:").isPrefixOf (b!"local:" ++ t) = true := by
    rw [List.isPrefixOf_iff_prefix]; exact List.prefix_append ..
  simp only [Url.starts_eq, Res.ok_bind, hp, hs]
  rw [if_pos trivial]

/-- C122: `local:` before a path makes it a url of a file. -/
theorem C122_local (env : Env) (f : Nat) (ns : List Bytes) (s : Bytes) (hs : Spelled ns s) (hn : ∀ y ∈ ns, FileName y)
    (hp : ns.head? ≠ some (b!"..")) : system env (f + 1) (b!"local:" ++ s) = .ok (R (b!"file") (names ns)) := by
  obtain ⟨c, t, e, hc⟩ := spelled_head hs hn
  rw [system_local env f s (spelled_no hs hn).1 (by
    rw [e]
    simp only [List.head?_cons, ne_eq, Option.some.injEq]
    rintro rfl; cases hc)]
  have hr := rooted_file env (system env f) [] (by simp) ns s hs (fun y hy => (hn y hy).plain) (by
    intro x hx
    rw [(hn x (List.mem_of_mem_head? hx)).atom]
    intro e'
    rw [e'] at hx
    exact hp hx)
  rw [map_atomOf hn, List.nil_append] at hr
  exact hr

/-- C122 is violated by computers with names of one letter: their files are taken for those of a drive. -/
theorem C122_host_violated (env : Env) (f : Nat) (x : UInt8) (hx : An.isAlpha x = true) (ns : List Bytes) (s : Bytes)
    (hs : Spelled ns s) (hn : ∀ y ∈ ns, FileName y) :
    ∃ u, system env (f + 1) (b!"file://" ++ (x :: c! '/' :: s)) = .ok u ∧
      asString true u = b!"file:///" ++ (x :: c! ':' :: c! '\\' :: wtext ns) := by
  have hne : ∀ y, An.isAlpha y = false → x ≠ y := by rintro y hy rfl; rw [hx] at hy; cases hy
  have hxn : FileName [x] := by
    refine ⟨by simp, ?_, ?_, ?_, ?_⟩
    · simp only [ne_eq, List.cons.injEq, and_true]; exact hne _ (by decide)
    · intro c hc
      rw [List.mem_singleton.1 hc]
      exact ⟨hne _ (by decide), hne _ (by decide), hne _ (by decide), hne _ (by decide), hne _ (by decide)⟩
    · simp only [ne_eq, List.cons.injEq, and_true]; exact hne _ (by decide)
    · simp only [List.head?_cons, ne_eq, Option.some.injEq]; exact hne _ (by decide)
  have hall : ∀ y ∈ [x] :: ns, FileName y := by
    intro y hy
    rcases List.mem_cons.1 hy with rfl | hy
    · exact hxn
    · exact hn y hy
  have hsp : Spelled ([x] :: ns) (x :: c! '/' :: s) := .cons [x] (c! '/') rfl hs
  have hr := rooted_file env (system env f) [] (by simp) _ _ hsp (fun y hy => (hall y hy).plain) (by
    intro y hy
    injection hy with hy
    rw [← hy, hxn.atom]
    intro e; cases e)
  rw [map_atomOf hall, List.nil_append] at hr
  have := system_protocol env f (b!"file") (x :: c! '/' :: s) (by decide) (by decide)
    (noOcc_of_colon (spelled_no hsp hall).1)
  refine ⟨R (b!"file") (.atom [x] :: names ns), ?_, ?_⟩
  · rw [show b!"file://" ++ (x :: c! '/' :: s) = b!"file" ++ b!"://" ++ (x :: c! '/' :: s) from rfl, this]
    exact hr
  · rw [asString_R_file, if_pos (show [x].length = 1 from rfl)]
    simp

/-- `file:///c:/a/b` and `file://host/a/b`. -/
example : Spelled [b!"a", b!"b"] (b!"a/b") ∧ FileName (b!"host") ∧ FileName (b!"a") ∧ FileName (b!"b") ∧
    wtext [b!"a", b!"b"] = b!"a\\b" :=
  ⟨.cons (b!"a") (c! '/') rfl (.one _), ⟨by decide, by decide, by decide, by decide, by decide⟩,
    ⟨by decide, by decide, by decide, by decide, by decide⟩, ⟨by decide, by decide, by decide, by decide, by decide⟩, by decide⟩

end Lolly.WinWebProps
