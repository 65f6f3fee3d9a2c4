import Verif.System.UrlParseLemmas

set_option autoImplicit false

/-!
# C48: reading and printing urls

`general env f type s` is `url_general (s, type)`; `url_unix` is type 1, `url_system` type 0, `url_standard`
type 2.
-/

namespace Lolly.UrlParseProps
open Lolly.Url

theorem general_plain (env : Env) (f type : Nat) (s : Bytes) (h : ∀ q, ¬ An.OccursAt (b!"://") s q) :
    general env (f + 1) type s = withoutProtocol env (general env f) s type := by
  obtain ⟨b, e, hb⟩ := SearchProps.C20_occurs (b!"://") s
  have : b = false := by
    cases b with
    | false => rfl
    | true => obtain ⟨p, hp⟩ := hb.1 rfl; exact absurd hp (h p)
  subst this
  rw [general, e]
  rfl

theorem general_protocol (env : Env) (f type : Nat) (p path : Bytes) (hp : ∀ c ∈ p, An.isAlpha c || An.isDigit c)
    (hl : 2 ≤ p.length) (hpath : ∀ q, ¬ An.OccursAt (b!"://") path q) :
    general env (f + 1) type (p ++ b!"://" ++ path) =
      rooted env (general env f 0) p path (if p = (b!"file") then 0
        else if p = (b!"http") ∨ p = (b!"https") ∨ p = (b!"ftp") then 2 else type) := by
  have hocc : An.OccursAt (b!"://") (p ++ b!"://" ++ path) p.length := ⟨p, path, rfl, rfl⟩
  obtain ⟨b, e, hb⟩ := SearchProps.C20_occurs (b!"://") (p ++ b!"://" ++ path)
  have : b = true := hb.2 ⟨_, hocc⟩
  subst this
  have hcolon : c! ':' ∉ p := fun h => absurd (hp _ h) (by decide)
  have hfirst : ∀ q, q < p.length → ¬ An.OccursAt (b!"://") (p ++ b!"://" ++ path) q := by
    rintro q hq ⟨a, r, e, hlen⟩
    have h1 : (p ++ b!"://" ++ path)[q]? = some (c! ':') := by
      rw [e, ← hlen, List.append_assoc, List.getElem?_append_right (Nat.le_refl _), Nat.sub_self]
      rfl
    rw [List.append_assoc, List.getElem?_append_left hq] at h1
    exact hcolon (List.mem_of_getElem? h1)
  obtain ⟨ps, et, _, hc, _⟩ := SearchProps.C22_tokenize (p ++ b!"://" ++ path) (b!"://") (by decide)
    ((p ++ b!"://" ++ path).length + 1) (by omega)
  have hps : ps = [p, path] := An.cuts_unique hc (.cut p path [path] hfirst (.last _ hpath))
  subst hps
  have hne : p ≠ [] := by intro e; subst e; simp at hl
  have han : An.allBytes (fun c => An.isAlpha c || An.isDigit c) p = .ok true := by
    rw [An.allBytes_eq]
    have : p.all (fun c => An.isAlpha c || An.isDigit c) = true := by
      rw [List.all_eq_true]; exact hp
    cases p with
    | nil => exact absurd rfl hne
    | cons c p => simp only [this]; rfl
  have : withProtocol env (general env f 0) (p ++ b!"://" ++ path) type =
      (rooted env (general env f 0) p path (if p = (b!"file") then 0
        else if p = (b!"http") ∨ p = (b!"https") ∨ p = (b!"ftp") then 2 else type) >>= fun u => .ok (some u)) := by
    unfold withProtocol
    rw [et]
    simp only [Res.ok_bind, han]
    rw [if_pos ⟨trivial, hne, trivial, hl⟩]
  rw [general, e]
  simp only [Res.ok_bind, if_true, this]
  cases rooted env (general env f 0) p path (if p = (b!"file") then 0
        else if p = (b!"http") ∨ p = (b!"https") ∨ p = (b!"ftp") then 2 else type) <;> rfl

theorem not_prefix_of_not_mem {w s : Bytes} (c : UInt8) (hc : c ∈ w) (hs : c ∉ s) : w.isPrefixOf s = false := by
  cases h : w.isPrefixOf s with
  | false => rfl
  | true =>
    obtain ⟨t, e⟩ := List.isPrefixOf_iff_prefix.1 h
    exact absurd (e ▸ List.mem_append_left t hc) hs

theorem not_double_prefix {t : Bytes} (h : t.head? ≠ some (c! '/')) : (b!"//").isPrefixOf t = false := by
  cases t with
  | nil => rfl
  | cons c t =>
    simp only [List.head?_cons, ne_eq, Option.some.injEq] at h
    simp [List.isPrefixOf, Ne.symm h]

theorem general_relative (env : Env) (f type : Nat) (ns : List Bytes) (h : ∀ x ∈ ns, Name x) (hne : ns ≠ [])
    (hc : ∀ x ∈ ns, c! ':' ∉ x) (h1 : ¬ (b!"www.") <+: text ns) (h2 : ¬ (b!"ftp.") <+: text ns) :
    general env (f + 1) type (text ns) = assemble (ns.map elemOf) := by
  have hcol := colon_not_in_text hc
  have hn : ∀ x ∈ ns, x ≠ [] ∧ c! '/' ∉ x := fun x hx => ⟨(h x hx).nonempty, (h x hx).no_slash⟩
  rw [general_plain _ _ _ _ (noProtocol (noDouble_text hn))]
  unfold withoutProtocol
  simp only [starts_eq, Res.ok_bind, isPath_false hcol]
  rw [not_prefix_of_not_mem (c! ':') (by decide) hcol, not_double_prefix (head_text hn),
    if_neg (by simp), if_neg (by simp), if_neg (by simp), if_neg (head_text hn),
    if_neg (by simp; intro _; simpa using h1), if_neg (by simp; intro _; simpa using h2)]
  have := components_at [] ns hn hne
  simp only [List.nil_append, List.length_nil] at this
  rw [getName, this, getAtoms_names env _ type ns h, Res.ok_bind]

/-- A relative path of names without `:`, none but the last with `*`, is read back from its text; the first name
must not start with `www.` or `ftp.`.
Missing: wildcards before the last name and the names of servers, see `C48_wildcard_violated`, `C48_www_violated`. -/
theorem C48_relative_partial (env : Env) (f type : Nat) (ns : List Bytes) (hne : ns ≠ []) (h : ∀ x ∈ ns, Name x)
    (hc : ∀ x ∈ ns, c! ':' ∉ x) (hw : ∀ x ∈ ns.dropLast, c! '*' ∉ x)
    (h1 : ¬ (b!"www.") <+: text ns) (h2 : ¬ (b!"ftp.") <+: text ns) :
    asString (P (ns.map elemOf)) = text ns ∧ general env (f + 1) type (text ns) = .ok (P (ns.map elemOf)) := by
  refine ⟨asString_P ns hw hne, ?_⟩
  rw [general_relative env f type ns h hne hc h1 h2, assemble_names ns h hw hne]

example : Name (b!"a b[1].txt") ∧ ¬ (b!"www.") <+: text [b!"..", b!"src", b!"a b[1].txt"] ∧
    text [b!"..", b!"src", b!"a b[1].txt"] = b!"../src/a b[1].txt" :=
  ⟨⟨by decide, by decide, by decide, by decide, by decide⟩, by decide, by decide⟩

/-- An absolute path of such names that does not start with `..` is read back from its text.
Missing: wildcards before the last name, see `C48_wildcard_violated`. -/
theorem C48_absolute_partial (env : Env) (f type : Nat) (ns : List Bytes) (h : ∀ x ∈ ns, Name x)
    (hc : ∀ x ∈ ns, c! ':' ∉ x) (hw : ∀ x ∈ ns.dropLast, c! '*' ∉ x) (hp : ns.head? ≠ some (b!"..")) :
    asString (R (b!"default") (ns.map elemOf)) = b!"/" ++ text ns ∧
    general env (f + 1) type (b!"/" ++ text ns) = .ok (R (b!"default") (ns.map elemOf)) := by
  have hcol := colon_not_in_text hc
  have hcol' : c! ':' ∉ b!"/" ++ text ns := by simp [hcol]
  have hn : ∀ x ∈ ns, x ≠ [] ∧ c! '/' ∉ x := fun x hx => ⟨(h x hx).nonempty, (h x hx).no_slash⟩
  have hprot : ∀ q, ¬ An.OccursAt (b!"://") (b!"/" ++ text ns) q := by
    rintro q ⟨a, b, e, _⟩
    exact hcol' (by rw [e]; simp)
  have hdbl : (b!"//").isPrefixOf (b!"/" ++ text ns) = false := by
    have := head_text hn
    cases ht : text ns with
    | nil => rfl
    | cons c t =>
      rw [ht] at this
      simp only [List.head?_cons, ne_eq, Option.some.injEq] at this
      simp [List.isPrefixOf, Ne.symm this]
  have hgen : general env (f + 1) type (b!"/" ++ text ns) = urlDefault env (general env f 0) (b!"/" ++ text ns) type := by
    rw [general_plain _ _ _ _ hprot]
    unfold withoutProtocol
    simp only [starts_eq, Res.ok_bind, isPath_false hcol', hdbl]
    rw [not_prefix_of_not_mem (c! ':') (by decide) hcol']
    rw [if_neg (by simp), if_neg (by simp), if_neg (by simp), if_pos (by simp)]
  by_cases hne : ns = []
  · subst hne
    refine ⟨by decide, ?_⟩
    rw [hgen]
    have : components (b!"/" ++ text []) 0 = [[]] := by
      have hsep : nextSep (c! '/') (b!"/" ++ text []) 0 = 0 :=
        nextSlash _ 0 0 (by omega) (by omega) (fun k _ hk => by omega) (.inr rfl)
      rw [components, if_pos (by decide), hsep]
      rfl
    rw [urlDefault, getName, this]
    rfl
  · refine ⟨by rw [asString_R _ ns hw hne]; simp, ?_⟩
    rw [hgen, urlDefault, getName_slash_text env _ type ns h hw hne, Res.ok_bind]
    have he : ∀ y ∈ ns.map elemOf, Elem y := by
      intro y hy
      obtain ⟨x, hx, rfl⟩ := List.mem_map.1 hy
      exact (h x hx).elem
    rw [if_neg (by rw [isAtom_empty]; simpa using P_ne_empty he), mul_root_P _ he, strip_eq_self]
    cases ns with
    | nil => simp
    | cons x ns =>
      simp only [List.map_cons, List.head?_cons, ne_eq, Option.some.injEq] at hp ⊢
      unfold elemOf parent
      split
      · simp
      · intro e; injection e with e; exact hp e

/-- A url `protocol://name/...` is read back from its text; here names may contain `:` (`host:8080`). For the
protocol `file` the text has a third slash. Missing: as for absolute paths. -/
theorem C48_protocol_partial (env : Env) (f type : Nat) (p : Bytes) (ns : List Bytes) (hne : ns ≠ []) (h : ∀ x ∈ ns, Name x)
    (hw : ∀ x ∈ ns.dropLast, c! '*' ∉ x) (hpar : ns.head? ≠ some (b!".."))
    (hp : ∀ c ∈ p, An.isAlpha c || An.isDigit c) (hl : 2 ≤ p.length) (hd : p ≠ b!"default") (hb : p ≠ b!"blank") :
    asString (R p (ns.map elemOf)) = p ++ b!"://" ++ ((if p = b!"file" then b!"/" else []) ++ text ns) ∧
    general env (f + 1) type (asString (R p (ns.map elemOf))) = .ok (R p (ns.map elemOf)) := by
  have hn : ∀ x ∈ ns, x ≠ [] ∧ c! '/' ∉ x := fun x hx => ⟨(h x hx).nonempty, (h x hx).no_slash⟩
  have he : ∀ y ∈ ns.map elemOf, Elem y := by
    intro y hy
    obtain ⟨x, hx, rfl⟩ := List.mem_map.1 hy
    exact (h x hx).elem
  have hstrip : strip (ns.map elemOf) = ns.map elemOf := by
    apply strip_eq_self
    cases ns with
    | nil => simp
    | cons x ns =>
      simp only [List.map_cons, List.head?_cons, ne_eq, Option.some.injEq] at hpar ⊢
      unfold elemOf parent
      split
      · simp
      · intro e; injection e with e; exact hpar e
  have e : asString (R p (ns.map elemOf)) = p ++ b!"://" ++ ((if p = b!"file" then b!"/" else []) ++ text ns) := by
    rw [asString_R _ ns hw hne, if_neg hd, asString, if_neg hd, if_neg hb]
    split <;> simp
  refine ⟨e, ?_⟩
  have hpath : ∀ q, ¬ An.OccursAt (b!"://") ((if p = b!"file" then b!"/" else []) ++ text ns) q := by
    split
    · apply noProtocol
      have h1 := head_text hn
      have h2 := noDouble_text hn
      cases ht : text ns with
      | nil => trivial
      | cons c t =>
        rw [ht] at h1 h2
        exact ⟨fun hh => h1 (by simp [hh.2]), h2⟩
    · exact noProtocol (noDouble_text hn)
  rw [e, general_protocol env f type p _ hp hl hpath, rooted]
  split
  · rw [getName_slash_text env _ _ ns h hw hne, Res.ok_bind, mul_root_P _ he, hstrip]
  · rw [List.nil_append, getName_text env _ _ ns h hw hne, Res.ok_bind, mul_root_P _ he, hstrip]

example : text [b!"gnu.org:80", b!"a.html"] = b!"gnu.org:80/a.html" ∧ Name (b!"gnu.org:80") ∧
    ∀ c ∈ b!"http", An.isAlpha c || An.isDigit c :=
  ⟨by decide, ⟨by decide, by decide, by decide, by decide, by decide⟩, by decide⟩

/-- A url `//name/...` without protocol is read back from its text. Missing: as for absolute paths. -/
theorem C48_blank_partial (env : Env) (f type : Nat) (ns : List Bytes) (hne : ns ≠ []) (h : ∀ x ∈ ns, Name x)
    (hw : ∀ x ∈ ns.dropLast, c! '*' ∉ x) (hpar : ns.head? ≠ some (b!"..")) :
    asString (R (b!"blank") (ns.map elemOf)) = b!"//" ++ text ns ∧
    general env (f + 1) type (b!"//" ++ text ns) = .ok (R (b!"blank") (ns.map elemOf)) := by
  have hn : ∀ x ∈ ns, x ≠ [] ∧ c! '/' ∉ x := fun x hx => ⟨(h x hx).nonempty, (h x hx).no_slash⟩
  have he : ∀ y ∈ ns.map elemOf, Elem y := by
    intro y hy
    obtain ⟨x, hx, rfl⟩ := List.mem_map.1 hy
    exact (h x hx).elem
  have hstrip : strip (ns.map elemOf) = ns.map elemOf := by
    apply strip_eq_self
    cases ns with
    | nil => simp
    | cons x ns =>
      simp only [List.map_cons, List.head?_cons, ne_eq, Option.some.injEq] at hpar ⊢
      unfold elemOf parent
      split
      · simp
      · intro e; injection e with e; exact hpar e
  have hprot : ∀ q, ¬ An.OccursAt (b!"://") (b!"//" ++ text ns) q := by
    rintro q ⟨a, b, e, _⟩
    have e' : b!"//" ++ text ns = a ++ (c! ':') :: (c! '/') :: (c! '/') :: b := by rw [e]; simp
    match a with
    | [] => simp at e'
    | [x] => simp at e'
    | x :: y :: a =>
      have e2 : text ns = a ++ (c! ':') :: (c! '/') :: (c! '/') :: b := by
        simp only [List.cons_append, List.nil_append, List.cons.injEq] at e'
        exact e'.2.2
      exact noProtocol (noDouble_text hn) a.length ⟨a, b, by rw [e2]; simp, rfl⟩
  constructor
  · rw [asString_R _ ns hw hne, if_neg (by decide), asString, if_neg (by decide), if_pos rfl]; simp
  · rw [general_plain _ _ _ _ hprot]
    unfold withoutProtocol
    simp only [starts_eq, Res.ok_bind]
    have h1 : (b!"local:").isPrefixOf (b!"//" ++ text ns) = false := rfl
    have h2 : (b!"//").isPrefixOf (b!"//" ++ text ns) = true := rfl
    rw [h1, h2, if_neg (by simp), if_pos rfl]
    have h3 : An.sub (b!"//" ++ text ns) 2 (b!"//" ++ text ns).length = text ns := by
      have := An.sub_to_end (b!"//" ++ text ns) 2
      rw [show ((2 : Nat) : Int) = 2 from rfl] at this
      rw [this]; rfl
    rw [h3, rooted, getName_text env _ _ ns h hw hne, Res.ok_bind, mul_root_P _ he, hstrip]

/-- Different paths have different texts. Missing: paths with wildcards. -/
theorem C48_injective_partial (ns ms : List Bytes) (h1 : ∀ x ∈ ns, Name x ∧ c! '*' ∉ x) (h2 : ∀ x ∈ ms, Name x ∧ c! '*' ∉ x)
    (hn : ns ≠ []) (hm : ms ≠ []) (e : asString (P (ns.map elemOf)) = asString (P (ms.map elemOf))) : ns = ms := by
  rw [asString_P ns (fun x hx => (h1 x (List.dropLast_subset _ hx)).2) hn,
    asString_P ms (fun x hx => (h2 x (List.dropLast_subset _ hx)).2) hm] at e
  have c1 := components_at [] ns (fun x hx => ⟨(h1 x hx).1.nonempty, (h1 x hx).1.no_slash⟩) hn
  have c2 := components_at [] ms (fun x hx => ⟨(h2 x hx).1.nonempty, (h2 x hx).1.no_slash⟩) hm
  rw [← c1, ← c2, e]

example : ∀ x ∈ [b!"a", b!"b.c"], Name x ∧ c! '*' ∉ x := by
  intro x hx
  simp only [List.mem_cons, List.not_mem_nil, or_false] at hx
  rcases hx with rfl | rfl <;> exact ⟨⟨by decide, by decide, by decide, by decide, by decide⟩, by decide⟩

/-- A wildcard that is not the last component is printed in braces, and the text is read back as another
wildcard. -/
theorem C48_wildcard_violated (env : Env) : ∃ u, general env 1 1 (b!"*/b") = .ok u ∧ asString u = b!"{*}/b" ∧
    ∃ v, general env 1 1 (b!"{*}/b") = .ok v ∧ v ≠ u := by
  have key : ∀ s : Bytes, Name s → c! ':' ∉ s → c! '*' ∈ s → ¬ (b!"www.") <+: text [s, b!"b"] →
      ¬ (b!"ftp.") <+: text [s, b!"b"] → general env 1 1 (text [s, b!"b"]) = .ok (.concat (.wild1 s) (.atom (b!"b"))) := by
    intro s hs hc hw h1 h2
    have hb : Name (b!"b") := ⟨by decide, by decide, by decide, by decide, by decide⟩
    rw [general_relative env 0 1 [s, b!"b"] (by intro x hx; simp at hx; rcases hx with rfl | rfl <;> first | exact hs | exact hb) (by simp)
      (by intro x hx; simp at hx; rcases hx with rfl | rfl <;> first | exact hc | decide) h1 h2]
    have e : elemOf s = .wild1 s := by simp [elemOf, hw]
    simp only [List.map_cons, List.map_nil, e]
    have := mul_elem (x := .wild1 s) (l := [elemOf (b!"b")]) ⟨rfl, by simp [here], by simp⟩ (by simpa using hb.elem)
    rw [assemble, assemble, Res.ok_bind, addFront, if_neg (by simp [isAtom]), if_neg (by simp [isAtomic])]
    · rw [show elemOf (b!"b") = P [elemOf (b!"b")] from rfl, this]
      simp [push, P, elemOf, parent]
    · simp
  refine ⟨_, key (b!"*") ⟨by decide, by decide, by decide, by decide, by decide⟩ (by decide) (by decide) (by decide)
    (by decide), by decide, _, key (b!"{*}") ⟨by decide, by decide, by decide, by decide, by decide⟩ (by decide)
    (by decide) (by decide) (by decide), by simp⟩

/-- A relative path whose first name starts with `www.` is not read back: the text is taken for a web address. -/
theorem C48_www_violated (env : Env) : asString (.atom (b!"www.data")) = b!"www.data" ∧
    general env 1 1 (b!"www.data") = .ok (R (b!"http") [.atom (b!"www.data")]) := by
  refine ⟨by decide, ?_⟩
  have hn : Name (b!"www.data") := ⟨by decide, by decide, by decide, by decide, by decide⟩
  rw [general_plain _ _ _ _ (noProtocol (by simp [NoDouble]))]
  unfold withoutProtocol
  simp only [starts_eq, Res.ok_bind, isPath_false (s := b!"www.data") (by decide)]
  rw [if_neg (by decide), if_neg (by decide), if_neg (by decide), if_neg (by decide), if_pos (by decide)]
  rw [rooted, show b!"www.data" = text [b!"www.data"] from rfl, getName_text env _ 2 _ (by simpa using hn) (by simp) (by simp),
    Res.ok_bind, mul_root_P _ (by simpa using hn.elem)]
  decide

/-- The same text `file://~` makes the constructor read a missing component if the home directory is the top of the
file system (see `C46_total_violated`). -/
theorem C48_home_violated (env : Env) (he : env (b!"HOME") = b!"/") : general env 2 1 (b!"file://~") = .ub := by
  have h := general_protocol env 1 1 (b!"file") (b!"~") (by decide) (by decide) (noProtocol (by simp [NoDouble]))
  have e : b!"file" ++ b!"://" ++ b!"~" = b!"file://~" := by decide
  rw [e] at h
  rw [h, if_pos rfl, rooted]
  have hc := components_at [] [b!"~"] (by decide) (by simp)
  have hg := (C48_absolute_partial env 0 0 [] (by simp) (by simp) (by simp) (by simp)).2
  simp only [List.nil_append, List.length_nil] at hc
  have hn : getName env (general env 1 0) (b!"~") 0 = .ok (.root (b!"default")) := by
    rw [getName, show b!"~" = text [b!"~"] from rfl, hc, getAtoms, if_neg (by simp), getAtom, if_pos ⟨by omega, rfl⟩, he]
    rw [show b!"/" = b!"/" ++ text [] from rfl, hg]
    rfl
  rw [hn, Res.ok_bind, mul.eq_def, if_pos (show topRoot _ = true from rfl), if_pos (by decide)]

/-- Reading `a/~` puts the home directory, with its root, below `a`: concatenation is not used for names. -/
theorem C46_shape_violated (env : Env) (he : env (b!"HOME") = b!"/h") :
    general env 2 1 (b!"a/~") = .ok (.concat (.atom (b!"a")) (R (b!"default") [.atom (b!"h")])) ∧
    mul (.atom (b!"a")) (R (b!"default") [.atom (b!"h")]) = .ok (R (b!"default") [.atom (b!"h")]) := by
  constructor
  · have hna : Name (b!"a") := ⟨by decide, by decide, by decide, by decide, by decide⟩
    have hnh : Name (b!"h") := ⟨by decide, by decide, by decide, by decide, by decide⟩
    have hg := (C48_absolute_partial env 0 0 [b!"h"] (by simpa using hnh) (by decide) (by simp) (by decide)).2
    have hc := components_at [] [b!"a", b!"~"] (by decide) (by simp)
    simp only [List.nil_append, List.length_nil] at hc
    have e1 : text [b!"a", b!"~"] = b!"a/~" := by decide
    have e2 : b!"/" ++ text [b!"h"] = b!"/h" := by decide
    rw [e1] at hc
    rw [e2] at hg
    rw [general_plain _ _ _ _ (noProtocol (by simp [NoDouble]))]
    unfold withoutProtocol
    simp only [starts_eq, Res.ok_bind, isPath_false (s := b!"a/~") (by decide)]
    rw [if_neg (by decide), if_neg (by decide), if_neg (by decide), if_neg (by decide), if_neg (by decide), if_neg (by decide)]
    have h1 : getAtom env (general env 1 0) 1 (b!"~") = .ok (R (b!"default") [.atom (b!"h")]) := by
      rw [getAtom, if_pos ⟨by omega, rfl⟩, he, hg]; rfl
    rw [getName, hc, getAtoms, if_neg (by simp), getAtom_name env _ 1 hna, Res.ok_bind, getAtoms, if_neg (by simp), h1]
    rfl
  · rw [mul.eq_def, if_pos (show topRoot _ = true from rfl), if_neg (by decide)]

end Lolly.UrlParseProps
