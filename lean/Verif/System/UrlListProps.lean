import Verif.System.UrlParseProps
import Verif.System.UrlAltLemmas

/-!
# C105: lists of paths
-/

set_option autoImplicit false

namespace Lolly.UrlListProps

open Lolly.Url Lolly.UrlParseProps

/-! ## Specification -/

/-- The text of a list of paths: `:` between them. -/
def listText (es : List Bytes) : Bytes := An.join (b!":") es

/-- A path of names, from the root or not. -/
structure Path where
  absolute : Bool
  names : List Bytes
  deriving DecidableEq

/-- Its text. -/
def Path.text (p : Path) : Bytes := (if p.absolute then (b!"/") else []) ++ Url.text p.names

/-- Its url. -/
def Path.url (p : Path) : Url := if p.absolute then R (b!"default") (p.names.map .atom) else P (p.names.map .atom)

/-- A path of ordinary names: no name has one of `/ : * [`, is `.` or `~` or begins with `$`; the path does not begin with
`..` below the root, and not with `www.` or `ftp.`. -/
structure Plain (p : Path) : Prop where
  nonempty : p.names ≠ []
  names : ∀ x ∈ p.names, Name x ∧ c! ':' ∉ x ∧ c! '*' ∉ x ∧ c! '[' ∉ x
  top : p.absolute = true → p.names.head? ≠ some (b!"..")
  www : p.absolute = false → ¬ (b!"www.") <+: Url.text p.names ∧ ¬ (b!"ftp.") <+: Url.text p.names

/-! ## Lemmas -/

theorem listText_cons (e : Bytes) {es : List Bytes} (h : es ≠ []) : listText (e :: es) = e ++ (b!":") ++ listText es :=
  An.join_cons h

theorem nextColon (pre x r : Bytes) (hx : c! ':' ∉ x ∧ c! '[' ∉ x) (hr : r = [] ∨ r.head? = some (c! ':')) :
    nextSep (c! ':') (pre ++ x ++ r) pre.length = pre.length + x.length := by
  induction x generalizing pre with
  | nil =>
    rw [nextSep]
    rcases hr with rfl | hr
    · rw [dif_neg (by simp)]; rfl
    · cases r with
      | nil => cases hr
      | cons c r =>
        simp only [List.head?_cons, Option.some.injEq] at hr
        rw [dif_pos (by simp), if_pos (by simp [hr])]; rfl
  | cons c x ih =>
    have h1 : c ≠ c! ':' := fun e => hx.1 (e ▸ List.mem_cons_self)
    have h2 : c ≠ c! '[' := fun e => hx.2 (e ▸ List.mem_cons_self)
    have := ih (pre ++ [c]) ⟨fun e => hx.1 (List.mem_cons_of_mem _ e), fun e => hx.2 (List.mem_cons_of_mem _ e)⟩
    rw [nextSep, dif_pos (by simp)]
    have hc : (pre ++ c :: x ++ r)[pre.length]'(by simp) = c := by
      simp
    rw [hc, if_neg h1, if_neg h2]
    simp only [List.append_assoc, List.length_append, List.length_cons, List.length_nil, List.cons_append,
      List.nil_append, Nat.zero_add] at this ⊢
    rw [this]; omega

theorem sub_mid (pre e r : Bytes) : An.sub (pre ++ e ++ r) (pre.length : Int) ((pre.length + e.length : Nat) : Int) = e := by
  rw [An.sub_nat, List.take_left' (by simp), List.drop_left' rfl]

/-- Alternatives, in order. -/
def altAll (us : List Url) : Url := us.foldr alt .none

theorem alt_none (u : Url) : alt u .none = u := by
  unfold alt
  by_cases h : u = .none
  · rw [if_pos h, h]
  · rw [if_neg h, if_pos rfl]

theorem getPath_list (gen : Bytes → Res Url) (u : Bytes → Url) (hg : gen [] = .ok (u [])) (es : List Bytes) :
    ∀ pre : Bytes, es ≠ [] → (∀ e ∈ es, c! ':' ∉ e ∧ c! '[' ∉ e) → (∀ e ∈ es, e ≠ [] → gen e = .ok (u e)) →
    getPath gen (pre ++ listText es) pre.length = .ok (altAll ((es.filter (· ≠ [])).map u)) := by
  induction es with
  | nil => intro _ h; exact absurd rfl h
  | cons e es ih =>
    intro pre _ hc hok
    have hce := hc e (by simp)
    have hge : gen e = .ok (u e) := by
      by_cases he : e = []
      · rw [he, hg]
      · exact hok e (by simp) he
    by_cases hes : es = []
    · subst hes
      rw [listText, An.join, getPath]
      by_cases he : e = []
      · subst he
        rw [if_neg (by simp)]; rfl
      · rw [if_pos (by have := List.length_pos_iff.2 he; simp; omega)]
        have hj := nextColon pre e [] hce (.inl rfl)
        rw [List.append_nil] at hj
        have hs := sub_mid pre e []
        rw [List.append_nil] at hs
        dsimp only
        rw [hj, hs, hge, Res.ok_bind, if_pos (by simp)]
        simp [altAll, he, alt_none]
    · rw [listText_cons e hes, getPath]
      have hj := nextColon pre e ((b!":") ++ listText es) hce (.inr rfl)
      have ht : pre ++ e ++ ((b!":") ++ listText es) = pre ++ (e ++ (b!":") ++ listText es) := by simp
      rw [ht] at hj
      have hs := sub_mid pre e ((b!":") ++ listText es)
      rw [ht] at hs
      have hn := ih (pre ++ e ++ (b!":")) hes (fun x hx => hc x (by simp [hx])) (fun x hx => hok x (by simp [hx]))
      have hl : (pre ++ e ++ (b!":")).length = pre.length + e.length + 1 := by
        simp only [List.length_append, List.length_cons, List.length_nil]
      rw [hl, show pre ++ e ++ (b!":") ++ listText es = pre ++ (e ++ (b!":") ++ listText es) by simp] at hn
      rw [if_pos (by simp; omega)]
      dsimp only
      rw [hj, hs, hge, Res.ok_bind, if_neg (by simp), hn]
      by_cases he : e = []
      · rw [if_pos (by simp [he])]
        simp [he]
      · rw [if_neg (by have := List.length_pos_iff.2 he; omega), Res.ok_bind]
        simp [altAll, he]

theorem general_nil (env : Env) (f type : Nat) : general env (f + 1) type [] = .ok (.atom []) := by
  rw [general_plain _ _ _ _ (noProtocol (by trivial))]
  unfold withoutProtocol
  simp only [starts_eq, Res.ok_bind, isPath_false (s := []) (by simp)]
  simp [List.isPrefixOf, getName, components, getAtoms, assemble]

theorem head_double (e : Bytes) {r : Bytes} (he : ¬ (b!"//") <+: e) (hr : r.head? ≠ some (c! '/')) :
    ¬ (b!"//") <+: e ++ r := by
  rintro ⟨t, ht⟩
  match e with
  | [] =>
    rw [List.nil_append] at ht
    rw [← ht] at hr
    exact hr rfl
  | [c] =>
    simp only [List.cons_append, List.nil_append, List.cons.injEq] at ht
    rw [← ht.2] at hr
    exact hr rfl
  | c :: d :: e =>
    simp only [List.cons_append, List.nil_append, List.cons.injEq] at ht
    exact he ⟨e, by rw [← ht.1, ← ht.2.1]; rfl⟩

theorem listText_head (es : List Bytes) (h : ∀ e ∈ es, ¬ (b!"//") <+: e) : ¬ (b!"//") <+: listText es := by
  cases es with
  | nil => simp [listText, An.join]
  | cons e es =>
    by_cases hes : es = []
    · subst hes; exact h e (by simp)
    · rw [listText_cons e hes, List.append_assoc]
      exact head_double e (h e (by simp)) (by simp)

theorem listText_noProtocol (es : List Bytes) (hc : ∀ e ∈ es, c! ':' ∉ e) (h : ∀ e ∈ es, ¬ (b!"//") <+: e) :
    ∀ a b : Bytes, listText es ≠ a ++ (b!"://") ++ b := by
  induction es with
  | nil => intro a b e; simp [listText, An.join] at e
  | cons e es ih =>
    intro a b he
    have hce := hc e (by simp)
    by_cases hes : es = []
    · subst hes
      rw [listText, An.join] at he
      exact hce (by rw [he]; simp)
    · rw [listText_cons e hes, List.append_assoc, List.append_assoc, List.append_eq_append_iff] at he
      rcases he with ⟨a', h1, h2⟩ | ⟨c', h1, h2⟩
      · cases a' with
        | nil =>
          simp only [List.nil_append, List.cons_append, List.cons.injEq, true_and] at h2
          exact listText_head es (fun x hx => h x (by simp [hx])) ⟨b, by simpa using h2.symm⟩
        | cons d a' =>
          simp only [List.cons_append, List.nil_append, List.cons.injEq] at h2
          exact ih (fun x hx => hc x (by simp [hx])) (fun x hx => h x (by simp [hx])) a' b (by simpa using h2.2)
      · cases c' with
        | nil =>
          simp only [List.nil_append, List.cons_append, List.cons.injEq, true_and] at h2
          exact listText_head es (fun x hx => h x (by simp [hx])) ⟨b, by simpa using h2⟩
        | cons d c' =>
          simp only [List.cons_append, List.nil_append, List.cons.injEq] at h2
          exact hce (by rw [h1, ← h2.1]; simp)

theorem takeWhile_colon (e r : Bytes) (h : c! ':' ∉ e) : (e ++ (b!":") ++ r).takeWhile (· ≠ c! ':') = e := by
  induction e with
  | nil => rfl
  | cons c e ih =>
    have : c ≠ c! ':' := fun x => h (x ▸ List.mem_cons_self)
    simp only [List.cons_append, List.takeWhile_cons]
    rw [if_pos (by simpa using this), ih fun x => h (List.mem_cons_of_mem _ x)]

/-! ## C105 -/

/-- C105: a list of paths is read as the alternatives that its entries are read as, in order, whatever the entries stand for.
Empty entries are left out. The entries have no `:` and no `[`, none begins with `//`, and the first is not `local`.
Missing: such entries, see `C105_local_violated`. -/
theorem C105_read_partial {env : Env} {f type : Nat} {es : List Bytes} {u : Bytes → Url} (h2 : 2 ≤ es.length)
    (hc : ∀ e ∈ es, c! ':' ∉ e ∧ c! '[' ∉ e ∧ ¬ (b!"//") <+: e) (hl : es.head? ≠ some (b!"local"))
    (hok : ∀ e ∈ es, e ≠ [] → general env (f + 1) type e = .ok (u e)) :
    general env (f + 2) type (listText es) = .ok (altAll ((es.filter (· ≠ [])).map u)) := by
  match es, h2 with
  | e :: e' :: es, _ =>
  have hce := hc e (by simp)
  have ht : listText (e :: e' :: es) = e ++ (b!":") ++ listText (e' :: es) := listText_cons e (by simp)
  have hnp : ∀ q, ¬ An.OccursAt (b!"://") (listText (e :: e' :: es)) q := by
    rintro q ⟨a, b, h, _⟩
    exact listText_noProtocol _ (fun x hx => (hc x hx).1) (fun x hx => (hc x hx).2.2) a b h
  rw [general_plain _ _ _ _ hnp]
  unfold withoutProtocol
  have hloc : (b!"local:").isPrefixOf (listText (e :: e' :: es)) = false := by
    cases hh : (b!"local:").isPrefixOf (listText (e :: e' :: es)) with
    | false => rfl
    | true =>
      obtain ⟨t, hp⟩ := List.isPrefixOf_iff_prefix.1 hh
      have h1 := takeWhile_colon e (listText (e' :: es)) hce.1
      rw [← ht, ← hp] at h1
      have h2 := takeWhile_colon (b!"local") t (by decide)
      rw [show (b!"local") ++ (b!":") ++ t = (b!"local:") ++ t from rfl, h1] at h2
      simp [h2] at hl
  have hbl : (b!"//").isPrefixOf (listText (e :: e' :: es)) = false := by
    cases hh : (b!"//").isPrefixOf (listText (e :: e' :: es)) with
    | false => rfl
    | true => exact absurd (List.isPrefixOf_iff_prefix.1 hh) (listText_head _ fun x hx => (hc x hx).2.2)
  have hpath : isPath (listText (e :: e' :: es)) = true := by
    have := nextColon [] e ((b!":") ++ listText (e' :: es)) ⟨hce.1, hce.2.1⟩ (.inr rfl)
    rw [List.nil_append, ← List.append_assoc, ← ht] at this
    rw [isPath, show (0 : Nat) = ([] : Bytes).length from rfl, this, ht]
    simp
  simp only [starts_eq, Res.ok_bind, hloc, hbl, hpath]
  rw [if_neg (by simp), if_neg (by simp), if_pos trivial]
  -- `u` at the empty entry plays no role
  have hg : general env (f + 1) type [] = .ok ((fun x => if x = [] then .atom [] else u x) []) := general_nil env f type
  have := getPath_list (general env (f + 1) type) (fun x => if x = [] then .atom [] else u x) hg (e :: e' :: es) []
    (by simp) (fun x hx => ⟨(hc x hx).1, (hc x hx).2.1⟩) (fun x hx hne => by rw [hok x hx hne, if_neg hne])
  rw [List.nil_append, List.length_nil] at this
  rw [this]
  congr 2
  apply List.map_congr_left
  intro x hx
  have := (List.mem_filter.1 hx).2
  rw [if_neg (by simpa using this)]

theorem altAll_merge (us : List Url) (h : ∀ u ∈ us, Single u) : altAll us = orOf (merge us) := by
  induction us with
  | nil => rfl
  | cons u us ih =>
    have ih := ih fun v hv => h v (by simp [hv])
    rw [altAll, List.foldr_cons]
    show alt u (altAll us) = _
    rw [ih]
    by_cases hus : us = []
    · subst hus
      show alt u .none = _
      rw [alt_none, merge_singleton]; rfl
    · rw [alt_ins (h u (by simp)) (singles_merge fun v hv => h v (by simp [hv])) (merge_ne_nil hus)]
      rfl

theorem Plain.elems {p : Path} (h : Plain p) : p.names.map elemOf = p.names.map .atom := by
  apply List.map_congr_left
  intro x hx
  rw [elemOf, if_neg (h.names x hx).2.2.1]

theorem Plain.read {p : Path} (h : Plain p) (env : Env) (f type : Nat) :
    asString p.url = p.text ∧ general env (f + 1) type p.text = .ok p.url := by
  have hw : ∀ x ∈ p.names.dropLast, c! '*' ∉ x := fun x hx => (h.names x (List.dropLast_subset _ hx)).2.2.1
  rw [Path.url, Path.text, ← h.elems]
  cases ha : p.absolute with
  | true =>
    have := C48_absolute_partial env f type p.names (fun x hx => (h.names x hx).1) (fun x hx => (h.names x hx).2.1) hw (h.top ha)
    simpa using this
  | false =>
    have := C48_relative_partial env f type p.names h.nonempty (fun x hx => (h.names x hx).1) (fun x hx => (h.names x hx).2.1) hw
      (h.www ha).1 (h.www ha).2
    simpa using this

theorem isName_atoms (ns : List Bytes) : isName (P (ns.map .atom)) = true := by
  induction ns with
  | nil => rfl
  | cons x ns ih =>
    cases ns with
    | nil => rfl
    | cons y ns =>
      rw [List.map_cons, List.map_cons, P, isName]
      simp only [List.map_cons] at ih
      rw [ih]; rfl

theorem Plain.nameInPath {p : Path} (h : Plain p) : isNameInPath p.url = true ∧ isOr p.url = false := by
  rw [Path.url]
  cases p.absolute with
  | true =>
    rw [if_pos rfl, R_cons _ _ (by simpa using h.nonempty), isNameInPath]
    exact ⟨by simp [isName_atoms, isRootS], rfl⟩
  | false =>
    refine ⟨by simp [isNameInPath, isName_atoms], ?_⟩
    match hn : p.names, h.nonempty with
    | [x], _ => rfl
    | x :: y :: l, _ => rfl

theorem Plain.single {p : Path} (h : Plain p) : Single p.url := by
  refine ⟨h.nameInPath.2, fun e => ?_⟩
  have := h.nameInPath.1
  rw [e] at this
  cases this

theorem mem_text {c : UInt8} {ns : List Bytes} (h : c ∈ Url.text ns) : c = c! '/' ∨ ∃ x ∈ ns, c ∈ x := by
  induction ns with
  | nil => simp [Url.text, An.join] at h
  | cons x ns ih =>
    by_cases hn : ns = []
    · subst hn; exact .inr ⟨x, by simp, by simpa [Url.text, An.join] using h⟩
    · rw [text_cons x ns hn] at h
      simp only [List.mem_append, List.mem_cons, List.not_mem_nil, or_false] at h
      rcases h with (h | h) | h
      · exact .inr ⟨x, by simp, h⟩
      · exact .inl h
      · rcases ih h with h | ⟨y, hy, h⟩
        · exact .inl h
        · exact .inr ⟨y, by simp [hy], h⟩

theorem Plain.chars {p : Path} (h : Plain p) : c! ':' ∉ p.text ∧ c! '[' ∉ p.text ∧ ¬ (b!"//") <+: p.text ∧ p.text ≠ [] := by
  have hm : ∀ c ∈ p.text, c = c! '/' ∨ ∃ x ∈ p.names, c ∈ x := by
    intro c hc
    rw [Path.text, List.mem_append] at hc
    rcases hc with hc | hc
    · split at hc
      · simp only [List.mem_cons, List.not_mem_nil, or_false] at hc; exact .inl hc
      · cases hc
    · exact mem_text hc
  have hh := head_text (ns := p.names) fun x hx => ⟨(h.names x hx).1.nonempty, (h.names x hx).1.no_slash⟩
  refine ⟨fun hc => ?_, fun hc => ?_, ?_, ?_⟩
  · rcases hm _ hc with e | ⟨x, hx, e⟩
    · exact absurd e (by decide)
    · exact (h.names x hx).2.1 e
  · rcases hm _ hc with e | ⟨x, hx, e⟩
    · exact absurd e (by decide)
    · exact (h.names x hx).2.2.2 e
  · rintro ⟨t, e⟩
    rw [Path.text] at e
    split at e
    · simp only [List.cons_append, List.nil_append, List.cons.injEq, true_and] at e
      rw [← e] at hh; exact hh rfl
    · rw [List.nil_append] at e
      rw [← e] at hh; exact hh rfl
  · intro e
    rw [Path.text, List.append_eq_nil_iff] at e
    exact text_ne_nil (fun x hx => (h.names x hx).1.nonempty) h.nonempty e.2

/-- C105 for ordinary paths: a list of paths, absolute or not, is read as its paths, in order, equal neighbours counting
once. Missing: a first entry `local`, see `C105_local_violated`. -/
theorem C105_paths_partial (env : Env) (f type : Nat) (ps : List Path) (h2 : 2 ≤ ps.length) (h : ∀ p ∈ ps, Plain p)
    (hl : ps.head? ≠ some ⟨false, [b!"local"]⟩) :
    general env (f + 2) type (listText (ps.map Path.text)) = .ok (orOf (merge (ps.map Path.url))) := by
  have hu : ∀ p ∈ ps, ∀ q ∈ ps, p.text = q.text → p.url = q.url := by
    intro p hp q hq e
    have h1 := ((h p hp).read env f type).2
    rw [e, ((h q hq).read env f type).2] at h1
    exact (Res.ok.inj h1).symm
  -- the url of an entry, found again from its text
  let u : Bytes → Url := fun s => ((ps.find? fun p => p.text = s).map Path.url).getD .none
  have hup : ∀ p ∈ ps, u p.text = p.url := by
    intro p hp
    cases hf : ps.find? (fun q => q.text = p.text) with
    | none => have := List.find?_eq_none.1 hf p hp; simp at this
    | some q =>
      have h1 := List.find?_some hf
      have h2 := List.mem_of_find?_eq_some hf
      show ((ps.find? fun q => q.text = p.text).map Path.url).getD .none = _
      rw [hf]
      exact hu q h2 p hp (by simpa using h1)
  have := C105_read_partial (env := env) (f := f) (type := type) (es := ps.map Path.text) (u := u) (by simpa using h2)
    (by
      intro e he
      obtain ⟨p, hp, rfl⟩ := List.mem_map.1 he
      exact ⟨(h p hp).chars.1, (h p hp).chars.2.1, (h p hp).chars.2.2.1⟩)
    (by
      cases ps with
      | nil => simp
      | cons p ps =>
        simp only [List.map_cons, List.head?_cons, ne_eq, Option.some.injEq] at hl ⊢
        intro e
        have hp := h p (by simp)
        obtain ⟨a, ns⟩ := p
        cases a with
        | true => simp [Path.text] at e
        | false =>
          simp only [Path.text, Bool.false_eq_true, if_false, List.nil_append] at e
          have h1 := components_at [] ns (fun x hx => ⟨(hp.names x hx).1.nonempty, (hp.names x hx).1.no_slash⟩) hp.nonempty
          rw [List.nil_append, e] at h1
          have h2 := components_at [] [b!"local"] (by decide) (by decide)
          rw [List.nil_append, show Url.text [b!"local"] = (b!"local") from rfl, h1] at h2
          exact hl (by rw [h2]))
    (by
      intro e he _
      obtain ⟨p, hp, rfl⟩ := List.mem_map.1 he
      rw [hup p hp]; exact ((h p hp).read env f type).2)
  rw [this]
  have hf : (ps.map Path.text).filter (· ≠ []) = ps.map Path.text := by
    rw [List.filter_eq_self]
    intro e he
    obtain ⟨p, hp, rfl⟩ := List.mem_map.1 he
    simpa using (h p hp).chars.2.2.2
  have hmap : (ps.map Path.text).map u = ps.map Path.url := by
    rw [List.map_map]
    exact List.map_congr_left hup
  rw [hf, hmap, altAll_merge]
  intro v hv
  obtain ⟨p, hp, rfl⟩ := List.mem_map.1 hv
  exact (h p hp).single

/-- C105, printing: the text of alternatives is the list of their texts.
Missing: other alternatives, see `C105_root_violated`. -/
theorem C105_print_partial (ps : List Path) (hne : ps ≠ []) (h : ∀ p ∈ ps, Plain p) :
    asString (orOf (ps.map Path.url)) = listText (ps.map Path.text) := by
  induction ps with
  | nil => exact absurd rfl hne
  | cons p ps ih =>
    have hp := h p (by simp)
    cases ps with
    | nil => exact (hp.read (fun _ => []) 0 0).1
    | cons q ps =>
      have ih := ih (by simp) fun x hx => h x (by simp [hx])
      have hq := h q (by simp)
      rw [List.map_cons (l := q :: ps), orOf_cons _ _ (by simp), List.map_cons (f := Path.text) (l := q :: ps),
        listText_cons _ (by simp), asString]
      rw [(hp.read (fun _ => []) 0 0).1, ih, hp.nameInPath.1]
      have : (!isOr (orOf ((q :: ps).map Path.url)) && !isNameInPath (orOf ((q :: ps).map Path.url))) = false := by
        cases ps with
        | nil =>
          show (!isOr q.url && !isNameInPath q.url) = false
          rw [hq.nameInPath.1]; simp
        | cons r ps => rw [List.map_cons, orOf_cons _ _ (by simp)]; rfl
      rw [this]
      simp

/-- So alternatives that are printed and read back are the same, if no two neighbours are equal.
Missing: other alternatives, see `C105_root_violated`, `C105_inside_violated`. -/
theorem C105_round_trip_partial (env : Env) (f type : Nat) (ps : List Path) (h2 : 2 ≤ ps.length) (h : ∀ p ∈ ps, Plain p)
    (hl : ps.head? ≠ some ⟨false, [b!"local"]⟩) (hm : merge (ps.map Path.url) = ps.map Path.url) :
    general env (f + 2) type (asString (orOf (ps.map Path.url))) = .ok (orOf (ps.map Path.url)) := by
  rw [C105_print_partial ps (by intro e; simp [e] at h2) h, C105_paths_partial env f type ps h2 h hl, hm]

/-- The list `src/a:/usr/b`. -/
def exampleList : List Path := [⟨false, [b!"src", b!"a"]⟩, ⟨true, [b!"usr", b!"b"]⟩]

/-- It meets the hypotheses. -/
example : listText (exampleList.map Path.text) = (b!"src/a:/usr/b") ∧ (∀ p ∈ exampleList, Plain p) ∧
    merge (exampleList.map Path.url) = exampleList.map Path.url := by
  refine ⟨by decide, ?_, by decide⟩
  intro p hp
  simp only [exampleList, List.mem_cons, List.not_mem_nil, or_false] at hp
  rcases hp with rfl | rfl
  · refine ⟨by decide, ?_, (fun e => by cases e), fun _ => ⟨by decide, by decide⟩⟩
    intro x hx
    simp only [List.mem_cons, List.not_mem_nil, or_false] at hx
    rcases hx with rfl | rfl <;> exact ⟨⟨by decide, by decide, by decide, by decide, by decide⟩, by decide, by decide, by decide⟩
  · refine ⟨by decide, ?_, fun _ => by decide, (fun e => by cases e)⟩
    intro x hx
    simp only [List.mem_cons, List.not_mem_nil, or_false] at hx
    rcases hx with rfl | rfl <;> exact ⟨⟨by decide, by decide, by decide, by decide, by decide⟩, by decide, by decide, by decide⟩

/-- C105 fails if the first entry is `local`: the list `local:b` is read as the file `/b`. -/
theorem C105_local_violated (env : Env) (f type : Nat) :
    general env (f + 1) type (listText [b!"local", b!"b"]) = .ok (R (b!"file") [.atom (b!"b")]) := by
  rw [general_plain _ _ _ _ (noProtocol (by simp [listText, An.join, NoDouble]))]
  unfold withoutProtocol
  simp only [starts_eq, Res.ok_bind]
  rw [if_pos (by decide), rooted]
  have hn : Name (b!"b") := ⟨by decide, by decide, by decide, by decide, by decide⟩
  have := getName_text env (general env f 0) 0 [b!"b"] (by simpa using hn) (by simp) (by simp)
  rw [show An.sub (listText [b!"local", b!"b"]) 6 (listText [b!"local", b!"b"]).length = Url.text [b!"b"] by decide, this,
    Res.ok_bind]
  exact mul_root_P (b!"file") (l := [.atom (b!"b")]) (by decide)

/-- `{/}` as a path: the name `{` and below it the name `}`. -/
def braces : Path := ⟨false, [b!"{", b!"}"]⟩

theorem braces_plain : Plain braces := by
  refine ⟨by decide, ?_, (fun e => by cases e), fun _ => ⟨by decide, by decide⟩⟩
  intro x hx
  simp only [braces, List.mem_cons, List.not_mem_nil, or_false] at hx
  rcases hx with rfl | rfl <;> exact ⟨⟨by decide, by decide, by decide, by decide, by decide⟩, by decide, by decide, by decide⟩

/-- C105 fails for the root: `/` in front of any other alternatives is printed in braces, and these are read back as names. -/
theorem C105_root_violated (env : Env) (f type : Nat) (ps : List Path) (hne : ps ≠ []) (h : ∀ p ∈ ps, Plain p) :
    asString (.or (.root (b!"default")) (orOf (ps.map Path.url))) = (b!"{/}:") ++ listText (ps.map Path.text) ∧
    general env (f + 2) type ((b!"{/}:") ++ listText (ps.map Path.text)) =
      .ok (orOf (merge (.concat (.atom (b!"{")) (.atom (b!"}")) :: ps.map Path.url))) := by
  constructor
  · rw [asString, C105_print_partial ps hne h]
    have : (!isOr (orOf (ps.map Path.url)) && !isNameInPath (orOf (ps.map Path.url))) = false := by
      cases ps with
      | nil => exact absurd rfl hne
      | cons q ps =>
        cases ps with
        | nil =>
          show (!isOr q.url && !isNameInPath q.url) = false
          rw [(h q (by simp)).nameInPath.1]; simp
        | cons r ps => rw [List.map_cons, orOf_cons _ _ (by simp)]; rfl
    simp only [this]
    rfl
  · have hm : ∀ p ∈ braces :: ps, Plain p := by
      intro p hp
      rcases List.mem_cons.1 hp with rfl | hp
      · exact braces_plain
      · exact h p hp
    have := C105_paths_partial env f type (braces :: ps) (by
      cases ps with
      | nil => exact absurd rfl hne
      | cons q ps => simp) hm (by simp [braces])
    rw [List.map_cons, listText_cons _ (by simpa using hne)] at this
    exact this

/-- The alternatives `/` and `src/a:/usr/b`. -/
example : (b!"{/}:") ++ listText (exampleList.map Path.text) = (b!"{/}:src/a:/usr/b") ∧ exampleList ≠ [] := by decide

/-- An ordinary name: none of `/ : * [` is in it, it is not `.` or `~` and does not begin with `$`. -/
def Ordinary (x : Bytes) : Prop := Name x ∧ c! ':' ∉ x ∧ c! '*' ∉ x ∧ c! '[' ∉ x

/-- C105 fails for alternatives inside of a path, whatever their names: `{a:b}/c` is read as the list of `{a` and `b}/c`. -/
theorem C105_inside_violated (env : Env) (f type : Nat) (a b c : Bytes) (ha : Ordinary a) (hb : Ordinary b)
    (hc : Ordinary c) (hw : ¬ (b!"www.") <+: b ++ (b!"}/") ++ c ∧ ¬ (b!"ftp.") <+: b ++ (b!"}/") ++ c) :
    ∃ s, asString (.concat (.or (.atom a) (.atom b)) (.atom c)) = s ∧
      s = (b!"{") ++ a ++ (b!":") ++ b ++ (b!"}/") ++ c ∧
      general env (f + 2) type s = .ok (.or (.atom ((b!"{") ++ a)) (.concat (.atom (b ++ (b!"}"))) (.atom c))) := by
  have e : asString (.concat (.or (.atom a) (.atom b)) (.atom c)) = (b!"{") ++ a ++ (b!":") ++ b ++ (b!"}/") ++ c := by
    simp [asString, isRootS, braceLeft, braceRight, isNameInPath, isOr, isConcat, isAtomic, isName, isRoot]
  refine ⟨_, rfl, e, ?_⟩
  rw [e]
  obtain ⟨⟨a1, a2, a3, a4, a5⟩, a6, a7, a8⟩ := ha
  obtain ⟨⟨b1, b2, b3, b4, b5⟩, b6, b7, b8⟩ := hb
  have ha' : Ordinary ((b!"{") ++ a) := by
    refine ⟨⟨by simp, ?_, ?_, ?_, ?_⟩, ?_, ?_, ?_⟩ <;> simp_all
  have hb' : Ordinary (b ++ (b!"}")) := by
    cases b with
    | nil => exact absurd rfl b1
    | cons x b =>
      refine ⟨⟨by simp, ?_, ?_, ?_, ?_⟩, ?_, ?_, ?_⟩ <;> simp_all
  have := C105_paths_partial env f type [⟨false, [(b!"{") ++ a]⟩, ⟨false, [b ++ (b!"}"), c]⟩] (by simp) (by
    intro p hp
    simp only [List.mem_cons, List.not_mem_nil, or_false] at hp
    rcases hp with rfl | rfl
    · refine ⟨by simp, ?_, (fun e => by cases e), fun _ => ⟨?_, ?_⟩⟩
      · intro x hx
        simp only [List.mem_cons, List.not_mem_nil, or_false] at hx
        subst hx
        exact ha'
      · simp [Url.text, An.join]
      · simp [Url.text, An.join]
    · refine ⟨by simp, ?_, (fun e => by cases e), fun _ => ?_⟩
      · intro x hx
        simp only [List.mem_cons, List.not_mem_nil, or_false] at hx
        rcases hx with rfl | rfl
        · exact hb'
        · exact hc
      · simpa [Url.text, An.join] using hw) (by simp)
  simpa [listText, Path.text, Url.text, An.join, Path.url, P, merge, ins, orOf] using this

/-- The url `{a:b}/c`. -/
example : Ordinary (b!"a") ∧ ¬ (b!"www.") <+: (b!"b}/c") :=
  ⟨⟨⟨by decide, by decide, by decide, by decide, by decide⟩, by decide, by decide, by decide⟩, by decide⟩

end Lolly.UrlListProps
