import Verif.System.FileUrl
import Verif.System.UrlHomeProps

/-!
# C128: the file a `file_url` stands for, and urls made from a directory and a name
-/

set_option autoImplicit false

namespace Lolly.FileUrlProps

open Lolly.Url hiding relative
open Lolly.UrlParseProps Lolly.UrlHomeProps Lolly.FileUrl

/-! ## Specification

`/` followed by `text ns` is the absolute path through the names `ns`. The name of the file a `file_url` stands for is
what `concretize` gives for it. -/

/-- The name of the file `file_url (name)` stands for. -/
def file (env : Env) (f : Nat) (name : Bytes) : Res Bytes := fileUrl env f name >>= concretize

/-! ## Lemmas -/

theorem elems_of {ns : List Bytes} (h : ∀ x ∈ ns, Name x) : ∀ y ∈ ns.map elemOf, Elem y := by
  intro y hy
  obtain ⟨x, hx, rfl⟩ := List.mem_map.1 hy
  exact (h x hx).elem

theorem strip_names {ns : List Bytes} (hp : ns.head? ≠ some (b!"..")) : strip (ns.map elemOf) = ns.map elemOf := by
  apply strip_eq_self
  cases ns with
  | nil => simp
  | cons x ns =>
    simp only [List.map_cons, List.head?_cons, ne_eq, Option.some.injEq] at hp ⊢
    unfold elemOf parent
    split
    · simp
    · intro e; injection e with e; exact hp e

theorem text_append {ds ns : List Bytes} (hd : ds ≠ []) (hn : ns ≠ []) :
    text (ds ++ ns) = text ds ++ (c! '/') :: text ns := by
  induction ds with
  | nil => exact absurd rfl hd
  | cons x ds ih =>
    cases ds with
    | nil =>
      cases ns with
      | nil => exact absurd rfl hn
      | cons y ns => simp [text, An.join]
    | cons y ds =>
      have := ih (by simp)
      simp only [text, List.cons_append, An.join] at this ⊢
      rw [this]
      simp

theorem prefix_before {p a b : Bytes} {c : UInt8} (hc : c ∉ p) (h : p <+: a ++ c :: b) : p <+: a := by
  induction p generalizing a with
  | nil => exact List.nil_prefix
  | cons x p ih =>
    cases a with
    | nil =>
      rw [List.nil_append, List.cons_prefix_cons] at h
      exact absurd (by simp [h.1]) hc
    | cons y a =>
      rw [List.cons_append, List.cons_prefix_cons] at h
      rw [List.cons_prefix_cons]
      exact ⟨h.1, ih (fun e => hc (by simp [e])) h.2⟩

theorem mul_topRoot (l : List Url) (v : Url) (ht : topRoot v = true) : mul (R (b!"default") l) v = .ok v := by
  by_cases hl : l = []
  · subst hl
    rw [R_nil]
    unfold mul
    rw [if_pos ht, if_neg (by decide)]
  · rw [R_cons _ _ hl]
    unfold mul
    rw [if_pos ht, if_neg (by simp [isRootS])]
    rfl

theorem concretize_R {ns : List Bytes} (hne : ns ≠ []) (h : ∀ x ∈ ns, Name x) (hw : ∀ x ∈ ns.dropLast, c! '*' ∉ x)
    (hp : ns.head? ≠ some (b!"..")) : concretize (R (b!"file") (ns.map elemOf)) = .ok ((b!"/") ++ text ns) := by
  have hl : ns.map elemOf ≠ [] := by simpa using hne
  have e : reroot (b!"default") (R (b!"file") (ns.map elemOf)) = .ok (R (b!"default") (ns.map elemOf)) := by
    rw [R_cons _ _ hl, reroot]
    show mul (.root (b!"default")) (P (ns.map elemOf)) = _
    rw [mul_root_P _ (elems_of h), strip_names hp]
  rw [concretize, e, Res.ok_bind, asString_R _ ns hw hne, R_cons _ _ hl]
  simp [isNone]

/-! ## Properties -/

/-- C128: `file_url (name)` for an absolute path stands for the file with that name: `concretize` gives the name back,
whatever is in the environment. The path may contain `:`, `..` but not at the beginning, and `*` in the last name. -/
theorem C128_path_partial (env : Env) (f : Nat) (ns : List Bytes) (hne : ns ≠ []) (h : ∀ x ∈ ns, Name x)
    (hw : ∀ x ∈ ns.dropLast, c! '*' ∉ x) (hp : ns.head? ≠ some (b!"..")) :
    file env f ((b!"/") ++ text ns) = .ok ((b!"/") ++ text ns) := by
  rw [file, fileUrl, rooted, getName_slash_text env _ _ ns h hw hne, Res.ok_bind, mul_root_P _ (elems_of h),
    strip_names hp, Res.ok_bind, concretize_R hne h hw hp]

example : Name (b!"a:b") ∧ (b!"/") ++ text [b!"tmp", b!"..", b!"a:b"] = b!"/tmp/../a:b" :=
  ⟨⟨by decide, by decide, by decide, by decide, by decide⟩, by decide⟩

/-- The top of the file system, too. -/
theorem C128_top (env : Env) (f : Nat) : file env f (b!"/") = .ok (b!"/") := by
  have : components (b!"/") 0 = [[]] := by
    have hsep : nextSep (c! '/') (b!"/") 0 = 0 :=
      nextSlash _ 0 0 (by omega) (by omega) (fun k _ hk => by omega) (.inr rfl)
    rw [components, if_pos (by decide), hsep]
    rfl
  rw [file, fileUrl, rooted, getName, this]
  have e : ∀ r : Bytes, mul (.root r) (.atom []) = .ok (.concat (.root r) (.atom [])) := by
    intro r
    rw [mul_plain _ _ rfl]
    rfl
  show (mul (.root (b!"file")) (.atom []) >>= concretize) = _
  rw [e, Res.ok_bind, concretize, reroot]
  show (mul (.root (b!"default")) (.atom []) >>= _) = _
  rw [e]
  decide

/-- Files below the home directory: `file_url ("~/a/b")` stands for the file `a/b` there. -/
theorem C128_home (env : Env) (f : Nat) (hs ns : List Bytes) (h1 : ∀ x ∈ hs, Plain x) (h2 : ∀ x ∈ ns, Plain x)
    (hne : hs ++ ns ≠ []) (he : env (b!"HOME") = (b!"/") ++ text hs) :
    file env (f + 1) (text ((b!"~") :: ns)) = .ok ((b!"/") ++ text (hs ++ ns)) := by
  have hall : ∀ x ∈ hs ++ ns, Plain x := by
    intro x hx
    rcases List.mem_append.1 hx with hx | hx
    · exact h1 x hx
    · exact h2 x hx
  have hc : components (text ((b!"~") :: ns)) 0 = (b!"~") :: ns := by
    have := components_at [] ((b!"~") :: ns) (by
      intro x hx
      rcases List.mem_cons.1 hx with rfl | hx
      · decide
      · exact ⟨(h2 x hx).nonempty, (h2 x hx).no_slash⟩) (by simp)
    simpa using this
  have ha : getName env (general env (f + 1) 0) (text ((b!"~") :: ns)) 0 = .ok (absolute (hs ++ ns)) := by
    rw [getName, hc, getAtoms, if_neg (by decide), getAtom, if_pos (by decide), he, general_absolute env f 0 hs h1,
      Res.ok_bind, getAtoms_names env _ 0 ns (fun x hx => (h2 x hx).toName)]
    show assemble (absolute hs :: ns.map elemOf) = _
    rw [elems h2, assemble_cons _ ns h2]
    exact addFront_absolute hs ns h1 h2
  have hl : (hs ++ ns).map Url.atom ≠ [] := by
    intro e; exact hne (List.map_eq_nil_iff.1 e)
  have hm : mul (.root (b!"file")) (absolute (hs ++ ns)) = .ok (R (b!"file") ((hs ++ ns).map elemOf)) := by
    rw [absolute, R_cons _ _ hl, mul, if_pos (by rfl), if_pos (by rfl)]
    rotate_left
    · intro a b e; cases e
    show mul (.root (b!"file")) (P ((hs ++ ns).map .atom)) = _
    rw [mul_root_P _ (fun y hy => (elem_atoms hall y hy).1), ← elems hall, strip_names]
    intro e
    exact (hall _ (List.mem_of_mem_head? e)).not_parent rfl
  rw [file, fileUrl, rooted, ha, Res.ok_bind, hm, Res.ok_bind]
  exact concretize_R hne (fun x hx => (hall x hx).toName)
    (fun x hx => (hall x (List.dropLast_subset _ hx)).no_star)
    (fun e => (hall _ (List.mem_of_mem_head? e)).not_parent rfl)

/-- A name beginning with a variable that is not set gives no url, and asking for its file throws. -/
theorem C128_unset (env : Env) (f : Nat) (x : Bytes) (hx : c! '/' ∉ x) (he : env x = []) :
    fileUrl env f ((c! '$') :: x) = .ok .none ∧ file env f ((c! '$') :: x) = .thrown := by
  have hc : components ((c! '$') :: x) 0 = [(c! '$') :: x] := by
    have := components_at [] [(c! '$') :: x] (by
      intro y hy
      rw [List.mem_singleton.1 hy]
      exact ⟨by simp, by simp [hx]⟩) (by simp)
    simpa [text, An.join] using this
  have hn : fileUrl env f ((c! '$') :: x) = .ok .none := by
    rw [fileUrl, rooted, getName, hc, getAtoms, if_neg (by simp), getAtom_var env _ 0 (by decide), if_pos he]
    show mul (.root (b!"file")) .none = _
    rw [mul_plain _ _ rfl]
    rfl
  exact ⟨hn, by rw [file, hn]; rfl⟩

/-- A relative name is taken for an absolute one: `file_url ("a/b")` stands for the file `/a/b`. -/
theorem C128_relative_violated (env : Env) (f : Nat) (ns : List Bytes) (hne : ns ≠ []) (h : ∀ x ∈ ns, Name x)
    (hw : ∀ x ∈ ns.dropLast, c! '*' ∉ x) (hp : ns.head? ≠ some (b!"..")) :
    file env f (text ns) = .ok ((b!"/") ++ text ns) ∧ (b!"/") ++ text ns ≠ text ns := by
  refine ⟨?_, fun e => by have := congrArg List.length e; simp at this⟩
  rw [file, fileUrl, rooted, getName_text env _ _ ns h hw hne, Res.ok_bind, mul_root_P _ (elems_of h),
    strip_names hp, Res.ok_bind, concretize_R hne h hw hp]

/-- The parent of the current directory becomes the top of the file system. -/
theorem C128_parent_violated (env : Env) (f : Nat) : file env f (b!"../a") = .ok (b!"/a") := by
  have hn : ∀ x ∈ [b!"..", b!"a"], Name x := by
    intro x hx
    simp only [List.mem_cons, List.not_mem_nil, or_false] at hx
    rcases hx with rfl | rfl <;> exact ⟨by decide, by decide, by decide, by decide, by decide⟩
  have e : (b!"../a") = text [b!"..", b!"a"] := by decide
  rw [file, fileUrl, rooted, e, getName_text env _ _ _ hn (by decide) (by simp), Res.ok_bind, mul_root_P _ (elems_of hn)]
  have : R (b!"file") (strip ([b!"..", b!"a"].map elemOf)) = R (b!"file") ([b!"a"].map elemOf) := by decide
  rw [this, Res.ok_bind]
  exact concretize_R (by simp) (fun x hx => hn x (by simp at hx; simp [hx])) (by simp) (by decide)

/-- C128: `url (dir, name)` is the url of `dir/name`, for an absolute directory. -/
theorem C128_below (env : Env) (f type : Nat) (ds ns : List Bytes) (hne : ns ≠ []) (h1 : ∀ x ∈ ds, Plain x)
    (h2 : ∀ x ∈ ns, Plain x) (w1 : ¬ (b!"www.") <+: text ns) (w2 : ¬ (b!"ftp.") <+: text ns) :
    below env (f + 1) type ((b!"/") ++ text ds) (text ns) = named env (f + 1) type ((b!"/") ++ text (ds ++ ns)) ∧
    named env (f + 1) type ((b!"/") ++ text (ds ++ ns)) = .ok (absolute (ds ++ ns)) := by
  have hall : ∀ x ∈ ds ++ ns, Plain x := by
    intro x hx
    rcases List.mem_append.1 hx with hx | hx
    · exact h1 x hx
    · exact h2 x hx
  have e3 := general_absolute env f type (ds ++ ns) hall
  refine ⟨?_, e3⟩
  have e2 := (C48_relative_partial env f type ns hne (fun x hx => (h2 x hx).toName) (fun x hx => (h2 x hx).no_colon)
    (fun x hx => (h2 x (List.dropLast_subset _ hx)).no_star) w1 w2).2
  rw [elems h2] at e2
  rw [below, named, named, named, general_absolute env f type ds h1, e3, e2, Res.ok_bind, Res.ok_bind, absolute]
  have hn : ns.map Url.atom ≠ [] := by simpa using hne
  rw [mul_R_P (by decide) (fun y hy => (elem_atoms h1 y hy).1) (fun y hy => (elem_atoms h2 y hy).1) hn,
    joinL_disjoint (normal_of_no_parent fun e => (elem_atoms h1 _ e).2 rfl)
      (fun e => (elem_atoms h2 _ (List.mem_of_mem_head? e)).2 rfl) hn, ← List.map_append, strip_eq_self, absolute]
  exact fun e => (elem_atoms hall _ (List.mem_of_mem_head? e)).2 rfl

/-- The same for a relative directory. -/
theorem C128_below_relative (env : Env) (f type : Nat) (ds ns : List Bytes) (hd : ds ≠ []) (hne : ns ≠ [])
    (h1 : ∀ x ∈ ds, Plain x) (h2 : ∀ x ∈ ns, Plain x) (w1 : ¬ (b!"www.") <+: text ns) (w2 : ¬ (b!"ftp.") <+: text ns)
    (v1 : ¬ (b!"www.") <+: text ds) (v2 : ¬ (b!"ftp.") <+: text ds) :
    below env (f + 1) type (text ds) (text ns) = named env (f + 1) type (text (ds ++ ns)) ∧
    named env (f + 1) type (text (ds ++ ns)) = .ok (relative (ds ++ ns)) := by
  have key : ∀ ns : List Bytes, ns ≠ [] → (∀ x ∈ ns, Plain x) → ¬ (b!"www.") <+: text ns → ¬ (b!"ftp.") <+: text ns →
      general env (f + 1) type (text ns) = .ok (relative ns) := by
    intro ns hne h2 w1 w2
    have e2 := (C48_relative_partial env f type ns hne (fun x hx => (h2 x hx).toName) (fun x hx => (h2 x hx).no_colon)
      (fun x hx => (h2 x (List.dropLast_subset _ hx)).no_star) w1 w2).2
    rw [e2, elems h2, relative]
  have hall : ∀ x ∈ ds ++ ns, Plain x := by
    intro x hx
    rcases List.mem_append.1 hx with hx | hx
    · exact h1 x hx
    · exact h2 x hx
  have e3 := key (ds ++ ns) (by simp [hd]) hall
    (fun e => v1 (prefix_before (by decide) (text_append hd hne ▸ e)))
    (fun e => v2 (prefix_before (by decide) (text_append hd hne ▸ e)))
  refine ⟨?_, e3⟩
  rw [below, named, named, named, key ds hd h1 v1 v2, e3, key ns hne h2 w1 w2, Res.ok_bind, Res.ok_bind]
  have hn : ns.map Url.atom ≠ [] := by simpa using hne
  rw [relative, relative, mul_P (fun y hy => (elem_atoms h1 y hy).1) (fun y hy => (elem_atoms h2 y hy).1) hn,
    joinL_disjoint (normal_of_no_parent fun e => (elem_atoms h1 _ e).2 rfl)
      (fun e => (elem_atoms h2 _ (List.mem_of_mem_head? e)).2 rfl) hn, ← List.map_append, relative]

/-- An absolute name does not depend on the directory. -/
theorem C128_below_absolute (env : Env) (f type : Nat) (ds ns : List Bytes) (h1 : ∀ x ∈ ds, Plain x)
    (h2 : ∀ x ∈ ns, Plain x) :
    below env (f + 1) type ((b!"/") ++ text ds) ((b!"/") ++ text ns) = .ok (absolute ns) := by
  rw [below, named, named, general_absolute env f type ds h1, general_absolute env f type ns h2, Res.ok_bind, Res.ok_bind]
  have ht : topRoot (absolute ns) = true := by
    unfold absolute R
    split <;> rfl
  exact mul_topRoot _ _ ht

/-- A name that looks like an address of the web is not put below the directory. -/
theorem C128_below_violated (env : Env) : ∃ u, below env 1 1 (b!"/tmp") (b!"www.data") = .ok u ∧
    protocol u = (b!"http") := by
  refine ⟨R (b!"http") [.atom (b!"www.data")], ?_, by decide⟩
  have ht : Plain (b!"tmp") :=
    ⟨⟨by decide, by decide, by decide, by decide, by decide⟩, by decide, by decide, by decide⟩
  have e := general_absolute env 0 1 [b!"tmp"] (by simpa using ht)
  rw [below, named, named, show (b!"/tmp") = (b!"/") ++ text [b!"tmp"] from rfl, e, Res.ok_bind,
    (C48_www_violated env).2, Res.ok_bind]
  exact mul_topRoot _ _ (by decide)

/-- The directory a program runs in: the url of the path the system gives; without one, `url_pwd` throws. -/
theorem C128_pwd (env : Env) (f : Nat) (ns : List Bytes) (h : ∀ x ∈ ns, Plain x) :
    pwd env (f + 1) (some ((b!"/") ++ text ns)) = .ok (absolute ns) ∧ pwd env (f + 1) none = .thrown :=
  ⟨general_absolute env f 0 ns h, rfl⟩

end Lolly.FileUrlProps
