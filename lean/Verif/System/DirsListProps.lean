import Verif.System.DirsMoreProps
import Verif.System.UrlParseProps

set_option autoImplicit false

/-!
# C85, C88: subdirectories and temporary files
-/

namespace Lolly.DirsProps

open Lolly.Url Lolly.Files Lolly.Dirs

theorem _root_.Lolly.Dirs.Plain.name {s : Bytes} (h : Plain s) : Name s :=
  ⟨h.nonempty, h.not_here, h.no_slash, h.not_home, h.no_var⟩

theorem files {ns : List Bytes} (h : ∀ x ∈ ns, Plain x) : ∀ x ∈ ns, FileName x := fun x hx => (h x hx).toFileName

theorem sys_plain (env : Env) (f type : Nat) {n : Bytes} (h : Plain n) : general env (f + 1) type n = .ok (.atom n) := by
  have := (UrlParseProps.C48_relative_partial env f type [n] (by simp) (by simpa using h.name) (by simpa using h.no_colon) (by simp)
    (by simpa [text, An.join] using h.not_www) (by simpa [text, An.join] using h.not_ftp)).2
  simpa [text, An.join, P, elemOf, h.no_star] using this

theorem sys_absolute (env : Env) (f type : Nat) {ns : List Bytes} {n : Bytes} (h : ∀ x ∈ ns, Plain x)
    (hn : FileName n) (hn1 : Name n) (hn2 : c! ':' ∉ n) :
    ∃ u, general env (f + 1) type (b!"/" ++ text (ns ++ [n])) = .ok u ∧ asString (tail u) = n := by
  have hf : ∀ x ∈ ns ++ [n], FileName x := by
    intro x hx
    rcases List.mem_append.1 hx with hx | hx
    · exact files h x hx
    · simp at hx; exact hx ▸ hn
  have := (UrlParseProps.C48_absolute_partial env f type (ns ++ [n]) (by
      intro x hx
      rcases List.mem_append.1 hx with hx | hx
      · exact (h x hx).name
      · simp at hx; exact hx ▸ hn1) (by
      intro x hx
      rcases List.mem_append.1 hx with hx | hx
      · exact (h x hx).no_colon
      · simp at hx; exact hx ▸ hn2) (no_star hf) (by
      intro e
      have := hf _ (List.mem_of_mem_head? e)
      exact this.not_up rfl)).2
  refine ⟨_, this, ?_⟩
  rw [← map_atom hf, List.map_append, List.map_cons, List.map_nil]
  have h1 : ∀ x ∈ ns, FileName x := files h
  rw [(UrlProps.C47_rooted _ _ _ (elems h1) hn.elem (no_parent h1) hn.ne_parent (fun e => absurd e (by decide))).2.1]
  rfl

theorem mul_dirUrl (st : Start) {ns : List Bytes} {n : Bytes} (h : ∀ x ∈ ns ++ [n], FileName x) :
    mul (dirUrl st ns) (.atom n) = .ok (dirUrl st (ns ++ [n])) := by
  have h1 : ∀ x ∈ ns, FileName x := fun x hx => h x (by simp [hx])
  have h2 : FileName n := h n (by simp)
  cases st with
  | cwd =>
    simp only [dirUrl, List.map_append, List.map_cons, List.map_nil]
    exact (UrlProps.C47_path _ _ (elems h1) h2.elem (normal_of_no_parent (no_parent h1)) h2.ne_parent).2.2
  | top =>
    simp only [dirUrl, List.map_append, List.map_cons, List.map_nil]
    exact (UrlProps.C47_rooted _ _ _ (elems h1) h2.elem (no_parent h1) h2.ne_parent (fun e => absurd e (by decide))).2.2
  | file =>
    simp only [dirUrl, List.map_append, List.map_cons, List.map_nil]
    exact (UrlProps.C47_rooted _ _ _ (elems h1) h2.elem (no_parent h1) h2.ne_parent (fun e => absurd e (by decide))).2.2

theorem snoc_plain {ns : List Bytes} {n : Bytes} (h : ∀ x ∈ ns, Plain x) (hn : Plain n) : ∀ x ∈ ns ++ [n], Plain x := by
  intro x hx
  rcases List.mem_append.1 hx with hx | hx
  · exact h x hx
  · simp at hx; exact hx ▸ hn

theorem entryNames_eq (env : Env) (f type : Nat) {ns : List Bytes} (h : ∀ x ∈ ns, Plain x) (l : List Bytes)
    (hl : ∀ n ∈ l, FileName n ∧ Name n ∧ c! ':' ∉ n) :
    entryNames (general env (f + 1) type) (l.map fun n => b!"/" ++ text (ns ++ [n])) = .ok l := by
  induction l with
  | nil => rfl
  | cons n l ih =>
    have hn := hl n (by simp)
    obtain ⟨u, e, et⟩ := sys_absolute env f type h hn.1 hn.2.1 hn.2.2
    rw [List.map_cons, entryNames, e, Res.ok_bind, ih fun m hm => hl m (by simp [hm]), Res.ok_bind, et]

theorem dirUrl_single (st : Start) {ns : List Bytes} (h : ∀ x ∈ ns, FileName x) : Single (dirUrl st ns) := by
  by_cases hn : ns = []
  · subst hn; cases st <;> exact ⟨rfl, by simp [dirUrl, P, R, here]⟩
  · exact single_item (.path st ns) ⟨hn, h⟩

/-- The loop of `subdirectories` when the recursive calls give the lists `sub`. -/
theorem subLoop_spec (st : Start) (w : Stat) (env : Env) (f type : Nat) (call : Url → Res Url) {ns : List Bytes} (h : ∀ x ∈ ns, Plain x)
    (sub : Bytes → List Url) (l : List Bytes) (hl : ∀ n ∈ l, Plain n)
    (hc : ∀ n ∈ l, kind w (dirText st (ns ++ [n])) = some .dir →
      call (dirUrl st (ns ++ [n])) = .ok (orOf (merge (sub n))) ∧ sub n ≠ [] ∧ ∀ x ∈ sub n, Single x)
    (acc : List Url) (ha : ∀ x ∈ acc, Single x) (hne : acc ≠ []) :
    subLoop w (general env (f + 1) type) call (dirUrl st ns) l (orOf (merge acc)) = .ok (orOf (merge (acc ++
      l.flatMap fun n => if n.head? ≠ some (c! '.') ∧ kind w (dirText st (ns ++ [n])) = some .dir then sub n else []))) := by
  induction l generalizing acc with
  | nil => simp [subLoop]
  | cons n l ih =>
    have hn := hl n (by simp)
    have hl' : ∀ m ∈ l, Plain m := fun m hm => hl m (by simp [hm])
    have hc' := fun m hm => hc m (List.mem_cons_of_mem n hm)
    have hdot : An.starts n (b!".") = .ok (decide (n.head? = some (c! '.'))) := by
      rw [starts_eq]
      cases n with
      | nil => rfl
      | cons c n =>
        have : (b!".").isPrefixOf (c :: n) = (c! '.' == c) := by simp [List.isPrefixOf]
        rw [this, List.head?_cons]
        congr 1
        rw [Bool.eq_iff_iff, beq_iff_eq, decide_eq_true_eq, Option.some.injEq]
        exact eq_comm
    have hs := snoc_plain h hn
    rw [subLoop, hdot, Res.ok_bind, List.flatMap_cons]
    by_cases h1 : n.head? = some (c! '.')
    · rw [if_pos (by simpa using h1), ih hl' hc' acc ha hne, if_neg (by simp [h1])]
      simp
    · rw [if_neg (by simpa using h1), sys_plain env f type hn, Res.ok_bind, mul_dirUrl st (files hs), Res.ok_bind,
        isDirectory_dirUrl st w (files hs), Res.ok_bind]
      by_cases h2 : kind w (dirText st (ns ++ [n])) = some .dir
      · obtain ⟨e, hne', hsing⟩ := hc n (by simp) h2
        rw [if_pos (by simpa using h2), e, Res.ok_bind, alt_merge ha hsing hne hne', ih hl' hc' _ _ (by simp [hne]),
          if_pos ⟨h1, h2⟩, List.append_assoc]
        intro x hx
        rcases List.mem_append.1 hx with hx | hx
        · exact ha x hx
        · exact hsing x hx
      · rw [if_neg (by simpa using h2), ih hl' hc' acc ha hne, if_neg (by simp [h2])]
        simp

theorem preorder_prefix (st : Start) (w : Stat) (entries : List Bytes → List Bytes) (d : Nat) (ns ms : List Bytes)
    (h : ms ∈ preorder st w entries d ns) : ns <+: ms := by
  induction d generalizing ns with
  | zero => simp [preorder] at h; subst h; exact List.prefix_refl _
  | succ d ih =>
    rw [preorder, List.mem_cons, List.mem_flatMap] at h
    rcases h with rfl | ⟨n, hn, h⟩
    · exact List.prefix_refl _
    · split at h
      · exact (List.prefix_append ns [n]).trans (ih _ h)
      · simp at h

theorem preorder_plain (st : Start) (w : Stat) (entries : List Bytes → List Bytes) (he : ∀ ns n, n ∈ entries ns → Plain n) (d : Nat)
    (ns : List Bytes) (h : ∀ x ∈ ns, Plain x) : ∀ ms ∈ preorder st w entries d ns, ∀ x ∈ ms, Plain x := by
  induction d generalizing ns with
  | zero => intro ms hm; simp [preorder] at hm; subst hm; exact h
  | succ d ih =>
    intro ms hm
    rw [preorder, List.mem_cons, List.mem_flatMap] at hm
    rcases hm with rfl | ⟨n, hn, hm⟩
    · exact h
    · split at hm
      · exact ih _ (snoc_plain h (he _ _ hn)) ms hm
      · simp at hm

theorem preorder_nodup (st : Start) (w : Stat) (entries : List Bytes → List Bytes) (he : ∀ ns, (entries ns).Nodup) (d : Nat)
    (ns : List Bytes) : (preorder st w entries d ns).Nodup := by
  induction d generalizing ns with
  | zero => simp [preorder]
  | succ d ih =>
    rw [preorder, List.nodup_cons]
    constructor
    · rw [List.mem_flatMap]
      rintro ⟨n, _, h⟩
      split at h
      · have := (preorder_prefix st w entries d _ _ h).length_le
        rw [List.length_append, List.length_singleton] at this
        omega
      · simp at h
    · have hn := he ns
      revert hn
      generalize entries ns = l
      intro hn
      induction l with
      | nil => simp
      | cons n l ihl =>
        rw [List.nodup_cons] at hn
        rw [List.flatMap_cons, List.nodup_append]
        refine ⟨?_, ihl hn.2, ?_⟩
        · split
          · exact ih _
          · simp
        · intro a ha b hb e
          subst e
          rw [List.mem_flatMap] at hb
          obtain ⟨m, hm, hb⟩ := hb
          split at ha
          · split at hb
            · have h1 := preorder_prefix st w entries d _ _ ha
              have h2 := preorder_prefix st w entries d _ _ hb
              have := List.prefix_of_prefix_length_le h1 h2 (by simp)
              have := this.eq_of_length (by simp)
              have := List.append_cancel_left this
              simp at this
              exact hn.1 (this ▸ hm)
            · simp at hb
          · simp at ha

theorem merge_nodup {α : Type} [DecidableEq α] {l : List α} (h : l.Nodup) : merge l = l := by
  induction l with
  | nil => rfl
  | cons a l ih =>
    rw [List.nodup_cons] at h
    show ins a (merge l) = _
    rw [ih h.2, ins, if_neg]
    intro e
    exact h.1 (List.mem_of_mem_head? e)

theorem subdirectories_single (w : Stat) (ls : Bytes → List Bytes) (sys : Bytes → Res Url) (f : Nat) (u : Url) (h : isOr u = false) :
    subdirectories w ls sys (f + 1) u = (do
      let d ← isDirectory w u
      if d then do
        let r ← readDirectory w ls sys u
        subLoop w sys (subdirectories w ls sys f) u r.1 u
      else .ok .none) := by
  cases u <;> simp_all [subdirectories, isOr]

theorem readDirectory_dirUrl (st : Start) (w : Stat) (ls : Bytes → List Bytes) (env : Env) (f type : Nat) (pre l ns : List Bytes)
    (hp : ∀ x ∈ pre, Plain x) (h : ∀ x ∈ ns, Plain x) (hl : ∀ n ∈ l, FileName n ∧ Name n ∧ c! ':' ∉ n)
    (e : ls (dirText st ns) = l.map fun n => b!"/" ++ text (pre ++ ns ++ [n]))
    (hd : kind w (dirText st ns) = some .dir) :
    readDirectory w ls (general env (f + 1) type) (dirUrl st ns) = .ok (l, false) := by
  rw [readDirectory, dirUrl_local, asLocalPath_dirUrl st (files h), isDirectory_dirUrl st w (files h), hd]
  simp only [Bool.not_true, Bool.false_eq_true, if_false, Res.ok_bind, cname_dirText st (files h), decide_true, e]
  rw [entryNames_eq env f type (fun x hx => ?_) l hl, Res.ok_bind]
  rcases List.mem_append.1 hx with hx | hx
  · exact hp x hx
  · exact h x hx

theorem subdirectories_merge (st : Start) (w : Stat) (ls : Bytes → List Bytes) (env : Env) (f type : Nat) (pre : List Bytes) (d : Nat)
    (entries : List Bytes → List Bytes) (hL : Listing st w ls pre d entries) (k : Nat) (ns : List Bytes) (h : ∀ x ∈ ns, Plain x)
    (hd : kind w (dirText st ns) = some .dir) (hk : d ≤ k + ns.length) :
    subdirectories w ls (general env (f + 1) type) (k + 1) (dirUrl st ns) =
      .ok (orOf (merge ((preorder st w entries k ns).map (dirUrl st)))) := by
  induction k generalizing ns with
  | zero =>
    have hno : ∀ n ∈ entries ns, kind w (dirText st (ns ++ [n])) ≠ some .dir := by
      intro n hn e
      have := hL.deep _ (snoc_plain h (hL.plain _ _ hn)) e
      rw [List.length_append, List.length_singleton] at this
      omega
    rw [subdirectories_single _ _ _ _ _ (dirUrl_single st (files h)).1, isDirectory_dirUrl st w (files h), hd, Res.ok_bind,
      if_pos (by simp), readDirectory_dirUrl st w ls env f type pre (entries ns) ns hL.pre_plain h (fun n hn =>
        ⟨(hL.plain _ _ hn).toFileName, (hL.plain _ _ hn).name, (hL.plain _ _ hn).no_colon⟩) (hL.listed ns h hd) hd, Res.ok_bind]
    have := subLoop_spec st w env f type (subdirectories w ls (general env (f + 1) type) 0) h (fun _ => []) (entries ns)
      (hL.plain ns) (fun n hn e => absurd e (hno n hn)) [dirUrl st ns] (by simpa using dirUrl_single st (files h)) (by simp)
    rw [merge_singleton, orOf] at this
    rw [this, preorder, List.flatMap_eq_nil_iff.2 (by intro n _; split <;> rfl)]
    rfl
  | succ k ih =>
    rw [subdirectories_single _ _ _ _ _ (dirUrl_single st (files h)).1, isDirectory_dirUrl st w (files h), hd, Res.ok_bind,
      if_pos (by simp), readDirectory_dirUrl st w ls env f type pre (entries ns) ns hL.pre_plain h (fun n hn =>
        ⟨(hL.plain _ _ hn).toFileName, (hL.plain _ _ hn).name, (hL.plain _ _ hn).no_colon⟩) (hL.listed ns h hd) hd, Res.ok_bind]
    have := subLoop_spec st w env f type (subdirectories w ls (general env (f + 1) type) (k + 1)) h
      (fun n => (preorder st w entries k (ns ++ [n])).map (dirUrl st)) (entries ns)
      (hL.plain ns) (fun n hn e => ⟨ih _ (snoc_plain h (hL.plain _ _ hn)) e (by
          rw [List.length_append, List.length_singleton]; omega), by cases k <;> simp [preorder], by
          intro x hx
          obtain ⟨ms, hm, rfl⟩ := List.mem_map.1 hx
          exact dirUrl_single st (files (preorder_plain st w entries hL.plain k _ (snoc_plain h (hL.plain _ _ hn)) ms hm))⟩)
      [dirUrl st ns] (by simpa using dirUrl_single st (files h)) (by simp)
    rw [merge_singleton, orOf] at this
    rw [this, preorder, List.map_cons, List.map_flatMap, List.singleton_append]
    congr 5
    funext n
    split <;> rfl

/-- `subdirectories` gives the directory and all directories below it, but for hidden ones and those in hidden ones, each
before the ones in it, in the order in which the system lists them. The names must be such that reading them as urls gives
them back.
Missing: directories whose names are not, see `C85_www_violated`. -/
theorem C85_subdirectories_partial (st : Start) (w : Stat) (ls : Bytes → List Bytes) (env : Env) (f type : Nat) (pre : List Bytes) (d : Nat)
    (entries : List Bytes → List Bytes) (hL : Listing st w ls pre d entries) (ns : List Bytes) (h : ∀ x ∈ ns, Plain x) :
    (kind w (dirText st ns) = some .dir → subdirectories w ls (general env (f + 1) type) (d + 1) (dirUrl st ns) =
      .ok (orOf ((preorder st w entries d ns).map (dirUrl st)))) ∧
    (kind w (dirText st ns) ≠ some .dir → subdirectories w ls (general env (f + 1) type) (d + 1) (dirUrl st ns) = .ok .none) := by
  constructor
  · intro hd
    rw [subdirectories_merge st w ls env f type pre d entries hL d ns h hd (by omega), merge_nodup]
    have hnd := preorder_nodup st w entries hL.nodup d ns
    have hpl := preorder_plain st w entries hL.plain d ns h
    revert hnd hpl
    generalize preorder st w entries d ns = l
    intro hnd hpl
    refine List.pairwise_map.2 (hnd.imp_of_mem fun ha hb hne e => hne ?_)
    have e1 := asLocalPath_dirUrl st (files (hpl _ ha))
    rw [e, asLocalPath_dirUrl st (files (hpl _ hb))] at e1
    injection e1 with e1
    exact dirText_inj st (files (hpl _ ha)) (files (hpl _ hb)) e1.symm
  · intro hd
    rw [subdirectories_single _ _ _ _ _ (dirUrl_single st (files h)).1, isDirectory_dirUrl st w (files h), Res.ok_bind,
      if_neg (by simpa using hd)]

theorem alt_none_right (u : Url) : alt u .none = u := by
  rw [alt.eq_def]
  split
  · next h => exact h.symm
  · rw [if_pos rfl]

theorem alt_merge_any {l m : List Url} (hl : ∀ x ∈ l, Single x) (hm : ∀ x ∈ m, Single x) :
    alt (orOf (merge l)) (orOf (merge m)) = orOf (merge (l ++ m)) := by
  by_cases h1 : l = []
  · subst h1
    show alt .none _ = _
    rw [alt.eq_def, if_pos rfl]
    rfl
  · by_cases h2 : m = []
    · subst h2
      rw [List.append_nil]
      exact alt_none_right _
    · exact alt_merge hl hm h1 h2

/-- For alternatives it gives what it gives for each of them, one after the other (of equal neighbours one). -/
theorem C85_alternatives_partial (st : Start) (w : Stat) (ls : Bytes → List Bytes) (env : Env) (f type : Nat) (pre : List Bytes) (d : Nat)
    (entries : List Bytes → List Bytes) (hL : Listing st w ls pre d entries) (l : List (List Bytes)) (h : ∀ ns ∈ l, ∀ x ∈ ns, Plain x)
    (k : Nat) (hk : d + l.length ≤ k) (hne : l ≠ []) :
    subdirectories w ls (general env (f + 1) type) (k + 1) (orOf (l.map (dirUrl st))) =
      .ok (orOf (merge ((l.flatMap fun ns => if kind w (dirText st ns) = some .dir then preorder st w entries d ns else []).map (dirUrl st)))) := by
  have hext : ∀ k (ns : List Bytes), (∀ x ∈ ns, Plain x) → d ≤ k + ns.length →
      preorder st w entries (k + 1) ns = preorder st w entries k ns := by
    intro k
    induction k with
    | zero =>
      intro ns hp hd
      rw [preorder, preorder, List.flatMap_eq_nil_iff.2]
      intro n hn
      rw [if_neg]
      rintro ⟨_, e⟩
      have := hL.deep _ (snoc_plain hp (hL.plain _ _ hn)) e
      rw [List.length_append, List.length_singleton] at this
      omega
    | succ k ih =>
      intro ns hp hd
      rw [preorder, preorder.eq_2]
      congr 1
      rw [List.flatMap_def, List.flatMap_def]
      congr 1
      refine List.map_congr_left fun n hn => ?_
      rw [ih _ (snoc_plain hp (hL.plain _ _ hn)) (by rw [List.length_append, List.length_singleton]; omega)]
  have hext' : ∀ j (ns : List Bytes), (∀ x ∈ ns, Plain x) → preorder st w entries (d + j) ns = preorder st w entries d ns := by
    intro j
    induction j with
    | zero => intro ns _; rfl
    | succ j ih => intro ns hp; rw [← Nat.add_assoc, hext _ _ hp (by omega), ih ns hp]
  have hone : ∀ k ns, (∀ x ∈ ns, Plain x) → d ≤ k → subdirectories w ls (general env (f + 1) type) (k + 1) (dirUrl st ns) =
      .ok (orOf (merge ((if kind w (dirText st ns) = some .dir then preorder st w entries d ns else []).map (dirUrl st)))) := by
    intro k ns hp hk
    split
    · next hd =>
      obtain ⟨j, rfl⟩ : ∃ j, k = d + j := ⟨k - d, by omega⟩
      rw [subdirectories_merge st w ls env f type pre d entries hL (d + j) ns hp hd (by omega), hext' j ns hp]
    · next hd =>
      rw [subdirectories_single _ _ _ _ _ (dirUrl_single st (files hp)).1, isDirectory_dirUrl st w (files hp), Res.ok_bind,
        if_neg (by simpa using hd)]
      rfl
  have hsing : ∀ (l : List (List Bytes)), (∀ ns ∈ l, ∀ x ∈ ns, Plain x) → ∀ x ∈ (l.flatMap fun ns =>
      if kind w (dirText st ns) = some .dir then preorder st w entries d ns else []).map (dirUrl st), Single x := by
    intro l h x hx
    obtain ⟨ms, hm, rfl⟩ := List.mem_map.1 hx
    rw [List.mem_flatMap] at hm
    obtain ⟨ns, hns, hm⟩ := hm
    split at hm
    · exact dirUrl_single st (files (preorder_plain st w entries hL.plain d ns (h ns hns) ms hm))
    · simp at hm
  induction l generalizing k with
  | nil => exact absurd rfl hne
  | cons ns l ih =>
    have hns := h ns (by simp)
    rw [List.length_cons] at hk
    by_cases hl : l = []
    · subst hl
      rw [List.flatMap_cons, List.flatMap_nil, List.append_nil]
      exact hone k ns hns (by omega)
    · obtain ⟨k, rfl⟩ : ∃ j, k = j + 1 := ⟨k - 1, by omega⟩
      have hl' : ∀ ms ∈ l, ∀ x ∈ ms, Plain x := fun ms hm => h ms (by simp [hm])
      have h1 := hsing [ns] (by simpa using hns)
      rw [List.flatMap_cons, List.flatMap_nil, List.append_nil] at h1
      rw [List.map_cons, orOf_cons _ _ (by simpa using hl), subdirectories, hone k ns hns (by omega), Res.ok_bind,
        ih hl' k (by omega) hl, Res.ok_bind, alt_merge_any h1 (hsing l hl'), List.flatMap_cons, List.map_append]

/-- Those are exactly the directories that one gets to, each once. -/
theorem C85_members (st : Start) (w : Stat) (ls : Bytes → List Bytes) (pre : List Bytes) (d : Nat)
    (entries : List Bytes → List Bytes) (hL : Listing st w ls pre d entries) (ns : List Bytes) (h : ∀ x ∈ ns, Plain x)
    (hd : kind w (dirText st ns) = some .dir) :
    (preorder st w entries d ns).Nodup ∧ ∀ ms, ms ∈ preorder st w entries d ns ↔ Reach st w entries ns ms := by
  refine ⟨preorder_nodup st w entries hL.nodup d ns, fun ms => ⟨?_, ?_⟩⟩
  · have : ∀ k (ms ks : List Bytes), Reach st w entries ns ms → ks ∈ preorder st w entries k ms → Reach st w entries ns ks := by
      intro k
      induction k with
      | zero => intro ms ks h1 h2; simp [preorder] at h2; exact h2 ▸ h1
      | succ k ih =>
        intro ms ks h1 h2
        rw [preorder, List.mem_cons, List.mem_flatMap] at h2
        rcases h2 with rfl | ⟨n, hn, h2⟩
        · exact h1
        · split at h2
          · next hc => exact ih _ _ (.sub h1 hn hc.1 hc.2) h2
          · simp at h2
    exact this d ns ms (.self hd)
  · intro hr
    have hplain : ∀ x ∈ ms, Plain x := by
      induction hr with
      | self => exact h
      | sub _ hn _ _ ih => exact snoc_plain ih (hL.plain _ _ hn)
    have hdir : kind w (dirText st ms) = some .dir := by cases hr <;> assumption
    -- the last step of a path is in the list if there is room for it
    have step : ∀ k (ms ks : List Bytes) (n : Bytes), ks ∈ preorder st w entries k ms → n ∈ entries ks → n.head? ≠ some (c! '.') →
        kind w (dirText st (ks ++ [n])) = some .dir → ks.length < k + ms.length → ks ++ [n] ∈ preorder st w entries k ms := by
      intro k
      induction k with
      | zero =>
        intro ms ks n h1 _ _ _ hlt
        simp [preorder] at h1
        subst h1
        omega
      | succ k ih =>
        intro ms ks n h1 hn h2 h3 hlt
        rw [preorder, List.mem_cons, List.mem_flatMap] at h1 ⊢
        right
        rcases h1 with rfl | ⟨m, hm, h1⟩
        · refine ⟨n, hn, ?_⟩
          rw [if_pos ⟨h2, h3⟩]
          cases k <;> simp [preorder]
        · refine ⟨m, hm, ?_⟩
          split at h1
          · next hc =>
            rw [if_pos hc]
            exact ih _ _ _ h1 hn h2 h3 (by rw [List.length_append, List.length_singleton]; omega)
          · simp at h1
    clear hdir hplain
    induction hr with
    | self => cases d <;> simp [preorder]
    | @sub ms n hr hn h2 h3 ih =>
      refine step d ns ms n ih hn h2 h3 ?_
      have hms : ∀ x ∈ ms, Plain x := by
        clear ih h3 hn h2
        induction hr with
        | self => exact h
        | sub _ hn _ _ ih => exact snoc_plain ih (hL.plain _ _ hn)
      have := hL.deep _ (snoc_plain hms (hL.plain _ _ hn)) h3
      rw [List.length_append, List.length_singleton] at this
      omega

/-- The file system with `/`, `/a`, `/a/b`, the hidden `/.h` and the file `/f`. -/
example : ∃ w ls entries, Listing .top w ls [] 2 entries ∧ kind w (dirText .top []) = some .dir ∧
    (preorder .top w entries 2 []).map (dirText .top) = [b!"/", b!"/a", b!"/a/b"] := by
  have pl : ∀ s ∈ [b!"a", b!"b", b!".h", b!"f"], Plain s := by
    intro s hs
    simp only [List.mem_cons, List.not_mem_nil, or_false] at hs
    rcases hs with rfl | rfl | rfl | rfl <;>
      exact ⟨⟨by decide, by decide, by decide, by decide, by decide, by decide⟩, by decide, by decide, by decide, by decide, by decide⟩
  let entries : List Bytes → List Bytes := fun ns => if ns = [] then [b!"a", b!".h", b!"f"] else if ns = [b!"a"] then [b!"b"] else []
  let dirs : List (List Bytes) := [[], [b!"a"], [b!"a", b!"b"], [b!".h"]]
  let w : Stat := fun p => if p ∈ dirs.map (dirText .top) then some ⟨.dir, 0, 0, 0⟩ else if p = b!"/f" then some ⟨.file, 0, 0, 0⟩ else none
  let ls : Bytes → List Bytes := fun p => match dirs.find? (fun ns => dirText .top ns = p) with
    | some ns => (entries ns).map fun n => b!"/" ++ text (ns ++ [n])
    | none => []
  have hdirs : ∀ ns ∈ dirs, ∀ x ∈ ns, Plain x := by
    intro ns hn x hx
    simp only [dirs, List.mem_cons, List.not_mem_nil, or_false] at hn
    rcases hn with rfl | rfl | rfl | rfl <;> exact pl x (by first | (simp at hx; done) | (simp at hx ⊢; grind))
  have key : ∀ ns, (∀ x ∈ ns, Plain x) → kind w (dirText .top ns) = some .dir → ns ∈ dirs := by
    intro ns h hk
    simp only [kind, w] at hk
    split at hk
    · next hm =>
      obtain ⟨ms, hms, e⟩ := List.mem_map.1 hm
      exact dirText_inj .top (files (hdirs ms hms)) (files h) e ▸ hms
    · split at hk <;> simp at hk
  refine ⟨w, ls, entries, ⟨by simp, ?_, ?_, ?_, ?_⟩, by decide, by decide⟩
  · intro ns n hn
    simp only [entries] at hn
    split at hn
    · exact pl n (by simp at hn ⊢; grind)
    · split at hn
      · exact pl n (by simp at hn ⊢; grind)
      · simp at hn
  · intro ns
    simp only [entries]
    split
    · decide
    · split <;> simp
  · intro ns h hk
    have := key ns h hk
    simp only [dirs, List.mem_cons, List.not_mem_nil, or_false] at this
    rcases this with rfl | rfl | rfl | rfl <;> decide
  · intro ns h hk
    have := key ns h hk
    simp only [dirs, List.mem_cons, List.not_mem_nil, or_false] at this
    rcases this with rfl | rfl | rfl | rfl <;> simp

/-- `u * "www..."` is a page of the web. -/
theorem sys_www (env : Env) (f type : Nat) {n : Bytes} (h : FileName n) (hv : Name n) (hc : c! ':' ∉ n) (hw : (b!"www.") <+: n)
    (ht : type ≠ 3) : general env (f + 1) type n = .ok (R (b!"http") [.atom n]) := by
  have hn : ∀ x ∈ [n], x ≠ [] ∧ c! '/' ∉ x := by simpa using ⟨h.nonempty, h.no_slash⟩
  have et : text [n] = n := by simp [text, An.join]
  have h0 := noProtocol (noDouble_text hn)
  have h1 := head_text hn
  rw [et] at h0 h1
  rw [UrlParseProps.general_plain _ _ _ _ h0]
  unfold withoutProtocol
  simp only [starts_eq, Res.ok_bind, isPath_false hc]
  rw [UrlParseProps.not_prefix_of_not_mem (c! ':') (by decide) hc, UrlParseProps.not_double_prefix h1,
    if_neg (by simp), if_neg (by simp), if_neg (by simp), if_neg h1, if_pos ⟨ht, List.isPrefixOf_iff_prefix.2 hw⟩]
  have := components_at [] [n] hn (by simp)
  simp only [List.nil_append, List.length_nil, et] at this
  rw [rooted, getName, this, getAtoms_names env _ 2 [n] (by simpa using hv), Res.ok_bind]
  simp only [List.map_cons, List.map_nil]
  have he : elemOf n = .atom n := by simp [elemOf, h.no_star]
  rw [he]
  have ha : assemble [Url.atom n] = .ok (.atom n) := rfl
  rw [ha, Res.ok_bind]
  have := mul_root_P (b!"http") (l := [.atom n]) (by simpa using h.elem)
  rw [P] at this
  rw [this, strip_eq_self]
  simpa using h.ne_parent

theorem mul_web {st : Start} (hst : st ≠ .file) {ns : List Bytes} (n : Bytes) :
    mul (dirUrl st ns) (R (b!"http") [.atom n]) = .ok (R (b!"http") [.atom n]) := by
  have e : R (b!"http") [.atom n] = .concat (.root (b!"http")) (.atom n) := R_cons _ _ (by simp)
  rw [e, mul.eq_def, if_pos (show topRoot _ = true from rfl)]
  cases st with
  | cwd =>
    match ns with
    | [] => rfl
    | [x] => rfl
    | x :: y :: l => rfl
  | top =>
    by_cases hn : ns = []
    · subst hn; rfl
    · rw [dirUrl, R_cons _ _ (by simpa using hn)]; rfl
  | file => exact absurd rfl hst

/-- A directory whose name starts with `www.` is left out, with everything in it: here a directory that has nothing but such
directories. -/
theorem C85_www_violated (st : Start) (hst : st ≠ .file) (w : Stat) (ls : Bytes → List Bytes) (env : Env) (f k type : Nat) (ht : type ≠ 3)
    (pre ns l : List Bytes) (hp : ∀ x ∈ pre, Plain x) (h : ∀ x ∈ ns, Plain x)
    (hl : ∀ n ∈ l, FileName n ∧ c! ':' ∉ n ∧ (b!"www.") <+: n)
    (e : ls (dirText st ns) = l.map fun n => b!"/" ++ text (pre ++ ns ++ [n])) (hd : kind w (dirText st ns) = some .dir) :
    subdirectories w ls (general env (f + 1) type) (k + 1) (dirUrl st ns) = .ok (dirUrl st ns) := by
  have hname : ∀ n ∈ l, FileName n ∧ Name n ∧ c! ':' ∉ n := by
    intro n hn
    obtain ⟨h1, h2, t, rfl⟩ := hl n hn
    exact ⟨h1, ⟨h1.nonempty, h1.not_here, h1.no_slash, by simp, by simp⟩, h2⟩
  rw [subdirectories_single _ _ _ _ _ (dirUrl_single st (files h)).1, isDirectory_dirUrl st w (files h), hd, Res.ok_bind,
    if_pos (by simp), readDirectory_dirUrl st w ls env f type pre l ns hp h hname e hd, Res.ok_bind]
  dsimp only
  clear e
  induction l with
  | nil => rfl
  | cons n l ih =>
    obtain ⟨h1, h2, h3⟩ := hl n (by simp)
    have hdot : An.starts n (b!".") = .ok false := by
      rw [starts_eq]
      obtain ⟨t, rfl⟩ := h3
      rfl
    rw [subLoop, hdot, Res.ok_bind, if_neg (by simp), sys_www env f type h1 (hname n (by simp)).2.1 h2 h3 ht, Res.ok_bind,
      mul_web hst n, Res.ok_bind, not_local_directory w (by rw [R_cons _ _ (by simp)]; rfl), Res.ok_bind, if_neg (by simp)]
    exact ih (fun m hm => hl m (by simp [hm])) (fun m hm => hname m (by simp [hm]))

example : FileName (b!"www.gnu.org") ∧ c! ':' ∉ b!"www.gnu.org" ∧ (b!"www.") <+: b!"www.gnu.org" :=
  ⟨⟨by decide, by decide, by decide, by decide, by decide, by decide⟩, by decide, by decide⟩

/-! ## C88: temporary files -/

theorem undash (s : Bytes) (ps : List Bytes) (h : An.Cuts (b!"-") s ps) :
    An.join (b!"_") ps = s.map fun c => if c = c! '-' then c! '_' else c := by
  have hno : ∀ s : Bytes, (∀ p, p < s.length → ¬ An.OccursAt (b!"-") s p) → (s.map fun c => if c = c! '-' then c! '_' else c) = s := by
    intro s hs
    refine (List.map_congr_left fun c hc => ?_).trans (List.map_id s)
    rw [if_neg]
    · rfl
    · rintro rfl
      obtain ⟨a, b, rfl⟩ := List.append_of_mem hc
      exact hs a.length (by simp) ⟨a, b, by simp, rfl⟩
  induction h with
  | last s h => rw [hno s fun p _ => h p]; simp [An.join]
  | cut p rest ps h hr ih =>
    have hp : (p.map fun c => if c = c! '-' then c! '_' else c) = p := by
      apply hno
      rintro q hq ⟨a, b, e, hl⟩
      refine h q hq ⟨a, b ++ b!"-" ++ rest, ?_, hl⟩
      rw [e]; simp
    rw [List.map_append, List.map_append, hp, ← ih]
    cases hr <;> simp [An.join]

/-- The name of the temporary file for an identifier. -/
def tempName (suffix id : Bytes) : Bytes :=
  (id.map fun c => if c = c! '-' then c! '_' else c) ++ if suffix = [] then [] else b!"." ++ suffix

/-- `url_temp` gives the name of a file that is not there: with `_` for `-` in the identifier and the suffix after a dot,
for the first identifier for which there is none. (If none of the identifiers will do, it goes on.)
Missing: files of two gigabytes and more, see `C88_temp_violated`. -/
theorem C88_temp_partial (st : Start) (w : Stat) (env : Env) (f type : Nat) (ns : List Bytes) (h : ∀ x ∈ ns, Plain x) (suffix : Bytes)
    (ids : List Bytes) (hi : ∀ id ∈ ids, Plain (tempName suffix id))
    (hs : ∀ p i, w p = some i → i.size < 2 ^ 31) :
    urlTemp w (general env (f + 1) type) (dirUrl st ns) suffix ids =
      match ids.find? fun id => (w (dirText st (ns ++ [tempName suffix id]))).isNone with
      | some id => .ok (dirUrl st (ns ++ [tempName suffix id]))
      | none => .hang := by
  induction ids with
  | nil => rfl
  | cons id ids ih =>
    have hid := hi id (by simp)
    obtain ⟨ps, e, hc⟩ := SearchProps.C21_replace id (b!"-") (b!"_") (by decide) (id.length + 1) (by omega)
    have en : (if suffix = [] then An.join (b!"_") ps else An.join (b!"_") ps ++ b!"." ++ suffix) = tempName suffix id := by
      rw [undash id ps hc, tempName]
      split <;> simp
    have hp := files (snoc_plain h hid)
    rw [urlTemp, e, Res.ok_bind, en, sys_plain env f type hid, Res.ok_bind, mul_dirUrl st hp, Res.ok_bind, List.find?_cons]
    cases hw : w (dirText st (ns ++ [tempName suffix id])) with
    | none =>
      rw [((C86_size_partial st w _ hp).1 hw).1, Res.ok_bind, if_pos rfl]
      rfl
    | some i =>
      rw [((C86_size_partial st w _ hp).2.1 i hw (hs _ i hw)).1, Res.ok_bind, if_neg (by omega),
        ih fun id hid => hi id (by simp [hid])]
      rfl

/-- A file of 4 gigabytes less one byte counts as missing: `url_temp` gives its name. -/
theorem C88_temp_violated (st : Start) (w : Stat) (env : Env) (f type : Nat) (ns : List Bytes) (h : ∀ x ∈ ns, Plain x) (suffix id : Bytes)
    (ids : List Bytes) (hi : Plain (tempName suffix id)) (i : Info)
    (hw : w (dirText st (ns ++ [tempName suffix id])) = some i) (hs : i.size = 2 ^ 32 - 1) :
    urlTemp w (general env (f + 1) type) (dirUrl st ns) suffix (id :: ids) = .ok (dirUrl st (ns ++ [tempName suffix id])) := by
  obtain ⟨ps, e, hc⟩ := SearchProps.C21_replace id (b!"-") (b!"_") (by decide) (id.length + 1) (by omega)
  have en : (if suffix = [] then An.join (b!"_") ps else An.join (b!"_") ps ++ b!"." ++ suffix) = tempName suffix id := by
    rw [undash id ps hc, tempName]
    split <;> simp
  have hp := files (snoc_plain h hi)
  rw [urlTemp, e, Res.ok_bind, en, sys_plain env f type hi, Res.ok_bind, mul_dirUrl st hp, Res.ok_bind,
    (C86_size_violated st w _ hp i hw).1 hs, Res.ok_bind, if_pos rfl]

example : Plain (tempName (b!"tmp") (b!"1b4e28ba-2fa1")) ∧ tempName (b!"tmp") (b!"1b4e28ba-2fa1") = b!"1b4e28ba_2fa1.tmp" :=
  ⟨⟨⟨by decide, by decide, by decide, by decide, by decide, by decide⟩, by decide, by decide, by decide, by decide, by decide⟩, by decide⟩

end Lolly.DirsProps
