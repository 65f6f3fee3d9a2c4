import Verif.System.DirsProps
import Verif.System.UrlAltLemmas

set_option autoImplicit false

/-!
# C84, C86, C87: alternatives and properties of files
-/

namespace Lolly.DirsProps

open Lolly.Url Lolly.Files Lolly.Dirs

/-! ## C84: alternatives -/

theorem onEach_item {S : Type} (act : S → Bytes → S) (s : S) (i : Item) (h : i.Ok) :
    onEach act s i.url = .ok (i.name.toList.foldl act s) := by
  cases i with
  | path st ns =>
    have := onEach_dirUrl act s st h.2 h.1
    simpa [Item.url, Item.name] using this
  | web p ns =>
    obtain ⟨h1, h2, h3, h4⟩ := h
    simp only [Item.url, Item.name]
    have e : R p (ns.map .atom) = .concat (.root p) (P (ns.map .atom)) := R_cons _ _ (by simpa using h3)
    rw [e, onEach, if_neg]
    · rfl
    · simp [isLocalAndSingle, protocol, h1, h2]
  | _ => rfl

theorem single_item (i : Item) (h : i.Ok) : Single i.url := by
  have hR : ∀ p l, Single (R p l) := by
    intro p l
    unfold R
    split
    · exact ⟨rfl, by simp⟩
    · exact ⟨rfl, by simp⟩
  cases i with
  | path st ns =>
    cases st with
    | cwd =>
      simp only [Item.url, dirUrl]
      obtain ⟨h1, h2⟩ := h
      have he := elems h2
      refine ⟨?_, P_ne_none he⟩
      match ns, h1 with
      | [x], _ => rfl
      | x :: y :: l, _ => rfl
    | top => exact hR _ _
    | file => exact hR _ _
  | web p ns => exact hR _ _
  | _ => exact ⟨rfl, by simp [Item.url]⟩

theorem onEach_orOf {S : Type} (act : S → Bytes → S) (s : S) (l : List Item) (h : ∀ i ∈ l, i.Ok) :
    onEach act s (orOf (l.map Item.url)) = .ok ((l.filterMap Item.name).foldl act s) := by
  induction l generalizing s with
  | nil => rfl
  | cons i l ih =>
    have hi := h i (by simp)
    have hl : ∀ j ∈ l, j.Ok := fun j hj => h j (by simp [hj])
    by_cases hn : l = []
    · subst hn
      show onEach act s i.url = _
      rw [onEach_item act s i hi]
      cases h : i.name <;> simp [h]
    · rw [List.map_cons, orOf_cons _ _ (by simpa using hn), onEach, onEach_item act s i hi, Res.ok_bind, ih _ hl]
      cases h : i.name <;> simp [h]

theorem foldl_alt_from (m l : List Url) (hm : ∀ x ∈ m, Single x) (hl : ∀ x ∈ l, Single x) (hn : m ≠ []) :
    l.foldl alt (orOf (merge m)) = orOf (merge (m ++ l)) := by
  induction l generalizing m with
  | nil => simp
  | cons x l ih =>
    have hx : Single x := hl x (by simp)
    have := alt_merge hm (m := [x]) (by simpa using hx) hn (by simp)
    rw [merge_singleton, orOf] at this
    rw [List.foldl_cons, this, ih (m ++ [x]) _ (fun y hy => hl y (by simp [hy])) (by simp)]
    · simp
    · intro y hy
      rcases List.mem_append.1 hy with hy | hy
      · exact hm y hy
      · simp at hy; exact hy ▸ hx

theorem foldl_alt (l : List Url) (h : ∀ x ∈ l, Single x) : l.foldl alt .none = orOf (merge l) := by
  cases l with
  | nil => rfl
  | cons x l =>
    have hx : Single x := h x (by simp)
    have := foldl_alt_from [x] l (by simpa using hx) (fun y hy => h y (by simp [hy])) (by simp)
    rw [merge_singleton, orOf] at this
    rw [List.foldl_cons, alt.eq_def, if_pos rfl]
    exact this

theorem dirUrl_inj {s t : Start} {ns ms : List Bytes} (h1 : ns ≠ []) (h2 : ∀ x ∈ ns, FileName x) (h3 : ms ≠ [])
    (h4 : ∀ x ∈ ms, FileName x) (e : dirUrl s ns = dirUrl t ms) : s = t ∧ ns = ms := by
  have inj : ∀ {l m : List Bytes}, l.map Url.atom = m.map Url.atom → l = m := fun e =>
    (List.map_inj_right fun _ _ e => by injection e).1 e
  have hR : ∀ p q : Bytes, R p (ns.map .atom) = R q (ms.map .atom) → p = q ∧ ns = ms := by
    intro p q e
    rw [R_cons _ _ (by simpa using h1), R_cons _ _ (by simpa using h3)] at e
    injection e with e1 e2
    injection e1 with e1
    exact ⟨e1, inj (P_inj (elems h2) (elems h4) e2)⟩
  have hP : ∀ (p : Bytes) {l m : List Bytes}, m ≠ [] → P (l.map .atom) ≠ R p (m.map .atom) := by
    intro p l m h e
    rw [R_cons _ _ (by simpa using h)] at e
    match l with
    | [] => simp [P, here] at e
    | [x] => simp [P] at e
    | x :: y :: l => simp [P] at e
  cases s <;> cases t <;> simp only [dirUrl] at e
  · exact ⟨rfl, inj (P_inj (elems h2) (elems h4) e)⟩
  · exact absurd e (hP _ h3)
  · exact absurd e (hP _ h3)
  · exact absurd e.symm (hP _ h1)
  · exact ⟨rfl, (hR _ _ e).2⟩
  · exact absurd (hR _ _ e).1 (by decide)
  · exact absurd e.symm (hP _ h1)
  · exact absurd (hR _ _ e).1 (by decide)
  · exact ⟨rfl, (hR _ _ e).2⟩

theorem item_inj {i j : Item} (hi : i.Ok) (hj : j.Ok) (e : i.url = j.url) : i = j := by
  have hw : ∀ {p : Bytes} {ns : List Bytes}, ns ≠ [] → ∃ u, R p (ns.map .atom) = .concat (.root p) u := fun {p ns} h =>
    ⟨P (ns.map .atom), R_cons _ _ (by simpa using h)⟩
  have hp : ∀ {st : Start} {ns : List Bytes}, ns ≠ [] → (∃ a, dirUrl st ns = .atom a) ∨ (∃ a u, dirUrl st ns = .concat (.atom a) u) ∨
      (∃ u, dirUrl st ns = .concat (.root (b!"default")) u) ∨ ∃ u, dirUrl st ns = .concat (.root (b!"file")) u := by
    intro st ns h
    cases st with
    | cwd =>
      match ns, h with
      | [x], _ => exact .inl ⟨x, rfl⟩
      | x :: y :: l, _ => exact .inr (.inl ⟨x, _, rfl⟩)
    | top => exact .inr (.inr (.inl (hw h)))
    | file => exact .inr (.inr (.inr (hw h)))
  have hpw : ∀ {st : Start} {ns ms : List Bytes} {p : Bytes}, ns ≠ [] → ms ≠ [] → p ≠ b!"default" → p ≠ b!"file" →
      dirUrl st ns ≠ R p (ms.map .atom) := by
    intro st ns ms p h1 h2 h3 h4 e
    obtain ⟨u, eu⟩ := hw (p := p) h2
    rw [eu] at e
    rcases hp (st := st) h1 with ⟨a, h⟩ | ⟨a, v, h⟩ | ⟨v, h⟩ | ⟨v, h⟩ <;> rw [h] at e <;> simp at e
    · exact h3 e.1.symm
    · exact h4 e.1.symm
  cases i with
  | path st ns =>
    cases j with
    | path t ms =>
      obtain ⟨rfl, rfl⟩ := dirUrl_inj hi.1 hi.2 hj.1 hj.2 e
      rfl
    | web p ms => exact absurd e (hpw hi.1 hj.2.2.1 hj.1 hj.2.1)
    | _ =>
      simp only [Item.url] at e
      rcases hp (st := st) hi.1 with ⟨a, h⟩ | ⟨a, v, h⟩ | ⟨v, h⟩ | ⟨v, h⟩ <;> rw [h] at e <;> simp at e
  | web p ns =>
    cases j with
    | path t ms => exact absurd e.symm (hpw hj.1 hi.2.2.1 hi.1 hi.2.1)
    | web q ms =>
      obtain ⟨_, _, h1, h2⟩ := hi
      obtain ⟨_, _, h3, h4⟩ := hj
      simp only [Item.url] at e
      rw [R_cons _ _ (by simpa using h1), R_cons _ _ (by simpa using h3)] at e
      injection e with e1 e2
      injection e1 with e1
      have := P_inj (elems h2) (elems h4) e2
      rw [e1, (List.map_inj_right fun _ _ e => by injection e).1 this]
    | _ =>
      obtain ⟨u, eu⟩ := hw (p := p) hi.2.2.1
      simp only [Item.url] at e
      rw [eu] at e
      simp at e
  | _ =>
    cases j with
    | path t ms =>
      simp only [Item.url] at e
      rcases hp (st := t) hj.1 with ⟨a, h⟩ | ⟨a, v, h⟩ | ⟨v, h⟩ | ⟨v, h⟩ <;> rw [h] at e <;> simp at e
    | web p ms =>
      obtain ⟨u, eu⟩ := hw (p := p) hj.2.2.1
      simp only [Item.url] at e
      rw [eu] at e
      simp at e
    | _ => simp_all [Item.url]

theorem merge_map_url (l : List Item) (h : ∀ i ∈ l, i.Ok) : merge (l.map Item.url) = (merge l).map Item.url := by
  induction l with
  | nil => rfl
  | cons x A ih =>
    show ins x.url (merge (A.map Item.url)) = (ins x (merge A)).map Item.url
    rw [ih fun y hy => h y (by simp [hy])]
    unfold ins
    have hx := h x (by simp)
    by_cases hh : (merge A).head? = some x
    · rw [if_pos hh, if_pos (by simp [hh])]
    · rw [if_neg hh, if_neg, List.map_cons]
      intro e
      rw [List.head?_map] at e
      cases h0 : (merge A).head? with
      | none => rw [h0] at e; simp at e
      | some y =>
        rw [h0] at e
        simp only [Option.map_some, Option.some.injEq] at e
        have hy := h y (by simp [(mem_merge y A).1 (List.mem_of_mem_head? h0)])
        exact hh (by rw [h0, item_inj hy hx e])

/-- `mkdir`, `rmdir` and `remove` of `u1 | u2 | ...` act on the paths of the file system among them, one after the other,
and on nothing else. (Of equal neighbours `|` keeps one.) -/
theorem C84_each {S : Type} (act : S → Bytes → S) (s : S) (l : List Item) (h : ∀ i ∈ l, i.Ok) :
    onEach act s ((l.map Item.url).foldl alt .none) = .ok (((merge l).filterMap Item.name).foldl act s) := by
  rw [foldl_alt _ (by
    intro x hx
    obtain ⟨i, hi, rfl⟩ := List.mem_map.1 hx
    exact single_item i (h i hi)), merge_map_url l h]
  exact onEach_orOf act s _ fun i hi => h i ((mem_merge i l).1 hi)

/-- So `remove`, where it succeeds, removes exactly the named files. -/
theorem C84_remove (w : Stat) (l : List Item) (h : ∀ i ∈ l, i.Ok) :
    ∃ w', onEach (fun w p q => if q = p then none else w q) w ((l.map Item.url).foldl alt .none) = .ok w' ∧
      ∀ q, w' q = if some q ∈ l.map Item.name then none else w q := by
  refine ⟨_, C84_each _ w l h, fun q => ?_⟩
  have key : ∀ (m : List Bytes) (w : Stat), m.foldl (fun (w : Stat) p q => if q = p then none else w q) w q =
      if q ∈ m then none else w q := by
    intro m
    induction m with
    | nil => simp
    | cons p m ih =>
      intro w
      rw [List.foldl_cons, ih]
      by_cases h1 : q ∈ m <;> by_cases h2 : q = p <;> simp [h1, h2]
  rw [key]
  have : q ∈ (merge l).filterMap Item.name ↔ some q ∈ l.map Item.name := by
    simp [mem_merge]
  simp only [this]

/-- A mixture: two local paths, one twice, and a page of the web. -/
example : ∀ i ∈ [Item.path .cwd [b!"a"], .path .cwd [b!"a"], .web (b!"http") [b!"gnu.org"], .path .file [b!"b", b!"c"]], i.Ok := by
  intro i hi
  simp only [List.mem_cons, List.not_mem_nil, or_false] at hi
  have fn : ∀ s ∈ [b!"a", b!"gnu.org", b!"b", b!"c"], FileName s := by
    intro s hs
    simp only [List.mem_cons, List.not_mem_nil, or_false] at hs
    rcases hs with rfl | rfl | rfl | rfl <;> exact ⟨by decide, by decide, by decide, by decide, by decide, by decide⟩
  rcases hi with rfl | rfl | rfl | rfl
  · exact ⟨by simp, fun x hx => fn x (by simp at hx; simp [hx])⟩
  · exact ⟨by simp, fun x hx => fn x (by simp at hx; simp [hx])⟩
  · exact ⟨by decide, by decide, by simp, fun x hx => fn x (by simp at hx; simp [hx])⟩
  · exact ⟨by simp, fun x hx => fn x (by simp at hx; rcases hx with rfl | rfl <;> simp)⟩

/-! ## C86: sizes and times -/

theorem fileSize_dirUrl (st : Start) (w : Stat) {ns : List Bytes} (h : ∀ x ∈ ns, FileName x) :
    fileSize w (dirUrl st ns) = .ok (match w (dirText st ns) with | some i => toInt32 i.size | none => -1) := by
  rw [fileSize, dirUrl_local, asLocalPath_dirUrl st h]
  simp only [Bool.not_true, Bool.false_eq_true, if_false, Res.ok_bind, cname_dirText st h]
  cases w (dirText st ns) <;> rfl

theorem lastModified_dirUrl (st : Start) (w : Stat) {ns : List Bytes} (h : ∀ x ∈ ns, FileName x) :
    lastModified w (dirUrl st ns) = .ok (match w (dirText st ns) with | some i => toInt32 i.mtime | none => -1) := by
  rw [lastModified, dirUrl_local, asLocalPath_dirUrl st h]
  simp only [Bool.not_true, Bool.false_eq_true, if_false, Res.ok_bind, cname_dirText st h]
  cases w (dirText st ns) <;> rfl

theorem toInt32_eq {n : Int} (h1 : -2147483648 ≤ n) (h2 : n < 2147483648) : toInt32 n = n := by
  rw [toInt32, BitVec.toInt_ofInt, Int.bmod_def]
  have : (2 : Int) ^ 32 = 4294967296 := rfl
  omega

/-- `file_size` is the size of the file and −1 exactly if there is none, for files below two gigabytes; `last_modified` is
the time of the last change, for times after 1901 and before 2038.
Missing: larger files and later times, see `C86_size_violated` and `C86_modified_violated`. -/
theorem C86_size_partial (st : Start) (w : Stat) (ns : List Bytes) (h : ∀ x ∈ ns, FileName x) :
    (w (dirText st ns) = none → fileSize w (dirUrl st ns) = .ok (-1) ∧ lastModified w (dirUrl st ns) = .ok (-1)) ∧
    (∀ i, w (dirText st ns) = some i → i.size < 2 ^ 31 →
      fileSize w (dirUrl st ns) = .ok (i.size : Int) ∧ fileSize w (dirUrl st ns) ≠ .ok (-1)) ∧
    (∀ i, w (dirText st ns) = some i → -2 ^ 31 ≤ i.mtime → i.mtime < 2 ^ 31 →
      lastModified w (dirUrl st ns) = .ok i.mtime) := by
  rw [fileSize_dirUrl st w h, lastModified_dirUrl st w h]
  refine ⟨fun e => by rw [e]; exact ⟨rfl, rfl⟩, fun i e hs => ?_, fun i e h1 h2 => ?_⟩
  · rw [e]
    dsimp only
    rw [toInt32_eq (by omega) (by omega)]
    refine ⟨rfl, fun e => ?_⟩
    injection e with e
    omega
  · rw [e]
    dsimp only
    rw [toInt32_eq (by omega) (by omega)]

/-- Urls that are not on this computer have neither size nor time. -/
theorem C86_not_local (w : Stat) (i : Item) (h : i.Ok) (hn : i.name = none) (hr : ∀ p, i = .root p → p ≠ b!"default" ∧ p ≠ b!"file") :
    fileSize w i.url = .ok (-1) ∧ lastModified w i.url = .ok (-1) := by
  have : isLocalAndSingle i.url = false := by
    cases i with
    | path => cases hn
    | web p ns =>
      obtain ⟨h1, h2, h3, _⟩ := h
      simp only [Item.url]
      rw [R_cons _ _ (by simpa using h3)]
      simp [isLocalAndSingle, protocol, h1, h2]
    | root p => simp [Item.url, isLocalAndSingle, protocol, hr p rfl]
    | _ => rfl
  simp [fileSize, lastModified, this]

/-- A file of 4 gigabytes less one byte seems to be missing; the size of every file of 2 to 4 gigabytes is negative; a file
of 4 gigabytes seems to be empty. -/
theorem C86_size_violated (st : Start) (w : Stat) (ns : List Bytes) (h : ∀ x ∈ ns, FileName x) (i : Info)
    (hi : w (dirText st ns) = some i) :
    (i.size = 2 ^ 32 - 1 → fileSize w (dirUrl st ns) = .ok (-1)) ∧
    (2 ^ 31 ≤ i.size → i.size < 2 ^ 32 → ∃ v, fileSize w (dirUrl st ns) = .ok v ∧ v < 0) ∧
    (i.size = 2 ^ 32 → fileSize w (dirUrl st ns) = .ok 0) := by
  rw [fileSize_dirUrl st w h, hi]
  dsimp only
  have : (2 : Int) ^ 32 = 4294967296 := rfl
  refine ⟨fun e => by rw [e]; rfl, fun h1 h2 => ⟨_, rfl, ?_⟩, fun e => by rw [e]; rfl⟩
  rw [toInt32, BitVec.toInt_ofInt, Int.bmod_def]
  omega

/-- Changes from 2038-01-19 03:14:08 to 2106-02-07 06:28:15 UTC seem to be before 1970. -/
theorem C86_modified_violated (st : Start) (w : Stat) (ns : List Bytes) (h : ∀ x ∈ ns, FileName x) (i : Info)
    (hi : w (dirText st ns) = some i) (h1 : 2 ^ 31 ≤ i.mtime) (h2 : i.mtime < 2 ^ 32) :
    ∃ v, lastModified w (dirUrl st ns) = .ok v ∧ v < 0 := by
  rw [lastModified_dirUrl st w h, hi]
  refine ⟨_, rfl, ?_⟩
  have : (2 : Int) ^ 32 = 4294967296 := rfl
  dsimp only
  rw [toInt32, BitVec.toInt_ofInt, Int.bmod_def]
  omega

/-- `is_newer` tells whether both exist and the first was changed later. It does so without losing bits. -/
theorem C86_newer (w : Stat) (s t : Start) (ns ms : List Bytes) (h1 : ∀ x ∈ ns, FileName x) (h2 : ∀ x ∈ ms, FileName x) :
    ∃ b, isNewer w (dirUrl s ns) (dirUrl t ms) = .ok b ∧
      (b = true ↔ ∃ i j, w (dirText s ns) = some i ∧ w (dirText t ms) = some j ∧ j.mtime < i.mtime) := by
  rw [isNewer, dirUrl_local, dirUrl_local, asLocalPath_dirUrl s h1, asLocalPath_dirUrl t h2]
  simp only [Bool.not_true, Bool.false_eq_true, if_false, Res.ok_bind, cname_dirText s h1, cname_dirText t h2]
  cases w (dirText s ns) <;> cases w (dirText t ms) <;> simp

/-- `is_newer` is a strict order on all urls. -/
theorem C86_newer_order (w : Stat) : (∀ u, isNewer w u u ≠ .ok true) ∧
    ∀ u v x, isNewer w u v = .ok true → isNewer w v x = .ok true → isNewer w u x = .ok true := by
  have key : ∀ u v, isNewer w u v = .ok true → ∃ p q i j, asLocalPath u = .ok p ∧ asLocalPath v = .ok q ∧
      isLocalAndSingle u = true ∧ isLocalAndSingle v = true ∧ w (cname p) = some i ∧ w (cname q) = some j ∧ j.mtime < i.mtime := by
    intro u v h
    rw [isNewer] at h
    split at h
    · simp at h
    · next h1 =>
      split at h
      · simp at h
      · next h2 =>
        cases e1 : asLocalPath u with
        | ok p =>
          cases e2 : asLocalPath v with
          | ok q =>
            rw [e1, e2] at h
            simp only [Res.ok_bind] at h
            cases e3 : w (cname p) with
            | none => rw [e3] at h; simp at h
            | some i =>
              cases e4 : w (cname q) with
              | none => rw [e3, e4] at h; simp at h
              | some j =>
                rw [e3, e4] at h
                simp at h
                exact ⟨p, q, i, j, rfl, rfl, by simpa using h1, by simpa using h2, e3, e4, h⟩
          | _ => rw [e1, e2] at h; simp at h
        | _ => rw [e1] at h; simp at h
  constructor
  · intro u h
    obtain ⟨p, q, i, j, e1, e2, _, _, e3, e4, hl⟩ := key u u h
    rw [e1] at e2; injection e2 with e2; subst e2
    rw [e3] at e4; injection e4 with e4; subst e4
    omega
  · intro u v x h1 h2
    obtain ⟨p, q, i, j, e1, e2, a, _, e3, e4, hl⟩ := key u v h1
    obtain ⟨p', q', i', j', e1', e2', _, b, e3', e4', hl'⟩ := key v x h2
    rw [e2] at e1'; injection e1' with e1'; subst e1'
    rw [e4] at e3'; injection e3' with e3'; subst e3'
    rw [isNewer, a, b, e1, e2']
    simp only [Bool.not_true, Bool.false_eq_true, if_false, Res.ok_bind, e3, e4']
    have : j'.mtime < i.mtime := by omega
    simp [this]

/-! ## C87: tests of files -/

theorem typeLoop_iff (access : Bytes → Mode → Bool) (p : Bytes) (i : Info) (filter : Bytes) :
    typeLoop access p i filter = true ↔ ∀ c ∈ filter, passes access p i c = true := by
  induction filter with
  | nil => simp [typeLoop]
  | cons c l ih =>
    rw [typeLoop]
    split
    · next h => simp [ih, h]
    · next h => simp [h]

/-- `is_of_type` of a path: the empty filter accepts everything, whether it exists or not; any other filter demands that it
exists and that it passes the tests of all the letters `f` (a file), `d` (a directory), `l` (a link), `r`, `w`, `x` (may
be read, written, executed) in it. Other letters are ignored. -/
theorem C87_type (st : Start) (w : Stat) (access : Bytes → Mode → Bool) (ns : List Bytes) (h : ∀ x ∈ ns, FileName x) (filter : Bytes) :
    ∃ b, isOfType w access (dirUrl st ns) filter = .ok b ∧ (b = true ↔ filter = [] ∨ ∃ i, w (dirText st ns) = some i ∧
      (c! 'f' ∈ filter → i.kind = .file) ∧ (c! 'd' ∈ filter → i.kind = .dir) ∧ (c! 'l' ∈ filter → i.flags = 1) ∧
      (c! 'r' ∈ filter → access (dirText st ns) .ro = true) ∧ (c! 'w' ∈ filter → access (dirText st ns) .wo = true) ∧
      (c! 'x' ∈ filter → access (dirText st ns) .exec = true)) := by
  have hram : isRamdisc (dirUrl st ns) = false := by
    cases st with
    | cwd =>
      match ns with
      | [] => rfl
      | [x] => rfl
      | x :: y :: l => rfl
    | top => simp only [dirUrl, R]; split <;> rfl
    | file => simp only [dirUrl, R]; split <;> rfl
  rw [isOfType, hram, dirUrl_local, asLocalPath_dirUrl st h]
  simp only [Bool.not_true, Bool.false_eq_true, if_false, Res.ok_bind, cname_dirText st h]
  by_cases hf : filter = []
  · rw [if_pos hf]; exact ⟨true, rfl, by simp [hf]⟩
  · rw [if_neg hf]
    cases hw : w (dirText st ns) with
    | none => exact ⟨false, rfl, by simp [hf]⟩
    | some i =>
      refine ⟨_, rfl, ?_⟩
      rw [typeLoop_iff]
      simp only [hf, false_or, Option.some.injEq, exists_eq_left']
      constructor
      · intro h
        refine ⟨fun hc => ?_, fun hc => ?_, fun hc => ?_, fun hc => ?_, fun hc => ?_, fun hc => ?_⟩ <;>
          simpa [passes] using h _ hc
      · rintro ⟨h1, h2, h3, h4, h5, h6⟩ c hc
        unfold passes
        split
        · next e => subst e; simpa using h1 hc
        split
        · next e => subst e; simpa using h2 hc
        split
        · next e => subst e; simpa using h3 hc
        split
        · next e => subst e; simpa using h4 hc
        split
        · next e => subst e; simpa using h5 hc
        split
        · next e => subst e; simpa using h6 hc
        rfl

/-- The tests agree with `is_directory`, `is_regular` and (if being a link is the only flag) `is_symbolic_link` for all urls
but those of the ram disc, for which `is_of_type` always says yes; urls of other computers never pass. -/
theorem C87_agree (w : Stat) (access : Bytes → Mode → Bool) (u : Url) :
    (isRamdisc u = false → isOfType w access u (b!"d") = isDirectory w u ∧ isOfType w access u (b!"f") = isRegularFile w u ∧
      ((∀ p i, w p = some i → i.flags ≤ 1) → isOfType w access u (b!"l") = isSymbolicLink w u)) ∧
    (∀ filter, isRamdisc u = true → isOfType w access u filter = .ok true) ∧
    (∀ filter, isRamdisc u = false → isLocalAndSingle u = false → isOfType w access u filter = .ok false) := by
  refine ⟨fun hr => ⟨?_, ?_, fun hf => ?_⟩, fun filter hr => ?_, fun filter hr hl => ?_⟩
  · rw [isOfType, isDirectory, hr]
    simp only [Bool.false_eq_true, if_false]
    split
    · rfl
    · cases asLocalPath u with
      | ok p => simp only [Res.ok_bind]; cases w (cname p) <;> simp [typeLoop, passes]
      | _ => rfl
  · rw [isOfType, isRegularFile, hr]
    simp only [Bool.false_eq_true, if_false]
    split
    · rfl
    · cases asLocalPath u with
      | ok p => simp only [Res.ok_bind]; cases w (cname p) <;> simp [typeLoop, passes]
      | _ => rfl
  · rw [isOfType, isSymbolicLink, hr]
    simp only [Bool.false_eq_true, if_false]
    split
    · rfl
    · cases asLocalPath u with
      | ok p =>
        simp only [Res.ok_bind]
        cases e : w (cname p) with
        | none => simp
        | some i =>
          have := hf _ i e
          have : i.flags = 0 ∨ i.flags = 1 := by omega
          rcases this with h | h <;> simp [typeLoop, passes, h]
      | _ => rfl
  · rw [isOfType, hr]; rfl
  · rw [isOfType, hr, hl]; rfl

example : isRamdisc (.concat (.root3 (b!"ramdisc") (b!"x")) (.atom (b!"a"))) = true ∧
    isLocalAndSingle (.concat (.root (b!"http")) (.atom (b!"a"))) = false := by decide

end Lolly.DirsProps
