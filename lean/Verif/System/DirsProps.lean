import Verif.System.DirsSpec
import Verif.System.UrlProps
import Verif.System.UrlParseLemmas

set_option autoImplicit false

/-!
# C83: making directories
-/

namespace Lolly.DirsProps

open Lolly.Url Lolly.Files Lolly.Dirs

theorem _root_.Lolly.Dirs.FileName.elem {s : Bytes} (h : FileName s) : Elem (.atom s) :=
  ⟨rfl, by simp [here]; exact h.not_here, by simp; exact h.nonempty⟩

theorem _root_.Lolly.Dirs.FileName.ne_parent {s : Bytes} (h : FileName s) : Url.atom s ≠ parent := by
  simp [parent]; exact h.not_up

theorem elems {ns : List Bytes} (h : ∀ x ∈ ns, FileName x) : ∀ y ∈ ns.map Url.atom, Elem y := by
  intro y hy
  obtain ⟨x, hx, rfl⟩ := List.mem_map.1 hy
  exact (h x hx).elem

theorem no_parent {ns : List Bytes} (h : ∀ x ∈ ns, FileName x) : parent ∉ ns.map Url.atom := by
  intro hy
  obtain ⟨x, hx, e⟩ := List.mem_map.1 hy
  exact (h x hx).ne_parent e

theorem map_atom {ns : List Bytes} (h : ∀ x ∈ ns, FileName x) : ns.map Url.atom = ns.map elemOf := by
  apply List.map_congr_left
  intro x hx
  simp [elemOf, (h x hx).no_star]

theorem no_star {ns : List Bytes} (h : ∀ x ∈ ns, FileName x) : ∀ x ∈ ns.dropLast, c! '*' ∉ x :=
  fun x hx => (h x (List.dropLast_subset _ hx)).no_star

/-- The head of a directory is the one above. -/
theorem head_dirUrl (st : Start) {ns : List Bytes} {n : Bytes} (h : ∀ x ∈ ns ++ [n], FileName x) :
    head (dirUrl st (ns ++ [n])) = .ok (dirUrl st ns) := by
  have h1 : ∀ x ∈ ns, FileName x := fun x hx => h x (by simp [hx])
  have h2 : FileName n := h n (by simp)
  cases st with
  | cwd =>
    simp only [dirUrl, List.map_append, List.map_cons, List.map_nil]
    exact (UrlProps.C47_path _ _ (elems h1) h2.elem (normal_of_no_parent (no_parent h1)) h2.ne_parent).1
  | top =>
    simp only [dirUrl, List.map_append, List.map_cons, List.map_nil]
    exact (UrlProps.C47_rooted _ _ _ (elems h1) h2.elem (no_parent h1) h2.ne_parent (fun e => absurd e (by decide))).1
  | file =>
    simp only [dirUrl, List.map_append, List.map_cons, List.map_nil]
    exact (UrlProps.C47_rooted _ _ _ (elems h1) h2.elem (no_parent h1) h2.ne_parent (fun e => absurd e (by decide))).1

theorem dirUrl_local (st : Start) (ns : List Bytes) : isLocalAndSingle (dirUrl st ns) = true := by
  have hR : ∀ r : Bytes, (r = b!"default" ∨ r = b!"file") → ∀ l, isLocalAndSingle (R r l) = true := by
    intro r hr l
    unfold R
    split <;> rcases hr with rfl | rfl <;> rfl
  cases st with
  | cwd =>
    match ns with
    | [] => rfl
    | [x] => rfl
    | x :: y :: l => rfl
  | top => exact hR _ (.inl rfl) _
  | file => exact hR _ (.inr rfl) _

theorem asLocalPath_dirUrl (st : Start) {ns : List Bytes} (h : ∀ x ∈ ns, FileName x) :
    asLocalPath (dirUrl st ns) = .ok (dirText st ns) := by
  have hR : asString (R (b!"default") (ns.map Url.atom)) = b!"/" ++ text ns := by
    by_cases hn : ns = []
    · subst hn; rfl
    · rw [map_atom h, asString_R _ ns (no_star h) hn]; simp
  cases st with
  | cwd =>
    have : isRootedS (b!"file") (dirUrl .cwd ns) = false := by
      match ns with
      | [] => rfl
      | [x] => rfl
      | x :: y :: l => rfl
    rw [asLocalPath, this]
    simp only [dirUrl, dirText, Bool.false_eq_true, if_false]
    by_cases hn : ns = []
    · subst hn; rfl
    · rw [if_neg hn, map_atom h, asString_P ns (no_star h) hn]
  | top =>
    have : isRootedS (b!"file") (dirUrl .top ns) = false := by
      simp only [dirUrl]; unfold R; split <;> rfl
    rw [asLocalPath, this]
    simp only [dirUrl, dirText, Bool.false_eq_true, if_false]
    rw [hR]
  | file =>
    have : isRootedS (b!"file") (dirUrl .file ns) = true := by
      simp only [dirUrl]; unfold R; split <;> rfl
    have e : reroot (b!"default") (dirUrl .file ns) = .ok (R (b!"default") (ns.map Url.atom)) := by
      simp only [dirUrl]
      by_cases hn : ns = []
      · subst hn; rfl
      · rw [R_cons _ _ (by simpa using hn), reroot]
        simp only [reroot, Res.ok_bind]
        rw [mul_root_P _ (elems h), strip_eq_self]
        intro e
        exact no_parent h (List.mem_of_mem_head? e)
    rw [asLocalPath, this, if_pos rfl, e, Res.ok_bind, hR]
    rfl

theorem cname_eq {p : Bytes} (h : (0 : UInt8) ∉ p) : cname p = p := by
  unfold cname
  have := List.takeWhile_append_of_pos (p := fun c : UInt8 => decide (c ≠ 0)) (l₁ := p) (l₂ := [])
    (by intro a ha; simp; intro e; exact h (e ▸ ha))
  simpa using this

theorem nul_text {ns : List Bytes} (h : ∀ x ∈ ns, FileName x) : (0 : UInt8) ∉ text ns := by
  induction ns with
  | nil => simp [text, An.join]
  | cons x ns ih =>
    by_cases hn : ns = []
    · subst hn; simpa [text, An.join] using (h x (by simp)).no_nul
    · rw [text_cons x ns hn]
      simp only [List.mem_append, not_or]
      exact ⟨⟨(h x (by simp)).no_nul, by decide⟩, ih fun y hy => h y (by simp [hy])⟩

theorem cname_dirText (st : Start) {ns : List Bytes} (h : ∀ x ∈ ns, FileName x) : cname (dirText st ns) = dirText st ns := by
  apply cname_eq
  have := nul_text h
  cases st with
  | cwd =>
    simp only [dirText]
    split
    · decide
    · exact this
  | _ => simp [dirText, this]

theorem isDirectory_dirUrl (st : Start) (w : Stat) {ns : List Bytes} (h : ∀ x ∈ ns, FileName x) :
    isDirectory w (dirUrl st ns) = .ok (decide (kind w (dirText st ns) = some .dir)) := by
  rw [isDirectory, dirUrl_local, asLocalPath_dirUrl st h]
  simp only [Bool.not_true, Bool.false_eq_true, if_false, Res.ok_bind]
  rw [cname_dirText st h, kind]
  cases w (dirText st ns) <;> simp

theorem dirUrl_ne_none (st : Start) {ns : List Bytes} (h : ∀ x ∈ ns, FileName x) : isNone (dirUrl st ns) = false := by
  rw [isNone_eq]
  have hR : ∀ r l, R r l ≠ .none := by intro r l; unfold R; split <;> simp
  cases st with
  | cwd => exact decide_eq_false (P_ne_none (elems h))
  | _ => exact decide_eq_false (hR _ _)

/-- `mkdir` of a path that is not the top one. -/
theorem onEach_dirUrl {S : Type} (act : S → Bytes → S) (s : S) (st : Start) {ns : List Bytes} (h : ∀ x ∈ ns, FileName x)
    (hn : ns ≠ []) : onEach act s (dirUrl st ns) = .ok (act s (dirText st ns)) := by
  have hl := dirUrl_local st ns
  have hp := asLocalPath_dirUrl st h
  have : (∃ l, dirUrl st ns = .atom l) ∨ ∃ a b, dirUrl st ns = .concat a b := by
    cases st with
    | cwd =>
      match ns, hn with
      | [x], _ => exact .inl ⟨x, rfl⟩
      | x :: y :: l, _ => exact .inr ⟨_, _, rfl⟩
    | top => exact .inr ⟨_, _, R_cons _ _ (by simpa using hn)⟩
    | file => exact .inr ⟨_, _, R_cons _ _ (by simpa using hn)⟩
  rcases this with ⟨l, e⟩ | ⟨a, b, e⟩
  · rw [e] at hl hp ⊢
    rw [onEach, if_pos hl, hp, Res.ok_bind, cname_dirText st h]
  · rw [e] at hl hp ⊢
    rw [onEach, if_pos hl, hp, Res.ok_bind, cname_dirText st h]

/-- Different paths have different texts. -/
theorem dirText_inj (st : Start) {ns ms : List Bytes} (h1 : ∀ x ∈ ns, FileName x) (h2 : ∀ x ∈ ms, FileName x)
    (e : dirText st ns = dirText st ms) : ns = ms := by
  have comp : ∀ l : List Bytes, (∀ x ∈ l, FileName x) → l ≠ [] → components (text l) 0 = l := fun l hl hn =>
    components_at [] l (fun x hx => ⟨(hl x hx).nonempty, (hl x hx).no_slash⟩) hn
  have nonempty : ∀ l : List Bytes, (∀ x ∈ l, FileName x) → l ≠ [] → text l ≠ [] := fun l hl hn =>
    text_ne_nil (fun x hx => (hl x hx).nonempty) hn
  have key : text ns = text ms → ns = ms := by
    intro e
    by_cases hn : ns = []
    · by_cases hm : ms = []
      · rw [hn, hm]
      · exact absurd (by rw [← e, hn]; rfl) (nonempty ms h2 hm)
    · by_cases hm : ms = []
      · exact absurd (by rw [e, hm]; rfl) (nonempty ns h1 hn)
      · rw [← comp ns h1 hn, ← comp ms h2 hm, e]
  have dot : ∀ l : List Bytes, (∀ x ∈ l, FileName x) → l ≠ [] → text l ≠ b!"." := by
    intro l hl hn e
    have h3 := comp l hl hn
    rw [e] at h3
    have h4 : components (b!".") 0 = [b!"."] := by
      have := components_at [] [b!"."] (by intro x hx; simp at hx; subst hx; decide) (by simp)
      exact this
    rw [h4] at h3
    exact (hl (b!".") (by rw [← h3]; simp)).not_here rfl
  cases st with
  | cwd =>
    simp only [dirText] at e
    split at e
    · next hn =>
      split at e
      · next hm => rw [hn, hm]
      · next hm => exact absurd e.symm (dot ms h2 hm)
    · next hn =>
      split at e
      · exact absurd e (dot ns h1 hn)
      · exact key e
  | top => exact key (by simpa [dirText] using e)
  | file => exact key (by simpa [dirText] using e)

/-! ## C83: making directories -/

theorem consistent_take {st : Start} {w : Stat} (hw : Consistent st w) {ns ms : List Bytes} (h : ∀ x ∈ ns ++ ms, FileName x)
    (hd : kind w (dirText st (ns ++ ms)) ≠ none) (hm : ms ≠ []) : kind w (dirText st ns) = some .dir := by
  induction ms generalizing ns with
  | nil => exact absurd rfl hm
  | cons m ms ih =>
    by_cases hms : ms = []
    · subst hms
      exact hw ns m h hd
    · have := ih (ns := ns ++ [m]) (by simpa using h) (by simpa using hd) hms
      exact hw ns m (fun x hx => h x (by simp at hx ⊢; rcases hx with hx | hx <;> simp [hx])) (by simp [this])

/-- A directory below a directory. -/
theorem consistent_fresh {st : Start} {w w' : Stat} (hw : Consistent st w) {ns : List Bytes} {n : Bytes}
    (h : ∀ x ∈ ns ++ [n], FileName x) (hd : kind w (dirText st ns) = some .dir)
    (e : ∀ q, kind w' q = if q = dirText st (ns ++ [n]) then some .dir else kind w q) : Consistent st w' := by
  intro ms m hm hk
  rw [e] at hk
  split at hk
  · next he =>
    have := dirText_inj st hm h he
    have hms : ms = ns := by have := congrArg List.dropLast this; simpa using this
    rw [e, hms]
    split
    · rfl
    · exact hd
  · rw [e]
    split
    · rfl
    · exact hw ms m hm hk

/-- The state after the directories along `ns` were made. -/
theorem makeDir_spec (st : Start) (create : Stat → Bytes → Stat) (hc : Creates st create) (w : Stat)
    (hw : Consistent st w) (htop : kind w (dirText st []) = some .dir) (k : Nat) (ns : List Bytes) (hk : ns.length = k)
    (h : ∀ x ∈ ns, FileName x) (f : Nat) (hf : ns.length < f) : ∃ w', makeDir create f w (dirUrl st ns) = .ok w' ∧ Consistent st w' ∧
      ((∀ i ≤ ns.length, kind w (dirText st (ns.take i)) = none ∨ kind w (dirText st (ns.take i)) = some .dir) →
        (∀ i ≤ ns.length, kind w' (dirText st (ns.take i)) = some .dir) ∧
        ∀ q, (∀ i ≤ ns.length, q ≠ dirText st (ns.take i)) → kind w' q = kind w q) ∧
      ((∃ i ≤ ns.length, kind w (dirText st (ns.take i)) ≠ none ∧ kind w (dirText st (ns.take i)) ≠ some .dir) →
        ∀ q, kind w' q = kind w q) := by
  induction k generalizing ns f with
  | zero =>
    have hn : ns = [] := List.length_eq_zero_iff.1 hk
    subst hn
    match f, hf with
    | f + 1, _ =>
      refine ⟨w, ?_, hw, fun _ => ⟨fun i hi => by simpa using htop, fun q _ => rfl⟩, fun _ q => rfl⟩
      rw [makeDir, dirUrl_ne_none st h, isDirectory_dirUrl st w h]
      simp [htop]
  | succ k ih =>
    obtain ⟨ms, n, rfl⟩ : ∃ ms n, ns = ms ++ [n] := by
      have hne : ns ≠ [] := by intro e; subst e; simp at hk
      exact ⟨ns.dropLast, ns.getLast hne, (List.dropLast_concat_getLast hne).symm⟩
    have hms : ∀ x ∈ ms, FileName x := fun x hx => h x (by simp [hx])
    have hlen : ms.length = k := by simpa using hk
    have tk : ∀ i ≤ ms.length, (ms ++ [n]).take i = ms.take i := fun i hi => by
      rw [List.take_append_of_le_length hi]
    have tl : (ms ++ [n]).take (ms ++ [n]).length = ms ++ [n] := List.take_length
    have split_i : ∀ i ≤ (ms ++ [n]).length, i ≤ ms.length ∨ i = (ms ++ [n]).length := by
      intro i hi; simp at hi ⊢; omega
    match f, hf with
    | f + 1, hf =>
      rw [makeDir, dirUrl_ne_none st h, isDirectory_dirUrl st w h]
      simp only [Bool.false_eq_true, if_false, Res.ok_bind, decide_eq_true_eq]
      by_cases hd : kind w (dirText st (ms ++ [n])) = some .dir
      · refine ⟨w, by rw [if_pos hd], hw, fun _ => ⟨fun i hi => ?_, fun q _ => rfl⟩, fun _ q => rfl⟩
        rcases split_i i hi with hi | hi
        · have : ms ++ [n] = (ms ++ [n]).take i ++ (ms ++ [n]).drop i := (List.take_append_drop i _).symm
          refine consistent_take hw (ns := (ms ++ [n]).take i) (ms := (ms ++ [n]).drop i) (by rw [← this]; exact h)
            (by rw [← this, hd]; simp) ?_
          intro e
          have := congrArg List.length e
          simp at this
          omega
        · rw [hi, tl, hd]
      · rw [if_neg hd, head_dirUrl st h, Res.ok_bind]
        obtain ⟨w1, e1, hw1, a1, b1⟩ := ih ms hlen hms f (by simp at hf; omega)
        rw [e1, Res.ok_bind, onEach_dirUrl create w1 st h (by simp)]
        by_cases good : ∀ i ≤ ms.length, kind w (dirText st (ms.take i)) = none ∨ kind w (dirText st (ms.take i)) = some .dir
        · obtain ⟨a1, a2⟩ := a1 good
          have hdir : kind w1 (dirText st ms) = some .dir := by simpa using a1 ms.length (Nat.le_refl _)
          have hsame : kind w1 (dirText st (ms ++ [n])) = kind w (dirText st (ms ++ [n])) := by
            apply a2
            intro i hi e
            have := congrArg List.length (dirText_inj st h (fun x hx => hms x (List.mem_of_mem_take hx)) e)
            simp at this
            omega
          by_cases hfree : kind w (dirText st (ms ++ [n])) = none
          · have e2 := hc.fresh w1 ms n hw1 h hdir (by rw [hsame, hfree])
            refine ⟨_, rfl, consistent_fresh hw1 h hdir e2, fun _ => ⟨fun i hi => ?_, fun q hq => ?_⟩, ?_⟩
            · rw [e2]
              split
              · rfl
              · next hne =>
                rcases split_i i hi with hi | hi
                · rw [tk i hi]; exact a1 i hi
                · rw [hi, tl] at hne; exact absurd rfl hne
            · rw [e2, if_neg, a2]
              · intro i hi
                have := hq i (by simp; omega)
                rwa [tk i hi] at this
              · have := hq _ (Nat.le_refl _)
                rwa [tl] at this
            · rintro ⟨i, hi, n1, n2⟩
              exfalso
              rcases split_i i hi with hi | hi
              · rw [tk i hi] at n1 n2
                exact (good i hi).elim n1 n2
              · rw [hi, tl] at n1; exact n1 hfree
          · have hex : kind w1 (dirText st (ms ++ [n])) ≠ none := by rw [hsame]; exact hfree
            have e2 := hc.taken w1 _ hex
            have back : ∀ q, kind w1 q = kind w q := by
              have hall : ∀ i ≤ ms.length, kind w (dirText st (ms.take i)) = some .dir := by
                intro i hi
                have e : ms ++ [n] = ms.take i ++ (ms.drop i ++ [n]) := by rw [← List.append_assoc, List.take_append_drop]
                refine consistent_take hw (ns := ms.take i) (ms := ms.drop i ++ [n]) (by rw [← e]; exact h) (by rw [← e]; exact hfree) (by simp)
              intro q
              by_cases hq : ∀ i ≤ ms.length, q ≠ dirText st (ms.take i)
              · exact a2 q hq
              · have : ∃ i, i ≤ ms.length ∧ q = dirText st (ms.take i) := by
                  apply Classical.byContradiction
                  intro hno
                  exact hq fun i hi e => hno ⟨i, hi, e⟩
                obtain ⟨i, hi, rfl⟩ := this
                rw [a1 i hi, hall i hi]
            refine ⟨_, rfl, ?_, fun hh => ?_, fun _ q => by rw [e2, back]⟩
            · intro ps p hp hk2
              rw [e2] at hk2 ⊢
              exact hw1 ps p hp hk2
            · exfalso
              have := hh _ (Nat.le_refl _)
              rw [tl] at this
              exact this.elim hfree hd
        · have bad : ∃ i, i ≤ ms.length ∧ kind w (dirText st (ms.take i)) ≠ none ∧ kind w (dirText st (ms.take i)) ≠ some .dir := by
            apply Classical.byContradiction
            intro hno
            apply good
            intro i hi
            apply Classical.byContradiction
            intro hor
            rw [not_or] at hor
            exact hno ⟨i, hi, hor⟩
          have back := b1 bad
          obtain ⟨i, hi, n1, n2⟩ := bad
          have hkk : ∃ k, kind w1 (dirText st (ms.take i)) = some k ∧ k ≠ .dir := by
            rw [back]
            cases hh : kind w (dirText st (ms.take i)) with
            | none => exact absurd hh n1
            | some k => exact ⟨k, rfl, fun e => n2 (by rw [hh, e])⟩
          obtain ⟨k', hk1, hk2⟩ := hkk
          have e : ms ++ [n] = ms.take i ++ (ms.drop i ++ [n]) := by rw [← List.append_assoc, List.take_append_drop]
          have e2 := hc.blocked w1 (ms.take i) (ms.drop i ++ [n]) k' hw1 (by rw [← e]; exact h) hk1 hk2
          rw [← e] at e2
          refine ⟨_, rfl, ?_, fun hh => ?_, fun _ q => by rw [e2, back]⟩
          · intro ps p hp hk3
            rw [e2] at hk3 ⊢
            exact hw1 ps p hp hk3
          · exfalso
            have := hh i (by simp; omega)
            rw [tk i hi] at this
            exact this.elim n1 n2

/-- `make_dir` on a path of ordinary names ends. If every directory on the way is there or missing, all of them are there
afterwards and nothing else was changed; if something that is no directory is on the way, nothing was changed.
Missing: urls of the web and alternatives, see `C83_web_violated` and `C83_or_violated`. -/
theorem C83_make_dir_partial (st : Start) (create : Stat → Bytes → Stat) (hc : Creates st create) (w : Stat)
    (hw : Consistent st w) (htop : kind w (dirText st []) = some .dir) (ns : List Bytes) (h : ∀ x ∈ ns, FileName x) (f : Nat)
    (hf : ns.length < f) : ∃ w', makeDir create f w (dirUrl st ns) = .ok w' ∧
      ((∀ i ≤ ns.length, kind w (dirText st (ns.take i)) = none ∨ kind w (dirText st (ns.take i)) = some .dir) →
        (∀ i ≤ ns.length, kind w' (dirText st (ns.take i)) = some .dir) ∧
        ∀ q, (∀ i ≤ ns.length, q ≠ dirText st (ns.take i)) → kind w' q = kind w q) ∧
      ((∃ i ≤ ns.length, kind w (dirText st (ns.take i)) ≠ none ∧ kind w (dirText st (ns.take i)) ≠ some .dir) →
        ∀ q, kind w' q = kind w q) := by
  obtain ⟨w', e, _, a, b⟩ := makeDir_spec st create hc w hw htop ns.length ns rfl h f hf
  exact ⟨w', e, a, b⟩

open Classical in
/-- There is such a `create`: a directory is made if there is nothing yet and the one above is a directory. -/
theorem creates_exists (st : Start) : ∃ create, Creates st create := by
  refine ⟨fun w p => if kind w p = none ∧ ∃ ns n, (∀ x ∈ ns ++ [n], FileName x) ∧ p = dirText st (ns ++ [n]) ∧
      kind w (dirText st ns) = some .dir then fun q => if q = p then some ⟨.dir, 0, 0, 0⟩ else w q else w, ?_, ?_, ?_⟩
  · intro w ns n _ h hd hn q
    rw [if_pos ⟨hn, ns, n, h, rfl, hd⟩, kind]
    split <;> rfl
  · intro w p hp q
    rw [if_neg fun h => hp h.1]
  · intro w ns ms k hw h hk hk' q
    rw [if_neg]
    rintro ⟨hn, ns', n, h', e, hd⟩
    have e := dirText_inj st h h' e
    cases ms with
    | nil => simp only [List.append_nil] at hn; rw [hn] at hk; cases hk
    | cons m ms =>
      have hne : m :: ms ≠ [] := by simp
      have e2 : ns' = ns ++ (m :: ms).dropLast := by
        have := congrArg List.dropLast e
        rw [List.dropLast_append_of_ne_nil hne] at this
        simpa using this.symm
      subst e2
      by_cases hm : (m :: ms).dropLast = []
      · rw [hm, List.append_nil, hk] at hd
        injection hd with hd
        exact hk' hd
      · have := consistent_take hw (ns := ns) (ms := (m :: ms).dropLast) (fun x hx => h' x (by
          rw [List.mem_append] at hx ⊢; exact .inl (by rw [List.mem_append]; exact hx))) (by rw [hd]; simp) hm
        rw [hk] at this
        injection this with this
        exact hk' this

/-- A file system in which only `/` exists meets the conditions; afterwards `/a` and `/a/b` are there. -/
example : ∃ create w w', Creates .top create ∧ Consistent .top w ∧ makeDir create 3 w (dirUrl .top [b!"a", b!"b"]) = .ok w' ∧
    kind w (b!"/a") = none ∧ kind w' (b!"/a") = some .dir ∧ kind w' (b!"/a/b") = some .dir := by
  obtain ⟨create, hc⟩ := creates_exists .top
  have fn : ∀ x ∈ [b!"a", b!"b"], FileName x := by
    intro x hx
    simp only [List.mem_cons, List.not_mem_nil, or_false] at hx
    rcases hx with rfl | rfl <;> exact ⟨by decide, by decide, by decide, by decide, by decide, by decide⟩
  have hw : Consistent .top fun p => if p = b!"/" then some ⟨.dir, 0, 0, 0⟩ else none := by
    intro ns n h hk
    unfold kind at hk
    dsimp only at hk
    split at hk
    · next e =>
      have := dirText_inj .top h (ms := []) (by simp) e
      simp at this
    · exact absurd rfl hk
  obtain ⟨w', e, h, _⟩ := C83_make_dir_partial .top create hc _ hw (by decide) [b!"a", b!"b"] fn 3 (by decide)
  have h := (h (by
    intro i hi
    have : i = 0 ∨ i = 1 ∨ i = 2 := by simp at hi; omega
    rcases this with rfl | rfl | rfl <;> decide)).1
  exact ⟨create, _, w', hc, hw, e, by decide, h 1 (by decide), h 2 (by decide)⟩

/-- A call of `make_dir` that goes on forever: never a directory, and never the end. -/
theorem makeDir_hang (create : Stat → Bytes → Stat) (w : Stat) (Q : Url → Prop)
    (h : ∀ u, Q u → isNone u = false ∧ isDirectory w u = .ok false ∧ ∃ v, head u = .ok v ∧ Q v) (f : Nat) (u : Url) (hu : Q u) :
    makeDir create f w u = .hang := by
  induction f generalizing u with
  | zero => rfl
  | succ f ih =>
    obtain ⟨h1, h2, v, h3, h4⟩ := h u hu
    rw [makeDir, h1, h2]
    simp only [Bool.false_eq_true, if_false, Res.ok_bind]
    rw [h3, Res.ok_bind, ih v h4]
    rfl

theorem not_local_directory (w : Stat) {u : Url} (h : isLocalAndSingle u = false) : isDirectory w u = .ok false := by
  rw [isDirectory, h]; rfl

/-- On a url of the web `make_dir` calls itself without end. -/
theorem C83_web_violated (create : Stat → Bytes → Stat) (w : Stat) (f : Nat) (p s : Bytes) (hp : webProtocol p = true)
    (l : List Url) (h : ∀ y ∈ .atom s :: l, Elem y) (hl : parent ∉ .atom s :: l) :
    makeDir create f w (R p (.atom s :: l)) = .hang := by
  refine makeDir_hang create w (fun u => ∃ m, (∀ y ∈ .atom s :: m, Elem y) ∧ parent ∉ .atom s :: m ∧ u = R p (.atom s :: m))
    ?_ f _ ⟨l, h, hl, rfl⟩
  rintro u ⟨m, hm, hpm, rfl⟩
  have e : R p (.atom s :: m) = .concat (.root p) (P (.atom s :: m)) := R_cons _ _ (by simp)
  refine ⟨by rw [e]; rfl, not_local_directory w ?_, ?_⟩
  · rw [e, isLocalAndSingle, Bool.and_eq_false_iff]
    refine .inr ?_
    simp only [protocol]
    unfold webProtocol at hp
    simp only [decide_eq_true_eq] at hp
    rcases hp with rfl | rfl | rfl | rfl <;> rfl
  · have hs := hm (.atom s) (by simp)
    have hs' : Url.atom s ≠ parent := fun e => hpm (by simp [← e])
    by_cases hn : m = []
    · subst hn
      exact ⟨_, (UrlProps.C47_top p s hs hs' hp).2.1, [], hm, hpm, rfl⟩
    · have e2 : .atom s :: m = (.atom s :: m.dropLast) ++ [m.getLast hn] := by
        rw [List.cons_append, List.dropLast_concat_getLast hn]
      have hsub : ∀ y ∈ Url.atom s :: m.dropLast, y ∈ Url.atom s :: m := by
        intro y hy
        rw [List.mem_cons] at hy ⊢
        exact hy.imp id fun hy => List.dropLast_subset _ hy
      have hlast : m.getLast hn ∈ Url.atom s :: m := by simp
      refine ⟨R p (.atom s :: m.dropLast), ?_, m.dropLast, fun y hy => hm y (hsub y hy), fun hy => hpm (hsub _ hy), rfl⟩
      rw [e2]
      exact (UrlProps.C47_rooted p _ _ (fun y hy => hm y (hsub y hy)) (hm _ hlast) (fun hy => hpm (hsub _ hy))
        (fun e => hpm (e ▸ hlast)) (fun _ => by simp)).1

example : webProtocol (b!"https") = true ∧ (∀ y ∈ [Url.atom (b!"gnu.org"), .atom (b!"a")], Elem y) ∧
    parent ∉ [Url.atom (b!"gnu.org"), .atom (b!"a")] := by decide

theorem parents_elem (k : Nat) : ∀ y ∈ List.replicate k parent, Elem y := by
  intro y hy; rw [List.eq_of_mem_replicate hy]; exact elem_parent

theorem mul_or_parents (a b : Url) (k : Nat) :
    mul (.or a b) (P (List.replicate (k + 1) parent)) = .ok (.concat (.or a b) (P (List.replicate (k + 1) parent))) := by
  have he := parents_elem (k + 1)
  rw [mul_plain _ _ (topRoot_P he), if_neg (by simp [isAtom]), if_neg (by
      rw [isAtom_here]; simp only [decide_eq_true_eq]; intro e; simpa using P_eq_here he e), if_neg (by
      simp only [isNone_eq, Bool.or_eq_true, decide_eq_true_eq, not_or]; exact ⟨by simp, P_ne_none he⟩)]
  simp [isRoot, isPseudoAtomic, isSemiRoot]

/-- On alternatives `make_dir` calls itself without end, too, even if both could be made: it looks for the directory above
`{a:b}`, which is `{a:b}/..`, above that `{a:b}/../..`, and so on. (Unless there are directories with such names.) -/
theorem C83_or_violated (create : Stat → Bytes → Stat) (w : Stat) (f : Nat) (a b : Url)
    (hr : isRootedS (b!"file") a = false ∨ isRootedS (b!"file") b = false)
    (hw : ∀ p, kind w (c! '{' :: p) ≠ some .dir) : makeDir create f w (.or a b) = .hang := by
  refine makeDir_hang create w (fun u => u = .or a b ∨ ∃ k, u = .concat (.or a b) (P (List.replicate (k + 1) parent))) ?_ f _ (.inl rfl)
  rintro u (rfl | ⟨k, rfl⟩)
  · exact ⟨rfl, not_local_directory w rfl, _, mul_or_parents a b 0, .inr ⟨0, rfl⟩⟩
  · refine ⟨rfl, ?_, .concat (.or a b) (P (List.replicate (k + 2) parent)), ?_, .inr ⟨k + 1, rfl⟩⟩
    · rw [isDirectory]
      split
      · rfl
      · rw [asLocalPath, if_neg (by
          simp only [isRootedS, Bool.and_eq_true, not_and]
          intro h1 h2
          rcases hr with h | h <;> simp_all)]
        simp only [Res.ok_bind]
        obtain ⟨t, e⟩ : ∃ t, asString (.concat (.or a b) (P (List.replicate (k + 1) parent))) = c! '{' :: t := by
          rw [asString]
          exact ⟨_, rfl⟩
        rw [e]
        have e2 : cname (c! '{' :: t) = c! '{' :: cname t := by
          unfold cname; rw [List.takeWhile_cons, if_pos (by decide)]
        have := hw (cname t)
        rw [e2]
        unfold kind at this
        cases h : w (c! '{' :: cname t) with
        | none => rfl
        | some i =>
          rw [h] at this
          simp only [Option.map_some, ne_eq, Option.some.injEq] at this
          simp [this]
    · show mul _ parent = _
      rw [mul_concat (by decide) (by decide) (by decide) (.inl rfl)]
      have h1 := mul_P (parents_elem (k + 1)) (l2 := [parent]) (by simpa using elem_parent) (by simp)
      rw [show P [parent] = parent from rfl] at h1
      rw [h1, Res.ok_bind]
      have h2 : joinL (List.replicate (k + 1) parent) [parent] = List.replicate (k + 2) parent := by
        have : ∀ n, joinL (List.replicate n parent) [parent] = List.replicate (n + 1) parent := by
          intro n
          induction n with
          | zero => rfl
          | succ n ih =>
            have : joinL (parent :: List.replicate n parent) [parent] = push parent (joinL (List.replicate n parent) [parent]) := rfl
            rw [List.replicate_succ, this, ih, List.replicate_succ]
            simp [push, List.replicate_succ]
        exact this (k + 1)
      rw [h2]
      exact mul_or_parents a b (k + 1)

/-- The directories `a` and `b`, none of which is there, in a file system with the directory `.` only. -/
example : ∀ p, kind (fun q => if q = b!"." then some ⟨.dir, 0, 0, 0⟩ else none) (c! '{' :: p) ≠ some .dir := by
  intro p
  unfold kind
  dsimp only
  rw [if_neg (by intro e; injection e with e _; exact absurd e (by decide))]
  simp

end Lolly.DirsProps
