import Verif.System.UrlProps
import Verif.System.UrlKind

/-!
# C123: absolute urls stay absolute
-/

set_option autoImplicit false

namespace Lolly.UrlKindProps

open Lolly.Url

/-! ## Specification -/

/-- One of the alternatives of the url begins with `x`. -/
inductive Begins : Url → Url → Prop
  | atom (s : Bytes) : Begins (.atom s) (.atom s)
  | none : Begins .none .none
  | root (p : Bytes) : Begins (.root p) (.root p)
  | root3 (p c : Bytes) : Begins (.root3 p c) (.root3 p c)
  | wild0 : Begins .wild0 .wild0
  | wild1 (s : Bytes) : Begins (.wild1 s) (.wild1 s)
  | concat {a x : Url} (b : Url) : Begins a x → Begins (.concat a b) x
  | left {a x : Url} (b : Url) : Begins a x → Begins (.or a b) x
  | right {b x : Url} (a : Url) : Begins b x → Begins (.or a b) x

/-- A root with the protocol `p`. -/
def Root (p : Bytes) (x : Url) : Prop := x = .root p ∨ ∃ c, x = .root3 p c

/-- Neither a root nor `url_none` occurs in the url. -/
def Rootless : Url → Prop
  | .concat a b => Rootless a ∧ Rootless b
  | .or a b => Rootless a ∧ Rootless b
  | .atom _ => True
  | .wild0 => True
  | .wild1 _ => True
  | _ => False

/-- Roots occur at the beginning only, and `url_none` does not occur. -/
def Tidy : Url → Prop
  | .concat a b => Tidy a ∧ Rootless b
  | .or a b => Tidy a ∧ Tidy b
  | .none => False
  | _ => True

/-! ## Kinds -/

theorem begins_ex (u : Url) : ∃ x, Begins u x := by
  induction u with
  | atom s => exact ⟨_, .atom s⟩
  | none => exact ⟨_, .none⟩
  | root p => exact ⟨_, .root p⟩
  | root3 p c => exact ⟨_, .root3 p c⟩
  | concat a b ih _ => exact ⟨_, .concat b ih.choose_spec⟩
  | or a b ih _ => exact ⟨_, .left b ih.choose_spec⟩
  | wild0 => exact ⟨_, .wild0⟩
  | wild1 s => exact ⟨_, .wild1 s⟩

theorem leaf_begins {u : Url} (hb : ∀ a b, u ≠ .concat a b) (ho : ∀ a b, u ≠ .or a b) (x : Url) : Begins u x ↔ x = u := by
  constructor
  · intro h
    cases h <;> first | rfl | exact absurd rfl (hb _ _) | exact absurd rfl (ho _ _)
  · rintro rfl
    cases x with
    | concat a b => exact absurd rfl (hb _ _)
    | or a b => exact absurd rfl (ho _ _)
    | atom s => exact .atom s
    | none => exact .none
    | root p => exact .root p
    | root3 p c => exact .root3 p c
    | wild0 => exact .wild0
    | wild1 s => exact .wild1 s

theorem concat_begins (a b x : Url) : Begins (.concat a b) x ↔ Begins a x :=
  ⟨fun h => by cases h; assumption, .concat b⟩

theorem or_begins (a b x : Url) : Begins (.or a b) x ↔ Begins a x ∨ Begins b x :=
  ⟨fun h => by cases h with | left _ h => exact .inl h | right _ h => exact .inr h,
    fun h => h.elim (.left b) (.right a)⟩

/-- The three tests have the same shape. -/
theorem kind_iff (f : Url → Bool) (hc : ∀ a b, f (.concat a b) = f a) (ho : ∀ a b, f (.or a b) = (f a && f b)) (u : Url) :
    f u = true ↔ ∀ x, Begins u x → f x = true := by
  induction u with
  | concat a b ih _ => simp only [hc, concat_begins]; exact ih
  | or a b ih ih' =>
    simp only [ho, or_begins, Bool.and_eq_true, ih, ih']
    exact ⟨fun h x hx => hx.elim (h.1 x) (h.2 x), fun h => ⟨fun x hx => h x (.inl hx), fun x hx => h x (.inr hx)⟩⟩
  | _ => simp [leaf_begins]

theorem begins_leaf {u x : Url} (h : Begins u x) : (∀ a b, x ≠ .concat a b) ∧ ∀ a b, x ≠ .or a b := by
  induction h <;> first | assumption | exact ⟨fun _ _ e => (by cases e), fun _ _ e => (by cases e)⟩

/-- C123: `is_rooted (u)` tells whether every alternative begins with a root, `is_rooted (u, p)` whether every one
begins with a root of the protocol `p`, and `is_rooted_web (u)` whether every one is on the web. -/
theorem C123_rooted (u : Url) :
    (isRooted u = true ↔ ∀ x, Begins u x → ∃ p, Root p x) ∧
    (∀ p, isRootedS p u = true ↔ ∀ x, Begins u x → Root p x) ∧
    (isRootedWeb u = true ↔ ∀ x, Begins u x → ∃ p, Root p x ∧ p ∈ [b!"http", b!"https", b!"ftp", b!"blank"]) := by
  have key : ∀ (f : Url → Bool) (P : Url → Prop), (∀ a b, f (.concat a b) = f a) → (∀ a b, f (.or a b) = (f a && f b)) →
      (∀ x, (∀ a b, x ≠ .concat a b) → (∀ a b, x ≠ .or a b) → (f x = true ↔ P x)) →
      (f u = true ↔ ∀ x, Begins u x → P x) := by
    intro f P hc ho h
    rw [kind_iff f hc ho u]
    exact ⟨fun g x hx => (h x (begins_leaf hx).1 (begins_leaf hx).2).1 (g x hx),
      fun g x hx => (h x (begins_leaf hx).1 (begins_leaf hx).2).2 (g x hx)⟩
  refine ⟨key isRooted _ (fun _ _ => rfl) (fun _ _ => rfl) ?_, fun p => key (isRootedS p) _ (fun _ _ => rfl) (fun _ _ => rfl) ?_,
    key isRootedWeb _ (fun _ _ => rfl) (fun _ _ => rfl) ?_⟩
  · intro x h1 h2
    cases x <;> simp_all [isRooted, isRoot, Root]
  · intro x h1 h2
    cases x <;> simp_all [isRootedS, isRootS, Root]
  · intro x h1 h2
    cases x <;> simp_all [isRootedWeb, isRootWeb, isRootS, Root, or_assoc]

/-- C123: `is_name` holds for the relative paths of names only, `is_rooted_name` for the absolute ones with at least one
name; `is_ramdisc` needs a path too. -/
theorem C123_names (r : Bytes) (l : List Url) (hl : l ≠ []) (he : ∀ y ∈ l, Elem y) :
    (isName (P l) = true ↔ ∀ y ∈ l, ∃ s, y = .atom s) ∧
    (isRootedName (R r l) = true ↔ ∀ y ∈ l, ∃ s, y = .atom s) ∧
    (isRamdisc (R r l) = true ↔ r = b!"ramdisc") ∧
    isName (R r l) = false ∧ isRootedName (P l) = false ∧ isRamdisc (P l) = false ∧
    isRootedName (.root r) = false ∧ isRamdisc (.root r) = false := by
  have hn : ∀ l : List Url, l ≠ [] → (∀ y ∈ l, Elem y) → (isName (P l) = true ↔ ∀ y ∈ l, ∃ s, y = .atom s) := by
    intro l
    induction l with
    | nil => intro h _; exact absurd rfl h
    | cons x l ih =>
      intro _ he
      have hx : isName x = true ↔ ∃ s, x = .atom s := by
        have := (he x (by simp)).1
        cases x <;> simp_all [isName, isPseudoAtomic]
      cases l with
      | nil => simpa [P] using hx
      | cons y l =>
        have := ih (by simp) (fun z hz => he z (by simp [hz]))
        show (isName x && isName (P (y :: l))) = true ↔ _
        rw [Bool.and_eq_true, hx, this]
        simp
  have e : R r l = .concat (.root r) (P l) := R_cons r l hl
  have hP : ∀ f : Url → Bool, (∀ s, f (.atom s) = false) → (∀ s, f (.wild1 s) = false) →
      (∀ x b, Elem x → f (.concat x b) = false) → f (P l) = false := by
    intro f h1 h2 h3
    match l, hl, he with
    | [x], _, he =>
      have := (he x (by simp)).1
      cases x <;> simp_all [P, isPseudoAtomic]
    | x :: y :: l, _, he => exact h3 x _ (he x (by simp))
  refine ⟨hn l hl he, ?_, ?_, ?_, hP _ (fun _ => rfl) (fun _ => rfl) ?_, hP _ (fun _ => rfl) (fun _ => rfl) ?_, rfl, rfl⟩
  · rw [e]
    show (true && isName (P l)) = true ↔ _
    rw [Bool.true_and]; exact hn l hl he
  · rw [e]; simp [isRamdisc, isRootS]
  · rw [e]; rfl
  · rintro x b hx
    have := hx.1
    cases x <;> simp_all [isRootedName, isRoot, isPseudoAtomic]
  · rintro x b hx
    have := hx.1
    cases x <;> simp_all [isRamdisc, isRootS, isPseudoAtomic]

/-! ## Products -/

theorem rootless_top {u : Url} (h : Rootless u) : topRoot u = false := by
  cases u with
  | concat a b => cases a <;> simp_all [Rootless, topRoot, isRoot]
  | _ => simp_all [Rootless, topRoot, isRoot]

theorem rootless_second {u : Url} (hp : parentFirst u = true) (h : Rootless u) : Rootless (second u) := by
  cases u <;> simp_all [parentFirst, second, Rootless]

theorem rootless_not_none {u : Url} (h : Rootless u) : isNone u = false := by cases u <;> simp_all [Rootless, isNone]

theorem mul_rootless (u v : Url) (h1 : Rootless u) (h2 : Rootless v) : ∃ w, mul u v = .ok w ∧ Rootless w := by
  rw [mul_plain _ _ (rootless_top h2)]
  split
  · exact ⟨v, rfl, h2⟩
  split
  · exact ⟨u, rfl, h1⟩
  split
  · next h => rw [rootless_not_none h1, rootless_not_none h2] at h; cases h
  split
  · exact ⟨u, rfl, h1⟩
  split
  · exact ⟨here, rfl, trivial⟩
  split
  · exact ⟨u, rfl, h1⟩
  split
  · next hp =>
    have hp' : parentFirst v = true := by simp_all
    have hs := second_size v hp'
    exact mul_rootless u (second v) h1 (rootless_second hp' h2)
  split
  · next hp => exact ⟨second v, rfl, rootless_second (by simp_all) h2⟩
  split
  · next hp =>
    have hp' : parentFirst v = true := by simp_all
    have hs := second_size v hp'
    exact mul_rootless u (second v) h1 (rootless_second hp' h2)
  by_cases hc : ∃ a b, u = .concat a b
  · obtain ⟨a, b, e⟩ := hc
    have g := h1
    rw [e] at g
    have hsz : u.size = a.size + b.size + 1 := by rw [e]; rfl
    obtain ⟨r, e1, hr⟩ := mul_rootless b v g.2 h2
    obtain ⟨w, e2, hw⟩ := mul_rootless a r g.1 hr
    refine ⟨w, ?_, hw⟩
    simp only [e, e1, Res.ok_bind, e2]
  · have : ∃ w, (Res.ok (.concat u v) : Res Url) = .ok w ∧ Rootless w := ⟨_, rfl, h1, h2⟩
    cases u <;> first | exact this | exact absurd ⟨_, _, rfl⟩ hc
termination_by (u.size, v.size)
decreasing_by
  all_goals simp only [Prod.lex_def, true_and]
  all_goals omega

/-- Every alternative begins with a root. -/
def Absolute (u : Url) : Prop := ∀ x, Begins u x → ∃ p, Root p x

theorem absolute_iff (u : Url) : Absolute u ↔ isRooted u = true := (C123_rooted u).1.symm

theorem absolute_atom {u : Url} (h : Absolute u) (s : Bytes) : isAtom u s = false := by
  cases u with
  | atom t =>
    obtain ⟨p, h | ⟨c, h⟩⟩ := h _ (.atom t) <;> cases h
  | _ => simp [isAtom]

theorem absolute_pseudo {u : Url} (h : Absolute u) : isPseudoAtomic u = false := by
  cases u with
  | atom t => obtain ⟨p, h | ⟨c, h⟩⟩ := h _ (.atom t) <;> cases h
  | wild1 t => obtain ⟨p, h | ⟨c, h⟩⟩ := h _ (.wild1 t) <;> cases h
  | _ => rfl

theorem absolute_none {u : Url} (h : Absolute u) : isNone u = false := by
  cases u with
  | none => obtain ⟨p, h | ⟨c, h⟩⟩ := h _ .none <;> cases h
  | _ => rfl

theorem mul_absolute (u v : Url) (ht : Tidy u) (ha : Absolute u) (h2 : Rootless v) :
    ∃ w, mul u v = .ok w ∧ Tidy w ∧ ∀ x, Begins w x ↔ Begins u x := by
  rw [mul_plain _ _ (rootless_top h2)]
  split
  · next h => rw [absolute_atom ha, absolute_atom ha] at h; cases h
  split
  · exact ⟨u, rfl, ht, fun _ => Iff.rfl⟩
  split
  · next h => rw [absolute_none ha, rootless_not_none h2] at h; cases h
  split
  · exact ⟨u, rfl, ht, fun _ => Iff.rfl⟩
  split
  · next h => rw [absolute_pseudo ha] at h; simp at h
  split
  · exact ⟨u, rfl, ht, fun _ => Iff.rfl⟩
  split
  · next hp =>
    have hp' : parentFirst v = true := by simp_all
    have hs := second_size v hp'
    exact mul_absolute u (second v) ht ha (rootless_second hp' h2)
  split
  · next h => rw [absolute_pseudo ha] at h; simp at h
  split
  · next hp =>
    have hp' : parentFirst v = true := by simp_all
    have hs := second_size v hp'
    exact mul_absolute u (second v) ht ha (rootless_second hp' h2)
  by_cases hc : ∃ a b, u = .concat a b
  · obtain ⟨a, b, e⟩ := hc
    have g := ht
    rw [e] at g
    have hsz : u.size = a.size + b.size + 1 := by rw [e]; rfl
    obtain ⟨r, e1, hr⟩ := mul_rootless b v g.2 h2
    obtain ⟨w, e2, hw, hb⟩ := mul_absolute a r g.1 (fun x hx => ha x (by rw [e]; exact .concat b hx)) hr
    refine ⟨w, ?_, hw, fun x => ?_⟩
    · simp only [e, e1, Res.ok_bind, e2]
    · rw [e, concat_begins]; exact hb x
  · have : ∃ w, (Res.ok (.concat u v) : Res Url) = .ok w ∧ Tidy w ∧ ∀ x, Begins w x ↔ Begins u x :=
      ⟨_, rfl, ⟨ht, h2⟩, fun x => concat_begins u v x⟩
    cases u <;> first | exact this | exact absurd ⟨_, _, rfl⟩ hc
termination_by (u.size, v.size)
decreasing_by
  all_goals simp only [Prod.lex_def, true_and]
  all_goals omega

/-- C123: a path or alternatives of paths below an absolute url, with any number of `..`, give an absolute url with the
same roots; in particular a url of the protocol `p` stays one, and a url on the web stays on the web. -/
theorem C123_below_partial (u v : Url) (ht : Tidy u) (hr : isRooted u = true) (hv : Rootless v) :
    ∃ w, mul u v = .ok w ∧ Tidy w ∧ (∀ x, Begins w x ↔ Begins u x) ∧ isRooted w = true ∧
      (∀ p, isRootedS p w = isRootedS p u) ∧ isRootedWeb w = isRootedWeb u := by
  obtain ⟨w, e, hw, hb⟩ := mul_absolute u v ht ((absolute_iff u).2 hr) hv
  refine ⟨w, e, hw, hb, ?_, fun p => ?_, ?_⟩
  · rw [(C123_rooted w).1]
    exact fun x hx => (C123_rooted u).1.1 hr x ((hb x).1 hx)
  · rw [Bool.eq_iff_iff, (C123_rooted w).2.1, (C123_rooted u).2.1]
    exact forall_congr' fun x => by rw [hb]
  · rw [Bool.eq_iff_iff, (C123_rooted w).2.2, (C123_rooted u).2.2]
    exact forall_congr' fun x => by rw [hb]

/-- C123: below a relative url there are relative urls only. -/
theorem C123_relative (u v : Url) (hu : Rootless u) (hv : Rootless v) :
    ∃ w, mul u v = .ok w ∧ Rootless w ∧ isRooted w = false := by
  obtain ⟨w, e, hw⟩ := mul_rootless u v hu hv
  refine ⟨w, e, hw, ?_⟩
  have : ∀ w : Url, Rootless w → isRooted w = false := by
    intro w
    induction w with
    | concat a b ih _ => exact fun h => ih h.1
    | or a b ih _ => intro h; rw [isRooted, ih h.1]; rfl
    | _ => simp [Rootless, isRooted, isRoot]
  exact this w hw

theorem alt_ne_none (u v : Url) (hv : v ≠ .none) : alt u v ≠ .none := by
  induction u generalizing v with
  | or a b iha ihb => rw [alt_or _ _ _ hv]; exact iha _ (ihb v hv)
  | none => rw [none_alt]; exact hv
  | _ =>
    rw [alt_single _ _ (by simp) hv rfl]
    split
    · exact hv
    · split
      · split <;> simp
      · simp

theorem alt_begins (u v x : Url) (hu : Tidy u) (hv : v ≠ .none) : Begins (alt u v) x ↔ Begins u x ∨ Begins v x := by
  induction u generalizing v with
  | or a b iha ihb =>
    rw [alt_or _ _ _ hv, iha _ hu.1 (alt_ne_none b v hv), ihb v hu.2 hv, or_begins, or_assoc]
  | none => exact hu.elim
  | _ =>
    rw [alt_single _ _ (by simp) hv rfl]
    split
    · next h => rw [h]; simp
    · split
      · split
        · next h => rw [or_begins, h]; constructor
                    · exact .inr
                    · rintro (h | h)
                      · exact .inl h
                      · exact h
        · rw [or_begins]
      · rw [or_begins]

/-- C123: alternatives are absolute when all of them are. -/
theorem C123_alternatives (u v : Url) (hu : Tidy u) (hv : v ≠ .none) :
    (∀ x, Begins (alt u v) x ↔ Begins u x ∨ Begins v x) ∧ isRooted (alt u v) = (isRooted u && isRooted v) ∧
    isRootedWeb (alt u v) = (isRootedWeb u && isRootedWeb v) := by
  have hb : ∀ x, Begins (alt u v) x ↔ Begins u x ∨ Begins v x := fun x => alt_begins u v x hu hv
  refine ⟨hb, ?_, ?_⟩
  · rw [Bool.eq_iff_iff, Bool.and_eq_true, (C123_rooted _).1, (C123_rooted u).1, (C123_rooted v).1]
    simp only [hb, or_imp, forall_and]
  · rw [Bool.eq_iff_iff, Bool.and_eq_true, (C123_rooted _).2.2, (C123_rooted u).2.2, (C123_rooted v).2.2]
    simp only [hb, or_imp, forall_and]

/-- Paths meet the hypotheses. -/
theorem rootless_P {l : List Url} (h : ∀ y ∈ l, Elem y) : Rootless (P l) := by
  induction l with
  | nil => trivial
  | cons x l ih =>
    have hx : Rootless x := by
      have := (h x (by simp)).1
      cases x <;> simp_all [isPseudoAtomic, Rootless]
    cases l with
    | nil => exact hx
    | cons y l => exact ⟨hx, ih fun z hz => h z (by simp [hz])⟩

theorem tidy_R {l : List Url} (r : Bytes) (h : ∀ y ∈ l, Elem y) : Tidy (R r l) ∧ isRooted (R r l) = true := by
  by_cases hl : l = []
  · subst hl; exact ⟨trivial, rfl⟩
  · rw [R_cons r l hl]; exact ⟨⟨trivial, rootless_P h⟩, rfl⟩

/-- `{/a:http://h}` and `../{x:../..}`. -/
example : Tidy (.or (R (b!"default") [.atom (b!"a")]) (R (b!"http") [.atom (b!"h")])) ∧
    isRooted (.or (R (b!"default") [.atom (b!"a")]) (R (b!"http") [.atom (b!"h")])) = true ∧
    isRootedWeb (.or (R (b!"default") [.atom (b!"a")]) (R (b!"http") [.atom (b!"h")])) = false ∧
    Rootless (.concat parent (.or (.atom (b!"x")) (P [parent, parent]))) :=
  ⟨⟨(tidy_R _ (by decide)).1, (tidy_R _ (by decide)).1⟩, by decide, by decide, trivial, trivial, trivial, trivial⟩

/-- The root of the file system is left by nothing: `/ * ../../x` is `/x`. -/
example : mul (.root (b!"default")) (P [parent, parent, .atom (b!"x")]) = .ok (R (b!"default") [.atom (b!"x")]) := by
  rw [mul_root_P _ (by decide)]
  rfl

/-- C123, `url_none`: below any url, absolute or not, it gives `url_none`, which is not absolute. -/
theorem C123_none_violated (u : Url) : mul u .none = .ok .none ∧ isRooted .none = false := by
  refine ⟨?_, rfl⟩
  rw [mul_plain _ _ rfl]
  split
  · rfl
  · rw [if_neg (by decide), if_pos (by rw [show isNone .none = true from rfl, Bool.or_true])]

/-- C123: an absolute url on the right replaces the left one, but alternatives of absolute urls are put below it, and the
product is not absolute: `a * {/b:/c}` is `a/{/b:/c}`. -/
theorem C123_right_violated (s : Bytes) (b c : Url) (hs : Elem (.atom s)) (hb : isRooted b = true) (hc : isRooted c = true) :
    isRooted (.or b c) = true ∧ mul (.atom s) (.or b c) = .ok (.concat (.atom s) (.or b c)) ∧
    isRooted (.concat (.atom s) (.or b c)) = false := by
  refine ⟨by simp [isRooted, hb, hc], ?_, rfl⟩
  have h1 : isAtom (.atom s) (b!".") = false := decide_eq_false hs.2.1
  have h2 : isAtom (.atom s) [] = false := by simpa [isAtom] using hs.2.2
  rw [mul_plain _ _ rfl, h1, h2]
  rfl

end Lolly.UrlKindProps
