import Verif.System.UrlCost

set_option autoImplicit false

/-!
# C157: the cost of printing urls

`C157_same`: the counted function gives the text of `as_string`. `C157_partial`: at most four times the depth of the url is copied per
character of the text. `C157_violated`: for a path of `n` names at least `n * (n - 1) / 2` characters are copied, so there is no
constant bound per character (`C157_unbounded_violated`).
-/

namespace Lolly.UrlCostProps

open Url UrlCost

/-! ## Specification -/

/-- How deep a url is nested; for a path of names this is their number. -/
def depth : Url → Nat
  | .concat a b => max (depth a) (depth b) + 1
  | .or a b => max (depth a) (depth b) + 1
  | _ => 1

/-- The path `x/y/z/...` of names. -/
def path (x : Bytes) : List Bytes → Url
  | [] => .atom x
  | y :: l => .concat (.atom x) (path y l)

/-! ## Lemmas -/

theorem same : ∀ u : Url, (print u).s = asString u
  | .none => rfl
  | .atom _ => rfl
  | .concat a b => by
    simp only [print, asString, cat, lit, braceLeft, braceRight]
    rw [← same a, ← same b]
    by_cases h1 : isRootS a (b!"default") = true <;> by_cases h2 : (!isName a && !isRoot a) = true <;>
      by_cases h3 : (!isConcat b && !isAtomic b && !isWild1 b) = true <;> simp only [h1, h2, h3, brace, cat, lit, if_true] <;> rfl
  | .or a b => by
    simp only [print, asString, cat, lit]
    rw [← same a, ← same b]
    by_cases h2 : (!isNameInPath a) = true <;>
      by_cases h3 : (!isOr b && !isNameInPath b) = true <;> simp only [h2, h3, brace, cat, lit, if_true] <;> rfl
  | .root p => by
    simp only [print, asString]
    repeat (first | rfl | split)
  | .root3 p c => by
    simp only [print, asString]
    repeat (first | rfl | split)
  | .wild0 => rfl
  | .wild1 _ => rfl

theorem brace_s (x : Str) : (brace x).s.length = x.s.length + 2 := by
  simp only [brace, cat, lit, List.length_append]
  show 1 + x.s.length + 1 = _
  omega

theorem brace_k (x : Str) : (brace x).k = x.k + (2 * x.s.length + 3) := by
  simp only [brace, cat, lit, List.length_append]
  show 0 + x.k + (1 + x.s.length) + 0 + (1 + x.s.length + 1) = _
  omega

/-- Optional braces. -/
theorem opt_brace (c : Bool) (x : Str) : x.s.length ≤ (if c then brace x else x).s.length ∧
    (if c then brace x else x).k ≤ x.k + 2 * (if c then brace x else x).s.length := by
  cases c
  · simp
  · simp only [if_true, brace_s, brace_k]
    omega

theorem join_cost (x y : Str) (z : Bytes) (hz : z.length = 1) : (cat (cat x (lit z)) y).s.length = x.s.length + y.s.length + 1 ∧
    (cat (cat x (lit z)) y).k = x.k + y.k + (2 * x.s.length + y.s.length + 2) := by
  simp only [cat, lit, List.length_append, hz]
  omega

theorem arith (d1 d2 m x y k1 k2 r : Nat) (h1 : k1 ≤ 4 * d1 * x) (h2 : k2 ≤ 4 * d2 * y) (hm1 : d1 ≤ m) (hm2 : d2 ≤ m) (hr : x + y ≤ r) :
    k1 + k2 + 4 * r ≤ 4 * (m + 1) * r := by
  have a1 : 4 * d1 * x ≤ 4 * m * x := Nat.mul_le_mul_right _ (by omega)
  have a2 : 4 * d2 * y ≤ 4 * m * y := Nat.mul_le_mul_right _ (by omega)
  have a3 : 4 * m * x + 4 * m * y = 4 * m * (x + y) := (Nat.mul_add ..).symm
  have a4 : 4 * m * (x + y) ≤ 4 * m * r := Nat.mul_le_mul_left _ hr
  have a5 : 4 * (m + 1) * r = 4 * m * r + 4 * r := by rw [Nat.mul_add, Nat.add_mul]
  omega

theorem root_cost (p : Bytes) (z : Bytes) : (cat (lit p) (lit z)).k = (cat (lit p) (lit z)).s.length := by
  simp only [cat, lit, List.length_append]
  omega

theorem left_cost (a : Url) :
    (print a).s.length ≤ (if (!isName a && !isRoot a) = true then brace (if isRootS a (b!"default") = true then ⟨[], (print a).k⟩ else print a)
      else if isRootS a (b!"default") = true then ⟨[], (print a).k⟩ else print a).s.length + 1 ∧
    (if (!isName a && !isRoot a) = true then brace (if isRootS a (b!"default") = true then ⟨[], (print a).k⟩ else print a)
      else if isRootS a (b!"default") = true then ⟨[], (print a).k⟩ else print a).k ≤ (print a).k +
    2 * (if (!isName a && !isRoot a) = true then brace (if isRootS a (b!"default") = true then ⟨[], (print a).k⟩ else print a)
      else if isRootS a (b!"default") = true then ⟨[], (print a).k⟩ else print a).s.length := by
  by_cases h : isRootS a (b!"default") = true
  · have h1 : (print a).s.length = 1 ∧ isRoot a = true := by
      cases a <;> simp [isRootS] at h
      · subst h; exact ⟨rfl, rfl⟩
      · subst h; exact ⟨rfl, rfl⟩
    simp [h, h1.1, h1.2]
  · have := opt_brace (!isName a && !isRoot a) (print a)
    simp only [h]
    exact ⟨Nat.le_succ_of_le this.1, this.2⟩

theorem upper : ∀ u : Url, (print u).k ≤ 4 * depth u * (print u).s.length
  | .none => Nat.zero_le _
  | .atom _ => Nat.zero_le _
  | .concat a b => by
    have i1 := upper a
    have i2 := upper b
    simp only [print, depth]
    have b1 := left_cost a
    have b2 := opt_brace (!isConcat b && !isAtomic b && !isWild1 b) (print b)
    generalize (if (!isName a && !isRoot a) = true then brace (if isRootS a (b!"default") = true then ⟨[], (print a).k⟩ else print a)
      else if isRootS a (b!"default") = true then ⟨[], (print a).k⟩ else print a) = x at *
    generalize (if (!isConcat b && !isAtomic b && !isWild1 b) = true then brace (print b) else print b) = y at *
    obtain ⟨j1, j2⟩ := join_cost x y (b!"/") rfl
    have := arith _ _ (max (depth a) (depth b)) _ _ _ _ (x.s.length + y.s.length + 1) i1 i2 (by omega) (by omega) (by omega)
    rw [j1, j2]
    omega
  | .or a b => by
    have i1 := upper a
    have i2 := upper b
    simp only [print, depth]
    have b1 := opt_brace (!isNameInPath a) (print a)
    have b2 := opt_brace (!isOr b && !isNameInPath b) (print b)
    generalize (if (!isNameInPath a) = true then brace (print a) else print a) = x at *
    generalize (if (!isOr b && !isNameInPath b) = true then brace (print b) else print b) = y at *
    obtain ⟨j1, j2⟩ := join_cost x y (b!":") rfl
    have := arith _ _ (max (depth a) (depth b)) _ _ _ _ (x.s.length + y.s.length + 1) i1 i2 (by omega) (by omega) (by omega)
    rw [j1, j2]
    omega
  | .root p => by
    simp only [print, depth]
    repeat (first | exact Nat.zero_le _ | (rw [root_cost]; omega) | split)
  | .root3 p c => by
    simp only [print, depth]
    repeat (first | exact Nat.zero_le _ | (rw [root_cost]; omega) | split)
  | .wild0 => Nat.zero_le _
  | .wild1 _ => Nat.zero_le _

theorem path_step (x y : Bytes) (l : List Bytes) : (print (path x (y :: l))).s.length = x.length + (print (path y l)).s.length + 1 ∧
    (print (path x (y :: l))).k = (print (path y l)).k + (2 * x.length + (print (path y l)).s.length + 2) := by
  have h : print (path x (y :: l)) = cat (cat (lit x) (lit (b!"/"))) (print (path y l)) := by
    have h1 : (!isConcat (path y l) && !isAtomic (path y l) && !isWild1 (path y l)) = false := by
      cases l <;> simp [path, isConcat, isAtomic]
    simp only [path, print, isRootS, isName, isRoot, h1]
    rfl
  obtain ⟨j1, j2⟩ := join_cost (lit x) (print (path y l)) (b!"/") rfl
  rw [h, j1, j2]
  simp [lit]

theorem path_cost : ∀ (l : List Bytes) (x : Bytes), l.length ≤ (print (path x l)).s.length ∧ l.length * (l.length + 1) ≤ 2 * (print (path x l)).k
  | [], _ => ⟨Nat.zero_le _, Nat.zero_le _⟩
  | y :: l, x => by
    obtain ⟨i1, i2⟩ := path_cost l y
    obtain ⟨h1, h2⟩ := path_step x y l
    rw [h1, h2, List.length_cons]
    have : (l.length + 1) * (l.length + 1 + 1) = l.length * (l.length + 1) + 2 * (l.length + 1) := by
      rw [Nat.mul_comm (l.length + 1) (l.length + 1 + 1), Nat.add_mul, Nat.add_mul]
      omega
    omega

theorem path_letters (x : UInt8) : ∀ n : Nat, (print (path [x] (List.replicate n [x]))).s.length = 2 * n + 1
  | 0 => rfl
  | n + 1 => by
    rw [List.replicate_succ, (path_step ..).1, path_letters x n]
    simp only [List.length_singleton]
    omega

/-- The counted function gives the text. -/
theorem C157_same (u : Url) : (print u).s = asString u := same u

/-- C157 in part: at most `4 * depth` characters are copied per character of the text. Missing: a bound that does not depend on the depth,
see `C157_violated`. -/
theorem C157_partial (u : Url) : (print u).k ≤ 4 * depth u * (asString u).length := same u ▸ upper u

/-- C157 fails: printing a path with `n` separators copies at least `n * (n + 1) / 2` characters, whatever the names are. -/
theorem C157_violated (x : Bytes) (l : List Bytes) : l.length * (l.length + 1) ≤ 2 * (print (path x l)).k := (path_cost l x).2

/-- So there is no bound per character. -/
theorem C157_unbounded_violated (c : Nat) : ∃ u : Url, c * (asString u).length < (print u).k := by
  refine ⟨path [120] (List.replicate (4 * c + 1) [120]), ?_⟩
  have h := C157_violated [120] (List.replicate (4 * c + 1) [120])
  rw [← same, path_letters]
  rw [List.length_replicate] at h
  have e1 : (4 * c + 1) * (4 * c + 1 + 1) = 2 * (c * (2 * (4 * c + 1) + 1)) + (6 * c + 2) := by
    rw [Nat.add_mul, Nat.mul_add c, Nat.mul_add (4 * c), Nat.mul_comm c (2 * (4 * c + 1)), Nat.mul_add (4 * c) (4 * c) 1,
      Nat.mul_assoc 2 (4 * c + 1) c, Nat.add_mul (4 * c) 1 c, Nat.mul_comm (4 * c) (4 * c), Nat.mul_assoc 4 c (4 * c),
      Nat.mul_assoc 4 c c, Nat.mul_comm c (4 * c), Nat.mul_assoc 4 c c]
    omega
  omega

/-- `/{a:b}/c`. -/
example : print (.concat (.root (b!"default")) (.concat (.or (.atom (b!"a")) (.atom (b!"b"))) (.atom (b!"c")))) =
    ⟨b!"/{a:b}/c", 36⟩ := by decide +kernel

/-- `a/b/c`. -/
example : print (path (b!"a") [b!"b", b!"c"]) = ⟨b!"a/b/c", 12⟩ := by decide +kernel

example : depth (path (b!"a") [b!"b", b!"c"]) = 3 := by decide +kernel

end Lolly.UrlCostProps
