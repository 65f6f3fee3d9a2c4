import Verif.System.DirsListProps
import Verif.System.UrlListProps

set_option autoImplicit false

/-!
# Property C118: the entries of a directory

`readDirectory w ls sys u` is `read_directory (u, error_flag)`: the names and the flag. `ls p` are the absolute paths of the
entries of `p` that the system lists.
-/

namespace Lolly.ReadDirProps

open Lolly.Url Lolly.Files Lolly.Dirs Lolly.DirsProps

/-- C118 for plain names of directories and for entries without `/`, `:`, `~` and `$`: of a directory the names of
the entries are given in the order of the system, and there is no error; otherwise there are no names and there is an
error. -/
theorem C118_entries_partial (st : Start) (w : Stat) (ls : Bytes → List Bytes) (env : Env) (f type : Nat)
    (pre l ns : List Bytes) (hp : ∀ x ∈ pre, Plain x) (h : ∀ x ∈ ns, Plain x)
    (hl : ∀ n ∈ l, FileName n ∧ Name n ∧ c! ':' ∉ n)
    (e : ls (dirText st ns) = l.map fun n => b!"/" ++ text (pre ++ ns ++ [n])) :
    (kind w (dirText st ns) = some .dir →
      readDirectory w ls (general env (f + 1) type) (dirUrl st ns) = .ok (l, false)) ∧
    (kind w (dirText st ns) ≠ some .dir →
      readDirectory w ls (general env (f + 1) type) (dirUrl st ns) = .ok ([], true)) := by
  refine ⟨readDirectory_dirUrl st w ls env f type pre l ns hp h hl e, fun hd => ?_⟩
  rw [readDirectory, dirUrl_local, asLocalPath_dirUrl st (files h), isDirectory_dirUrl st w (files h)]
  simp [hd]

/-- The hypotheses are met, also by hidden entries. -/
example : Plain (b!"tmp") ∧ FileName (b!".git") ∧ Name (b!".git") ∧ c! ':' ∉ b!".git" :=
  ⟨⟨⟨by decide, by decide, by decide, by decide, by decide, by decide⟩, by decide, by decide, by decide, by decide, by decide⟩,
    ⟨by decide, by decide, by decide, by decide, by decide, by decide⟩, ⟨by decide, by decide, by decide, by decide, by decide⟩,
    by decide⟩

/-- C118 is violated by urls of the web and by alternatives: they have no entries, and there is no error. -/
theorem C118_web_violated (w : Stat) (ls : Bytes → List Bytes) (sys : Bytes → Res Url) (u : Url)
    (h : isLocalAndSingle u = false) : readDirectory w ls sys u = .ok ([], false) := by
  rw [readDirectory, h]
  rfl

example : isLocalAndSingle (R (b!"http") [.atom (b!"gnu.org")]) = false := by decide

/-- C118 is violated by entries with colons: `n:n` is listed as `n`, since the path is read as a list. -/
theorem C118_colon_violated (st : Start) (w : Stat) (ls : Bytes → List Bytes) (env : Env) (f type : Nat)
    (pre ns : List Bytes) (n : Bytes) (hp : ∀ x ∈ pre, Plain x) (h : ∀ x ∈ ns, Plain x) (hn : Plain n)
    (hb : ∀ x ∈ pre ++ ns ++ [n], c! '[' ∉ x)
    (e : ls (dirText st ns) = [b!"/" ++ text (pre ++ ns ++ [n ++ b!":" ++ n])])
    (hd : kind w (dirText st ns) = some .dir) :
    readDirectory w ls (general env (f + 2) type) (dirUrl st ns) = .ok ([n], false) := by
  have hall : ∀ x ∈ pre ++ ns ++ [n], Plain x := by
    intro x hx
    simp only [List.mem_append, List.mem_singleton] at hx
    rcases hx with (hx | hx) | rfl
    · exact hp x hx
    · exact h x hx
    · exact hn
  have hf := files hall
  have hpath : ∀ x ∈ pre ++ ns ++ [n], Name x ∧ c! ':' ∉ x ∧ c! '*' ∉ x ∧ c! '[' ∉ x := fun x hx =>
    ⟨(hall x hx).name, (hall x hx).no_colon, (hall x hx).no_star, hb x hx⟩
  have hlist := UrlListProps.C105_paths_partial env f type [⟨true, pre ++ ns ++ [n]⟩, ⟨false, [n]⟩] (by simp) (by
    intro p hp
    simp only [List.mem_cons, List.not_mem_nil, or_false] at hp
    rcases hp with rfl | rfl
    · exact ⟨by simp, hpath, fun _ e => (hall _ (List.mem_of_mem_head? e)).not_up rfl, (fun e => (by cases e))⟩
    · refine ⟨by simp, fun x hx => hpath x (by simp at hx; simp [hx]), (fun e => (by cases e)), fun _ => ?_⟩
      exact ⟨by simpa [text, An.join] using hn.not_www, by simpa [text, An.join] using hn.not_ftp⟩) (by simp)
  have htext : UrlListProps.listText ([(⟨true, pre ++ ns ++ [n]⟩ : UrlListProps.Path), ⟨false, [n]⟩].map UrlListProps.Path.text) =
      b!"/" ++ text (pre ++ ns ++ [n ++ b!":" ++ n]) := by
    have hj : ∀ (l : List Bytes) (a b : Bytes), An.join (b!"/") (l ++ [a ++ b]) = An.join (b!"/") (l ++ [a]) ++ b := by
      intro l a b
      induction l with
      | nil => rfl
      | cons x l ih => rw [List.cons_append, An.join_cons (by simp), ih, List.cons_append, An.join_cons (by simp)]; simp
    simp only [List.map_cons, List.map_nil, UrlListProps.listText, UrlListProps.Path.text, text]
    rw [List.append_assoc n, hj]
    simp [An.join]
  rw [htext] at hlist
  rw [readDirectory, dirUrl_local, asLocalPath_dirUrl st (files h), isDirectory_dirUrl st w (files h), hd]
  simp only [Bool.not_true, Bool.false_eq_true, if_false, Res.ok_bind, cname_dirText st (files h), decide_true, e]
  rw [entryNames, hlist, Res.ok_bind, entryNames, Res.ok_bind, Res.ok_bind]
  have hf1 : ∀ x ∈ pre ++ ns, FileName x := fun x hx => hf x (List.mem_append_left _ hx)
  have htail : tail (R (b!"default") ((pre ++ ns ++ [n]).map .atom)) = .atom n := by
    rw [List.map_append, List.map_cons, List.map_nil]
    exact (UrlProps.C47_rooted _ _ _ (elems hf1) hn.toFileName.elem (no_parent hf1) hn.toFileName.ne_parent
      (fun e => absurd e (by decide))).2.1
  have hne : R (b!"default") ((pre ++ ns ++ [n]).map .atom) ≠ P [.atom n] := by
    rw [R_cons _ _ (by simp)]
    simp [P]
  have hm : merge [R (b!"default") ((pre ++ ns ++ [n]).map .atom), P [.atom n]] =
      [R (b!"default") ((pre ++ ns ++ [n]).map .atom), P [.atom n]] := by
    show ins _ [_] = _
    rw [ins, if_neg (by simpa using fun e => hne (by simpa using e.symm))]
  show Res.ok ([asString (tail (orOf (merge [R (b!"default") ((pre ++ ns ++ [n]).map .atom), P [.atom n]])))], false) = _
  rw [hm]
  show Res.ok ([asString (alt (tail _) (tail (.atom n)))], false) = _
  rw [htail]
  simp [tail, alt, asString]

end Lolly.ReadDirProps
