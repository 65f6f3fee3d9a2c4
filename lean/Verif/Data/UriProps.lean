import Verif.Data.Uri
import Verif.System.UrlParseProps

/-!
# C104: host and path of a uri
-/

set_option autoImplicit false

namespace Lolly.UriProps

open Lolly.Url Lolly.Uri Lolly.UrlParseProps

theorem host_R (p host : Bytes) (path : List Bytes) (hne : path ≠ []) :
    uriHost (R p ((host :: path).map elemOf)) = .ok host := by
  cases path with
  | nil => exact absurd rfl hne
  | cons x path =>
    rw [R_cons _ _ (by simp)]
    show Res.ok (asString (elemOf host)) = _
    rw [asString_elemOf]

theorem path_R (p host : Bytes) (path : List Bytes) (hne : path ≠ []) (hw : ∀ x ∈ (host :: path).dropLast, c! '*' ∉ x) :
    uriPath (R p ((host :: path).map elemOf)) = .ok ((b!"/") ++ text path) := by
  have hw' : ∀ x ∈ path.dropLast, c! '*' ∉ x := by
    intro x hx
    apply hw x
    cases path with
    | nil => cases hx
    | cons y path => rw [List.dropLast_cons_cons]; exact List.mem_cons_of_mem _ hx
  cases path with
  | nil => exact absurd rfl hne
  | cons x path =>
    rw [R_cons _ _ (by simp)]
    show Res.ok ((b!"/") ++ asString (P ((x :: path).map elemOf))) = _
    rw [asString_P _ hw' hne]

/-- C104 but for uris without a path: for the url that is read from `protocol://host/path`, the host and the path come back.
Hosts may have ports; the path has at least one name. `text` puts `/` between names. -/
theorem C104_parts_partial (env : Env) (f type : Nat) (p host : Bytes) (path : List Bytes) (hne : path ≠ [])
    (h : ∀ x ∈ host :: path, Name x) (hw : ∀ x ∈ (host :: path).dropLast, c! '*' ∉ x) (hpar : host ≠ (b!".."))
    (hp : ∀ c ∈ p, An.isAlpha c || An.isDigit c) (hl : 2 ≤ p.length) (hd : p ≠ b!"default") (hb : p ≠ b!"blank")
    (hf : p ≠ b!"file") :
    ∃ u, general env (f + 1) type (p ++ (b!"://") ++ text (host :: path)) = .ok u ∧
      uriHost u = .ok host ∧ uriPath u = .ok ((b!"/") ++ text path) := by
  obtain ⟨h1, h2⟩ := C48_protocol_partial env f type p (host :: path) (by simp) h hw (by simpa using hpar) hp hl hd hb
  rw [if_neg hf, List.nil_append] at h1
  rw [h1] at h2
  exact ⟨_, h2, host_R _ _ _ hne, path_R _ _ _ hne hw⟩

/-- The uri http://localhost:8080/a/b.html. -/
example : ∃ u, general (fun _ => []) 5 0 (b!"http://localhost:8080/a/b.html") = .ok u ∧
    uriHost u = .ok (b!"localhost:8080") ∧ uriPath u = .ok (b!"/a/b.html") := by
  have := C104_parts_partial (fun _ => []) 4 0 (b!"http") (b!"localhost:8080") [(b!"a"), (b!"b.html")] (by decide)
    (by
      intro x hx
      simp only [List.mem_cons, List.not_mem_nil, or_false] at hx
      rcases hx with rfl | rfl | rfl <;> exact ⟨by decide, by decide, by decide, by decide, by decide⟩)
    (by decide) (by decide) (by decide) (by decide) (by decide) (by decide) (by decide)
  exact this

/-- C104 fails for uris without a path: neither part can be asked for. -/
theorem C104_short_violated (env : Env) (f type : Nat) (p host : Bytes) (h : Name host) (hw : c! '*' ∉ host)
    (hpar : host ≠ (b!"..")) (hp : ∀ c ∈ p, An.isAlpha c || An.isDigit c) (hl : 2 ≤ p.length) (hd : p ≠ b!"default")
    (hb : p ≠ b!"blank") (hf : p ≠ b!"file") :
    ∃ u, general env (f + 1) type (p ++ (b!"://") ++ host) = .ok u ∧ uriHost u = .ub ∧ uriPath u = .ub := by
  obtain ⟨h1, h2⟩ := C48_protocol_partial env f type p [host] (by simp) (by simpa using h) (by simp) (by simpa using hpar) hp hl hd hb
  rw [if_neg hf, List.nil_append] at h1
  rw [h1] at h2
  refine ⟨_, h2, ?_, ?_⟩ <;>
  · rw [R_cons _ _ (by simp)]
    simp only [List.map_cons, List.map_nil, P, elemOf, if_neg hw, uriHost, uriPath, child, Res.ok_bind, Res.ub_bind]

/-- C104 fails for the protocol `file`, which has no host: for all names of directories and files, the first directory is taken
for it. -/
theorem C104_file_violated (env : Env) (f type : Nat) (dir : Bytes) (path : List Bytes) (hne : path ≠ [])
    (h : ∀ x ∈ dir :: path, Name x) (hw : ∀ x ∈ (dir :: path).dropLast, c! '*' ∉ x) (hpar : dir ≠ (b!"..")) :
    ∃ u, general env (f + 1) type ((b!"file:///") ++ text (dir :: path)) = .ok u ∧
      uriHost u = .ok dir ∧ uriPath u = .ok ((b!"/") ++ text path) := by
  obtain ⟨h1, h2⟩ := C48_protocol_partial env f type (b!"file") (dir :: path) (by simp) h hw (by simpa using hpar)
    (by decide) (by decide) (by decide) (by decide)
  rw [if_pos rfl] at h1
  rw [h1] at h2
  exact ⟨_, h2, host_R _ _ _ hne, path_R _ _ _ hne hw⟩

/-- The file /a/b. -/
example : ∃ u, general (fun _ => []) 5 0 (b!"file:///a/b") = .ok u ∧ uriHost u = .ok (b!"a") ∧ uriPath u = .ok (b!"/b") :=
  C104_file_violated (fun _ => []) 4 0 (b!"a") [(b!"b")] (by decide)
    (by
      intro x hx
      simp only [List.mem_cons, List.not_mem_nil, or_false] at hx
      rcases hx with rfl | rfl <;> exact ⟨by decide, by decide, by decide, by decide, by decide⟩)
    (by decide) (by decide)

end Lolly.UriProps
