import Verif.System.Files
import Verif.System.UrlLemmas

/-!
# The names of local files with and without the protocol `file`
-/

set_option autoImplicit false

namespace Lolly.Files

open Lolly.Url

/-- The url `file:///a/b` names the file `/a/b`, and its text is `file://` followed by that name. -/
theorem file_path {l : List Url} (h : ∀ y ∈ l, Elem y) (hne : l ≠ []) (hp : l.head? ≠ some parent) :
    isLocalAndSingle (R (b!"file") l) = true ∧ asLocalPath (R (b!"file") l) = .ok (asString (R (b!"default") l)) ∧
      asString (R (b!"file") l) = (b!"file://") ++ asString (R (b!"default") l) := by
  have e : mul (.root (b!"default")) (P l) = .ok (R (b!"default") l) := by
    have := mul_R_P (r := b!"default") (by decide) (l1 := []) (by simp) h hne
    rw [R_nil] at this
    rw [this, joinL, List.foldr_nil, strip_eq_self hp]
  rw [R_cons _ l hne]
  refine ⟨rfl, ?_, ?_⟩
  · rw [asLocalPath, if_pos (by simp [isRootedS, isRootS]), reroot, reroot, Res.ok_bind, e, Res.ok_bind]
  · rw [R_cons _ l hne]
    rfl

end Lolly.Files
