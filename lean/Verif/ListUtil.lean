/-! # List facts missing from core -/

namespace Lolly

theorem nodup_subset_length {α : Type} [DecidableEq α] {l l' : List α} (hn : l.Nodup)
    (hs : ∀ x ∈ l, x ∈ l') : l.length ≤ l'.length := by
  induction l generalizing l' with
  | nil => simp
  | cons x l ih =>
    rw [List.nodup_cons] at hn
    have hx : x ∈ l' := hs x List.mem_cons_self
    have := ih (l' := l'.erase x) hn.2 (fun y hy => by
      rw [List.mem_erase_of_ne]
      · exact hs y (List.mem_cons_of_mem _ hy)
      · rintro rfl; exact hn.1 hy)
    rw [List.length_erase_of_mem hx] at this
    have := List.length_pos_of_mem hx
    simp only [List.length_cons]; omega

theorem nodup_subset_of_length {α : Type} [DecidableEq α] {l l' : List α} (hn : l.Nodup)
    (hs : ∀ x ∈ l, x ∈ l') (hl : l'.length ≤ l.length) : ∀ x ∈ l', x ∈ l := by
  intro y hy
  apply Classical.byContradiction
  intro hny
  have := nodup_subset_length (l := y :: l) (l' := l') (List.nodup_cons.2 ⟨hny, hn⟩)
    (by intro z hz; rcases List.mem_cons.1 hz with rfl | hz
        · exact hy
        · exact hs z hz)
  simp only [List.length_cons] at this; omega

end Lolly
