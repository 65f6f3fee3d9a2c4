import Verif.System.User
import Verif.Strings.SearchProps
import Verif.Data.Utf16Props

/-!
# C126: the names of the user
-/

set_option autoImplicit false

namespace Lolly.UserProps
open Lolly.User Lolly.An Lolly.Utf16Props

/-- The comment of an entry: the full name, and behind a comma the office and
telephone numbers. -/
def Comment (full comment : Bytes) : Prop :=
  44 ∉ full ∧ (comment = full ∨ ∃ rest, comment = full ++ b!"," ++ rest)

theorem comma_occurs {s : Bytes} {q : Nat} (h : OccursAt (b!",") s q) : s[q]? = some 44 := by
  obtain ⟨a, b, rfl, rfl⟩ := h
  rw [List.append_assoc, List.getElem?_append_right (Nat.le_refl _), Nat.sub_self]
  rfl

theorem first_piece {full comment : Bytes} (h : Comment full comment) (ps : List Bytes) (hc : Cuts (b!",") comment ps) :
    ps[0]? = some full := by
  obtain ⟨hn, rfl | ⟨rest, rfl⟩⟩ := h
  · have : Cuts (b!",") comment [comment] := .last _ (fun q hq =>
      hn (List.mem_of_getElem? (comma_occurs hq)))
    rw [cuts_unique hc this]; rfl
  · obtain ⟨qs, -, -, hr, -⟩ := SearchProps.C22_tokenize rest (b!",") (by simp) (rest.length + 1) (by omega)
    have : Cuts (b!",") (full ++ b!"," ++ rest) (full :: qs) := by
      refine .cut full rest qs (fun q hq ho => ?_) hr
      have := comma_occurs ho
      rw [List.append_assoc, List.getElem?_append_left hq] at this
      exact hn (List.mem_of_getElem? this)
    rw [cuts_unique hc this]; rfl

/-- On Unix a user of the data base gets the login name, and as name the part of
the comment that is the full name.  Missing: users that are not in the data base
(`C126_unknown_violated`). -/
theorem C126_unix_partial (p : Passwd) (full : Bytes) (h : Comment full p.gecos) :
    unixGetLogin (some p) = .ok p.name ∧ unixGetUsername (some p) = .ok full := by
  refine ⟨rfl, ?_⟩
  obtain ⟨ps, e, -, hc, -⟩ := SearchProps.C22_tokenize p.gecos (b!",") (by simp) (p.gecos.length + 1) (by omega)
  show (An.tokenize (p.gecos.length + 1) p.gecos (b!",")).bind (fun a => rd a 0) = _
  rw [e]
  exact rd_eq_ok.2 (first_piece h ps hc)

example : Comment (b!"Ada Lovelace") (b!"Ada Lovelace,12,555") ∧ Comment [] [] ∧ Comment (b!"root") (b!"root") := by
  refine ⟨⟨by decide, .inr ⟨b!"12,555", by decide⟩⟩, ⟨by decide, .inl rfl⟩, ⟨by decide, .inl rfl⟩⟩

/-- Every comment has a full name, so that this is all users of the data base. -/
theorem C126_comment (comment : Bytes) : ∃ full, Comment full comment := by
  refine ⟨comment.takeWhile (· ≠ 44), fun h => ?_, ?_⟩
  · have := List.all_eq_true.1 List.all_takeWhile _ h
    simp at this
  · rcases e : comment.dropWhile (· ≠ 44) with _ | ⟨c, rest⟩
    · left
      have := List.takeWhile_append_dropWhile (p := (· ≠ 44)) (l := comment)
      rw [e, List.append_nil] at this
      exact this.symm
    · right
      have hc : c = 44 := by
        have := List.head_dropWhile_not (p := (· ≠ 44)) (l := comment) (by rw [e]; simp)
        simp only [e, List.head_cons] at this
        simpa using this
      subst hc
      refine ⟨rest, ?_⟩
      have := List.takeWhile_append_dropWhile (p := (· ≠ 44)) (l := comment)
      rw [e] at this
      rw [List.append_assoc]
      exact this.symm

/-- A user who is not in the data base: a null pointer is followed. -/
theorem C126_unknown_violated : unixGetLogin none = .ub ∧ unixGetUsername none = .ub := ⟨rfl, rfl⟩

/-- On Windows the display name is given if what happens to be in `len` is at least
the size of the name, and the name has less than 100 units.  Missing: everything
else (`C126_windows_violated`, `C126_long_violated`). -/
theorem C126_windows_partial (conv : Utf16.Conv) (hc : Converts conv) (cs : List Nat) (hs : ∀ c ∈ cs, Scalar c)
    (hz : 0 ∉ cs) (after : Nat) (buffer : List UInt16) (hb : buffer.length = 100) (len : Nat)
    (hl : (cs.flatMap units).length < 100) (hlen : (cs.flatMap units).length < len) :
    winGetUsername conv (some ((cs.flatMap units).map UInt16.ofNat)) after buffer len = .ok (text8 cs) := by
  have e : getUserNameEx (some ((cs.flatMap units).map UInt16.ofNat)) after buffer len =
      .ok ((cs.flatMap units).map UInt16.ofNat ++ 0 :: buffer.drop ((cs.flatMap units).length + 1),
        (cs.flatMap units).length) := by
    unfold getUserNameEx
    simp only [List.length_map]
    rw [if_pos (by omega), if_pos (by omega)]
  unfold winGetUsername
  show (getUserNameEx _ _ _ _).bind _ = _
  rw [e]
  show (if _ then _ else _) = _
  by_cases h0 : (cs.flatMap units).length = 0
  · rw [if_pos h0]
    have : cs = [] := by
      cases cs with
      | nil => rfl
      | cons c cs =>
        have : (units c).length ≠ 0 := by unfold units; split <;> simp
        simp only [List.flatMap_cons, List.length_append] at h0
        omega
    subst this; rfl
  · rw [if_neg h0, if_pos (by simp)]
    have hne : cs ≠ [] := by rintro rfl; exact h0 rfl
    refine C114_wchar conv hc cs hs hne hz ?_ _
    have := lengths cs
    have h16 : (text16 cs).length = 2 * (cs.flatMap units).length := by
      unfold text16
      generalize cs.flatMap units = us
      induction us with
      | nil => rfl
      | cons u us ih => rw [List.flatMap_cons, List.length_append, ih]; simp [bigEndian]; omega
    omega

/-- A converter as in C114, a name outside ASCII, and a buffer full of rubbish. -/
example : winGetUsername model (some (([0x41, 0xE9, 0x1F600].flatMap units).map UInt16.ofNat)) 7 (List.replicate 100 0xABCD) 5000 =
    .ok (text8 [0x41, 0xE9, 0x1F600]) :=
  C126_windows_partial model model_converts.1 _ (by decide) (by decide) _ _ (by decide) _ (by decide) (by decide)

/-- If what happens to be in `len` is smaller than the name, the result is what
happens to be in the buffer and does not depend on the name. -/
theorem C126_windows_violated (conv : Utf16.Conv) (w : List UInt16) (after : Nat) (buffer : List UInt16) (len : Nat)
    (hlen : len ≤ w.length) :
    winGetUsername conv (some w) after buffer len =
      if 0 ∈ buffer then Utf16.wcharToUtf8 conv buffer else .ub := by
  have e : getUserNameEx (some w) after buffer len = .ok (buffer, w.length + 1) := by
    unfold getUserNameEx
    simp only
    rw [if_neg (by omega)]
  unfold winGetUsername
  show (getUserNameEx _ _ _ _).bind _ = _
  rw [e]
  show (if w.length + 1 = 0 then Res.ok [] else
    if 0 ∈ buffer then Utf16.wcharToUtf8 conv buffer else .ub) = _
  rw [if_neg (by omega)]

/-- A name of 100 or more units is written beyond the end of the buffer whenever
`len` happens to be large. -/
theorem C126_long_violated (conv : Utf16.Conv) (w : List UInt16) (after : Nat) (buffer : List UInt16) (hb : buffer.length = 100)
    (len : Nat) (hl : 100 ≤ w.length) (hlen : w.length < len) :
    winGetUsername conv (some w) after buffer len = .ub := by
  have e : getUserNameEx (some w) after buffer len = .ub := by
    unfold getUserNameEx
    simp only
    rw [if_pos (by omega), if_neg (by omega)]
  unfold winGetUsername
  show (getUserNameEx _ _ _ _).bind _ = _
  rw [e]
  rfl

end Lolly.UserProps
