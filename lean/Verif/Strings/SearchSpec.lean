import Verif.Basic

/-!
# Specifications for searching, replacing, splitting, trimming and tab expansion
-/

set_option autoImplicit false

namespace Lolly.An

/-- `what` occurs in `s` at position `p`. -/
def OccursAt (what s : Bytes) (p : Nat) : Prop := ∃ a b, s = a ++ what ++ b ∧ a.length = p

/-- Some nonempty pattern of `a` occurs at `p`. -/
def AnyAt (a : List Bytes) (inn : Bytes) (p : Nat) : Prop := ∃ x ∈ a, x ≠ [] ∧ OccursAt x inn p

/-- `ps` are the pieces of `s` between the leftmost non-overlapping occurrences of `what`: either
`what` does not occur, or the first piece ends where `what` occurs for the first time, and the rest is
cut in the same way. -/
inductive Cuts (what : Bytes) : Bytes → List Bytes → Prop
  | last (s : Bytes) (h : ∀ p, ¬ OccursAt what s p) : Cuts what s [s]
  | cut (p rest : Bytes) (ps : List Bytes)
      (h : ∀ q, q < p.length → ¬ OccursAt what (p ++ what ++ rest) q) (hr : Cuts what rest ps) :
      Cuts what (p ++ what ++ rest) (p :: ps)

/-- The pieces with a separator between consecutive ones. -/
def join (sep : Bytes) : List Bytes → Bytes
  | [] => []
  | [p] => p
  | p :: q :: ps => p ++ sep ++ join sep (q :: ps)

/-- `s` is obtained from `w` by replacing every '*' by some string. -/
inductive Wild : Bytes → Bytes → Prop
  | nil : Wild [] []
  | char (c : UInt8) (s w : Bytes) (hc : c ≠ c! '*') (h : Wild s w) : Wild (c :: s) (c :: w)
  | star (x s w : Bytes) (h : Wild s w) : Wild (x ++ s) (c! '*' :: w)

/-- White space: blank, tab, newline, carriage return. -/
def Space (c : UInt8) : Prop := c = 32 ∨ c = 9 ∨ c = 10 ∨ c = 13

/-- Tab expansion, where `col` is the column reached so far: a tab moves to the next multiple of `w`, a
newline back to column 0, and every other byte takes one column. -/
def expand (w : Nat) (col : Nat) : Bytes → Bytes
  | [] => []
  | c :: s =>
    if c = 9 then List.replicate (w - col % w) (c! ' ') ++ expand w (col + (w - col % w)) s
    else if c = 10 then c :: expand w 0 s
    else c :: expand w (col + 1) s

end Lolly.An
