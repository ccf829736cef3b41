import Verif.Spec.LineTight

/-! # How many conflicts a line diff has, and what stays outside of them -/

namespace Gaspra

/-- The number of changes of a diff. -/
def changeCount {α : Type _} (d : List (DiffItem α)) : Nat := d.countP DiffItem.isChange

/-- The number of conflicts of a line diff. -/
def conflictCount (d : List LineItem) : Nat := d.countP LineItem.isChange

/-- The items of a line diff are a proper grouping of the pieces of the diff `s`. -/
structure Grouped (sp : Nat → Bool) (s : List (DiffItem Nat)) (items : List LineItem) : Prop where
  /-- The characters and changes are those of `s` in their order, with a newline after them if need
  be. -/
  order : ∃ e, (e = [] ∨ e = [nl]) ∧ spell (allPieces items) = spell s ++ spell [.common e]
  /-- A conflict consists of one or more parts, each with a change.  The unchanged pieces in a part
  are blank or do not go beyond the end of a line. -/
  tight : ∀ i ∈ items, (∃ t, i = .text t) ∨ ∃ Ps : List (List (DiffItem Nat)), Ps ≠ [] ∧
    i = conflictOf Ps.flatten ∧ ∀ Q ∈ Ps, WithinLines sp Q ∧ ∃ x ∈ Q, x.isChange = true
  /-- There is unchanged text between any two conflicts. -/
  apart : ChangesApart items
  /-- There are no more conflicts than changes. -/
  count : conflictCount items ≤ changeCount s
  /-- A line `l` that lies within an unchanged piece that is not blank is outside of all conflicts:
  it is a line of a text item, at the same place. -/
  lines : ∀ s₁ a l b s₂, s = s₁ ++ .common (a ++ [nl] ++ l ++ [nl] ++ b) :: s₂ →
    ¬ Blank sp (a ++ [nl] ++ l ++ [nl] ++ b) →
    ∃ A x y B, items = A ++ .text (x ++ l ++ [nl] ++ y) :: B ∧ Whole x ∧
      spell (allPieces A) ++ x.map Sum.inl = spell s₁ ++ (a ++ [nl]).map Sum.inl

end Gaspra
