import Verif.Model.Changesets

/-!
# Renaming tokens
-/

namespace Gaspra

variable {α β : Type _}

/-- Replace every token of a diff item. -/
def DiffItem.rename (f : α → β) : DiffItem α → DiffItem β
  | .common p => .common (p.map f)
  | .change a b => .change (a.map f) (b.map f)

/-- Replace every token of a change item. -/
def ChangeItem.rename (f : α → β) : ChangeItem α → ChangeItem β
  | .common a b => .common a b
  | .change a b => .change (a.map f) (b.map f)

/-- Different tokens among those of a list keep different names. -/
def KeepsApart (f : α → β) (l : List α) : Prop := ∀ x ∈ l, ∀ y ∈ l, f x = f y → x = y

/-- Write out an item whose tokens are pieces of text. -/
def DiffItem.joined : DiffItem (List β) → DiffItem β
  | .common p => .common p.flatten
  | .change a b => .change a.flatten b.flatten

end Gaspra
