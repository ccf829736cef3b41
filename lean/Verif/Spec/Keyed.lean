import Verif.Spec.Diff

/-!
# Diffs up to equality of tokens
-/

namespace Gaspra

variable {α β : Type _} (key : β → α)

/-- The items of a diff lie one after the other in both texts.  The old text has the common pieces
as they are and the removed ones; the new text has the inserted pieces as they are, and pieces equal
to the common ones. -/
inductive DiffUpTo : List (DiffItem β) → List β → List β → Prop
  | nil : DiffUpTo [] [] []
  | common {d : List (DiffItem β)} {o m : List β} (p q : List β) : p.map key = q.map key →
      DiffUpTo d o m → DiffUpTo (.common p :: d) (p ++ o) (q ++ m)
  | change {d : List (DiffItem β)} {o m : List β} (a b : List β) :
      DiffUpTo d o m → DiffUpTo (.change a b :: d) (b ++ o) (a ++ m)

end Gaspra
