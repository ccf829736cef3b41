import Verif.Spec.Diff

/-! # Diffs as sequences of tokens and changes -/

namespace Gaspra

variable {α : Type _}

/-- A diff as a sequence of unchanged tokens and changes: cutting an unchanged piece in two makes no
difference. -/
def spell (d : List (DiffItem α)) : List (α ⊕ (List α × List α)) :=
  d.flatMap fun
    | .common f => f.map Sum.inl
    | .change a b => [Sum.inr (a, b)]

end Gaspra
