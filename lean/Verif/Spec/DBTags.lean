import Verif.Spec.Versions

/-! # Histories with converted tags -/

namespace Gaspra

variable {τ : Type _}

/-- The same call with its tags converted. -/
def convertOp (col : τ → τ) (a : AddOp τ) : AddOp τ := ⟨col a.tag, a.content, a.base.map col⟩

/-- No tag of the history is the converted form of a tag of the history: for instance all tags are
numbers.  No call names its own tag as the base. -/
structure NeverStored (col : τ → τ) (h : List (AddOp τ)) : Prop where
  changed : ∀ a ∈ h, ∀ b ∈ h, a.tag ≠ col b.tag
  base : ∀ a ∈ h, a.base.map col ≠ some (col a.tag)

end Gaspra
