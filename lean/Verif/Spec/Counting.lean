import Verif.Model.Tokenizers

/-! # Counting -/

namespace Gaspra

/-- Exactly `n` elements have the property. -/
def CountIs {α : Type _} (P : α → Prop) (n : Nat) : Prop :=
  ∃ d : List α, d.Nodup ∧ (∀ x, x ∈ d ↔ P x) ∧ d.length = n

/-- The number of lines of a text: one more than it has newlines. -/
def lineCount : Text → Nat
  | .bytes b => b.count 10 + 1
  | .str s => s.count 10 + 1

end Gaspra
