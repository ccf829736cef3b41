import Verif.Spec.Versions

/-!
# Specification: parts of a history that do not touch each other
-/

namespace Gaspra

variable {τ : Type _}

/-- No version with a tag in `P` is based on one outside, and the other way round. -/
def Separate (P : τ → Bool) (h : List (AddOp τ)) : Prop :=
  ∀ a ∈ h, ∀ b, a.base = some b → P a.tag = P b

/-- The calls whose tag is in `P`. -/
def callsIn (P : τ → Bool) (h : List (AddOp τ)) : List (AddOp τ) := h.filter fun a => P a.tag

/-- Of the results of the calls of a history, those of the calls whose tag is in `P`. -/
def resultsIn {β : Type _} (P : τ → Bool) (h : List (AddOp τ)) (results : List β) : List β :=
  ((h.zip results).filter fun r => P r.1.tag).map Prod.snd

end Gaspra
