import Verif.Spec.Versions

/-!
# Specification of how much a version store holds
-/

namespace Gaspra

variable {τ T : Type _}

/-- The bytes in the two dictionaries of a store, without the tags. -/
def storedBytes (v : Versions τ T) : Nat :=
  (v.headVersion.map (·.2.length)).sum + (v.diffs.map (·.2.length)).sum

/-- Every version contains the one it was made from, in one piece. -/
def ContainsBase (h : List (AddOp τ)) : Prop :=
  ∀ a ∈ h, ∀ o ∈ h, a.base = some o.tag → ∃ front back, a.content = front ++ o.content ++ back

end Gaspra
