import Verif.Spec.Versions

/-!
# Specification: a store in which the entry of one tag has been damaged
-/

namespace Gaspra

variable {τ T : Type _} [DecidableEq τ]

/-- The stores have the same tree, and the same texts and deltas except for the tag `x`. -/
structure DamagedAt (x : τ) (v v' : Versions τ T) : Prop where
  tree : v'.tree = v.tree
  heads : ∀ t, t ≠ x → dget v'.headVersion t = dget v.headVersion t
  diffs : ∀ t, t ≠ x → dget v'.diffs t = dget v.diffs t

end Gaspra
