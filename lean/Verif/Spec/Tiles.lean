import Verif.Model.Changesets

/-!
# The slices stored in a changeset tree
-/

namespace Gaspra

variable {α : Type _}

/-- The slices of the leaves and of the common parts, from left to right. -/
def Changeset.slices : Changeset α → List (Slice × Slice)
  | .leaf _ _ os ms => [(os, ms)]
  | .node co cm p s => p.slices ++ (co, cm) :: s.slices

/-- The leaves from left to right: the two texts and their slices. -/
def Changeset.leaves : Changeset α → List ((List α × List α) × (Slice × Slice))
  | .leaf o m os ms => [((o, m), (os, ms))]
  | .node _ _ p s => p.leaves ++ s.leaves

/-- The slices of the common parts. -/
def Changeset.commons : Changeset α → List (Slice × Slice)
  | .leaf _ _ _ _ => []
  | .node co cm p s => p.commons ++ (co, cm) :: s.commons

/-- The first slice starts at `k`, every other one where the one before it ends, and the last one
ends at `stop`. -/
def Tiles : Nat → Option Nat → List Slice → Prop
  | _, _, [] => False
  | k, stop, [s] => s.start = k ∧ s.stop = stop
  | k, stop, s :: t :: rest => s.start = k ∧ ∃ e, s.stop = some e ∧ Tiles e stop (t :: rest)

/-- The slice does not run backwards and stays within a text of `n` tokens. -/
def Slice.Inside (n : Nat) (s : Slice) : Prop :=
  s.start ≤ n ∧ ∀ e, s.stop = some e → s.start ≤ e ∧ e ≤ n

end Gaspra
