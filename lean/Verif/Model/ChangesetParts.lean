import Verif.Model.Changesets

/-!
# `find_changeset` with slices (`src/gaspra/changesets.py`)

The bounds are natural numbers, with or without a stop; they may lie behind the end of the texts
or be in the wrong order.  Negative bounds and steps are not modelled.
-/

namespace Gaspra

variable {α : Type _} [DecidableEq α]

/-- `find_changeset(original, modified, original_slice, modified_slice)` (changesets.py:213-261). -/
def findChangesetIn (original modified : List α) (os ms : Slice) : Option (Changeset α) :=
  findChangesetAux original modified (original.length + 1) os ms

end Gaspra
