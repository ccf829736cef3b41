import Verif.Model.Changesets

/-!
# Nested calls of `find_changeset`
-/

namespace Gaspra

variable {α : Type _}

/-- How deep the calls were nested that built a changeset: every call of `find_changeset` builds one
node of the tree, inside the calls that build the nodes above it (changesets.py:213-261). -/
def Changeset.depth : Changeset α → Nat
  | .leaf _ _ _ _ => 1
  | .node _ _ p s => 1 + max p.depth s.depth

/-- The number of calls that built a changeset. -/
def Changeset.calls : Changeset α → Nat
  | .leaf _ _ _ _ => 1
  | .node _ _ p s => 1 + p.calls + s.calls

end Gaspra
