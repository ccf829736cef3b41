import Verif.Model.Changesets

/-!
# Size of a diff as far as a line diff looks at it
-/

namespace Gaspra

/-- The characters of a common fragment; a change counts nothing. -/
def charsOf : DiffItem Nat → Nat
  | .common s => s.length
  | .change _ _ => 0

/-- The number of items of a diff and of the characters of its common fragments. -/
def diffSize (stream : List (DiffItem Nat)) : Nat := stream.length + (stream.map charsOf).sum

end Gaspra
