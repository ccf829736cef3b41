import Verif.Model.Utf8

/-!
# Specification of texts that only grow
-/

namespace Gaspra

/-- Nothing, or a text that ends in a newline. -/
def EndsLine (t : Bytes) : Prop := t = [] ∨ ∃ s, t = s ++ [10]

/-- `new` is `old` with whole lines in front of it and any text behind it: a log, a changelog with
the newest entry first, or both. -/
def GrowsTo (old new : Bytes) : Prop :=
  ∃ front back, EndsLine front ∧ new = front ++ old ++ back

end Gaspra
