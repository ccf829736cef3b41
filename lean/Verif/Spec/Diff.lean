import Verif.Model.Changesets
import Verif.Spec.Strings

/-!
# What a diff means

Definitions that only look at the items a diff yields.
-/

namespace Gaspra

variable {α : Type _}

/-- The text a diff leads to: common pieces and first components of changes. -/
def intoText (d : List (DiffItem α)) : List α :=
  d.flatMap fun
    | .common p => p
    | .change a _ => a

/-- The text a diff starts from: common pieces and second components of changes. -/
def fromText (d : List (DiffItem α)) : List α :=
  d.flatMap fun
    | .common p => p
    | .change _ b => b

/-- The text that is common according to the diff. -/
def commonText (d : List (DiffItem α)) : List α :=
  d.flatMap fun
    | .common p => p
    | .change _ _ => []

/-- Is the item a `Change`? -/
def DiffItem.isChange : DiffItem α → Bool
  | .common _ => false
  | .change _ _ => true

/-- Normal form of one item: common pieces are nonempty, changes are not empty on both sides
and their sides share no token. -/
def DiffItem.Normal : DiffItem α → Prop
  | .common p => p ≠ []
  | .change a b => (a ≠ [] ∨ b ≠ []) ∧ ∀ t, t ∈ a → t ∉ b

/-- Common pieces and changes strictly alternate. -/
def Alternating : List (DiffItem α) → Prop
  | [] => True
  | [_] => True
  | x :: y :: rest => x.isChange ≠ y.isChange ∧ Alternating (y :: rest)

/-- A sensible item of a patch from `o` to `m`: literal pieces are nonempty contiguous parts of
`m`, slices are nonempty and within `o`. -/
def PatchItem.WellFormed (o m : List α) : PatchItem α → Prop
  | .piece p => p ≠ [] ∧ p <:+: m
  | .slice sl => ∃ e, sl.stop = some e ∧ sl.start < e ∧ e ≤ o.length

/-- The slices of a patch lie between `lo` and `hi`, in increasing order and without overlap. -/
def SlicesWithin : Nat → Nat → List (PatchItem α) → Prop
  | lo, hi, [] => lo ≤ hi
  | lo, hi, .piece _ :: rest => SlicesWithin lo hi rest
  | lo, hi, .slice sl :: rest => lo ≤ sl.start ∧ ∃ e, sl.stop = some e ∧ SlicesWithin e hi rest

end Gaspra
