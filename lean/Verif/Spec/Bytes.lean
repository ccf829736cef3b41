import Verif.Model.Serialize

/-!
# Byte order and nonempty patch items
-/

namespace Gaspra

/-- `a` precedes `b` lexicographically because of a first difference; in particular neither is a
prefix of the other. -/
def LexBefore (a b : List UInt8) : Prop :=
  ∃ p x y a' b', a = p ++ x :: a' ∧ b = p ++ y :: b' ∧ x.toNat < y.toNat

/-- A patch item that survives serialization: a nonempty byte piece, or a slice whose bounds
differ. -/
def PatchItem.isNonempty : PatchItem UInt8 → Bool
  | .piece b => !b.isEmpty
  | .slice sl => sl.stop != some sl.start

/-- A patch item whose lengths and offsets fit in 64 bits. -/
def PatchItem.Fits : PatchItem UInt8 → Prop
  | .piece b => b.length < 2 ^ 64
  | .slice sl => sl.start < 2 ^ 64 ∧ ∃ e, sl.stop = some e ∧ e < 2 ^ 64

end Gaspra
