import Verif.Spec.DiffToLines
import Verif.Spec.Spell

/-!
# How a line diff groups the pieces of a diff

A `Change` of a line diff has two sides that are lists of the same length: position by position they
hold the same unchanged piece or the two sides of one change.
-/

namespace Gaspra

/-- What the first side of a line conflict holds of a piece. -/
def onlyInto : DiffItem Nat → DiffItem Nat
  | .common f => .common f
  | .change a _ => .change a []

/-- What the second side holds of it. -/
def onlyFrom : DiffItem Nat → DiffItem Nat
  | .common f => .common f
  | .change _ b => .change [] b

/-- The line conflict made of these pieces. -/
def conflictOf (P : List (DiffItem Nat)) : LineItem := .change (P.map onlyInto) (P.map onlyFrom)

/-- One side of a piece together with the other one. -/
def rejoin : DiffItem Nat → DiffItem Nat → DiffItem Nat
  | .common f, _ => .common f
  | .change a _, .change _ b => .change a b
  | .change a _, .common _ => .change a []

/-- The pieces of an item of a line diff. -/
def LineItem.pieces : LineItem → List (DiffItem Nat)
  | .text s => [.common s]
  | .change a b => List.zipWith rejoin a b

/-- The pieces of a line diff. -/
def allPieces (d : List LineItem) : List (DiffItem Nat) := d.flatMap LineItem.pieces

/-- White space only. -/
def Blank (sp : Nat → Bool) (f : PyStr) : Prop := f ≠ [] ∧ ∀ c ∈ f, sp c = true

instance (sp : Nat → Bool) (f : PyStr) : Decidable (Blank sp f) := by unfold Blank; infer_instance

/-- Nothing but changes and white space between them. -/
def BlankBetween (sp : Nat → Bool) : List (DiffItem Nat) → Prop
  | .change _ _ :: rest => ∀ f, DiffItem.common f ∈ rest → Blank sp f
  | _ => False

/-- The pieces of a line conflict: an unchanged piece is blank, or it lies within one line, and its
newline, if it has one, ends the conflict. -/
def WithinLines (sp : Nat → Bool) (P : List (DiffItem Nat)) : Prop :=
  ∀ A f B, P = A ++ .common f :: B → Blank sp f ∨ (nl ∉ f.dropLast ∧ (B ≠ [] → nl ∉ f))

/-- The conflict does not go on with unchanged text that is not blank after a point where both sides
have reached the end of a line. -/
def StopsEarly (sp : Nat → Bool) (P : List (DiffItem Nat)) : Prop :=
  ∀ A f B, P = A ++ .common f :: B → A ≠ [] → Blank sp f ∨ ¬ (Whole (intoText A) ∧ Whole (fromText A))

end Gaspra
