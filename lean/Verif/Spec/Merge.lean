import Verif.Spec.Diff

/-!
# What a three-way merge should do

Everything here is phrased with the edits that a diff describes: an edit replaces the parent
tokens at positions `start .. stop - 1` by `insert`.
-/

namespace Gaspra

variable {α : Type _}

/-- Replace the parent tokens at positions `start ≤ g < stop` by `insert`. -/
structure Edit (α : Type _) where
  start : Nat
  stop : Nat
  insert : List α
deriving DecidableEq, Repr

/-- The edits described by a diff whose first item starts at parent position `pos`. -/
def editsOf : Nat → List (DiffItem α) → List (Edit α)
  | _, [] => []
  | pos, .common p :: rest => editsOf (pos + p.length) rest
  | pos, .change a b :: rest => ⟨pos, pos + b.length, a⟩ :: editsOf (pos + b.length) rest

/-- What the edits insert in front of parent position `g`. -/
def insertedAt (es : List (Edit α)) (g : Nat) : List α :=
  es.flatMap fun e => if e.start = g then e.insert else []

/-- Do the edits remove the parent token at position `g`? -/
def deletes (es : List (Edit α)) (g : Nat) : Bool :=
  es.any fun e => e.start ≤ g && g < e.stop

/-- Walk over the parent tokens from position `pos` on: in front of position `g` put `ins g`, then
the token at `g` itself if `keep g`; finally what is inserted at the very end. -/
def weave (ins : Nat → List α) (keep : Nat → Bool) : Nat → List α → List α
  | pos, [] => ins pos
  | pos, t :: rest => ins pos ++ (if keep pos then [t] else []) ++ weave ins keep (pos + 1) rest

/-- The text obtained by applying edits to the parent. -/
def applyEdits (parent : List α) (es : List (Edit α)) : List α :=
  weave (insertedAt es) (fun g => !deletes es g) 0 parent

/-- Two insertions at the same place: one of them if they are equal, otherwise both (for the
edits considered below at most one of them is then nonempty). -/
def bothInserts [DecidableEq α] (a b : List α) : List α := if a = b then a else a ++ b

/-- The parent with both sets of edits applied at their positions: a parent token is kept iff both
keep it, and insertions are made where either makes them. -/
def mergedText [DecidableEq α] (parent : List α) (es0 es1 : List (Edit α)) : List α :=
  weave (fun g => bothInserts (insertedAt es0 g) (insertedAt es1 g))
    (fun g => !deletes es0 g && !deletes es1 g) 0 parent

/-- The parent ranges of the two edits do not overlap. -/
def Edit.Disjoint (e0 e1 : Edit α) : Prop := e0.stop ≤ e1.start ∨ e1.stop ≤ e0.start

/-- `e` only inserts. -/
def Edit.PureInsertion (e : Edit α) : Prop := e.stop = e.start

/-- `e` only deletes. -/
def Edit.PureDeletion (e : Edit α) : Prop := e.insert = []

/-- The edits can be combined without a conflict: they are identical, or they do not overlap and
do not start at the same position unless one only inserts and the other only deletes. -/
def Edit.Compatible (e0 e1 : Edit α) : Prop :=
  e0 = e1 ∨ (e0.Disjoint e1 ∧ (e0.start ≠ e1.start ∨
    (e0.PureInsertion ∧ e1.PureDeletion) ∨ (e0.PureDeletion ∧ e1.PureInsertion)))

/-- Overlapping edits start at the same position. -/
def Edit.Aligned (e0 e1 : Edit α) : Prop := e0.start = e1.start ∨ e0.Disjoint e1

/-- The first sides and the second sides of a merge result exchanged. -/
def DiffItem.swap : DiffItem α → DiffItem α
  | .common p => .common p
  | .change a b => .change b a

/-- The tokens of a diff item: the piece, or both sides of the change. -/
def DiffItem.tokens : DiffItem α → List α
  | .common p => p
  | .change a b => a ++ b

/-- Common pieces are nonempty and never adjacent, changes are normal. -/
def MergeNormal : List (DiffItem α) → Prop
  | [] => True
  | [x] => x.Normal
  | x :: y :: rest => x.Normal ∧ (x.isChange = true ∨ y.isChange = true) ∧ MergeNormal (y :: rest)

end Gaspra
