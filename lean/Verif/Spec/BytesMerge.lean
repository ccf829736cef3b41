import Verif.Spec.Merge

/-!
# Where the edits of two branches clash

In terms of the edits of the branches (`Spec/Merge.lean`) only.
-/

namespace Gaspra

variable {α : Type _}

/-- The edit begins at position `q` of the parent or has begun before and goes on there. -/
def Edit.At (e : Edit α) (q : Nat) : Prop := e.start = q ∨ e.start < q ∧ q < e.stop

/-- What is left of an edit from `q` on: its text counts as inserted where it begins. -/
def Edit.rest (e : Edit α) (q : Nat) : Edit α := if e.start = q then e else ⟨q, e.stop, []⟩

/-- One of the edits only inserts, the other only deletes. -/
def Edit.Composes (e f : Edit α) : Prop :=
  e.start = e.stop ∧ f.insert = [] ∨ e.insert = [] ∧ f.start = f.stop

/-- Both branches have an edit at `q`, and what is left of the two is neither the same nor an insertion
and a deletion. -/
def ClashAt (es fs : List (Edit α)) (q : Nat) : Prop :=
  ∃ e ∈ es, ∃ f ∈ fs, e.At q ∧ f.At q ∧ ¬ (e.rest q).Composes (f.rest q) ∧ e.rest q ≠ f.rest q

/-- One of the branches inserts something, without deleting, behind a clash from which on all of the
parent is deleted by one branch or the other. -/
def InsertsBehindClash (es fs : List (Edit α)) : Prop :=
  ∃ q p, q < p ∧ ClashAt es fs q ∧
    (∀ g, q ≤ g → g < p → deletes es g = true ∨ deletes fs g = true) ∧
    ∃ e, (e ∈ es ∨ e ∈ fs) ∧ e.start = p ∧ e.stop = p

end Gaspra
