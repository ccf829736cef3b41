import Verif.Model.DiffToLines
import Verif.Spec.Diff

/-!
# What a line diff means

The two texts a line diff stands for, and what it means to consist of whole lines.
-/

namespace Gaspra

/-- The text a line diff leads to. -/
def lineInto (d : List LineItem) : PyStr :=
  d.flatMap fun
    | .text s => s
    | .change a _ => intoText a

/-- The text a line diff starts from. -/
def lineFrom (d : List LineItem) : PyStr :=
  d.flatMap fun
    | .text s => s
    | .change _ b => fromText b

/-- The text consists of whole lines. -/
def Whole (s : PyStr) : Prop := s = [] ∨ ∃ t, s = t ++ [nl]

instance (s : PyStr) : Decidable (Whole s) :=
  decidable_of_iff (s = [] ∨ s.getLast? = some nl) (by
    unfold Whole
    rw [List.getLast?_eq_some_iff])

/-- A text item is a nonempty sequence of whole lines.  A `Change` item has whole lines on both
sides, each side contains a changed piece, and the changed pieces of a side belong to that side
only. -/
def LineItem.WholeLines : LineItem → Prop
  | .text s => s ≠ [] ∧ Whole s
  | .change a b =>
    (Whole (intoText a) ∧ Whole (fromText b)) ∧
    ((∃ x ∈ a, x.isChange = true) ∧ ∃ x ∈ b, x.isChange = true) ∧
    (∀ x y, DiffItem.change x y ∈ a → y = []) ∧ ∀ x y, DiffItem.change x y ∈ b → x = []

/-- No two text fragments follow each other directly. -/
def TextsApart {α : Type _} : List (DiffItem α) → Prop
  | [] => True
  | [_] => True
  | x :: y :: rest => (x.isChange = true ∨ y.isChange = true) ∧ TextsApart (y :: rest)

instance instDecidableTextsApart {α : Type _} : (s : List (DiffItem α)) → Decidable (TextsApart s)
  | [] => isTrue trivial
  | [_] => isTrue trivial
  | x :: y :: rest =>
    have : Decidable (TextsApart (y :: rest)) := instDecidableTextsApart (y :: rest)
    inferInstanceAs (Decidable (_ ∧ _))

/-- The fragments `to_line_diff` looks at: all except empty texts. -/
def fragments (stream : List (DiffItem Nat)) : List (DiffItem Nat) :=
  stream.filter fun x => x ≠ .common []

/-- Is the item of a line diff a `Change`? -/
def LineItem.isChange : LineItem → Bool
  | .text _ => false
  | .change _ _ => true

/-- No two `Change` items follow each other directly. -/
def ChangesApart : List LineItem → Prop
  | [] => True
  | [_] => True
  | x :: y :: rest => (x.isChange = false ∨ y.isChange = false) ∧ ChangesApart (y :: rest)

end Gaspra
