/-!
# Specification vocabulary for substrings

Plain definitions about lists, independent of the model.
-/

namespace Gaspra

/-- `w` occurs in `s` starting at position `i`, i.e. `s = pre ++ w ++ post` with `|pre| = i`. -/
def OccursAt {α : Type _} (s w : List α) (i : Nat) : Prop :=
  ∃ pre post, s = pre ++ w ++ post ∧ pre.length = i

/-- `w` is a (contiguous) substring of `s`. -/
def Substring {α : Type _} (s w : List α) : Prop := ∃ i, OccursAt s w i

/-- `w` is a substring of both `a` and `b`. -/
def CommonSubstring {α : Type _} (a b w : List α) : Prop := Substring a w ∧ Substring b w

end Gaspra
