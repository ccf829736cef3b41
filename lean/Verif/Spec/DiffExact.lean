import Verif.Model.Changesets
import Verif.Spec.Strings

/-!
# The diff that is meant

A description of the diff that does not mention automata, slices or changesets.
-/

namespace Gaspra

variable {α : Type _}

/-- `d` is the diff of `o` and `m`: if they share no token it is a single change (nothing, if both are
empty); otherwise both are split at a longest common substring `w`, the first one in `m`, at its
first occurrence in `o`, and the parts before and after it are treated in the same way. -/
inductive IsDiff : List α → List α → List (DiffItem α) → Prop
  | empty : IsDiff [] [] []
  | change {o m : List α} (hne : o ≠ [] ∨ m ≠ []) (hno : ∀ t, t ∈ o → t ∉ m) :
      IsDiff o m [.change m o]
  | split {o1 o2 m1 m2 w : List α} {d1 d2 : List (DiffItem α)} (hw : w ≠ [])
      (longest : ∀ z, CommonSubstring (o1 ++ w ++ o2) (m1 ++ w ++ m2) z → z.length ≤ w.length)
      (firstM : ∀ z j, CommonSubstring (o1 ++ w ++ o2) (m1 ++ w ++ m2) z →
        z.length = w.length → OccursAt (m1 ++ w ++ m2) z j → m1.length ≤ j)
      (firstO : ∀ i, OccursAt (o1 ++ w ++ o2) w i → o1.length ≤ i)
      (before : IsDiff o1 m1 d1) (after : IsDiff o2 m2 d2) :
      IsDiff (o1 ++ w ++ o2) (m1 ++ w ++ m2) (d1 ++ .common w :: d2)

end Gaspra
