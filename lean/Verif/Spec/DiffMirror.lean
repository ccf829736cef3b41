import Verif.Spec.Merge

/-!
# Texts exchanged and texts read backwards
-/

namespace Gaspra

variable {α : Type _}

/-- An item of a diff read backwards. -/
def DiffItem.mirrored : DiffItem α → DiffItem α
  | .common p => .common p.reverse
  | .change a b => .change a.reverse b.reverse

/-- There is never a choice: either the texts share no token, or `w` is in one place of each of them where
they agree on that many tokens, and the parts before it and behind it leave no choice either. -/
inductive NoChoice : List α → List α → Prop
  | apart {o m : List α} (h : ∀ t, t ∈ o → t ∉ m) : NoChoice o m
  | split {o1 o2 m1 m2 w : List α} (hw : w ≠ [])
      (only : ∀ z i j, z.length = w.length → OccursAt (o1 ++ w ++ o2) z i →
        OccursAt (m1 ++ w ++ m2) z j → i = o1.length ∧ j = m1.length)
      (before : NoChoice o1 m1) (behind : NoChoice o2 m2) :
      NoChoice (o1 ++ w ++ o2) (m1 ++ w ++ m2)

end Gaspra
