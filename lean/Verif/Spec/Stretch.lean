import Verif.Spec.Anchor

/-!
# Texts that both branches may change between landmarks
-/

namespace Gaspra

variable {α : Type _}

/-- A stretch of a text with the unchanged text in front of it: `old` becomes `left` in the first branch
and `right` in the second one. -/
structure Stretch (α : Type _) where
  keep : List α
  old : List α
  left : List α
  right : List α

/-- The text with the stretches filled in by `f`; `last` is the unchanged text behind the last one. -/
def stretchText (f : Stretch α → List α) (ss : List (Stretch α)) (last : List α) : List α :=
  ss.flatMap (fun s => s.keep ++ f s) ++ last

/-- All tokens of a stretch. -/
def Stretch.all (s : Stretch α) : List α := s.keep ++ s.old ++ s.left ++ s.right

/-- There is unchanged text between the stretches, and neither this nor any stretch has tokens that occur
elsewhere as well. -/
structure Divided (ss : List (Stretch α)) (last : List α) : Prop where
  between : ∀ s ∈ ss.tail, s.keep ≠ []
  keep : ∀ s ∈ ss, Apart s.keep (s.old ++ s.left ++ s.right)
  stretches : ss.Pairwise fun s s' => Apart s.all s'.all
  last : ∀ s ∈ ss, Apart last s.all

/-- The tokens of a spelled merge, those of both sides of the conflicts included. -/
def spelledTokens (s : List (α ⊕ (List α × List α))) : List α :=
  s.flatMap fun
    | .inl t => [t]
    | .inr (a, b) => a ++ b

/-- What a merge may make of a stretch: the text of the branch that changed it if the other one did not,
the text of both if they replaced everything by the same text, and in any case nothing but tokens that a
branch has in this stretch. -/
structure OwnMerge (s : Stretch α) (m : List (α ⊕ (List α × List α))) : Prop where
  left : s.right = s.old → m = s.left.map .inl
  right : s.left = s.old → m = s.right.map .inl
  same : s.left = s.right → Apart s.old s.left → m = s.left.map .inl
  own : ∀ t ∈ spelledTokens m, t ∈ s.left ∨ t ∈ s.right

/-- A spelled merge that goes stretch by stretch. -/
inductive MergesAlong (last : List α) : List (Stretch α) → List (α ⊕ (List α × List α)) → Prop
  | nil : MergesAlong last [] (last.map .inl)
  | cons {s ss m r} : OwnMerge s m → MergesAlong last ss r →
      MergesAlong last (s :: ss) (s.keep.map .inl ++ m ++ r)

end Gaspra
