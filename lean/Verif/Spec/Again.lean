import Verif.Spec.Stretch
import Verif.Model.Merge

/-!
# Changes at separate spots of a text, and merging one branch after the other
-/

namespace Gaspra

variable {α : Type _}

/-- A spot of a text with the unchanged text in front of it: the change called `name` replaces `old` by
`new`. -/
structure Spot (α : Type _) where
  name : Nat
  keep : List α
  old : List α
  new : List α

/-- The text with the changes made whose names `S` has; `last` is the unchanged text behind the last
spot. -/
def spotText (S : Nat → Bool) (spots : List (Spot α)) (last : List α) : List α :=
  spots.flatMap (fun s => s.keep ++ if S s.name then s.new else s.old) ++ last

/-- All tokens of a spot. -/
def Spot.all (s : Spot α) : List α := s.keep ++ s.old ++ s.new

/-- There is unchanged text between the spots, the changes keep nothing of what they replace, and neither
a spot nor unchanged text has tokens that occur elsewhere as well. -/
structure Spaced (spots : List (Spot α)) (last : List α) : Prop where
  between : ∀ s ∈ spots.tail, s.keep ≠ []
  keep : ∀ s ∈ spots, Apart s.keep (s.old ++ s.new)
  change : ∀ s ∈ spots, Apart s.old s.new
  separate : spots.Pairwise fun s s' => Apart s.all s'.all
  last : ∀ s ∈ spots, Apart last s.all

/-- Merge one branch after the other into `acc`, with the common parent `p` every time, as long as there
is no conflict. -/
def mergeEach [DecidableEq α] (kind : Kind) (p : List α) : List α → List (List α) → Option (List α)
  | acc, [] => some acc
  | acc, b :: bs =>
    match mergeTokenSequence kind p acc b with
    | .ok [.common m] => mergeEach kind p m bs
    | _ => none

end Gaspra
