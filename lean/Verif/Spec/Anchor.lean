import Verif.Spec.Diff
import Verif.Spec.Spell

/-!
# Text that serves as a landmark

A text that is unchanged, and whose tokens occur nowhere else, separates what is before it from what is
behind it, provided nothing is moved across it.
-/

namespace Gaspra

variable {α : Type _}

/-- The texts have no token in common. -/
def Apart (a b : List α) : Prop := ∀ t, t ∈ a → t ∉ b

/-- The text `c` is a landmark of `u ++ c ++ v` and `u' ++ c ++ v'`: its tokens occur nowhere else, and
no token is before it in one of the texts and behind it in the other. -/
structure Landmark (u c v u' v' : List α) : Prop where
  nonempty : c ≠ []
  before : Apart c u
  behind : Apart c v
  before' : Apart c u'
  behind' : Apart c v'
  forth : Apart u v'
  back : Apart v u'

/-- A part of a text that one of two branches rewrites, with the unchanged text in front of it: `old`
becomes `new`, in the first branch if `first` holds and in the second one otherwise. -/
structure Region (α : Type _) where
  keep : List α
  old : List α
  new : List α
  first : Bool

/-- The text with the regions filled in by `f`; `last` is the unchanged text behind the last region. -/
def regionText (f : Region α → List α) (rs : List (Region α)) (last : List α) : List α :=
  rs.flatMap (fun r => r.keep ++ f r) ++ last

/-- The text of a region in the first branch. -/
def Region.one (r : Region α) : List α := if r.first then r.new else r.old
/-- The text of a region in the second branch. -/
def Region.two (r : Region α) : List α := if r.first then r.old else r.new

/-- All tokens of a region. -/
def Region.all (r : Region α) : List α := r.keep ++ r.old ++ r.new

/-- There is unchanged text between the regions, and neither this nor any region has tokens that occur
elsewhere as well. -/
structure Separated (rs : List (Region α)) (last : List α) : Prop where
  between : ∀ r ∈ rs.tail, r.keep ≠ []
  keep : ∀ r ∈ rs, Apart r.keep (r.old ++ r.new)
  regions : rs.Pairwise fun r r' => Apart r.all r'.all
  last : ∀ r ∈ rs, Apart last r.all

end Gaspra
