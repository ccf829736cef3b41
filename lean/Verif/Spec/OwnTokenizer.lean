import Verif.Spec.Tokenizers

/-!
# Ways of cutting texts that a version store can rely on
-/

namespace Gaspra

/-- Nothing is lost, and a text that consists of some consecutive pieces of a text is cut into these. -/
structure StablePieces (pieces : Text → List Text) : Prop where
  lossless : ∀ x, Spells x (pieces x)
  again : ∀ {b : Bytes} {l m r : List Bytes}, pieces (.bytes b) = (l ++ m ++ r).map .bytes →
    pieces (.bytes m.flatten) = m.map .bytes

end Gaspra
