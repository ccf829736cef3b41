import Verif.Spec.Merge
import Verif.Spec.Spell

/-!
# Parts of a merge

The edits before and behind a token that both branches keep.
-/

namespace Gaspra

variable {α : Type _}

/-- Edits of a text of `n` tokens, in order and with at least one kept token between them. -/
structure ValidEdits (n : Nat) (es : List (Edit α)) : Prop where
  apart : es.Pairwise fun e e' => e.stop < e'.start
  range : ∀ e ∈ es, e.start ≤ e.stop ∧ e.stop ≤ n
  real : ∀ e ∈ es, e.start < e.stop ∨ e.insert ≠ []

/-- The edits in front of token `g`. -/
def editsBefore (g : Nat) (es : List (Edit α)) : List (Edit α) := es.filter fun e => e.stop ≤ g

/-- The edits behind token `g`, with positions counted from the token after it. -/
def editsAfter (g : Nat) (es : List (Edit α)) : List (Edit α) :=
  (es.filter fun e => g < e.start).map fun e => ⟨e.start - (g + 1), e.stop - (g + 1), e.insert⟩

/-- The tokens that are not removed by edits of either branch. -/
def keptByBoth (parent : List α) (es0 es1 : List (Edit α)) : List α :=
  weave (fun _ => []) (fun g => !deletes es0 g && !deletes es1 g) 0 parent

/-- The unchanged tokens of a spelled diff. -/
def unchanged (l : List (α ⊕ (List α × List α))) : List α := l.filterMap Sum.getLeft?

end Gaspra
