import Verif.Model.InterruptDB
import Verif.Spec.Interrupt

/-! # Specification for interrupted calls of `Versions.add` over a `DBTree` -/

namespace Gaspra

variable {τ : Type _} [DecidableEq τ]

/-- `c` is below `p` in the table. -/
def RowBelow (g : Graph τ) (c p : τ) : Prop := ∃ r ∈ g, r.tag = c ∧ r.parent = some p

/-- The delta of `c` has been replaced by one from `tag`, but `c` is still below another tag. -/
def DBTorn (tag c : τ) (pt : DBPoint τ) (s : Versions τ (Graph τ)) : Prop :=
  pt = .deltaWritten c ∧ ∃ q, RowBelow s.tree c q ∧ q ≠ tag

/-- At most one entry of one dictionary of the store or its table differs. -/
inductive OneCommit (s s' : Versions τ (Graph τ)) : Prop
  | head (k : τ) : s'.diffs = s.diffs → s'.tree = s.tree →
      (∀ x, x ≠ k → dget s'.headVersion x = dget s.headVersion x) → OneCommit s s'
  | delta (k : τ) : s'.headVersion = s.headVersion → s'.tree = s.tree →
      (∀ x, x ≠ k → dget s'.diffs x = dget s.diffs x) → OneCommit s s'
  | table : s'.headVersion = s.headVersion → s'.diffs = s.diffs → OneCommit s s'

section
variable {Tok S : Type _} [DecidableEq Tok] (tk : TokOps Tok S)

/-- The stores that can be reached by calls of `add`, each of which ran to its end, raised an
exception or was interrupted after any of its transactions that did not leave a torn delta.
`content x` is what was handed to `add` for the tag `x`.  No version is based on itself. -/
inductive DBSurvived (content : τ → Bytes) : Versions τ (Graph τ) → Prop
  | empty : DBSurvived content (emptyDBVersions τ)
  | done {v : Versions τ (Graph τ)} {tag : τ} {base : Option τ} : DBSurvived content v →
      base ≠ some tag → DBSurvived content (versionsAdd (dbTree τ) tk v tag (content tag) base).1
  | interrupted {v s : Versions τ (Graph τ)} {tag : τ} {base : Option τ} {pt : DBPoint τ} :
      DBSurvived content v → base ≠ some tag →
      (pt, s) ∈ dbAddTrace tk v tag (content tag) base → (∀ c, ¬ DBTorn tag c pt s) →
      DBSurvived content s

end

end Gaspra
