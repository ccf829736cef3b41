import Verif.Model.Interrupt
import Verif.Spec.Tree

/-! # Specification for interrupted calls of `Versions.add` -/

namespace Gaspra

variable {τ : Type _} [DecidableEq τ]

/-- The delta of `c` has been replaced by one from `tag`, but `c` is still below another tag.  The
place is what the last write was, `s` the store it left. -/
def Torn (tag c : τ) (pt : AddPoint τ) (s : Versions τ (MTree τ)) : Prop :=
  (pt = .deltaWritten c ∨ pt = .detached c) ∧ ∃ q, ParentOf s.tree c q ∧ q ≠ tag

/-- At most one entry of one dictionary of the store differs. -/
inductive OneWrite (s s' : Versions τ (MTree τ)) : Prop
  | head (k : τ) : s'.diffs = s.diffs → s'.tree = s.tree →
      (∀ x, x ≠ k → dget s'.headVersion x = dget s.headVersion x) → OneWrite s s'
  | delta (k : τ) : s'.headVersion = s.headVersion → s'.tree = s.tree →
      (∀ x, x ≠ k → dget s'.diffs x = dget s.diffs x) → OneWrite s s'
  | node (k : τ) : s'.headVersion = s.headVersion → s'.diffs = s.diffs →
      (∀ x, x ≠ k → dget s'.tree x = dget s.tree x) → OneWrite s s'

/-- The list leads from the first to the last argument by steps of the relation `R`. -/
inductive Runs {ρ σ : Type _} (R : σ → σ → Prop) : σ → List (ρ × σ) → σ → Prop
  | nil {s : σ} : Runs R s [] s
  | cons {s s₁ s' : σ} {pt : ρ} {r : List (ρ × σ)} : R s s₁ → Runs R s₁ r s' →
      Runs R s ((pt, s₁) :: r) s'

section
variable {Tok S : Type _} [DecidableEq Tok] (tk : TokOps Tok S)

/-- The stores that can be reached by calls of `add`, each of which ran to its end, raised an
exception or was interrupted after any of its writes that did not leave a torn delta.  `content x`
is what was handed to `add` for the tag `x`.  A tag that is already stored may be added again (a
call that was interrupted is tried again) as long as no version was based on it, and no version is
based on itself. -/
inductive Survived (content : τ → Bytes) : Versions τ (MTree τ) → Prop
  | empty : Survived content ⟨[], [], []⟩
  | done {v : Versions τ (MTree τ)} {tag : τ} {base : Option τ} : Survived content v →
      (∀ q, ¬ ParentOf v.tree tag q) → base ≠ some tag →
      Survived content (versionsAdd (memoryTree τ) tk v tag (content tag) base).1
  | interrupted {v s : Versions τ (MTree τ)} {tag : τ} {base : Option τ} {pt : AddPoint τ} :
      Survived content v → (∀ q, ¬ ParentOf v.tree tag q) → base ≠ some tag →
      (pt, s) ∈ versionsAddTrace tk v tag (content tag) base → (∀ c, ¬ Torn tag c pt s) →
      Survived content s

end

end Gaspra
