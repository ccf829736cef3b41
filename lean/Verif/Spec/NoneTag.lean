import Verif.Model.NoneTag
import Verif.Spec.Versions

/-! # Histories in which a version may have the tag `None` -/

namespace Gaspra

variable {τ : Type _} [DecidableEq τ]

/-- The call as a step of a history over the tags `Option τ`. -/
def NAdd.op (a : NAdd τ) : AddOp (Option τ) := ⟨a.tag, a.content, a.base.map some⟩

/-- The store over a `MemoryTree` after a history. -/
def noneStore (h : List (NAdd τ)) : Versions (Option τ) (MTree (Option τ)) :=
  h.foldl (fun v a => (noneAdd nullTok v a).1) (emptyVersions (Option τ))

/-- The store over a `DBTree` after a history. -/
def nullStore (h : List (NAdd τ)) : Versions (Option τ) (Graph (Option τ)) :=
  h.foldl (fun v a => (nullAdd nullTok v a).1) (emptyDBVersions (Option τ))

/-- Every `parent_rid` is the rowid of a row whose tag is not `NULL`. -/
def ParentsKnown (g : Graph (Option τ)) : Prop :=
  ∀ r ∈ g, ∀ p, r.parentRid = some p → ∃ q, rowAt g p = some q ∧ q.tag ≠ none

end Gaspra
