import Verif.Model.DBTree
import Verif.Spec.Versions

/-!
# Renaming the tags of a version store
-/

namespace Gaspra

variable {τ σ : Type _}

/-- Different tags get different names. -/
def NamesApart (f : τ → σ) : Prop := ∀ x y, f x = f y → x = y

/-- Rename the keys of a dictionary. -/
def renameKeys {β : Type _} (f : τ → σ) (d : List (τ × β)) : List (σ × β) := d.map fun p => (f p.1, p.2)

/-- Rename the tags in a node. -/
def TNode.rename (f : τ → σ) (nd : TNode τ) : TNode σ :=
  { orderId := nd.orderId, parent := nd.parent.map f, children := nd.children.map f, height := nd.height,
    size := nd.size, baseVersion := nd.baseVersion.map f }

/-- Rename the tags in a `MemoryTree`. -/
def MTree.rename (f : τ → σ) (t : MTree τ) : MTree σ := t.map fun p => (f p.1, p.2.rename f)

/-- Rename the tags in a row. -/
def GRow.rename (f : τ → σ) (r : GRow τ) : GRow σ :=
  { tag := f r.tag, parent := r.parent.map f, parentRid := r.parentRid, child0 := r.child0, child1 := r.child1,
    height := r.height, size := r.size, baseVersion := r.baseVersion.map f }

/-- Rename the tags in the table of a `DBTree`. -/
def Graph.rename (f : τ → σ) (g : Graph τ) : Graph σ := g.map (GRow.rename f)

/-- Rename the tags in a store, given how to rename those in its tree. -/
def Versions.rename {T T' : Type _} (f : τ → σ) (F : T → T') (v : Versions τ T) : Versions σ T' :=
  ⟨renameKeys f v.headVersion, renameKeys f v.diffs, F v.tree⟩

/-- Rename the tag in the information on a version. -/
def VersionInfo.rename (f : τ → σ) (i : VersionInfo τ) : VersionInfo σ :=
  ⟨i.baseVersion.map f, i.tokenCount, i.changeCount⟩

/-- The same call with other names. -/
def AddOp.rename (f : τ → σ) (a : AddOp τ) : AddOp σ := ⟨f a.tag, a.content, a.base.map f⟩

end Gaspra
