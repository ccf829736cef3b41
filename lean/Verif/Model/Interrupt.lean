import Verif.Model.Versions

/-!
# `Versions.add` interrupted between two writes

`Versions.add` (versions.py:34-63) with the default mappings and the default tree changes the
store by single assignments to dictionaries and lists.  An exception that arrives between two of
them (`KeyboardInterrupt`, `MemoryError`, a signal handler) leaves the store as the last one left
it.  The functions below run the same code as `Model/Versions.lean` and `Model/MemoryTree.lean` and
list the store after every assignment, with the place it was made at.  A call that raises an
exception of its own stops there, so the list ends with the store it leaves behind.

A single assignment is taken to be done completely or not at all.  The state of the objects of the
tokenizer and of local variables is lost with the call and plays no part.
-/

namespace Gaspra

/-- The places in the code where a call of `Versions.add` writes. -/
inductive AddPoint (τ : Type _) where
  /-- `self.head_version[tag] = version` (versions.py:35) -/
  | headWritten
  /-- `self.nodes[tag] = Node(...)` (memory_tree.py:29) -/
  | nodeAdded
  /-- `self.diffs[child_tag] = serialize_changeset(changeset)` (versions.py:82) -/
  | deltaWritten (c : τ)
  /-- `self.nodes[original_node.parent].children.remove(tag)` (memory_tree.py:55); listed also if
  there was nothing to remove -/
  | detached (c : τ)
  /-- `self.nodes[tag] = node` (memory_tree.py:59) -/
  | parentSet (c : τ)
  /-- `self.nodes[node.parent].children.append(tag)` (memory_tree.py:63) -/
  | attached (c : τ)
  /-- `self.nodes[tag] = replace(node, height=..., size=...)` (memory_tree.py:114) -/
  | metricSet (x : τ)
  /-- `del self.head_version[child_tag]` (versions.py:92) -/
  | headDeleted (c : τ)
deriving DecidableEq, Repr

variable {τ : Type _} [DecidableEq τ]

/-- The trees during `_update_metrics` (memory_tree.py:98-115). -/
def mtMetricsTrace : Nat → MTree τ → Option τ → List (AddPoint τ × MTree τ)
  | _, _, none => []
  | 0, _, some _ => []
  | f + 1, t, some tag =>
    match dget t tag with
    | none => []
    | some nd =>
      match mtChildAttrs t TNode.height nd.children, mtChildAttrs t TNode.size nd.children with
      | some heights, some sizes =>
        let childHeight := if nd.children.isEmpty then 0 else maxNat heights
        let size := if nd.children.isEmpty then 0 else sizes.sum
        let t := dset t tag { nd with height := childHeight + 1, size := size + 1 }
        (.metricSet tag, t) :: mtMetricsTrace f t nd.parent
      | _, _ => []

/-- The trees while the new parent gets its child (memory_tree.py:61-64). -/
def mtAttachTrace (t : MTree τ) (tag : τ) (p : τ) : List (AddPoint τ × MTree τ) :=
  match dget t p with
  | none => []
  | some pn =>
    let t := dset t p { pn with children := pn.children ++ [tag] }
    (.attached tag, t) :: mtMetricsTrace t.length t (some p)

/-- The trees during `change_parent` (memory_tree.py:47-68). -/
def mtChangeParentTrace (t : MTree τ) (tag p : τ) : List (AddPoint τ × MTree τ) :=
  match dget t tag with
  | none => []
  | some original =>
    match mtDetach t tag original.parent with
    | none => []
    | some t =>
      let node := { (dget t tag).getD original with parent := some p }
      let t2 := dset t tag node
      (.detached tag, t) :: (.parentSet tag, t2) :: (mtAttachTrace t2 tag p ++
        match mtAttach t2 tag (some p) with
        | (_, some _) => []
        | (t3, none) => mtMetricsTrace t3.length t3 original.parent)

section
variable {Tok S : Type _} [DecidableEq Tok] (tk : TokOps Tok S)

/-- A store with another tree. -/
def Versions.withTree (v : Versions τ (MTree τ)) (x : AddPoint τ × MTree τ) :
    AddPoint τ × Versions τ (MTree τ) := (x.1, { v with tree := x.2 })

/-- The stores during `_add_edge` (versions.py:81-92). -/
def addEdgeTrace (v : Versions τ (MTree τ)) (parentTag childTag : τ)
    (changeset : List (PatchItem UInt8)) : List (AddPoint τ × Versions τ (MTree τ)) :=
  match serializeChangeset changeset with
  | .error _ => []
  | .ok d =>
    let v := { v with diffs := dset v.diffs childTag d }
    (.deltaWritten childTag, v) ::
      ((mtChangeParentTrace v.tree childTag parentTag).map v.withTree ++
      match mtChangeParent v.tree childTag (some parentTag) with
      | (_, some _) => []
      | (tree, none) =>
        if dmem v.headVersion childTag then
          [(.headDeleted childTag,
            { v with tree, headVersion := ddel v.headVersion childTag })]
        else [])

/-- The stores while the split is moved up to `tag` (versions.py:44-52). -/
def addSplitTrace (v : Versions τ (MTree τ)) (tag : τ) (version : Bytes) (split : τ)
    (path : List τ) : List (AddPoint τ × Versions τ (MTree τ)) :=
  match retrieveUsingPath tk v path with
  | .error _ => []
  | .ok splitVersion =>
    match makeChangeset tk version splitVersion with
    | .error _ => []
    | .ok cs =>
      addEdgeTrace v tag split cs ++
        match addEdge (memoryTree τ) v tag split cs with
        | (_, some _) => []
        | (v, none) => (mtChangeParentTrace v.tree split tag).map v.withTree

/-- The stores while the old head becomes a child of `tag` (versions.py:54-61). -/
def addOldHeadTrace (v : Versions τ (MTree τ)) (tag : τ) (version : Bytes) (head : τ) :
    List (AddPoint τ × Versions τ (MTree τ)) :=
  match dget v.headVersion head with
  | none => []
  | some headVersion =>
    match makeChangeset tk version headVersion with
    | .error _ => []
    | .ok cs => addEdgeTrace v tag head cs

/-- The stores during the body of `if existing_head is not None:` (versions.py:40-61). -/
def addToHeadTrace (v : Versions τ (MTree τ)) (tag : τ) (version : Bytes) (head : τ) :
    List (AddPoint τ × Versions τ (MTree τ)) :=
  match mtGetSplit v.tree head with
  | .error _ => []
  | .ok (split, path) =>
    if split ≠ head then
      addSplitTrace tk v tag version split path ++
        match addSplit (memoryTree τ) tk v tag version split path with
        | (_, some _) => []
        | (v, none) => addOldHeadTrace tk v tag version head
    else addOldHeadTrace tk v tag version head

/-- The stores during `Versions.add` (versions.py:34-63), one after every write. -/
def versionsAddTrace (v : Versions τ (MTree τ)) (tag : τ) (version : Bytes)
    (existingHead : Option τ) : List (AddPoint τ × Versions τ (MTree τ)) :=
  let v := { v with headVersion := dset v.headVersion tag version }
  let w := { v with tree := mtAdd v.tree tag existingHead }
  (.headWritten, v) :: (.nodeAdded, w) ::
    match existingHead with
    | none => []
    | some head => addToHeadTrace tk w tag version head

end

end Gaspra
