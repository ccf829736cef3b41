import Verif.Model.Interrupt
import Verif.Model.DBTree

/-!
# `Versions.add` over a `DBTree`, interrupted between two transactions

The counterpart of `Model/Interrupt.lean` for a store whose tree is a `DBTree`.  Every
`with self.connection_factory() as connection:` is one transaction, which an exception that arrives
inside of it rolls back.  `change_parent` runs three of them (db_tree.py:72-112): one that moves the
row and two that bring the metrics of the two parents up to date.  The functions below run the same
code as `Model/Versions.lean` and `Model/DBTree.lean` and list the store after every transaction.  The
contents and the deltas are in dictionaries; a `DBCollection` makes one transaction of each of the
same assignments (db_collections.py:58-67).
-/

namespace Gaspra

/-- The places in the code where a call of `Versions.add` commits. -/
inductive DBPoint (τ : Type _) where
  /-- `self.head_version[tag] = version` (versions.py:35) -/
  | headWritten
  /-- `add` of the tree (db_tree.py:52-54) -/
  | rowAdded
  /-- `self.diffs[child_tag] = serialize_changeset(changeset)` (versions.py:82) -/
  | deltaWritten (c : τ)
  /-- the first transaction of `change_parent` (db_tree.py:72-109) -/
  | linked (c : τ)
  /-- `self._update_metrics(original_parent_rid)` (db_tree.py:111) -/
  | oldParentMetrics (c : τ)
  /-- `self._update_metrics(new_parent_rid)` (db_tree.py:112) -/
  | newParentMetrics (c : τ)
  /-- `del self.head_version[child_tag]` (versions.py:92) -/
  | headDeleted (c : τ)
deriving DecidableEq, Repr

variable {τ : Type _} [DecidableEq τ]

/-- The tables during `change_parent` (db_tree.py:71-112). -/
def dbChangeParentTrace (g : Graph τ) (tag newParent : τ) : List (DBPoint τ × Graph τ) :=
  match selectTag g tag with
  | none => []
  | some (tagRid, row) =>
    let g2 := removeIfChild1 (removeIfChild0 g row.parentRid tagRid) row.parentRid tagRid
    match selectTag g2 newParent with
    | none => []
    | some (newRid, _) =>
      let g3 := dbLink g2 tagRid newRid newParent row.parent
      (.linked tag, g3) ::
        match dbUpdateMetrics g3 row.parentRid with
        | (_, some _) => []
        | (g4, none) =>
          (.oldParentMetrics tag, g4) ::
            match dbUpdateMetrics g4 (some newRid) with
            | (_, some _) => []
            | (g5, none) => [(.newParentMetrics tag, g5)]

section
variable {Tok S : Type _} [DecidableEq Tok] (tk : TokOps Tok S)

/-- A store with another table. -/
def Versions.withTable (v : Versions τ (Graph τ)) (x : DBPoint τ × Graph τ) :
    DBPoint τ × Versions τ (Graph τ) := (x.1, { v with tree := x.2 })

/-- The stores during `_add_edge` (versions.py:81-92). -/
def dbEdgeTrace (v : Versions τ (Graph τ)) (parentTag childTag : τ)
    (changeset : List (PatchItem UInt8)) : List (DBPoint τ × Versions τ (Graph τ)) :=
  match serializeChangeset changeset with
  | .error _ => []
  | .ok d =>
    let v := { v with diffs := dset v.diffs childTag d }
    (.deltaWritten childTag, v) ::
      ((dbChangeParentTrace v.tree childTag parentTag).map v.withTable ++
      match dbChangeParent v.tree childTag parentTag with
      | (_, some _) => []
      | (tree, none) =>
        if dmem v.headVersion childTag then
          [(.headDeleted childTag,
            { v with tree, headVersion := ddel v.headVersion childTag })]
        else [])

/-- The stores while the split is moved up to `tag` (versions.py:44-52). -/
def dbSplitTrace (v : Versions τ (Graph τ)) (tag : τ) (version : Bytes) (split : τ)
    (path : List τ) : List (DBPoint τ × Versions τ (Graph τ)) :=
  match retrieveUsingPath tk v path with
  | .error _ => []
  | .ok splitVersion =>
    match makeChangeset tk version splitVersion with
    | .error _ => []
    | .ok cs =>
      dbEdgeTrace v tag split cs ++
        match addEdge (dbTree τ) v tag split cs with
        | (_, some _) => []
        | (v, none) => (dbChangeParentTrace v.tree split tag).map v.withTable

/-- The stores while the old head becomes a child of `tag` (versions.py:54-61). -/
def dbOldHeadTrace (v : Versions τ (Graph τ)) (tag : τ) (version : Bytes) (head : τ) :
    List (DBPoint τ × Versions τ (Graph τ)) :=
  match dget v.headVersion head with
  | none => []
  | some headVersion =>
    match makeChangeset tk version headVersion with
    | .error _ => []
    | .ok cs => dbEdgeTrace v tag head cs

/-- The stores during the body of `if existing_head is not None:` (versions.py:40-61). -/
def dbToHeadTrace (v : Versions τ (Graph τ)) (tag : τ) (version : Bytes) (head : τ) :
    List (DBPoint τ × Versions τ (Graph τ)) :=
  match dbGetSplit v.tree head with
  | .error _ => []
  | .ok (split, path) =>
    if split ≠ head then
      dbSplitTrace tk v tag version split path ++
        match addSplit (dbTree τ) tk v tag version split path with
        | (_, some _) => []
        | (v, none) => dbOldHeadTrace tk v tag version head
    else dbOldHeadTrace tk v tag version head

/-- The stores during `Versions.add` (versions.py:34-63), one after every transaction. -/
def dbAddTrace (v : Versions τ (Graph τ)) (tag : τ) (version : Bytes)
    (existingHead : Option τ) : List (DBPoint τ × Versions τ (Graph τ)) :=
  let v := { v with headVersion := dset v.headVersion tag version }
  (.headWritten, v) ::
    match dbAdd v.tree tag existingHead with
    | (_, some _) => []
    | (tree, none) =>
      let w := { v with tree }
      (.rowAdded, w) ::
        match existingHead with
        | none => []
        | some head => dbToHeadTrace tk w tag version head

end

end Gaspra
