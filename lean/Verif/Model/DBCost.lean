import Verif.Model.VersionsStore

/-!
# Counting the SQL statements of a version store in a database

The functions of `Model/DBTree.lean` and `Model/VersionsStore.lean` once more, for a store that keeps
its tree in a `DBTree` and its contents in two `DBCollection`s, together with the number of calls of
`execute`.  Every method of `DBCollection` executes one statement (db_collections.py:37-84), and so do
`__contains__`, `base_version`, `add` and `path_to` of `DBTree` (db_tree.py:42-69).  Leaving out the
count gives back the original functions (theorem `C114_same_result`).
-/

namespace Gaspra

section
variable {τ : Type _} [DecidableEq τ]

/-- `dbMetricsLoop` with the number of statements (db_tree.py:134-139): two in every round. -/
def dbMetricsLoopC : Nat → Graph τ → Option Nat → Except PyErr (Graph τ) × Nat
  | _, g, none => (.ok g, 0)
  | 0, _, some _ => (.error .diverges, 0)
  | f + 1, g, some rid =>
    match rowAt g rid with
    | none => (.error .typeError, 1)
    | some r =>
      let children := childRows g r
      let height := 1 + maxNat (children.map fun c => c.2.height)
      let size := 1 + (children.map fun c => c.2.size).sum
      let r := dbMetricsLoopC f (updateRow g rid fun r => { r with height, size }) r.parentRid
      (r.1, r.2 + 2)

/-- `dbUpdateMetrics` with the number of statements (db_tree.py:129-139). -/
def dbUpdateMetricsC (g : Graph τ) (rid : Option Nat) : (Graph τ × Option PyErr) × Nat :=
  match dbMetricsLoopC g.length g rid with
  | (.ok g', n) => ((g', none), n)
  | (.error e, n) => ((g, some e), n)

/-- `dbChangeParent` with the number of statements (db_tree.py:71-112): seven before the metrics are
updated. -/
def dbChangeParentC (g : Graph τ) (tag newParent : τ) : (Graph τ × Option PyErr) × Nat :=
  match selectTag g tag with
  | none => ((g, some .typeError), 1)
  | some (tagRid, row) =>
    let g2 := removeIfChild1 (removeIfChild0 g row.parentRid tagRid) row.parentRid tagRid
    match selectTag g2 newParent with
    | none => ((g, some .typeError), 5)
    | some (newRid, _) =>
      let g3 := dbLink g2 tagRid newRid newParent row.parent
      match dbUpdateMetricsC g3 row.parentRid with
      | ((g, some e), n) => ((g, some e), 7 + n)
      | ((g, none), n) =>
        let r := dbUpdateMetricsC g (some newRid)
        (r.1, 7 + n + r.2)

/-- `dbSplitLoop` with the number of statements (db_tree.py:123-126): one in every round. -/
def dbSplitLoopC (g : Graph τ) :
    Nat → Nat → τ → GRow τ → List τ → Except PyErr (τ × List τ) × Nat
  | 0, depth, tag, r, path =>
    if depth < r.height then (.error .diverges, 0) else (.ok (tag, path), 0)
  | f + 1, depth, tag, r, path =>
    if depth < r.height then
      match bestRow (childRows g r) with
      | none => (.error .typeError, 1)
      | some (_, r) =>
        let s := dbSplitLoopC g f (depth + 1) r.tag r (path ++ [r.tag])
        (s.1, s.2 + 1)
    else (.ok (tag, path), 0)

/-- `dbGetSplit` with the number of statements (db_tree.py:114-127). -/
def dbGetSplitC (g : Graph τ) (tag : τ) : Except PyErr (τ × List τ) × Nat :=
  match selectTag g tag with
  | none => (.error .typeError, 1)
  | some (_, r) =>
    let s := dbSplitLoopC g (maxNat (g.map GRow.height)) 1 tag r [tag]
    (s.1, s.2 + 1)

variable {Tok S : Type _} [DecidableEq Tok] (tk : TokOps Tok S)

/-- `storeRetrieveLoop` with the number of statements (versions.py:106-112). -/
def storeRetrieveLoopC (diffs : Coll τ Bytes) :
    S → List Tok → List τ → Except PyErr (List Tok × S) × Nat
  | st, patched, [] => (.ok (patched, st), 0)
  | st, patched, tag :: rest =>
    match collGet diffs tag with
    | .error e => (.error e, 1)
    | .ok d =>
      let (items, err) := deserializeChangeset d
      match encodeItems tk st items with
      | .error e => (.error e, 1)
      | .ok (encoded, st) =>
        match err with
        | some e => (.error e, 1)
        | none =>
          let r := storeRetrieveLoopC diffs st (applyPatch encoded patched) rest
          (r.1, r.2 + 1)

/-- `storeRetrieve` with the number of statements (versions.py:94-114). -/
def storeRetrieveC (v : Store (Graph τ) (Coll τ Bytes)) (path : List τ) : Except PyErr Bytes × Nat :=
  match path with
  | [] => (.error .indexError, 0)
  | root :: rest =>
    match collGet v.headVersion root with
    | .error e => (.error e, 1)
    | .ok patched =>
      match tk.encode tk.init patched with
      | .error e => (.error e, 1)
      | .ok (encoded, st) =>
        match storeRetrieveLoopC tk v.diffs st encoded rest with
        | (.error e, n) => (.error e, n + 1)
        | (.ok (encoded, st), n) => (tk.decode st encoded, n + 1)

/-- `storeGet` with the number of statements (versions.py:116-124). -/
def storeGetC (v : Store (Graph τ) (Coll τ Bytes)) (tag : τ) : Except PyErr (Option Bytes) × Nat :=
  match dbPathTo v.tree tag with
  | .error e => (.error e, 1)
  | .ok none => (.ok none, 1)
  | .ok (some []) => (.ok none, 1)
  | .ok (some path) =>
    match storeRetrieveC tk v path with
    | (.error e, n) => (.error e, n + 1)
    | (.ok b, n) => (.ok (some b), n + 1)

/-- `storeAddEdge` with the number of statements (versions.py:81-92). -/
def storeAddEdgeC (v : Store (Graph τ) (Coll τ Bytes)) (parentTag childTag : τ)
    (changeset : List (PatchItem UInt8)) : (Store (Graph τ) (Coll τ Bytes) × Option PyErr) × Nat :=
  match serializeChangeset changeset with
  | .error e => ((v, some e), 0)
  | .ok d =>
    let v := { v with diffs := collSet v.diffs childTag d }
    match dbChangeParentC v.tree childTag parentTag with
    | ((tree, some e), n) => (({ v with tree }, some e), 1 + n)
    | ((tree, none), n) =>
      if collContains v.headVersion childTag then
        let r := collDel v.headVersion childTag
        (({ v with tree, headVersion := r.1 }, r.2), 1 + n + 2)
      else (({ v with tree }, none), 1 + n + 1)

/-- `storeAddSplit` with the number of statements (versions.py:44-52). -/
def storeAddSplitC (v : Store (Graph τ) (Coll τ Bytes)) (tag : τ) (version : Bytes) (split : τ)
    (path : List τ) : (Store (Graph τ) (Coll τ Bytes) × Option PyErr) × Nat :=
  match storeRetrieveC tk v path with
  | (.error e, n) => ((v, some e), n)
  | (.ok splitVersion, n) =>
    match makeChangeset tk version splitVersion with
    | .error e => ((v, some e), n)
    | .ok cs =>
      match storeAddEdgeC v tag split cs with
      | ((v, some e), m) => ((v, some e), n + m)
      | ((v, none), m) =>
        let r := dbChangeParentC v.tree split tag
        (({ v with tree := r.1.1 }, r.1.2), n + m + r.2)

/-- `storeAddOldHead` with the number of statements (versions.py:54-61). -/
def storeAddOldHeadC (v : Store (Graph τ) (Coll τ Bytes)) (tag : τ) (version : Bytes) (head : τ) :
    (Store (Graph τ) (Coll τ Bytes) × Option PyErr) × Nat :=
  match collGet v.headVersion head with
  | .error e => ((v, some e), 1)
  | .ok headVersion =>
    match makeChangeset tk version headVersion with
    | .error e => ((v, some e), 1)
    | .ok cs =>
      let r := storeAddEdgeC v tag head cs
      (r.1, 1 + r.2)

/-- `storeAdd` with the number of statements (versions.py:34-63). -/
def storeAddC (v : Store (Graph τ) (Coll τ Bytes)) (tag : τ) (version : Bytes)
    (existingHead : Option τ) : (Store (Graph τ) (Coll τ Bytes) × Option PyErr) × Nat :=
  let v := { v with headVersion := collSet v.headVersion tag version }
  match dbAdd v.tree tag existingHead with
  | (tree, some e) => (({ v with tree }, some e), 2)
  | (tree, none) =>
    let v := { v with tree }
    match existingHead with
    | none => ((v, none), 2)
    | some head =>
      match dbGetSplitC v.tree head with
      | (.error e, n) => ((v, some e), 2 + n)
      | (.ok (split, path), n) =>
        if split ≠ head then
          match storeAddSplitC tk v tag version split path with
          | ((v, some e), m) => ((v, some e), 2 + n + m)
          | ((v, none), m) =>
            let r := storeAddOldHeadC tk v tag version head
            (r.1, 2 + n + m + r.2)
        else
          let r := storeAddOldHeadC tk v tag version head
          (r.1, 2 + n + r.2)

end
end Gaspra
