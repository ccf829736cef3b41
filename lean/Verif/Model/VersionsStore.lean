import Verif.Model.Versions
import Verif.Model.DBCollection
import Verif.Model.DBTree

/-!
# Model of `src/gaspra/versions.py` for any pair of mappings

`Model/Versions.lean` takes `head_version` and `diffs` to be dictionaries.  Here they are objects of
any class (versions.py:27-28), of which only the methods used by `Versions` matter.  The two objects
do not share state: two `DBCollection`s have tables of different names, none of them `graph`.
-/

namespace Gaspra

/-- The methods of a mapping that `Versions` calls.  `getD` is the method `get`. -/
structure MapOps (τ M : Type _) where
  get : M → τ → Except PyErr Bytes
  set : M → τ → Bytes → M
  del : M → τ → M × Option PyErr
  contains : M → τ → Bool
  getD : M → τ → Except PyErr (Option Bytes)

section
variable {τ : Type _} [DecidableEq τ]

/-- `dict`. -/
def dictOps (τ : Type _) [DecidableEq τ] : MapOps τ (List (τ × Bytes)) where
  get d k := match dget d k with
    | none => .error .keyError
    | some b => .ok b
  set := dset
  del d k := if dmem d k then (ddel d k, none) else (d, some .keyError)
  contains := dmem
  getD d k := .ok (dget d k)

/-- `DBCollection` (db_collections.py:37-84).  The class is not derived from `MutableMapping` and
does not define `get`. -/
def collOps (τ : Type _) [DecidableEq τ] : MapOps τ (Coll τ Bytes) where
  get := collGet
  set := collSet
  del := collDel
  contains := collContains
  getD _ _ := .error .attributeError

end

/-- The fields of `Versions` (versions.py:25-32). -/
structure Store (T M : Type _) where
  headVersion : M
  diffs : M
  tree : T

section
variable {τ T Tok S M : Type _} [DecidableEq τ] [DecidableEq Tok]
variable (mo : MapOps τ M) (ops : TreeOps τ T) (tk : TokOps Tok S)

/-- The loop of `_retrieve_using_path` (versions.py:106-112). -/
def storeRetrieveLoop (diffs : M) : S → List Tok → List τ → Except PyErr (List Tok × S)
  | st, patched, [] => .ok (patched, st)
  | st, patched, tag :: rest => do
    let d ← mo.get diffs tag
    let (items, err) := deserializeChangeset d
    let (encoded, st) ← encodeItems tk st items
    match err with
    | some e => .error e
    | none => storeRetrieveLoop diffs st (applyPatch encoded patched) rest

/-- `Versions._retrieve_using_path` (versions.py:94-114). -/
def storeRetrieve (v : Store T M) (path : List τ) : Except PyErr Bytes :=
  match path with
  | [] => .error .indexError
  | root :: rest => do
    let patched ← mo.get v.headVersion root
    let (encoded, st) ← tk.encode tk.init patched
    let (encoded, st) ← storeRetrieveLoop mo tk v.diffs st encoded rest
    tk.decode st encoded

/-- `Versions.get` (versions.py:116-124). -/
def storeGet (v : Store T M) (tag : τ) : Except PyErr (Option Bytes) := do
  match ← ops.pathTo v.tree tag with
  | none => return none
  | some [] => return none
  | some path => return some (← storeRetrieve mo tk v path)

/-- `Versions._add_edge` (versions.py:81-92). -/
def storeAddEdge (v : Store T M) (parentTag childTag : τ) (changeset : List (PatchItem UInt8)) :
    Store T M × Option PyErr :=
  match serializeChangeset changeset with
  | .error e => (v, some e)
  | .ok d =>
    let v := { v with diffs := mo.set v.diffs childTag d }
    match ops.changeParent v.tree childTag parentTag with
    | (tree, some e) => ({ v with tree }, some e)
    | (tree, none) =>
      if mo.contains v.headVersion childTag then
        let r := mo.del v.headVersion childTag
        ({ v with tree, headVersion := r.1 }, r.2)
      else ({ v with tree }, none)

/-- The middle part of `Versions.add` (versions.py:44-52). -/
def storeAddSplit (v : Store T M) (tag : τ) (version : Bytes) (split : τ) (path : List τ) :
    Store T M × Option PyErr :=
  match storeRetrieve mo tk v path with
  | .error e => (v, some e)
  | .ok splitVersion =>
    match makeChangeset tk version splitVersion with
    | .error e => (v, some e)
    | .ok cs =>
      match storeAddEdge mo ops v tag split cs with
      | (v, some e) => (v, some e)
      | (v, none) =>
        let r := ops.changeParent v.tree split tag
        ({ v with tree := r.1 }, r.2)

/-- The last part of `Versions.add` (versions.py:54-61). -/
def storeAddOldHead (v : Store T M) (tag : τ) (version : Bytes) (head : τ) :
    Store T M × Option PyErr :=
  match mo.get v.headVersion head with
  | .error e => (v, some e)
  | .ok headVersion =>
    match makeChangeset tk version headVersion with
    | .error e => (v, some e)
    | .ok cs => storeAddEdge mo ops v tag head cs

/-- `Versions.add` (versions.py:34-63). -/
def storeAdd (v : Store T M) (tag : τ) (version : Bytes) (existingHead : Option τ) :
    Store T M × Option PyErr :=
  let v := { v with headVersion := mo.set v.headVersion tag version }
  match ops.add v.tree tag existingHead with
  | (tree, some e) => ({ v with tree }, some e)
  | (tree, none) =>
    let v := { v with tree }
    match existingHead with
    | none => (v, none)
    | some head =>
      match ops.getSplit v.tree head with
      | .error e => (v, some e)
      | .ok (split, path) =>
        if split ≠ head then
          match storeAddSplit mo ops tk v tag version split path with
          | (v, some e) => (v, some e)
          | (v, none) => storeAddOldHead mo ops tk v tag version head
        else storeAddOldHead mo ops tk v tag version head

/-- `Versions.version_info` (versions.py:126-144). -/
def storeInfo (v : Store T M) (tag : τ) : Except PyErr (Option (VersionInfo τ)) := do
  match ← mo.getD v.diffs tag with
  | some d =>
    match deserializeChangeset d with
    | (_, some e) => .error e
    | (items, none) =>
      return some ⟨← ops.baseVersion v.tree tag, literalCount items, items.length⟩
  | none =>
    match ← mo.getD v.headVersion tag with
    | some hv => return some ⟨← ops.baseVersion v.tree tag, hv.length, 0⟩
    | none => return none

/-- `Versions.__contains__` (versions.py:146-147). -/
def storeContains (v : Store T M) (tag : τ) : Bool := ops.contains v.tree tag

end

/-- A store that keeps everything in the database: `Versions(head_version=DBCollection(…),
diffs=DBCollection(…), tree=DBTree())`, with new tables. -/
def emptyDBStore (τ : Type _) : Store (Graph τ) (Coll τ Bytes) := ⟨[], [], []⟩

end Gaspra
