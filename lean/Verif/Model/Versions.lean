import Verif.Model.MemoryTree
import Verif.Model.Serialize
import Verif.Model.Utf8

/-!
# Model of `src/gaspra/versions.py`

`Versions` is modelled for any implementation of the protocols it is written against:
`TreeOps` is the protocol `Tree` (tree.py) and `TokOps` the protocol `Tokenizer`
(tokenizers.py:52-57) restricted to `bytes` contents, which is what `Versions` stores.
`head_version` and `diffs` are dictionaries (the default; for other mappings see
`Model/VersionsStore.lean`).
-/

namespace Gaspra


/-- The protocol `Tree` (tree.py:5-22).  State-changing operations return the new tree and the
exception they raised, if any. -/
structure TreeOps (τ : Type _) (T : Type _) where
  contains : T → τ → Bool
  baseVersion : T → τ → Except PyErr (Option τ)
  add : T → τ → Option τ → T × Option PyErr
  pathTo : T → τ → Except PyErr (Option (List τ))
  changeParent : T → τ → τ → T × Option PyErr
  getSplit : T → τ → Except PyErr (τ × List τ)

/-- `MemoryTree` as a `Tree`. -/
def memoryTree (τ : Type _) [DecidableEq τ] : TreeOps τ (MTree τ) where
  contains := mtContains
  baseVersion := mtBaseVersion
  add t tag base := (mtAdd t tag base, none)
  pathTo := mtPathTo
  changeParent t tag p := mtChangeParent t tag (some p)
  getSplit := mtGetSplit

/-- The protocol `Tokenizer` (tokenizers.py:52-57) on `bytes` contents; `init` is the state of a
new tokenizer as made by `tokenizer_factory()`. -/
structure TokOps (Tok : Type _) (S : Type _) where
  init : S
  encode : S → Bytes → Except PyErr (List Tok × S)
  decode : S → List Tok → Except PyErr Bytes

/-- The fields of `Versions` (versions.py:25-32). -/
structure Versions (τ : Type _) (T : Type _) where
  headVersion : List (τ × Bytes)
  diffs : List (τ × Bytes)
  tree : T

/-- `VersionInfo` (versions.py:18-22). -/
structure VersionInfo (τ : Type _) where
  baseVersion : Option τ
  tokenCount : Nat
  changeCount : Nat
deriving DecidableEq, Repr

section
variable {τ T Tok S : Type _} [DecidableEq τ] [DecidableEq Tok]
variable (ops : TreeOps τ T) (tk : TokOps Tok S)

/-- `tuple(c if type(c) is slice else tokenizer.decode(c) for c in encoded_changeset)`
(versions.py:76-78). -/
def decodeItems (st : S) : List (PatchItem Tok) → Except PyErr (List (PatchItem UInt8))
  | [] => .ok []
  | .slice sl :: rest => do return .slice sl :: (← decodeItems st rest)
  | .piece p :: rest => do
    let b ← tk.decode st p
    return .piece b :: (← decodeItems st rest)

/-- `Versions._make_changeset` (versions.py:65-79). -/
def makeChangeset (original modified : Bytes) : Except PyErr (List (PatchItem UInt8)) := do
  let (eo, st) ← tk.encode tk.init original
  let (em, st) ← tk.encode st modified
  match findChangeset eo em with
  | none => .error .diverges
  | some cs => decodeItems tk st (stripForward cs.asChangeStream)

/-- `tuple(c if type(c) is slice else tokenizer.encode(c) for c in stripped_changeset)`
(versions.py:108-111); the tokenizer is updated by every `encode`. -/
def encodeItems : S → List (PatchItem UInt8) → Except PyErr (List (PatchItem Tok) × S)
  | st, [] => .ok ([], st)
  | st, .slice sl :: rest => do
    let (items, st) ← encodeItems st rest
    return (.slice sl :: items, st)
  | st, .piece b :: rest => do
    let (p, st) ← tk.encode st b
    let (items, st) ← encodeItems st rest
    return (.piece p :: items, st)

/-- The loop of `_retrieve_using_path` (versions.py:106-112).  Items are encoded while they are
deserialized, so an exception of `encode` comes before one of `deserialize_changeset` further on. -/
def retrieveLoop (diffs : List (τ × Bytes)) :
    S → List Tok → List τ → Except PyErr (List Tok × S)
  | st, patched, [] => .ok (patched, st)
  | st, patched, tag :: rest => do
    match dget diffs tag with
    | none => .error .keyError
    | some d =>
      let (items, err) := deserializeChangeset d
      let (encoded, st) ← encodeItems tk st items
      match err with
      | some e => .error e
      | none => retrieveLoop diffs st (applyPatch encoded patched) rest

/-- `Versions._retrieve_using_path` (versions.py:94-114). -/
def retrieveUsingPath (v : Versions τ T) (path : List τ) : Except PyErr Bytes :=
  match path with
  | [] => .error .indexError
  | root :: rest =>
    match dget v.headVersion root with
    | none => .error .keyError
    | some patched => do
      let (encoded, st) ← tk.encode tk.init patched
      let (encoded, st) ← retrieveLoop tk v.diffs st encoded rest
      tk.decode st encoded

/-- `Versions.get` (versions.py:116-124).  `if path:` is false for `None` and for `()`. -/
def versionsGet (v : Versions τ T) (tag : τ) : Except PyErr (Option Bytes) :=
  match ops.pathTo v.tree tag with
  | .error e => .error e
  | .ok none => .ok none
  | .ok (some []) => .ok none
  | .ok (some path) =>
    match retrieveUsingPath tk v path with
    | .ok b => .ok (some b)
    | .error e => .error e

/-- `Versions._add_edge` (versions.py:81-92). -/
def addEdge (v : Versions τ T) (parentTag childTag : τ) (changeset : List (PatchItem UInt8)) :
    Versions τ T × Option PyErr :=
  match serializeChangeset changeset with
  | .error e => (v, some e)
  | .ok d =>
    let v := { v with diffs := dset v.diffs childTag d }
    match ops.changeParent v.tree childTag parentTag with
    | (tree, some e) => ({ v with tree }, some e)
    | (tree, none) =>
      let v := { v with tree }
      if dmem v.headVersion childTag then
        ({ v with headVersion := ddel v.headVersion childTag }, none)
      else (v, none)

/-- The middle part of `Versions.add` (versions.py:44-52): move the split up to `tag`. -/
def addSplit (v : Versions τ T) (tag : τ) (version : Bytes) (split : τ) (path : List τ) :
    Versions τ T × Option PyErr :=
  match retrieveUsingPath tk v path with
  | .error e => (v, some e)
  | .ok splitVersion =>
    match makeChangeset tk version splitVersion with
    | .error e => (v, some e)
    | .ok cs =>
      match addEdge ops v tag split cs with
      | (v, some e) => (v, some e)
      | (v, none) =>
        let r := ops.changeParent v.tree split tag
        ({ v with tree := r.1 }, r.2)

/-- The last part of `Versions.add` (versions.py:54-61): the old head becomes a child of `tag`. -/
def addOldHead (v : Versions τ T) (tag : τ) (version : Bytes) (head : τ) :
    Versions τ T × Option PyErr :=
  match dget v.headVersion head with
  | none => (v, some .keyError)
  | some headVersion =>
    match makeChangeset tk version headVersion with
    | .error e => (v, some e)
    | .ok cs => addEdge ops v tag head cs

/-- The body of `if existing_head is not None:` in `Versions.add` (versions.py:40-61). -/
def addToHead (v : Versions τ T) (tag : τ) (version : Bytes) (head : τ) :
    Versions τ T × Option PyErr :=
  match ops.getSplit v.tree head with
  | .error e => (v, some e)
  | .ok (split, path) =>
    if split ≠ head then
      match addSplit ops tk v tag version split path with
      | (v, some e) => (v, some e)
      | (v, none) => addOldHead ops tk v tag version head
    else addOldHead ops tk v tag version head

/-- `Versions.add` (versions.py:34-63).  The result is the store after the call and the exception
raised, if any. -/
def versionsAdd (v : Versions τ T) (tag : τ) (version : Bytes) (existingHead : Option τ) :
    Versions τ T × Option PyErr :=
  let v := { v with headVersion := dset v.headVersion tag version }
  match ops.add v.tree tag existingHead with
  | (tree, some e) => ({ v with tree }, some e)
  | (tree, none) =>
    match existingHead with
    | none => ({ v with tree }, none)
    | some head => addToHead ops tk { v with tree } tag version head

/-- `sum(len(c) for c in changeset if not isinstance(c, slice))` (versions.py:132). -/
def literalCount : List (PatchItem UInt8) → Nat
  | [] => 0
  | .piece b :: rest => b.length + literalCount rest
  | .slice _ :: rest => literalCount rest

/-- `Versions.version_info` (versions.py:126-144). -/
def versionInfo (v : Versions τ T) (tag : τ) : Except PyErr (Option (VersionInfo τ)) :=
  let counts : Except PyErr (Option (Nat × Nat)) :=
    match dget v.diffs tag with
    | some d =>
      match deserializeChangeset d with
      | (_, some e) => .error e
      | (items, none) => .ok (some (literalCount items, items.length))
    | none =>
      match dget v.headVersion tag with
      | some hv => .ok (some (hv.length, 0))
      | none => .ok none
  match counts with
  | .error e => .error e
  | .ok none => .ok none
  | .ok (some (tokenCount, changeCount)) =>
    match ops.baseVersion v.tree tag with
    | .error e => .error e
    | .ok b => .ok (some ⟨b, tokenCount, changeCount⟩)

/-- `Versions.__contains__` (versions.py:146-147). -/
def versionsContains (v : Versions τ T) (tag : τ) : Bool := ops.contains v.tree tag

end

/-- `NullTokenizer` on `bytes` (tokenizers.py:83-99): `encode` and `decode` return their
argument.  (The `source_type` check cannot fail when all contents are `bytes`.) -/
def nullTok : TokOps UInt8 Unit where
  init := ()
  encode _ b := .ok (b, ())
  decode _ t := .ok t

/-- A new store with the default tree (versions.py:27-29). -/
def emptyVersions (τ : Type _) : Versions τ (MTree τ) := ⟨[], [], []⟩

end Gaspra
