import Verif.Model.Versions
import Verif.Model.Cost

/-!
# Counting the steps of a version store

The functions of `Model/Versions.lean`, `Model/MemoryTree.lean` and `Model/Serialize.lean` once more,
for the default tree and the default tokenizer, together with the number of steps they take.  A step
is one round of a loop or of a comprehension, one byte copied into a new `bytes` object (`stream[k:]`
copies the rest of the stream, `serialized += b` copies both parts), one item that a generator hands
to its caller, one element of `children` looked at, or a step counted in `Model/Cost.lean`.  An access to a dictionary is part
of a step.  `NullTokenizer` returns its argument, so its calls are not counted.  Leaving out the count
gives back the original functions (theorem `C95_same_result`).
-/

namespace Gaspra

/-- The steps of reading `as_change_stream` to the end (changesets.py:62-74 and 122-133): one for every
call, and one for every item at every level of the tree that hands it on with `yield from`. -/
def Changeset.changeSteps {α : Type _} : Changeset α → Nat
  | .leaf o m os ms => 1 + (Changeset.leaf o m os ms).asChangeStream.length
  | .node _ _ p s =>
    2 + (p.changeSteps + p.asChangeStream.length) + (s.changeSteps + s.asChangeStream.length)

/-- `makeChangeset` with the number of steps (versions.py:65-79): the diff, the stream, and one step each
for an item in `strip_forward` and for what it keeps in the two tuples. -/
def makeChangesetC (original modified : Bytes) : Except PyErr (List (PatchItem UInt8) × Nat) :=
  match findChangesetC original modified with
  | none => .error .diverges
  | some (cs, n) =>
    let items := stripForward cs.asChangeStream
    .ok (items, n + cs.changeSteps + cs.asChangeStream.length + 2 * items.length)

/-- The steps of `serialized += b`. -/
def appendSteps (serialized b : List UInt8) : Nat := 1 + serialized.length + b.length

/-- `serializeLoop` with the number of steps (serialize.py:81-101). -/
def serializeLoopC : Bool → List UInt8 → List (PatchItem UInt8) → Except PyErr (List UInt8 × Nat)
  | _, serialized, [] => .ok (serialized, 0)
  | nextIsBytes, serialized, .piece b :: rest => do
    let (s0, n0) ←
      if nextIsBytes then pure (serialized, 0)
      else do
        let z ← vserializeInt 0
        let s := serialized ++ z
        let z' ← vserializeInt 0
        pure (s ++ z', appendSteps serialized z + appendSteps s z')
    let e ← vserializeInt b.length
    let s1 := s0 ++ e
    let s2 := s1 ++ b
    let (r, n) ← serializeLoopC false s2 rest
    return (r, 1 + n0 + appendSteps s0 e + appendSteps s1 b + n)
  | nextIsBytes, serialized, .slice sl :: rest => do
    let (s0, n0) ←
      if nextIsBytes then do
        let z ← vserializeInt 0
        pure (serialized ++ z, appendSteps serialized z)
      else pure (serialized, 0)
    let e ← vserializeInt sl.start
    let s1 := s0 ++ e
    let e' ← vserializeStop sl.stop
    let s2 := s1 ++ e'
    let (r, n) ← serializeLoopC true s2 rest
    return (r, 1 + n0 + appendSteps s0 e + appendSteps s1 e' + n)

/-- `serializeChangeset` with the number of steps (serialize.py:75-103). -/
def serializeChangesetC (changeset : List (PatchItem UInt8)) : Except PyErr (List UInt8 × Nat) :=
  serializeLoopC true [] changeset

/-- `deserializeLoop` with the number of steps (serialize.py:109-123).  `vdeserialize_int` copies the rest
of the stream, and so does `stream[length:]` unless `length` is 0. -/
def deserializeLoopC : Nat → Bool → List UInt8 → (List (PatchItem UInt8) × Option PyErr) × Nat
  | 0, _, stream => if stream.length = 0 then (([], none), 0) else (([], some .diverges), 0)
  | f + 1, nextIsBytes, stream =>
    if stream.length = 0 then (([], none), 0)
    else if nextIsBytes then
      match vdeserializeInt stream with
      | .error e => (([], some e), 1)
      | .ok (length, stream) =>
        if length ≠ 0 then
          if stream.length < length then (([], some .runtimeError), 1 + stream.length)
          else
            let r := deserializeLoopC f false (stream.drop length)
            ((.piece (stream.take length) :: r.1.1, r.1.2),
              1 + stream.length + length + (stream.drop length).length + r.2)
        else
          let r := deserializeLoopC f false (stream.drop length)
          (r.1, 1 + stream.length + r.2)
    else
      match vdeserializeInt stream with
      | .error e => (([], some e), 1)
      | .ok (start, stream) =>
        match vdeserializeInt stream with
        | .error e => (([], some e), 1 + stream.length)
        | .ok (stop, stream') =>
          let r := deserializeLoopC f true stream'
          if start ≠ stop then
            ((.slice ⟨start, some stop⟩ :: r.1.1, r.1.2), 1 + stream.length + stream'.length + r.2)
          else (r.1, 1 + stream.length + stream'.length + r.2)

/-- `deserializeChangeset` with the number of steps (serialize.py:106-123). -/
def deserializeChangesetC (stream : List UInt8) : (List (PatchItem UInt8) × Option PyErr) × Nat :=
  deserializeLoopC stream.length true stream

/-- The bytes that `apply` cuts out of `version` for an item (changesets.py:285-288). -/
def sliceSteps (version : Bytes) : PatchItem UInt8 → Nat
  | .slice s => (s.get version).length
  | .piece _ => 0

/-- The steps of `apply` (changesets.py:274-292): one for every item, the bytes of the slices of
`version`, and the bytes that `join_changes` copies. -/
def applySteps (patch : List (PatchItem UInt8)) (version : Bytes) : Nat :=
  patch.length + (patch.map (sliceSteps version)).sum + (applyPatch patch version).length

variable {τ : Type _} [DecidableEq τ]

/-- `retrieveLoop` with the number of steps (versions.py:106-112): reading the delta, one step for every
item of the tuple, and `apply`. -/
def retrieveLoopC (diffs : List (τ × Bytes)) : Bytes → List τ → Except PyErr (Bytes × Nat)
  | patched, [] => .ok (patched, 0)
  | patched, tag :: rest =>
    match dget diffs tag with
    | none => .error .keyError
    | some d =>
      let r := deserializeChangesetC d
      match r.1.2 with
      | some e => .error e
      | none =>
        match retrieveLoopC diffs (applyPatch r.1.1 patched) rest with
        | .error e => .error e
        | .ok (b, n) => .ok (b, 1 + r.2 + r.1.1.length + applySteps r.1.1 patched + n)

/-- `retrieveUsingPath` with the number of steps (versions.py:94-114). -/
def retrieveUsingPathC (v : Versions τ (MTree τ)) (path : List τ) : Except PyErr (Bytes × Nat) :=
  match path with
  | [] => .error .indexError
  | root :: rest =>
    match dget v.headVersion root with
    | none => .error .keyError
    | some patched => retrieveLoopC v.diffs patched rest

/-- `mtPathLoop` with the number of rounds (memory_tree.py:37-43). -/
def mtPathLoopC (t : MTree τ) : Nat → Option τ → List τ → Except PyErr (Option (List τ) × Nat)
  | _, none, path => .ok (some path, 0)
  | 0, some _, _ => .error .diverges
  | f + 1, some tag, path =>
    match dget t tag with
    | some nd =>
      match mtPathLoopC t f nd.parent (path ++ [tag]) with
      | .error e => .error e
      | .ok (p, n) => .ok (p, n + 1)
    | none => .ok (none, 1)

/-- `mtPathTo` with the number of steps (memory_tree.py:31-45); `tuple(reversed(path))` takes one for every
tag. -/
def mtPathToC (t : MTree τ) (tag : τ) : Except PyErr (Option (List τ) × Nat) :=
  match mtPathLoopC t (t.length + 1) (some tag) [] with
  | .ok (some path, n) => .ok (some path.reverse, n + path.length)
  | .ok (none, n) => .ok (none, n)
  | .error e => .error e

/-- `versionsGet` with the number of steps (versions.py:116-124). -/
def versionsGetC (v : Versions τ (MTree τ)) (tag : τ) : Except PyErr (Option Bytes × Nat) :=
  match mtPathToC v.tree tag with
  | .error e => .error e
  | .ok (none, n) => .ok (none, n)
  | .ok (some [], n) => .ok (none, n)
  | .ok (some path, n) =>
    match retrieveUsingPathC v path with
    | .ok (b, m) => .ok (some b, n + m)
    | .error e => .error e

/-- `mtUpdateMetrics` with the number of steps (memory_tree.py:98-115): every round looks at all children
twice. -/
def mtUpdateMetricsC : Nat → MTree τ → Option τ → (MTree τ × Option PyErr) × Nat
  | _, t, none => ((t, none), 0)
  | 0, t, some _ => ((t, some .diverges), 0)
  | f + 1, t, some tag =>
    match dget t tag with
    | none => ((t, some .keyError), 1)
    | some nd =>
      match mtChildAttrs t TNode.height nd.children, mtChildAttrs t TNode.size nd.children with
      | some heights, some sizes =>
        let childHeight := if nd.children.isEmpty then 0 else maxNat heights
        let size := if nd.children.isEmpty then 0 else sizes.sum
        let t := dset t tag { nd with height := childHeight + 1, size := size + 1 }
        let r := mtUpdateMetricsC f t nd.parent
        (r.1, 1 + 2 * nd.children.length + r.2)
      | _, _ => ((t, some .keyError), 1 + 2 * nd.children.length)

/-- The steps of `tag in children` and `children.remove(tag)` (memory_tree.py:50-55). -/
def detachSteps (t : MTree τ) : Option τ → Nat
  | none => 0
  | some p => 2 * (((dget t p).map fun pn => pn.children.length).getD 0)

/-- `mtAttach` with the number of steps (memory_tree.py:61-64). -/
def mtAttachC (t : MTree τ) (tag : τ) : Option τ → (MTree τ × Option PyErr) × Nat
  | none => ((t, none), 0)
  | some p =>
    match dget t p with
    | none => ((t, some .keyError), 1)
    | some pn =>
      let t := dset t p { pn with children := pn.children ++ [tag] }
      mtUpdateMetricsC t.length t (some p)

/-- `mtChangeParent` with the number of steps (memory_tree.py:47-68). -/
def mtChangeParentC (t : MTree τ) (tag : τ) (newParent : Option τ) : (MTree τ × Option PyErr) × Nat :=
  match dget t tag with
  | none => ((t, some .keyError), 1)
  | some original =>
    match mtDetach t tag original.parent with
    | none => ((t, some .keyError), 1)
    | some t' =>
      let node := { (dget t' tag).getD original with parent := newParent }
      let n := 1 + detachSteps t original.parent
      match mtAttachC (dset t' tag node) tag newParent with
      | ((t, some e), m) => ((t, some e), n + m)
      | ((t, none), m) =>
        let r := mtUpdateMetricsC t.length t original.parent
        (r.1, n + m + r.2)

/-- `mtSplitLoop` with the number of steps (memory_tree.py:86-94). -/
def mtSplitLoopC (t : MTree τ) : Nat → Nat → τ → TNode τ → List τ → Except PyErr ((τ × List τ) × Nat)
  | 0, depth, tag, nd, path => if depth < nd.height then .error .diverges else .ok ((tag, path), 0)
  | f + 1, depth, tag, nd, path =>
    if depth < nd.height then
      match mtChildKeys t nd.children with
      | none => .error .keyError
      | some keys =>
        match maxTriple keys with
        | none => .error .valueError
        | some (_, _, idx) =>
          match nd.children[idx]? with
          | none => .error .indexError
          | some tag =>
            match dget t tag with
            | none => .error .keyError
            | some nd' =>
              match mtSplitLoopC t f (depth + 1) tag nd' (path ++ [tag]) with
              | .error e => .error e
              | .ok (r, n) => .ok (r, 1 + nd.children.length + n)
    else .ok ((tag, path), 0)

/-- `mtGetSplit` with the number of steps (memory_tree.py:70-96). -/
def mtGetSplitC (t : MTree τ) (tag : τ) : Except PyErr ((τ × List τ) × Nat) :=
  match dget t tag with
  | none => .error .keyError
  | some nd => mtSplitLoopC t (maxNat (t.map fun x => x.2.height)) 1 tag nd [tag]

/-- `addEdge` with the number of steps (versions.py:81-92). -/
def addEdgeC (v : Versions τ (MTree τ)) (parentTag childTag : τ) (changeset : List (PatchItem UInt8)) :
    (Versions τ (MTree τ) × Option PyErr) × Nat :=
  match serializeChangesetC changeset with
  | .error e => ((v, some e), 0)
  | .ok (d, n) =>
    let v := { v with diffs := dset v.diffs childTag d }
    match mtChangeParentC v.tree childTag (some parentTag) with
    | ((tree, some e), m) => (({ v with tree }, some e), n + m)
    | ((tree, none), m) =>
      let v := { v with tree }
      if dmem v.headVersion childTag then
        (({ v with headVersion := ddel v.headVersion childTag }, none), n + m + 1)
      else ((v, none), n + m + 1)

/-- `addSplit` with the number of steps (versions.py:44-52). -/
def addSplitC (v : Versions τ (MTree τ)) (tag : τ) (version : Bytes) (split : τ) (path : List τ) :
    (Versions τ (MTree τ) × Option PyErr) × Nat :=
  match retrieveUsingPathC v path with
  | .error e => ((v, some e), 0)
  | .ok (splitVersion, n) =>
    match makeChangesetC version splitVersion with
    | .error e => ((v, some e), n)
    | .ok (cs, m) =>
      match addEdgeC v tag split cs with
      | ((v, some e), k) => ((v, some e), n + m + k)
      | ((v, none), k) =>
        let r := mtChangeParentC v.tree split (some tag)
        (({ v with tree := r.1.1 }, r.1.2), n + m + k + r.2)

/-- `addOldHead` with the number of steps (versions.py:54-61). -/
def addOldHeadC (v : Versions τ (MTree τ)) (tag : τ) (version : Bytes) (head : τ) :
    (Versions τ (MTree τ) × Option PyErr) × Nat :=
  match dget v.headVersion head with
  | none => ((v, some .keyError), 0)
  | some headVersion =>
    match makeChangesetC version headVersion with
    | .error e => ((v, some e), 0)
    | .ok (cs, n) =>
      let r := addEdgeC v tag head cs
      (r.1, n + r.2)

/-- `addToHead` with the number of steps (versions.py:40-61). -/
def addToHeadC (v : Versions τ (MTree τ)) (tag : τ) (version : Bytes) (head : τ) :
    (Versions τ (MTree τ) × Option PyErr) × Nat :=
  match mtGetSplitC v.tree head with
  | .error e => ((v, some e), 0)
  | .ok ((split, path), n) =>
    if split ≠ head then
      match addSplitC v tag version split path with
      | ((v, some e), m) => ((v, some e), n + m)
      | ((v, none), m) =>
        let r := addOldHeadC v tag version head
        (r.1, n + m + r.2)
    else
      let r := addOldHeadC v tag version head
      (r.1, n + r.2)

/-- `versionsAdd` with the number of steps (versions.py:34-63). -/
def versionsAddC (v : Versions τ (MTree τ)) (tag : τ) (version : Bytes) (existingHead : Option τ) :
    (Versions τ (MTree τ) × Option PyErr) × Nat :=
  let v := { v with headVersion := dset v.headVersion tag version,
                    tree := mtAdd v.tree tag existingHead }
  match existingHead with
  | none => ((v, none), 1)
  | some head =>
    let r := addToHeadC v tag version head
    (r.1, 1 + r.2)

end Gaspra
