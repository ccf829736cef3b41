import Verif.Model.Py

/-!
# Model of `src/gaspra/memory_tree.py`

Tags are elements of a type `τ` with decidable equality; `None` is not a tag (the code uses it
for "no parent" and "no base").  The dictionary `nodes` is an association list, node objects are
values: the only aliasing in the Python code is that `dataclasses.replace` shares the `children`
list between the old and the new node of the *same* tag, and the old node is dropped at once, so
"the children list of `tag`" has one current value, which is the one stored here.
Functions that can raise after having changed the tree return the changed tree together with the
exception.
-/

namespace Gaspra

variable {τ : Type _}

/-- `Node` (memory_tree.py:7-14). -/
structure TNode (τ : Type _) where
  orderId : Nat
  parent : Option τ
  children : List τ
  height : Nat
  size : Nat
  baseVersion : Option τ
deriving DecidableEq, Repr

/-- `MemoryTree.nodes` (memory_tree.py:19). -/
abbrev MTree (τ : Type _) := List (τ × TNode τ)

variable [DecidableEq τ]

/-- `MemoryTree.__contains__` (memory_tree.py:21-22). -/
def mtContains (t : MTree τ) (tag : τ) : Bool := dmem t tag

/-- `MemoryTree.base_version` (memory_tree.py:24-25). -/
def mtBaseVersion (t : MTree τ) (tag : τ) : Except PyErr (Option τ) :=
  match dget t tag with
  | none => .error .keyError
  | some nd => .ok nd.baseVersion

/-- `MemoryTree.add` (memory_tree.py:27-29). -/
def mtAdd (t : MTree τ) (tag : τ) (existingHead : Option τ) : MTree τ :=
  dset t tag
    { orderId := t.length, parent := none, children := [], height := 1, size := 1,
      baseVersion := existingHead }

/-- The loop of `path_to` (memory_tree.py:37-43): the tags from `tag` up to the root;
`.ok none` is the `return None` for an unknown tag. -/
def mtPathLoop (t : MTree τ) : Nat → Option τ → List τ → Except PyErr (Option (List τ))
  | _, none, path => .ok (some path)
  | 0, some _, _ => .error .diverges
  | f + 1, some tag, path =>
    match dget t tag with
    | some nd => mtPathLoop t f nd.parent (path ++ [tag])
    | none => .ok none

/-- `MemoryTree.path_to` (memory_tree.py:31-45).  A walk of more than `len(nodes)` steps repeats a
tag and would go on forever, so the fuel is exact. -/
def mtPathTo (t : MTree τ) (tag : τ) : Except PyErr (Option (List τ)) :=
  match mtPathLoop t (t.length + 1) (some tag) [] with
  | .ok (some path) => .ok (some path.reverse)
  | .ok none => .ok none
  | .error e => .error e

/-- `max` of a list of non-negative integers (only used for nonempty lists). -/
def maxNat (l : List Nat) : Nat := l.foldl max 0

/-- `[self.nodes[child].height for child in children]` and the same for any other attribute;
`none` is a `KeyError`. -/
def mtChildAttrs (t : MTree τ) (attr : TNode τ → Nat) (children : List τ) : Option (List Nat) :=
  children.mapM fun c => (dget t c).map attr

/-- `_update_metrics` (memory_tree.py:98-115). -/
def mtUpdateMetrics : Nat → MTree τ → Option τ → MTree τ × Option PyErr
  | _, t, none => (t, none)
  | 0, t, some _ => (t, some .diverges)
  | f + 1, t, some tag =>
    match dget t tag with
    | none => (t, some .keyError)
    | some nd =>
      match mtChildAttrs t TNode.height nd.children, mtChildAttrs t TNode.size nd.children with
      | some heights, some sizes =>
        let childHeight := if nd.children.isEmpty then 0 else maxNat heights
        let size := if nd.children.isEmpty then 0 else sizes.sum
        let t := dset t tag { nd with height := childHeight + 1, size := size + 1 }
        mtUpdateMetrics f t nd.parent
      | _, _ => (t, some .keyError)

/-- Remove "tag" from its parent's list of children (memory_tree.py:50-55); `none` is a `KeyError`.
`list.remove` removes the first occurrence (`List.erase`). -/
def mtDetach (t : MTree τ) (tag : τ) : Option τ → Option (MTree τ)
  | none => some t
  | some p =>
    match dget t p with
    | none => none
    | some pn =>
      if tag ∈ pn.children then some (dset t p { pn with children := pn.children.erase tag })
      else some t

/-- Add "tag" to its new parent's list of children and update the metrics
(memory_tree.py:61-64). -/
def mtAttach (t : MTree τ) (tag : τ) : Option τ → MTree τ × Option PyErr
  | none => (t, none)
  | some p =>
    match dget t p with
    | none => (t, some .keyError)
    | some pn =>
      let t := dset t p { pn with children := pn.children ++ [tag] }
      mtUpdateMetrics t.length t (some p)

/-- `MemoryTree.change_parent` (memory_tree.py:47-68). -/
def mtChangeParent (t : MTree τ) (tag : τ) (newParent : Option τ) : MTree τ × Option PyErr :=
  match dget t tag with
  | none => (t, some .keyError)
  | some original =>
    match mtDetach t tag original.parent with
    | none => (t, some .keyError)
    | some t =>
      -- Replace tag's parent (the children list is the current one).
      let node := { (dget t tag).getD original with parent := newParent }
      let t := dset t tag node
      match mtAttach t tag newParent with
      | (t, some e) => (t, some e)
      | (t, none) => mtUpdateMetrics t.length t original.parent

/-- Python's comparison of the tuples `(height, order_id, index)`. -/
def tripleLt (x y : Nat × Nat × Nat) : Bool :=
  x.1 < y.1 || (x.1 == y.1 && (x.2.1 < y.2.1 || (x.2.1 == y.2.1 && x.2.2 < y.2.2)))

/-- `max` of an iterable of tuples: the first maximal element. -/
def maxTriple : List (Nat × Nat × Nat) → Option (Nat × Nat × Nat)
  | [] => none
  | x :: xs => some (xs.foldl (fun best y => if tripleLt best y then y else best) x)

/-- The tuples `(height, order_id, index)` of the children (memory_tree.py:88-90); `none` is a
`KeyError`. -/
def mtChildKeys (t : MTree τ) (children : List τ) : Option (List (Nat × Nat × Nat)) :=
  children.zipIdx.mapM fun (c, i) => (dget t c).map fun nd => (nd.height, nd.orderId, i)

/-- The loop of `get_split` (memory_tree.py:86-94).  The fuel bounds the number of iterations;
`depth` grows by one per iteration and stays below the largest height in the tree. -/
def mtSplitLoop (t : MTree τ) : Nat → Nat → τ → TNode τ → List τ → Except PyErr (τ × List τ)
  | 0, depth, tag, nd, path => if depth < nd.height then .error .diverges else .ok (tag, path)
  | f + 1, depth, tag, nd, path =>
    if depth < nd.height then
      match mtChildKeys t nd.children with
      | none => .error .keyError
      | some keys =>
        match maxTriple keys with
        | none => .error .valueError
        | some (_, _, idx) =>
          match nd.children[idx]? with
          | none => .error .indexError
          | some tag =>
            match dget t tag with
            | none => .error .keyError
            | some nd => mtSplitLoop t f (depth + 1) tag nd (path ++ [tag])
    else .ok (tag, path)

/-- `MemoryTree.get_split` (memory_tree.py:70-96). -/
def mtGetSplit (t : MTree τ) (tag : τ) : Except PyErr (τ × List τ) :=
  match dget t tag with
  | none => .error .keyError
  | some nd => mtSplitLoop t (maxNat (t.map fun x => x.2.height)) 1 tag nd [tag]

end Gaspra
