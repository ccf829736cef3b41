import Verif.Model.Py

/-!
# Model of `src/deprecated/revision_tree.py`

A `Node` object refers to its children and its parent.  Here a reference is the tag of the node and
the nodes are the values of the dictionary `index`.  This presupposes that tags are unique, as the
docstring of `insert` asks (revision_tree.py:58-59).  With unique tags `best_split != old_root`, which
compares the fields of two dataclass objects in order, starting with the tag, is the inequality of tags,
and `current is not None` tests a reference.  A new node is put into `index` at the start of `insert`
instead of at the end; no code in between looks at `index`.

`none` stands for a walk that does not end (or a reference to a missing node, which Python does not
have).  Functions with a `while` loop whose steps are counted in a claim return the number of steps as
an additional value.  `timing_experiment` is not modelled.
-/

namespace Gaspra

variable {τ : Type _}

/-- `Direction` (revision_tree.py:7-10). -/
inductive RDirection where
  | none
  | left
  | right
deriving DecidableEq, Repr

/-- `Node` (revision_tree.py:141-150); `node_tag` is the key in `index`. -/
structure RNode (τ : Type _) where
  nodeId : Nat
  left : Option τ
  right : Option τ
  parent : Option τ
  height : Nat
  size : Nat
deriving DecidableEq, Repr

abbrev RIndex (τ : Type _) := List (τ × RNode τ)

/-- `Tree` (revision_tree.py:13-44). -/
structure RTree (τ : Type _) where
  root : Option τ
  index : RIndex τ
deriving DecidableEq, Repr

variable [DecidableEq τ]

/-- The addend of a child: nothing if there is no child (revision_tree.py:161-167). -/
def rChildAttr (idx : RIndex τ) (attr : RNode τ → Nat) : Option τ → Option Nat
  | none => some 0
  | some c => (dget idx c).map attr

/-- `Node.update_states` (revision_tree.py:152-171); the number is that of the passes of the loop. -/
def rUpdateStates : Nat → RIndex τ → Option τ → Option (RIndex τ × Nat)
  | _, idx, none => some (idx, 0)
  | 0, _, some _ => none
  | f + 1, idx, some x =>
    match dget idx x with
    | none => none
    | some nd =>
      match rChildAttr idx RNode.size nd.left, rChildAttr idx RNode.size nd.right,
        rChildAttr idx RNode.height nd.left, rChildAttr idx RNode.height nd.right with
      | some sl, some sr, some hl, some hr =>
        match rUpdateStates f (dset idx x { nd with size := 1 + sl + sr, height := 1 + hl + hr })
            nd.parent with
        | none => none
        | some (idx, k) => some (idx, k + 1)
      | _, _, _, _ => none

/-- `if node: node.parent = self` (revision_tree.py:181-182 and 187-188). -/
def rSetParent (idx : RIndex τ) (x : τ) : Option τ → Option (RIndex τ)
  | none => some idx
  | some c =>
    match dget idx c with
    | none => none
    | some nd => some (dset idx c { nd with parent := some x })

/-- `Node.set_left` (revision_tree.py:179-183). -/
def rSetLeft (idx : RIndex τ) (x : τ) (node : Option τ) : Option (RIndex τ × Nat) :=
  match dget idx x with
  | none => none
  | some nd =>
    match rSetParent (dset idx x { nd with left := node }) x node with
    | none => none
    | some idx => rUpdateStates (idx.length + 1) idx (some x)

/-- `Node.set_right` (revision_tree.py:185-189). -/
def rSetRight (idx : RIndex τ) (x : τ) (node : Option τ) : Option (RIndex τ × Nat) :=
  match dget idx x with
  | none => none
  | some nd =>
    match rSetParent (dset idx x { nd with right := node }) x node with
    | none => none
    | some idx => rUpdateStates (idx.length + 1) idx (some x)

/-- The loop of `find_and_detach_best_split` (revision_tree.py:200-228).  The result is the node, the
direction and the number of passes; `none` also stands for the RuntimeError of line 227. -/
def rFindSplit (idx : RIndex τ) : Nat → Nat → τ → RDirection → Option (τ × RDirection × Nat)
  | 0, _, _, _ => none
  | f + 1, depth, current, direction =>
    match dget idx current with
    | none => none
    | some nd =>
      if depth < nd.height then
        let next : Option (τ × RDirection) :=
          match nd.left, nd.right with
          | some l, some r =>
            match dget idx l, dget idx r with
            | some ndl, some ndr =>
              if ndr.height > ndl.height then some (r, .right) else some (l, .left)
            | _, _ => none
          | none, some r => some (r, .right)
          | some l, none => some (l, .left)
          | none, none => none
        match next with
        | none => none
        | some (c, d) =>
          match rFindSplit idx f (depth + 1) c d with
          | none => none
          | some (c, d, k) => some (c, d, k + 1)
      else some (current, direction, 0)

/-- What `insert` returns, and the number of passes of all its loops. -/
structure RInserted (τ : Type _) where
  tree : RTree τ
  inserted : List (τ × τ)
  removed : List (τ × τ)
  steps : Nat
deriving DecidableEq, Repr

/-- `Tree.insert` (revision_tree.py:46-101). -/
def rInsert (t : RTree τ) (tag : τ) : Option (RInserted τ) :=
  let idx := dset t.index tag
    { nodeId := t.index.length, left := none, right := none, parent := none, height := 1, size := 1 }
  match t.root with
  | none =>
    match rSetLeft idx tag none with
    | none => none
    | some (idx, k) => some ⟨⟨some tag, idx⟩, [], [], k⟩
  | some oldRoot =>
    match rFindSplit idx (idx.length + 1) 1 oldRoot .none with
    | none => none
    | some (split, direction, k) =>
      if split ≠ oldRoot then
        match dget idx split with
        | none => none
        | some ndSplit =>
          let detached : Option (RIndex τ × List (τ × τ) × Nat) :=
            match ndSplit.parent with
            | none => some (idx, [], 0)
            | some p =>
              match (if direction = .left then rSetLeft idx p none else rSetRight idx p none) with
              | none => none
              | some (idx, k) => some (idx, [(p, split)], k)
          match detached with
          | none => none
          | some (idx, removed, k1) =>
            match rSetRight idx tag (some split) with
            | none => none
            | some (idx, k2) =>
              match rSetLeft idx tag (some oldRoot) with
              | none => none
              | some (idx, k3) =>
                some ⟨⟨some tag, idx⟩, [(tag, oldRoot), (tag, split)], removed, k + k1 + k2 + k3⟩
      else
        match rSetLeft idx tag (some oldRoot) with
        | none => none
        | some (idx, k1) => some ⟨⟨some tag, idx⟩, [(tag, oldRoot)], [], k + k1⟩

/-- `Node.edges` (revision_tree.py:191-197). -/
def rNodeEdges (idx : RIndex τ) : Nat → τ → Option (List (τ × τ))
  | 0, _ => none
  | f + 1, x =>
    match dget idx x with
    | none => none
    | some nd =>
      let side : Option τ → Option (List (τ × τ)) := fun
        | none => some []
        | some c =>
          match rNodeEdges idx f c with
          | none => none
          | some es => some ((x, c) :: es)
      match side nd.left, side nd.right with
      | some a, some b => some (a ++ b)
      | _, _ => none

/-- `Tree.edges` (revision_tree.py:103-105). -/
def rEdges (t : RTree τ) : Option (List (τ × τ)) :=
  match t.root with
  | none => some []
  | some x => rNodeEdges t.index (t.index.length + 1) x

/-- The loop of `Tree.path_to` (revision_tree.py:110-112): the tags from `current` to the root. -/
def rUpwards (idx : RIndex τ) : Nat → Option τ → Option (List τ)
  | _, none => some []
  | 0, some _ => none
  | f + 1, some x =>
    match dget idx x with
    | none => none
    | some nd => (rUpwards idx f nd.parent).map (x :: ·)

/-- `Tree.path_to` (revision_tree.py:107-113); `.error .keyError` for a tag that is not in `index`. -/
def rPathTo (t : RTree τ) (tag : τ) : Except PyErr (List τ) :=
  match dget t.index tag with
  | none => .error .keyError
  | some _ =>
    match rUpwards t.index (t.index.length + 1) (some tag) with
    | none => .error .diverges
    | some l => .ok l.reverse

/-- The inner loop of `Tree.reevaluate` (revision_tree.py:119-122). -/
def rRipple : Nat → RIndex τ → Option τ → Option (RIndex τ × Nat)
  | _, idx, none => some (idx, 0)
  | 0, _, some _ => none
  | f + 1, idx, some x =>
    match rUpdateStates (idx.length + 1) idx (some x) with
    | none => none
    | some (idx, k) =>
      match dget idx x with
      | none => none
      | some nd =>
        match rRipple f idx nd.parent with
        | none => none
        | some (idx, k') => some (idx, k + k')

/-- The outer loop of `Tree.reevaluate` (revision_tree.py:116-122). -/
def rReevaluateLoop : RIndex τ → List τ → Option (RIndex τ × Nat)
  | idx, [] => some (idx, 0)
  | idx, x :: rest =>
    match dget idx x with
    | none => none
    | some nd =>
      if nd.left = none ∧ nd.right = none then
        match rRipple (idx.length + 1) idx (some x) with
        | none => none
        | some (idx, k) =>
          match rReevaluateLoop idx rest with
          | none => none
          | some (idx, k') => some (idx, k + k')
      else rReevaluateLoop idx rest

/-- `Tree.reevaluate` (revision_tree.py:115-122); the number is that of the passes of the loop of
`update_states`. -/
def rReevaluate (t : RTree τ) : Option (RTree τ × Nat) :=
  match rReevaluateLoop t.index (t.index.map Prod.fst) with
  | none => none
  | some (idx, k) => some (⟨t.root, idx⟩, k)

/-- `Tree._invalidate` with `Node._clear_state` (revision_tree.py:124-128 and 173-177). -/
def rInvalidate (t : RTree τ) : RTree τ :=
  ⟨t.root, t.index.map fun p => (p.1, { p.2 with size := 0, height := 0 })⟩

/-- `Tree._get_state` (revision_tree.py:130-138). -/
def rGetState (t : RTree τ) (tag : τ) : Option (Nat × Nat) :=
  (dget t.index tag).map fun nd => (nd.size, nd.height)

/-- A tree after inserting tags one after the other. -/
def rInsertAll : RTree τ → List τ → Option (RTree τ)
  | t, [] => some t
  | t, x :: rest =>
    match rInsert t x with
    | none => none
    | some r => rInsertAll r.tree rest

end Gaspra
