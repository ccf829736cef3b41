import Verif.Model.Versions

/-!
# Model of `src/gaspra/db_tree.py` and `src/gaspra/db_tree_sql.py`

The table `graph` is the list of its rows in order of insertion.  Rows are never deleted and the
table is created empty, so SQLite gives the first row the rowid 1 and every later row the next
number: the row at position `i` has the rowid `i + 1`.

Every `with self.connection_factory() as connection:` is one transaction on the shared connection:
it is committed when the block ends and rolled back when the block raises.  A function that raises
inside a block therefore returns the table as it was when the block was entered.

`tag` has the type affinity `TEXT`, so SQLite returns tags unchanged only if they are strings;
`τ` stands for such a type (for others see `Model/DBTags.lean`).  The indices (db_tree_sql.py:14-20) do not affect results.
The unused `old_get_split` is in `Model/DBTreeOld.lean`; `_old_update_metrics` (db_tree.py:154-157) is
not modelled.
-/

namespace Gaspra

variable {τ : Type _}

/-- A row of the table `graph` (db_tree_sql.py:1-12); `none` is `NULL`. -/
structure GRow (τ : Type _) where
  tag : τ
  parent : Option τ
  parentRid : Option Nat
  child0 : Option Nat
  child1 : Option Nat
  height : Nat
  size : Nat
  baseVersion : Option τ
deriving DecidableEq, Repr

/-- The table `graph`. -/
abbrev Graph (τ : Type _) := List (GRow τ)

/-- The row with a given rowid (`WHERE rowid = ?`). -/
def rowAt (g : Graph τ) : Nat → Option (GRow τ)
  | 0 => none
  | r + 1 => g[r]?

/-- `UPDATE graph SET … WHERE rowid = ?`. -/
def updateRow (g : Graph τ) (rid : Nat) (f : GRow τ → GRow τ) : Graph τ :=
  match rid with
  | 0 => g
  | r + 1 => g.modify r f

variable [DecidableEq τ]

/-- The first row of `SELECT rowid, * FROM graph WHERE tag = ?` (db_tree_sql.py:27-30 and 64-68);
`none` is `fetchone()` returning `None`. -/
def selectTag (g : Graph τ) (tag : τ) : Option (Nat × GRow τ) :=
  match g.findIdx? (fun r => r.tag = tag) with
  | none => none
  | some i => (g[i]?).map fun r => (i + 1, r)

/-- `DBTree.__contains__` (db_tree.py:42-45). -/
def dbContains (g : Graph τ) (tag : τ) : Bool := (selectTag g tag).isSome

/-- `DBTree.base_version` (db_tree.py:47-50); `None[0]` is a `TypeError`. -/
def dbBaseVersion (g : Graph τ) (tag : τ) : Except PyErr (Option τ) :=
  match selectTag g tag with
  | none => .error .typeError
  | some (_, r) => .ok r.baseVersion

/-- `DBTree.add` (db_tree.py:52-54, db_tree_sql.py:22-25).  `tag` is the primary key. -/
def dbAdd (g : Graph τ) (tag : τ) (existingHead : Option τ) : Graph τ × Option PyErr :=
  match selectTag g tag with
  | some _ => (g, some .integrityError)
  | none =>
    (g ++ [{ tag := tag, parent := none, parentRid := none, child0 := none, child1 := none,
             height := 1, size := 1, baseVersion := existingHead }], none)

/-- The recursive part of `PATH_TO` (db_tree_sql.py:40-44): the tags of the rows reached from a
row through `parent_rid`.  Every step produces at most one row, so `UNION ALL` lists the rows in
the order of the walk. -/
def dbWalkUp (g : Graph τ) : Nat → Option Nat → Except PyErr (List τ)
  | _, none => .ok []
  | 0, some _ => .error .diverges
  | f + 1, some rid =>
    match rowAt g rid with
    | none => .ok []
    | some r =>
      match dbWalkUp g f r.parentRid with
      | .ok l => .ok (r.tag :: l)
      | .error e => .error e

/-- `DBTree.reverse_path_to` (db_tree.py:56-62).  `fetchall()` returns a list, never `None`.
A walk of more than `len(graph)` steps repeats a row and goes on forever. -/
def dbReversePathTo (g : Graph τ) (tag : τ) : Except PyErr (Option (List τ)) :=
  match selectTag g tag with
  | none => .ok (some [])
  | some (_, r) =>
    match dbWalkUp g g.length r.parentRid with
    | .ok l => .ok (some (r.tag :: l))
    | .error e => .error e

/-- `DBTree.path_to` (db_tree.py:64-69). -/
def dbPathTo (g : Graph τ) (tag : τ) : Except PyErr (Option (List τ)) :=
  match dbReversePathTo g tag with
  | .ok (some l) => .ok (some l.reverse)
  | .ok none => .ok none
  | .error e => .error e

/-- The rows joined to `current` through `child0_rid` and `child1_rid`, with their rowids
(db_tree_sql.py:76-86; the `LEFT JOIN`s of db_tree_sql.py:111-125 add only `NULL`s). -/
def childRows (g : Graph τ) (r : GRow τ) : List (Nat × GRow τ) :=
  [r.child0, r.child1].filterMap fun c =>
    match c with
    | none => none
    | some rid => (rowAt g rid).map fun row => (rid, row)

/-- The loop of `_new_update_metrics` (db_tree.py:134-139) with `GET_NODE_METRICS` and
`UPDATE_METRICS` (db_tree_sql.py:104-146).  `coalesce(max(height), 0)` is 0 without children,
which is `maxNat []`.  `fetchone()` returning `None` cannot be unpacked: `TypeError`. -/
def dbMetricsLoop : Nat → Graph τ → Option Nat → Except PyErr (Graph τ)
  | _, g, none => .ok g
  | 0, _, some _ => .error .diverges
  | f + 1, g, some rid =>
    match rowAt g rid with
    | none => .error .typeError
    | some r =>
      let children := childRows g r
      let height := 1 + maxNat (children.map fun c => c.2.height)
      let size := 1 + (children.map fun c => c.2.size).sum
      dbMetricsLoop f (updateRow g rid fun r => { r with height, size }) r.parentRid

/-- `_update_metrics` (db_tree.py:129-139); one transaction. -/
def dbUpdateMetrics (g : Graph τ) (rid : Option Nat) : Graph τ × Option PyErr :=
  match dbMetricsLoop g.length g rid with
  | .ok g' => (g', none)
  | .error e => (g, some e)

/-- `REMOVE_IF_CHILDx` for `x = 0` (db_tree.py:86-88, db_tree_sql.py:58-62).  Nothing is equal to
`NULL`, so no row matches when there is no original parent. -/
def removeIfChild0 (g : Graph τ) (parentRid : Option Nat) (tagRid : Nat) : Graph τ :=
  match parentRid with
  | none => g
  | some p => updateRow g p fun r =>
      if r.child0 = some tagRid then { r with child0 := none } else r

/-- `REMOVE_IF_CHILDx` for `x = 1` (db_tree.py:89-91, db_tree_sql.py:58-62). -/
def removeIfChild1 (g : Graph τ) (parentRid : Option Nat) (tagRid : Nat) : Graph τ :=
  match parentRid with
  | none => g
  | some p => updateRow g p fun r =>
      if r.child1 = some tagRid then { r with child1 := none } else r

/-- The transaction of `change_parent` after the removals (db_tree.py:100-109, db_tree_sql.py:48-56):
heads get added on `child0`, splits on `child1`. -/
def dbLink (g : Graph τ) (tagRid newRid : Nat) (newParent : τ) (original : Option τ) : Graph τ :=
  let g := updateRow g tagRid fun r =>
    { r with parent := some newParent, parentRid := some newRid }
  match original with
  | none => updateRow g newRid fun r => { r with child0 := some tagRid }
  | some _ => updateRow g newRid fun r => { r with child1 := some tagRid }

/-- `DBTree.change_parent` (db_tree.py:71-112); `None[0]` is a `TypeError`. -/
def dbChangeParent (g : Graph τ) (tag newParent : τ) : Graph τ × Option PyErr :=
  match selectTag g tag with
  | none => (g, some .typeError)
  | some (tagRid, row) =>
    let g2 := removeIfChild1 (removeIfChild0 g row.parentRid tagRid) row.parentRid tagRid
    match selectTag g2 newParent with
    | none => (g, some .typeError)
    | some (newRid, _) =>
      let g3 := dbLink g2 tagRid newRid newParent row.parent
      match dbUpdateMetrics g3 row.parentRid with
      | (g, some e) => (g, some e)
      | (g, none) => dbUpdateMetrics g (some newRid)

/-- `order by height desc, child_rowid desc` and `priority = 1` (db_tree_sql.py:87-101). -/
def bestRow : List (Nat × GRow τ) → Option (Nat × GRow τ)
  | [] => none
  | x :: xs =>
    match bestRow xs with
    | none => some x
    | some y => if y.2.height < x.2.height ∨ (x.2.height = y.2.height ∧ y.1 < x.1) then some x
                else some y

/-- The loop of `new_get_split` (db_tree.py:123-126) with `GET_BEST_PATH` (db_tree_sql.py:70-102). -/
def dbSplitLoop (g : Graph τ) :
    Nat → Nat → τ → GRow τ → List τ → Except PyErr (τ × List τ)
  | 0, depth, tag, r, path => if depth < r.height then .error .diverges else .ok (tag, path)
  | f + 1, depth, tag, r, path =>
    if depth < r.height then
      match bestRow (childRows g r) with
      | none => .error .typeError
      | some (_, r) => dbSplitLoop g f (depth + 1) r.tag r (path ++ [r.tag])
    else .ok (tag, path)

/-- `DBTree.get_split` (db_tree.py:114-127); unpacking `None` is a `TypeError`.  `depth` grows by
one per iteration and stays below the largest height in the table, which bounds the iterations. -/
def dbGetSplit (g : Graph τ) (tag : τ) : Except PyErr (τ × List τ) :=
  match selectTag g tag with
  | none => .error .typeError
  | some (_, r) => dbSplitLoop g (maxNat (g.map GRow.height)) 1 tag r [tag]

/-- `DBTree` as a `Tree`. -/
def dbTree (τ : Type _) [DecidableEq τ] : TreeOps τ (Graph τ) where
  contains := dbContains
  baseVersion := dbBaseVersion
  add := dbAdd
  pathTo := dbPathTo
  changeParent := dbChangeParent
  getSplit := dbGetSplit

/-- A new store over a new `DBTree`. -/
def emptyDBVersions (τ : Type _) : Versions τ (Graph τ) := ⟨[], [], []⟩

end Gaspra
