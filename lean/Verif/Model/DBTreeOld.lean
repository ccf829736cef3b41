import Verif.Model.DBTree

/-!
# Model of `old_get_split` (`src/gaspra/db_tree.py`)

The class keeps an earlier version of `get_split` that finds the children of a row through their
`parent_rid` instead of the two columns for children.  The earlier version of `_update_metrics`
(db_tree.py:154-157) is not modelled: its `UPDATE` reads the table that it changes, and the result
depends on the order in which SQLite evaluates the subqueries.
-/

namespace Gaspra

variable {τ : Type _} [DecidableEq τ]

/-- `SELECT …, g.rowid FROM graph g WHERE g.parent_rid = ?` (db_tree_sql.py:155-165). -/
def rowsBelow (g : Graph τ) (rid : Nat) : List (Nat × GRow τ) :=
  g.zipIdx.filterMap fun x => if x.1.parentRid = some rid then some (x.2 + 1, x.1) else none

/-- The loop of `old_get_split` (db_tree.py:147-152) with `OLD_GET_BEST_PATH`
(db_tree_sql.py:154-168).  All the rows have the same `parent_rid`, so there is one partition. -/
def oldSplitLoop (g : Graph τ) :
    Nat → Nat → τ → Nat → GRow τ → List τ → Except PyErr (τ × List τ)
  | 0, depth, tag, _, r, path => if depth < r.height then .error .diverges else .ok (tag, path)
  | f + 1, depth, tag, rid, r, path =>
    if depth < r.height then
      match bestRow (rowsBelow g rid) with
      | none => .error .typeError
      | some (rid, r) => oldSplitLoop g f (depth + 1) r.tag rid r (path ++ [r.tag])
    else .ok (tag, path)

/-- `DBTree.old_get_split` (db_tree.py:141-152). -/
def oldGetSplit (g : Graph τ) (tag : τ) : Except PyErr (τ × List τ) :=
  match selectTag g tag with
  | none => .error .typeError
  | some (rid, r) => oldSplitLoop g (maxNat (g.map GRow.height)) 1 tag rid r [tag]

end Gaspra
