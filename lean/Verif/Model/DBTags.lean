import Verif.Model.VersionsStore

/-!
# Tags in `TEXT` columns

The columns `tag`, `parent` and `base_version` of `graph` (db_tree_sql.py:1-12) and the column `tag`
of a `DBCollection` (db_collections.py:47) have the type affinity `TEXT`.  SQLite converts a number
to text before it stores it in such a column, and before it compares it with one.  What is read
back is the text, also if a number was written.  `Model/DBTree.lean` and `Model/DBCollection.lean`
are about tags that are not converted; here `col t` is what a column holds after `t` was written.
-/

namespace Gaspra

variable {τ : Type _} [DecidableEq τ]

/-- `DBTree.new_get_split` (db_tree.py:117-127) for a tag that the column holds as `stored`.  The
result begins with the tag that was passed; the tags below it come from the table. -/
def textGetSplit (g : Graph τ) (stored given : τ) : Except PyErr (τ × List τ) :=
  match selectTag g stored with
  | none => .error .typeError
  | some (_, r) => dbSplitLoop g (maxNat (g.map GRow.height)) 1 given r [given]

/-- `DBTree` (db_tree.py:26-127) with tags that the columns convert.  Every tag that is passed to a
statement is stored or compared as `col tag`; every tag in a result is what the table holds. -/
def textTree (col : τ → τ) : TreeOps τ (Graph τ) where
  contains g t := dbContains g (col t)
  baseVersion g t := dbBaseVersion g (col t)
  add g t b := dbAdd g (col t) (b.map col)
  pathTo g t := dbPathTo g (col t)
  changeParent g t p := dbChangeParent g (col t) (col p)
  getSplit g t := textGetSplit g (col t) t

/-- `DBCollection` (db_collections.py:37-84) with tags that the column converts. -/
def textColl (col : τ → τ) : MapOps τ (Coll τ Bytes) where
  get m t := collGet m (col t)
  set m t b := collSet m (col t) b
  del m t := collDel m (col t)
  contains m t := collContains m (col t)
  getD _ _ := .error .attributeError

/-- A tag that is a string or an integer. -/
inductive DBTag
  | str (s : PyStr)
  | int (n : Int)
deriving DecidableEq, Repr

/-- What a `TEXT` column holds: an integer becomes its decimal digits. -/
def DBTag.column : DBTag → DBTag
  | .str s => .str s
  | .int (.ofNat n) => .str ((Nat.toDigits 10 n).map Char.toNat)
  | .int (.negSucc n) => .str (45 :: (Nat.toDigits 10 (n + 1)).map Char.toNat)

end Gaspra
