import Verif.Model.VersionsStore

/-!
# Model of the database that the objects of `db_tree.py` and `db_collections.py` share

Without an argument `connection_factory`, every `DBTree` and every `DBCollection` of a process uses
the one connection of `src/gaspra/db_connections.py` (lines 9-16), which is to a file of fixed name
(line 4; line 3 is overwritten).  So all of them work on one database, which also survives the
process.  The database is the table `graph` and the tables of the collections by name.

Names of tables are plain SQL identifiers other than `graph`; SQLite does not distinguish upper and
lower case ASCII letters in them.
-/

namespace Gaspra

/-- The tables: `graph`, and those of the collections. -/
structure Database (τ : Type _) where
  graph : Graph τ
  tables : List (PyStr × Coll τ Bytes)

/-- The name of a table as SQLite compares it. -/
def tableKey (name : PyStr) : PyStr := name.map fun c => if 65 ≤ c ∧ c ≤ 90 then c + 32 else c

/-- The names of the tables of a store `Versions(head_version=DBCollection(heads),
diffs=DBCollection(diffs), tree=DBTree())`. -/
structure StoreNames where
  heads : PyStr
  diffs : PyStr
  deriving DecidableEq

section
variable {τ Tok S : Type _} [DecidableEq τ] [DecidableEq Tok]

/-- The rows of a table; a missing table counts as empty here. -/
def tableOf (db : Database τ) (name : PyStr) : Coll τ Bytes :=
  (dget db.tables (tableKey name)).getD []

/-- `DBCollection.__init__` (db_collections.py:41-47): the table is dropped and made anew. -/
def openColl (db : Database τ) (name : PyStr) : Database τ :=
  { db with tables := dset db.tables (tableKey name) [] }

/-- `DBTree.__init__` (db_tree.py:30-40): the table `graph` is dropped and made anew. -/
def openTree (db : Database τ) : Database τ := { db with graph := [] }

/-- `Versions(head_version=DBCollection(heads), diffs=DBCollection(diffs), tree=DBTree())`; the
arguments are evaluated from left to right. -/
def openStore (db : Database τ) (n : StoreNames) : Database τ :=
  openTree (openColl (openColl db n.heads) n.diffs)

/-- What the store sees of the database. -/
def viewStore (db : Database τ) (n : StoreNames) : Store (Graph τ) (Coll τ Bytes) :=
  ⟨tableOf db n.heads, tableOf db n.diffs, db.graph⟩

/-- `add` of one of the stores (versions.py:34-63): it changes its two tables and `graph`. -/
def sharedAdd (tk : TokOps Tok S) (db : Database τ) (n : StoreNames) (tag : τ) (version : Bytes)
    (existingHead : Option τ) : Database τ × Option PyErr :=
  let r := storeAdd (collOps τ) (dbTree τ) tk (viewStore db n) tag version existingHead
  (⟨r.1.tree, dset (dset db.tables (tableKey n.heads) r.1.headVersion) (tableKey n.diffs) r.1.diffs⟩,
    r.2)

/-- `get` of one of the stores (versions.py:116-124). -/
def sharedGet (tk : TokOps Tok S) (db : Database τ) (n : StoreNames) (tag : τ) :
    Except PyErr (Option Bytes) :=
  storeGet (collOps τ) (dbTree τ) tk (viewStore db n) tag

/-- `in` of one of the stores (versions.py:146-147). -/
def sharedContains (db : Database τ) (n : StoreNames) (tag : τ) : Bool :=
  storeContains (dbTree τ) (viewStore db n) tag

end

end Gaspra
