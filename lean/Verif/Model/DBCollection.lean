import Verif.Model.Py

/-!
# Model of `src/gaspra/db_collections.py`

The table is the list of its rows `(tag, data)` in the order of their rowids (a new row gets the
largest rowid plus one, so it comes last).  As for `DBTree`, `τ` stands for a type of tags that
SQLite returns unchanged from a `TEXT` column (for others see `Model/DBTags.lean`), and every method is
one transaction.
-/

namespace Gaspra

variable {τ β : Type _} [DecidableEq τ]

/-- The rows of the table. -/
abbrev Coll (τ β : Type _) := List (τ × β)

/-- `DBCollection.__getitem__` (db_collections.py:7-11 and 49-56). -/
def collGet (rows : Coll τ β) (tag : τ) : Except PyErr β :=
  match rows.filter (fun r => r.1 = tag) with
  | [] => .error .keyError
  | r :: _ => .ok r.2

/-- `DBCollection.__setitem__` (db_collections.py:24-29 and 58-61): insert, or update the row with
the same primary key. -/
def collSet (rows : Coll τ β) (tag : τ) (data : β) : Coll τ β :=
  if rows.any (fun r => r.1 = tag) then
    rows.map fun r => if r.1 = tag then (r.1, data) else r
  else rows ++ [(tag, data)]

/-- `DBCollection.__delitem__` (db_collections.py:18-22 and 63-67); `rowcount` is the number of
deleted rows. -/
def collDel (rows : Coll τ β) (tag : τ) : Coll τ β × Option PyErr :=
  let rowcount := (rows.filter (fun r => r.1 = tag)).length
  if rowcount = 0 then (rows, some .keyError)
  else (rows.filter (fun r => ¬ r.1 = tag), none)

/-- `DBCollection.__iter__` (db_collections.py:31-34 and 69-74).  SQL does not fix the order of
the rows of a `SELECT` without `ORDER BY`. -/
def CollIter (rows : Coll τ β) (tags : List τ) : Prop := tags.Perm (rows.map Prod.fst)

/-- `DBCollection.__len__` (db_collections.py:13-16 and 76-79). -/
def collLen (rows : Coll τ β) : Nat := rows.length

/-- `DBCollection.__contains__` (db_collections.py:81-84). -/
def collContains (rows : Coll τ β) (tag : τ) : Bool :=
  match rows.filter (fun r => r.1 = tag) with
  | [] => false
  | _ :: _ => true

end Gaspra
