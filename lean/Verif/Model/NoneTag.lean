import Verif.Model.DBTree

/-!
# `None` as a tag

Tags are any hashable objects and `None` is one.  But `None` also stands for "no parent" and "no
base", and it is `NULL` in a database.  Here a tag is an `Option τ`, where `none` is `None`; the
parent of a node and the base of a version remain `none` if there is none, so that `some none` would
be the tag `None` in these places.  The functions below never put it there.
-/

namespace Gaspra

variable {τ : Type _} [DecidableEq τ]

/-- `MemoryTree` with `None` among the tags.  `path_to(None)` does not enter its loop and returns
`()` (memory_tree.py:36-45); `change_parent(tag, None)` makes `tag` a root (memory_tree.py:57-64).
The other methods use `None` as a key like any other. -/
def noneTree (τ : Type _) [DecidableEq τ] : TreeOps (Option τ) (MTree (Option τ)) where
  contains := mtContains
  baseVersion := mtBaseVersion
  add t tag base := (mtAdd t tag base, none)
  pathTo t tag :=
    match tag with
    | none => .ok (some [])
    | some x => mtPathTo t (some x)
  changeParent t tag p :=
    match p with
    | none => mtChangeParent t tag none
    | some p => mtChangeParent t tag (some (some p))
  getSplit := mtGetSplit

/-- `DBTree` with `None` among the tags.  `None` is `NULL`, which is not equal to anything, so that no
`WHERE tag = ?` finds it (db_tree_sql.py:27-30 and 32-46): `fetchone()` returns `None`, whose use is a
`TypeError`, and `fetchall()` an empty list.  `INSERT` of `NULL` always adds a row, because a primary
key that is not an integer may be `NULL` in SQLite, any number of times. -/
def nullTree (τ : Type _) [DecidableEq τ] : TreeOps (Option τ) (Graph (Option τ)) where
  contains g tag :=
    match tag with
    | none => false
    | some x => dbContains g (some x)
  baseVersion g tag :=
    match tag with
    | none => .error .typeError
    | some x => dbBaseVersion g (some x)
  add g tag base :=
    match tag with
    | none =>
      (g ++ [{ tag := none, parent := none, parentRid := none, child0 := none, child1 := none,
               height := 1, size := 1, baseVersion := base }], none)
    | some x => dbAdd g (some x) base
  pathTo g tag :=
    match tag with
    | none => .ok (some [])
    | some x => dbPathTo g (some x)
  changeParent g tag p :=
    match tag, p with
    | some x, some p => dbChangeParent g (some x) (some p)
    | _, _ => (g, some .typeError)
  getSplit g tag :=
    match tag with
    | none => .error .typeError
    | some x => dbGetSplit g (some x)

/-- A call `add(tag, content, existing_head)` in which the tag may be `None`. -/
structure NAdd (τ : Type _) where
  tag : Option τ
  content : Bytes
  base : Option τ
deriving DecidableEq

/-- `Versions.add` over a `MemoryTree`. -/
def noneAdd {Tok S : Type _} [DecidableEq Tok] (tk : TokOps Tok S)
    (v : Versions (Option τ) (MTree (Option τ))) (a : NAdd τ) :
    Versions (Option τ) (MTree (Option τ)) × Option PyErr :=
  versionsAdd (noneTree τ) tk v a.tag a.content (a.base.map some)

/-- `Versions.add` over a `DBTree`. -/
def nullAdd {Tok S : Type _} [DecidableEq Tok] (tk : TokOps Tok S)
    (v : Versions (Option τ) (Graph (Option τ))) (a : NAdd τ) :
    Versions (Option τ) (Graph (Option τ)) × Option PyErr :=
  versionsAdd (nullTree τ) tk v a.tag a.content (a.base.map some)

end Gaspra
