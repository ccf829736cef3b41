import Verif.Model.DBCollection

/-! # Specification of `DBCollection`: a finite map -/

namespace Gaspra

variable {τ β : Type _} [DecidableEq τ]

/-- A state-changing operation on a collection. -/
inductive CollOp (τ β : Type _)
  | set (tag : τ) (data : β)
  | del (tag : τ)

/-- The map after one operation; deleting a missing key changes nothing. -/
def mapStep (m : τ → Option β) : CollOp τ β → τ → Option β
  | .set tag data => fun k => if k = tag then some data else m k
  | .del tag => fun k => if k = tag then none else m k

/-- The map after a sequence of operations on an empty collection. -/
def mapAfter (ops : List (CollOp τ β)) : τ → Option β := ops.foldl mapStep fun _ => none

/-- The result of looking a key up: `KeyError` if there is none. -/
def orKeyError : Option β → Except PyErr β
  | none => .error .keyError
  | some v => .ok v

/-- The table after one operation. -/
def collStep (rows : Coll τ β) : CollOp τ β → Coll τ β
  | .set tag data => collSet rows tag data
  | .del tag => (collDel rows tag).1

/-- The table after a sequence of operations on a new `DBCollection`
(db_collections.py:41-47 drops and creates the table). -/
def collAfter (ops : List (CollOp τ β)) : Coll τ β := ops.foldl collStep []

end Gaspra
