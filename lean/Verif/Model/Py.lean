/-!
# Python built-ins used by the modelled code

Small executable models of the Python built-ins that the gaspra sources rely on.
Nothing here models a gaspra function; these definitions are part of the trusted base.
-/

namespace Gaspra

/-- Exceptions that the modelled code can raise.  `diverges` is not an exception: it is the
outcome of a loop whose fuel ran out, i.e. of a Python loop that would not have terminated
within the (proved sufficient) bound. -/
inductive PyErr where
  | keyError
  | typeError
  | valueError
  | runtimeError
  | overflowError
  | indexError
  | attributeError
  | integrityError
  | unicodeError
  | recursionError
  | diverges
deriving DecidableEq, Repr

deriving instance DecidableEq for Except

/-! ## `dict` : insertion ordered association list -/

/-- `d.get(k)`. -/
def dget {κ β : Type _} [DecidableEq κ] : List (κ × β) → κ → Option β
  | [], _ => none
  | (k', v) :: d, k => if k' = k then some v else dget d k

/-- `d[k] = v`: an existing key keeps its position, a new key goes to the end. -/
def dset {κ β : Type _} [DecidableEq κ] : List (κ × β) → κ → β → List (κ × β)
  | [], k, v => [(k, v)]
  | (k', v') :: d, k, v => if k' = k then (k', v) :: d else (k', v') :: dset d k v

/-- `del d[k]` for a key known to be present (`d.pop(k, None)` in general). -/
def ddel {κ β : Type _} [DecidableEq κ] : List (κ × β) → κ → List (κ × β)
  | [], _ => []
  | (k', v') :: d, k => if k' = k then d else (k', v') :: ddel d k

/-- `k in d`. -/
def dmem {κ β : Type _} [DecidableEq κ] (d : List (κ × β)) (k : κ) : Bool :=
  (dget d k).isSome

/-! ## Slices -/

/-- `slice(start, stop)` with non-negative bounds; `stop = none` is Python's `None`.
All slices built by gaspra are of this form (no step, no negative index). -/
structure Slice where
  start : Nat
  stop : Option Nat
deriving DecidableEq, Repr

/-- `seq[slice]`. -/
def Slice.get {α : Type _} (sl : Slice) (l : List α) : List α :=
  match sl.stop with
  | none => l.drop sl.start
  | some e => (l.take e).drop sl.start

/-! ## `sorted` on integers -/

/-- Insert into a sorted list. -/
def insertSorted (x : Nat) : List Nat → List Nat
  | [] => [x]
  | y :: ys => if x ≤ y then x :: y :: ys else y :: insertSorted x ys

/-- `sorted(xs)` (for integers the result does not depend on the algorithm). -/
def sortNat : List Nat → List Nat
  | [] => []
  | x :: xs => insertSorted x (sortNat xs)

end Gaspra
