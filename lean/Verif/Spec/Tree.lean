import Verif.Model.MemoryTree

/-! # Specification notions for the spanning forest -/

namespace Gaspra

variable {τ : Type _} [DecidableEq τ]

/-- `c` is listed as a child of `p`. -/
def ChildOf (t : MTree τ) (p c : τ) : Prop := ∃ np, dget t p = some np ∧ c ∈ np.children

/-- `p` is the parent stored for `c`. -/
def ParentOf (t : MTree τ) (c p : τ) : Prop := ∃ nc, dget t c = some nc ∧ nc.parent = some p

/-- A nonempty list of known tags in which each one is a child of the one before. -/
def Descends (t : MTree τ) : List τ → Prop
  | [] => False
  | [x] => ∃ nd, dget t x = some nd
  | x :: y :: rest => ChildOf t x y ∧ Descends t (y :: rest)

/-- The number of tags whose path to the root passes through `x`. -/
def subtreeCount (t : MTree τ) (x : τ) : Nat :=
  ((t.map Prod.fst).filter fun y =>
    match mtPathTo t y with
    | .ok (some l) => decide (x ∈ l)
    | _ => false).length

end Gaspra
