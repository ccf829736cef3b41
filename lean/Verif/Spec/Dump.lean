import Verif.Model.Dump

/-!
# Reading the dot file
-/

namespace Gaspra

variable {α : Type _}

/-- In the drawing a path from `u` to `v` is labelled `w`. -/
inductive Drawn (lines : List (DotLine α)) : Nat → List α → Nat → Prop
  | here (u : Nat) : Drawn lines u [] u
  | step {u v x : Nat} {t : α} {w : List α} (edge : .edge u v t ∈ lines) (rest : Drawn lines v w x) :
      Drawn lines u (t :: w) x

/-- What the printed dump says about one node: its id, its length, whether it is terminal, and the
transitions printed under it. -/
structure DumpEntry (α : Type _) where
  id : Nat
  length : Nat
  terminal : Bool
  transitions : List (α × Nat)
deriving DecidableEq, Repr

/-- Reading one line, from the last line up: transitions belong to the next node line above them. -/
def readLine : DumpLine α → List (α × Nat) × List (DumpEntry α) → List (α × Nat) × List (DumpEntry α)
  | .transition token dst, (pending, entries) => ((token, dst) :: pending, entries)
  | .noTransitions, (pending, entries) => (pending, entries)
  | .node id length terminal, (pending, entries) => ([], ⟨id, length, terminal, pending⟩ :: entries)

/-- The nodes of a printed dump. -/
def readDump (lines : List (DumpLine α)) : List (DumpEntry α) := (lines.foldr readLine ([], [])).2

/-- According to the entries a path from `u` to `v` is labelled `w`. -/
inductive Leads (entries : List (DumpEntry α)) : Nat → List α → Nat → Prop
  | here (u : Nat) : Leads entries u [] u
  | step {e : DumpEntry α} {v x : Nat} {t : α} {w : List α} (he : e ∈ entries)
      (ht : (t, v) ∈ e.transitions) (rest : Leads entries v w x) : Leads entries e.id (t :: w) x

end Gaspra
