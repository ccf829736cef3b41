import Verif.Model.Dump
import Verif.Model.RevisionTree
import Verif.Model.Markup

/-!
# Model of the files written by `src/gaspra/dot_dump.py`

The characters of the files; opening and encoding are as in `Model/Files.lean`.  The module imports
`gaspra.revision_tree`, which is now `src/deprecated/revision_tree.py`; it is modelled as if that import
succeeded.  Texts are `str`.
-/

namespace Gaspra

/-- `f"{n}"` for a natural number. -/
def decimal (n : Nat) : PyStr := (Nat.toDigits 10 n).map Char.toNat

/-- What `f.write` writes for a line of `dump` (dot_dump.py:15, 18). -/
def DotLine.text : DotLine Nat → PyStr
  | .terminal id => lit " " ++ (decimal id ++ lit "[color=red]\n")
  | .edge src dst token =>
    lit " " ++ (decimal src ++ (lit " -> " ++ (decimal dst ++ (lit " [label=\"" ++ ([token] ++ lit "\"]\n")))))

/-- The text of the file that `dot_dump` writes (dot_dump.py:26-33). -/
def dotFile (s : PyStr) : Option PyStr :=
  match build s with
  | none => none
  | some h =>
    match dotDump h with
    | none => none
    | some lines =>
      some (lit "digraph G {\n" ++ (lit "  rankdir=LR\n" ++ (lines.flatMap DotLine.text ++ lit "}\n")))

/-- The line that `revision_dot_dump` writes for an edge (dot_dump.py:41-42). -/
def revisionLine (edge : Nat × Nat) : PyStr :=
  let v1 := if edge.2 < edge.1 then edge.2 else edge.1
  let v2 := if edge.2 < edge.1 then edge.1 else edge.2
  lit " " ++ (decimal v2 ++ (lit " -> " ++ (decimal v1 ++ lit "\n")))

/-- The text of the file that `revision_dot_dump` writes for a tree whose tags are natural numbers
(dot_dump.py:36-43). -/
def revisionDotFile (t : RTree Nat) : Option PyStr :=
  match rEdges t with
  | none => none
  | some es =>
    some (lit "digraph G {\n" ++ (lit "  rankdir=LR\n" ++ (es.flatMap revisionLine ++ lit "}\n")))

end Gaspra
