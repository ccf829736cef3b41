import Verif.Model.MergeTool
import Verif.Spec.DiffToLines

/-!
# What git-style conflict markers mean
-/

namespace Gaspra

/-- The lines of a text, each with its newline; the last one may lack it. -/
def linesOf : PyStr → List PyStr
  | [] => []
  | c :: rest =>
    if c = nl then [c] :: linesOf rest
    else
      match linesOf rest with
      | [] => [[c]]
      | l :: ls => (c :: l) :: ls

/-- The line that opens a conflict. -/
def startLine (name : PyStr) : PyStr := lit "<<<<<<< " ++ name ++ [nl]

/-- The line between the two sides. -/
def middleLine : PyStr := lit "=======" ++ [nl]

/-- The line that closes a conflict. -/
def stopLine (name : PyStr) : PyStr := lit ">>>>>>> " ++ name ++ [nl]

/-- A line diff with git-style markers. -/
def gitText (nameInto nameFrom : PyStr) (d : List LineItem) : PyStr :=
  d.flatMap fun
    | .text s => s
    | .change a b =>
      startLine nameInto ++ intoText a ++ middleLine ++ fromText b ++ stopLine nameFrom

/-- Where a reader of conflict markers is. -/
inductive Reading where
  | outside
  | first
  | second
deriving DecidableEq

/-- Keep the lines outside of conflicts and the first (or second) side of every conflict. -/
def resolve (keepFirst : Bool) (nameInto nameFrom : PyStr) : Reading → List PyStr → List PyStr
  | _, [] => []
  | .outside, l :: ls =>
    if l = startLine nameInto then resolve keepFirst nameInto nameFrom .first ls
    else l :: resolve keepFirst nameInto nameFrom .outside ls
  | .first, l :: ls =>
    if l = middleLine then resolve keepFirst nameInto nameFrom .second ls
    else if keepFirst then l :: resolve keepFirst nameInto nameFrom .first ls
    else resolve keepFirst nameInto nameFrom .first ls
  | .second, l :: ls =>
    if l = stopLine nameFrom then resolve keepFirst nameInto nameFrom .outside ls
    else if keepFirst then resolve keepFirst nameInto nameFrom .second ls
    else l :: resolve keepFirst nameInto nameFrom .second ls

/-- The text after choosing one side of every conflict. -/
def resolveText (keepFirst : Bool) (nameInto nameFrom text : PyStr) : PyStr :=
  (resolve keepFirst nameInto nameFrom .outside (linesOf text)).flatten

/-- No line of the text looks like a marker. -/
def NoMarkers (nameInto nameFrom text : PyStr) : Prop :=
  ∀ l ∈ linesOf text, l ≠ startLine nameInto ∧ l ≠ middleLine ∧ l ≠ stopLine nameFrom

instance (a b t : PyStr) : Decidable (NoMarkers a b t) := by unfold NoMarkers; infer_instance

end Gaspra
