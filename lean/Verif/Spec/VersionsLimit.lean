import Verif.Model.VersionsLimit
import Verif.Spec.Versions
import Verif.Spec.Recursion

/-!
# Specification of version stores under the recursion limit
-/

namespace Gaspra

variable {τ T Tok S : Type _} [DecidableEq τ] [DecidableEq Tok]

/-- The store after calls of `add`, each with its own limit, and the calls with the exceptions that
they raised. -/
def runLimited (ops : TreeOps τ T) (tk : TokOps Tok S) (v : Versions τ T)
    (h : List (Nat × AddOp τ)) : Versions τ T × List (AddOp τ × Option PyErr) :=
  h.foldl (fun s c =>
    let r := versionsAddLim ops tk c.1 s.1 c.2.tag c.2.content c.2.base
    (r.1, s.2 ++ [(c.2, r.2)])) (v, [])

/-- The heads after one more call: its tag is a head, and its base stops being one exactly if the
call raises nothing. -/
def headsGivenStep (heads : List τ) (c : AddOp τ × Option PyErr) : List τ :=
  match c.2, c.1.base with
  | none, some b => heads.erase b ++ [c.1.tag]
  | _, _ => heads ++ [c.1.tag]

/-- The heads after calls with the given results. -/
def headsGiven (calls : List (AddOp τ × Option PyErr)) : List τ := calls.foldl headsGivenStep []

/-- The number of nested calls of `find_changeset` that the changeset from one content to another
needs. -/
def changesetDepth (tk : TokOps Tok S) (original modified : Bytes) : Option Nat :=
  match tk.encode tk.init original with
  | .error _ => none
  | .ok (eo, st) =>
    match tk.encode st modified with
    | .error _ => none
    | .ok (em, _) => (findChangeset eo em).map Changeset.depth

end Gaspra
