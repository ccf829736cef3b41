import Verif.Model.Versions

/-!
# `src/gaspra/versions.py` under the recursion limit of Python

`find_changeset` is the only recursive function that `Versions.add` calls (the loops of `MemoryTree`
and of `SuffixAutomaton` are `while` loops).  Here at most `limit` of its calls may be nested; one
more is a `RecursionError`.  How many are possible depends on how deep the caller of `add` is, so
every call of `add` has its own limit; the two changesets of one call of `add` are made at the same
depth.  `as_change_stream` nests one generator for every level of the changeset, which takes no more
frames than `find_changeset` and the automaton that it builds on its deepest level.
-/

namespace Gaspra

section
variable {τ T Tok S : Type _} [DecidableEq τ] [DecidableEq Tok]
variable (ops : TreeOps τ T) (tk : TokOps Tok S) (limit : Nat)

/-- `Versions._make_changeset` (versions.py:65-79). -/
def makeChangesetLim (original modified : Bytes) : Except PyErr (List (PatchItem UInt8)) := do
  let (eo, st) ← tk.encode tk.init original
  let (em, st) ← tk.encode st modified
  match findChangesetAux eo em limit ⟨0, none⟩ ⟨0, none⟩ with
  | none => .error .recursionError
  | some cs => decodeItems tk st (stripForward cs.asChangeStream)

/-- The middle part of `Versions.add` (versions.py:44-52). -/
def addSplitLim (v : Versions τ T) (tag : τ) (version : Bytes) (split : τ) (path : List τ) :
    Versions τ T × Option PyErr :=
  match retrieveUsingPath tk v path with
  | .error e => (v, some e)
  | .ok splitVersion =>
    match makeChangesetLim tk limit version splitVersion with
    | .error e => (v, some e)
    | .ok cs =>
      match addEdge ops v tag split cs with
      | (v, some e) => (v, some e)
      | (v, none) =>
        let r := ops.changeParent v.tree split tag
        ({ v with tree := r.1 }, r.2)

/-- The last part of `Versions.add` (versions.py:54-61). -/
def addOldHeadLim (v : Versions τ T) (tag : τ) (version : Bytes) (head : τ) :
    Versions τ T × Option PyErr :=
  match dget v.headVersion head with
  | none => (v, some .keyError)
  | some headVersion =>
    match makeChangesetLim tk limit version headVersion with
    | .error e => (v, some e)
    | .ok cs => addEdge ops v tag head cs

/-- The body of `if existing_head is not None:` in `Versions.add` (versions.py:40-61). -/
def addToHeadLim (v : Versions τ T) (tag : τ) (version : Bytes) (head : τ) :
    Versions τ T × Option PyErr :=
  match ops.getSplit v.tree head with
  | .error e => (v, some e)
  | .ok (split, path) =>
    if split ≠ head then
      match addSplitLim ops tk limit v tag version split path with
      | (v, some e) => (v, some e)
      | (v, none) => addOldHeadLim ops tk limit v tag version head
    else addOldHeadLim ops tk limit v tag version head

/-- `Versions.add` (versions.py:34-63). -/
def versionsAddLim (v : Versions τ T) (tag : τ) (version : Bytes) (existingHead : Option τ) :
    Versions τ T × Option PyErr :=
  let v := { v with headVersion := dset v.headVersion tag version }
  match ops.add v.tree tag existingHead with
  | (tree, some e) => ({ v with tree }, some e)
  | (tree, none) =>
    match existingHead with
    | none => ({ v with tree }, none)
    | some head => addToHeadLim ops tk limit { v with tree } tag version head

end
end Gaspra
