import Verif.Model.Merge
import Verif.Model.Cost

/-!
# Counting the steps of a merge

The functions of `Model/Merge.lean` once more, together with the number of steps they take.  A step
is one round of a loop, one item that a generator hands to its caller, one call of `_stream`, one
element compared by `remaining == fragments0`, or a step counted in `Model/Cost.lean`.  Copying and
joining text (slices, `join`) and the comparison `fragment0 == longer` of `copy_copy` are not
counted.  Leaving out the count gives back the original functions (theorem `C93_same_result`).
-/

namespace Gaspra

variable {α : Type _} [DecidableEq α]

/-- The steps of reading `_stream` to the end (changesets.py:47-60 and 109-120): one for every call,
and one for every item at every level of the tree that hands it on with `yield from`. -/
def Changeset.streamSteps (original : List α) : Changeset α → Nat
  | .leaf o m os ms => 1 + ((Changeset.leaf o m os ms).stream original).length
  | .node _ _ p s =>
    2 + (p.streamSteps original + (p.stream original).length) +
      (s.streamSteps original + (s.stream original).length)

/-- The rounds of the loop of `common_prefix_length` (common.py:45-50). -/
def commonPrefixRounds : List (α × α) → Nat
  | [] => 0
  | (x, y) :: rest => 1 + if x ≠ y then 0 else commonPrefixRounds rest

/-- The rounds of the loops inside `process_fragments` (merge.py:175-197): only `change_change` has
some, in `common_prefix_lengths` (merge.py:264, 390-400). -/
def processRounds (f0 f1 : Fragment α) (within : Bool) : Nat :=
  match f0, f1 with
  | .change i0 d0 n0, .change i1 d1 n1 =>
    if within then 0
    else if hasComposable i0 n0 i1 n1 then 0
    else commonPrefixRounds (i0.zip i1) + commonPrefixRounds (d0.zip d1)
  | _, _ => 0

/-- The steps of `flush_remaining` (merge.py:164-172): one for every item, and inside a conflict
the comparison `remaining == fragments0`, made anew for every item, which compares all elements
when the two are the same list. -/
def flushSteps (fs0 fs1 : List (Fragment α)) (within : Bool) : Nat :=
  let remaining := if fs0.isEmpty then fs1 else fs0
  remaining.length +
    if within then remaining.length * (if fs0.isEmpty then 1 else fs0.length) else 0

/-- `mergeLoop` with the number of steps (merge.py:125-161). -/
def mergeLoopC : Nat → List (Fragment α) → List (Fragment α) → Bool →
    Option (List (MFragment α) × Nat)
  | _, [], [], _ => some ([], 0)
  | _, [], f1 :: fs1, within =>
    some (flushRemaining [] (f1 :: fs1) within, flushSteps [] (f1 :: fs1) within)
  | _, f0 :: fs0, [], within =>
    some (flushRemaining (f0 :: fs0) [] within, flushSteps (f0 :: fs0) [] within)
  | 0, _ :: _, _ :: _, _ => none
  | fuel + 1, f0 :: fs0, f1 :: fs1, within =>
    let r := processFragments f0 f1 within
    match mergeLoopC fuel (r.2.1.toList ++ fs0) (r.2.2.1.toList ++ fs1) r.2.2.2 with
    | none => none
    | some (out, n) => some (r.1.toList ++ out, n + 1 + processRounds f0 f1 within)

/-- `reSplit` with the number of steps (merge.py:75-84). -/
def reSplitC (version1 version2 : List α) : Except PyErr (List (MFragment α) × Nat) :=
  match findChangesetC version2 version1 with
  | none => .error .diverges
  | some (cs, n) => .ok ((cs.stream version2).map (fun
    | .copy i n => .input (.copy i n)
    | .change i d _ => .conflict (.seq i) (.seq d)),
    n + cs.streamSteps version2 + (cs.stream version2).length)

/-- `consolidateConflicts` with the number of steps (merge.py:60-91). -/
def consolidateConflictsC (kind : Kind) :
    Nat → List (MFragment α) → Except PyErr (List (MFragment α) × Nat)
  | _, [] => .ok ([], 0)
  | 0, _ :: _ => .error .diverges
  | fuel + 1, input => do
    let group := input.takeWhile (·.isConflict)
    let rest := input.dropWhile (·.isConflict)
    let version1 ← joinSides kind (group.map (·.version1))
    let version2 ← joinSides kind (group.map (·.version2))
    let out ← reSplitC version1 version2
    let others := rest.takeWhile (fun f => !f.isConflict)
    let rest' ← consolidateConflictsC kind fuel (rest.dropWhile (fun f => !f.isConflict))
    return (out.1 ++ others ++ rest'.1, 1 + group.length + out.2 + others.length + rest'.2)

/-- `consolidateAllLoop` with the number of steps (merge.py:100-119). -/
def consolidateAllLoopC (kind : Kind) :
    Nat → List (MFragment α) → Except PyErr (List (DiffItem α) × Nat)
  | _, [] => .ok ([], 0)
  | 0, _ :: _ => .error .diverges
  | fuel + 1, staged => do
    let group := staged.takeWhile (·.isConflict)
    let rest := staged.dropWhile (·.isConflict)
    let version1 ← joinSides kind (group.map (·.version1))
    let version2 ← joinSides kind (group.map (·.version2))
    let others := rest.takeWhile (fun f => !f.isConflict)
    let insert ← joinSides kind (others.map (·.insert))
    let rest' ← consolidateAllLoopC kind fuel (rest.dropWhile (fun f => !f.isConflict))
    return ((if bothEmpty version1 version2 then [] else [.change version1 version2]) ++
      (if insert.isEmpty then [] else [.common insert]) ++ rest'.1,
      1 + group.length + others.length + rest'.2)

/-- `consolidateAll` with the number of steps (merge.py:94-122); `list(staged)` reads every item
once. -/
def consolidateAllC (kind : Kind) (staged : List (MFragment α)) :
    Except PyErr (List (DiffItem α) × Nat) := do
  let out ← consolidateAllLoopC kind staged.length staged
  return (if out.1.isEmpty then [.common []] else out.1, staged.length + out.2)

/-- `consolidate` with the number of steps (merge.py:40-57); `list(input_stack)` reads every item
once. -/
def consolidateC (kind : Kind) (fragments : List (MFragment α)) :
    Except PyErr (List (DiffItem α) × Nat) := do
  let staged ← consolidateConflictsC kind fragments.length fragments
  let out ← consolidateAllC kind staged.1
  return (out.1, fragments.length + staged.2 + out.2)

/-- `mergeTokenSequence` with the number of steps (merge.py:17-37). -/
def mergeTokenSequenceC (kind : Kind) (parent branch0 branch1 : List α) :
    Except PyErr (List (DiffItem α) × Nat) :=
  match findChangesetC parent branch0, findChangesetC parent branch1 with
  | some (cs0, n0), some (cs1, n1) =>
    let fs0 := cs0.stream parent
    let fs1 := cs1.stream parent
    match mergeLoopC (fs0.length + fs1.length) fs0 fs1 false with
    | none => .error .diverges
    | some (merged, n) => do
      let out ← consolidateC kind merged
      return (out.1, n0 + n1 + (cs0.streamSteps parent + fs0.length) +
        (cs1.streamSteps parent + fs1.length) + n + out.2)
  | _, _ => .error .diverges

end Gaspra
