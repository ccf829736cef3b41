import Verif.Model.Merge

/-!
# Diffs and merges of tokens whose `==` is coarser than identity

Tokens are any hashable objects, and the code compares them with `==` and as keys of dictionaries.
`1`, `1.0` and `True` are equal in Python and different objects; classes may define their own
`__eq__` and `__hash__`.  Here `key t` stands for what `==` and `hash` look at: `x == y` holds
exactly if the keys are the same.  The other models are the case in which equal tokens are the same.
-/

namespace Gaspra

variable {α β : Type _} [DecidableEq α] (key : β → α)

/-- `find_changeset` (changesets.py:213-261): `build` and `find_lcs` only compare tokens, the leaves
keep the tokens themselves. -/
def findChangesetKeyedAux (original modified : List β) : Nat → Slice → Slice → Option (Changeset β)
  | 0, _, _ => none
  | f + 1, os, ms =>
    match findLcs ((os.get original).map key) ((ms.get modified).map key) with
    | none => none
    | some (offO, offM, len) =>
      if len = 0 then
        some (.leaf (os.get original) (ms.get modified) os ms)
      else
        let commonO : Slice := ⟨os.start + offO, some (os.start + offO + len)⟩
        let commonM : Slice := ⟨ms.start + offM, some (ms.start + offM + len)⟩
        match findChangesetKeyedAux original modified f
            ⟨os.start, some (os.start + offO)⟩ ⟨ms.start, some (ms.start + offM)⟩ with
        | none => none
        | some p =>
          match findChangesetKeyedAux original modified f
              ⟨os.start + offO + len, os.stop⟩ ⟨ms.start + offM + len, ms.stop⟩ with
          | none => none
          | some s => some (.node commonO commonM p s)

/-- `find_changeset(original, modified)` with the default slices (changesets.py:213-261). -/
def findChangesetKeyed (original modified : List β) : Option (Changeset β) :=
  findChangesetKeyedAux key original modified (original.length + 1) ⟨0, none⟩ ⟨0, none⟩

/-- `diff_token_sequences` (changesets.py:183-210). -/
def diffKeyed (original modified : List β) : Option (List (DiffItem β)) :=
  match findChangesetKeyed key original modified with
  | none => none
  | some cs => some (cs.asDiffStream original)

/-- `change_change` with `compose_changes` and `are_identical_changes` (merge.py:257-319, 390-400):
tokens are compared by `common_prefix_length`, and the tokens of the first branch are kept. -/
def changeChangeKeyed (i0 d0 : List β) (n0 : Nat) (i1 d1 : List β) (n1 : Nat) :
    Option (MFragment β) × Option (Fragment β) × Option (Fragment β) × Bool :=
  if hasComposable i0 n0 i1 n1 then
    if n0 = 0 ∧ i1.length = 0 then (none, none, some (.change i0 d1 n1), false)
    else (none, some (.change i1 d0 n0), none, false)
  else if areIdentical (i0.map key) (d0.map key) n0 (i1.map key) (d1.map key) n1 then
    (some (.input (.change i0 d0 n0)), none, none, false)
  else
    let r := ordinaryConflict i0 d0 n0 i1 d1 n1
    (r.1, r.2.1, r.2.2, true)

/-- `process_fragments` (merge.py:175-197).  The comparisons `fragment0 == longer` in `copy_copy` and
`remaining == fragments0` in `flush_remaining` are settled by lengths as in `Model/Merge.lean`. -/
def processFragmentsKeyed (f0 f1 : Fragment β) (within : Bool) :
    Option (MFragment β) × Option (Fragment β) × Option (Fragment β) × Bool :=
  match f0, f1 with
  | .copy i0 n0, .copy i1 n1 =>
    let r := copyCopy i0 n0 i1 n1
    (r.1, r.2.1, r.2.2, false)
  | f0, f1 =>
    if within then
      let r := pendingConflict f0 f1
      (r.1, r.2.1, r.2.2, within)
    else
      match f0, f1 with
      | .change i0 d0 n0, .change i1 d1 n1 => changeChangeKeyed key i0 d0 n0 i1 d1 n1
      | .copy ci cn, .change i d n =>
        let r := copyChange ci cn i d n
        (r.1, r.2.1, r.2.2, within)
      | .change i d n, .copy ci cn =>
        let r := copyChange ci cn i d n
        (r.1, r.2.2, r.2.1, within)
      | .copy i0 n0, .copy i1 n1 =>
        let r := copyCopy i0 n0 i1 n1
        (r.1, r.2.1, r.2.2, false)

/-- `_merge` (merge.py:125-161). -/
def mergeLoopKeyed :
    Nat → List (Fragment β) → List (Fragment β) → Bool → Option (List (MFragment β))
  | _, [], [], _ => some []
  | _, [], f1 :: fs1, within => some (flushRemaining [] (f1 :: fs1) within)
  | _, f0 :: fs0, [], within => some (flushRemaining (f0 :: fs0) [] within)
  | 0, _ :: _, _ :: _, _ => none
  | fuel + 1, f0 :: fs0, f1 :: fs1, within =>
    let r := processFragmentsKeyed key f0 f1 within
    match mergeLoopKeyed fuel (r.2.1.toList ++ fs0) (r.2.2.1.toList ++ fs1) r.2.2.2 with
    | none => none
    | some out => some (r.1.toList ++ out)

/-- The fragments of a group of conflicts (merge.py:75-84). -/
def reSplitKeyed (version1 version2 : List β) : Except PyErr (List (MFragment β)) :=
  match findChangesetKeyed key version2 version1 with
  | none => .error .diverges
  | some cs => .ok ((cs.stream version2).map fun
    | .copy i n => .input (.copy i n)
    | .change i d _ => .conflict (.seq i) (.seq d))

/- Only used to look for the literal `""` among the sides of conflicts (`joinSides`). -/
variable [DecidableEq β]

/-- `consolidate_conflicts` (merge.py:60-91). -/
def consolidateConflictsKeyed (kind : Kind) :
    Nat → List (MFragment β) → Except PyErr (List (MFragment β))
  | _, [] => .ok []
  | 0, _ :: _ => .error .diverges
  | fuel + 1, input => do
    let group := input.takeWhile (·.isConflict)
    let rest := input.dropWhile (·.isConflict)
    let version1 ← joinSides kind (group.map (·.version1))
    let version2 ← joinSides kind (group.map (·.version2))
    let out ← reSplitKeyed key version1 version2
    let others := rest.takeWhile (fun f => !f.isConflict)
    let rest' ← consolidateConflictsKeyed kind fuel (rest.dropWhile (fun f => !f.isConflict))
    return out ++ others ++ rest'

/-- `merge_token_sequence` (merge.py:17-57), as the list of items it yields. -/
def mergeKeyed (kind : Kind) (parent branch0 branch1 : List β) :
    Except PyErr (List (DiffItem β)) :=
  match findChangesetKeyed key parent branch0, findChangesetKeyed key parent branch1 with
  | some cs0, some cs1 =>
    let fs0 := cs0.stream parent
    let fs1 := cs1.stream parent
    match mergeLoopKeyed key (fs0.length + fs1.length) fs0 fs1 false with
    | none => .error .diverges
    | some merged => do
      let staged ← consolidateConflictsKeyed key kind merged.length merged
      consolidateAll kind staged
  | _, _ => .error .diverges

end Gaspra
