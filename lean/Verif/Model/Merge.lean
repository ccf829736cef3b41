import Verif.Model.Changesets

/-!
# Model of `src/gaspra/merge.py`

The fragment stacks of the source are reversed lists popped at the end; here they are lists
popped at the head.  Dataclass instances are always truthy, so `if output:`, `if tail0:` and
`if head0:` test for `None`.

Two places of the source use the `str` literal `""` as a conflict side whatever the type of the
inputs; `Side.strLit` records it, because joining it with `bytes` pieces is a `TypeError`.
-/

namespace Gaspra

variable {α : Type _}

/-- The three kinds of token sequences: `str`, `bytes` and tuples. -/
inductive Kind where
  | str
  | bytes
  | tuple
deriving DecidableEq, Repr

/-- One side of a `ConflictFragment`: a sequence of the input kind, or the literal `""`. -/
inductive Side (α : Type _) where
  | seq (l : List α)
  | strLit
deriving DecidableEq, Repr

/-- `OutputType` (merge.py:13): `CopyFragment | ChangeFragment | ConflictFragment`
(changesets.py:20-36). -/
inductive MFragment (α : Type _) where
  | input (f : Fragment α)
  | conflict (version1 version2 : Side α)
deriving DecidableEq, Repr

/-- `fragment.insert`. -/
def Fragment.insert : Fragment α → List α
  | .copy i _ => i
  | .change i _ _ => i

/-- `fragment.length`. -/
def Fragment.length : Fragment α → Nat
  | .copy _ n => n
  | .change _ _ n => n

/-- `isinstance(fragment, ConflictFragment)`. -/
def MFragment.isConflict : MFragment α → Bool
  | .input _ => false
  | .conflict _ _ => true

/-- `split_copy_fragment` (merge.py:350-364). -/
def splitCopy (insert : List α) (flen length : Nat) :
    Option (Fragment α) × Option (Fragment α) :=
  (if length > 0 then some (.copy (insert.take length) length) else none,
   if length < flen then some (.copy (insert.drop length) (flen - length)) else none)

/-- `split_change_fragment` (merge.py:367-387). -/
def splitChange (insert delete : List α) (flen insertLength length : Nat) :
    Option (Fragment α) × Option (Fragment α) :=
  (if length > 0 ∨ insertLength > 0 then
     some (.change (insert.take insertLength) (delete.take length) length) else none,
   if length < flen ∨ insertLength < insert.length then
     some (.change (insert.drop insertLength) (delete.drop length) (flen - length)) else none)

/-- `split_fragment` (merge.py:343-347). -/
def splitFragment (f : Fragment α) (length : Nat) : Option (Fragment α) × Option (Fragment α) :=
  match f with
  | .copy i n => splitCopy i n length
  | .change i d n => splitChange i d n i.length length

/-- `head.insert if head else ""` (merge.py:206-207). -/
def insertOrLit : Option (Fragment α) → Side α
  | some h => .seq h.insert
  | none => .strLit

/-- `pending_conflict` (merge.py:200-210). -/
def pendingConflict (f0 f1 : Fragment α) :
    Option (MFragment α) × Option (Fragment α) × Option (Fragment α) :=
  let minLength := min f0.length f1.length
  let s0 := splitFragment f0 minLength
  let s1 := splitFragment f1 minLength
  (some (.conflict (insertOrLit s0.1) (insertOrLit s1.1)), s0.2, s1.2)

/-- `copy_copy` (merge.py:213-230).  `fragment0 == longer` holds exactly when `fragment0` is not
the strictly shorter one: fragments of different lengths are different. -/
def copyCopy (i0 : List α) (n0 : Nat) (i1 : List α) (n1 : Nat) :
    Option (MFragment α) × Option (Fragment α) × Option (Fragment α) :=
  if n0 < n1 then
    (some (.input (.copy i0 n0)), none, (splitCopy i1 n1 n0).2)
  else
    (some (.input (.copy i1 n1)), if n1 ≠ n0 then (splitCopy i0 n0 n1).2 else none, none)

/-- `copy_change` (merge.py:233-254); the result is `(output, copy_tail, change_tail)`. -/
def copyChange (ci : List α) (cn : Nat) (i d : List α) (n : Nat) :
    Option (MFragment α) × Option (Fragment α) × Option (Fragment α) :=
  let smaller := min cn n
  if n = smaller then
    (some (.input (.change i d n)), if cn > smaller then (splitCopy ci cn smaller).2 else none, none)
  else
    let s := splitChange i d n i.length smaller
    (match s.1 with
      | some h => some (.conflict (.seq h.insert) (.seq ci))
      | none => none,
     none, s.2)

/-- `has_composable_changes` (merge.py:275-289). -/
def hasComposable (i0 : List α) (n0 : Nat) (i1 : List α) (n1 : Nat) : Bool :=
  (n0 == 0 && i1.length == 0) || (i0.length == 0 && n1 == 0)

/-- `ordinary_conflict` (merge.py:322-340). -/
def ordinaryConflict (i0 d0 : List α) (n0 : Nat) (i1 d1 : List α) (n1 : Nat) :
    Option (MFragment α) × Option (Fragment α) × Option (Fragment α) :=
  let length := min n0 n1
  let s0 := splitChange i0 d0 n0 i0.length length
  let s1 := splitChange i1 d1 n1 i1.length length
  (match s0.1, s1.1 with
    | some h0, some h1 => some (.conflict (.seq h0.insert) (.seq h1.insert))
    | _, _ => none,
   s0.2, s1.2)

variable [DecidableEq α]

/-- `are_identical_changes` after `common_prefix_lengths` (merge.py:264, 311-319, 390-400). -/
def areIdentical (i0 d0 : List α) (n0 : Nat) (i1 d1 : List α) (n1 : Nat) : Bool :=
  let insertLength := commonPrefixLength i0 i1
  let deleteLength := commonPrefixLength d0 d1
  (i0.length == i1.length && i1.length == insertLength) &&
    (n0 == n1 && n1 == deleteLength)

/-- `change_change` with `compose_changes` (merge.py:257-272, 292-308); the last component is the
new `within_conflict`. -/
def changeChange (i0 d0 : List α) (n0 : Nat) (i1 d1 : List α) (n1 : Nat) :
    Option (MFragment α) × Option (Fragment α) × Option (Fragment α) × Bool :=
  if hasComposable i0 n0 i1 n1 then
    if n0 = 0 ∧ i1.length = 0 then (none, none, some (.change i0 d1 n1), false)
    else (none, some (.change i1 d0 n0), none, false)
  else if areIdentical i0 d0 n0 i1 d1 n1 then
    (some (.input (.change i0 d0 n0)), none, none, false)
  else
    let r := ordinaryConflict i0 d0 n0 i1 d1 n1
    (r.1, r.2.1, r.2.2, true)

/-- `process_fragments` (merge.py:175-197). -/
def processFragments (f0 f1 : Fragment α) (within : Bool) :
    Option (MFragment α) × Option (Fragment α) × Option (Fragment α) × Bool :=
  match f0, f1 with
  | .copy i0 n0, .copy i1 n1 =>
    let r := copyCopy i0 n0 i1 n1
    (r.1, r.2.1, r.2.2, false)
  | f0, f1 =>
    if within then
      let r := pendingConflict f0 f1
      (r.1, r.2.1, r.2.2, within)
    else
      match f0, f1 with
      | .change i0 d0 n0, .change i1 d1 n1 => changeChange i0 d0 n0 i1 d1 n1
      | .copy ci cn, .change i d n =>
        let r := copyChange ci cn i d n
        (r.1, r.2.1, r.2.2, within)
      | .change i d n, .copy ci cn =>
        let r := copyChange ci cn i d n
        (r.1, r.2.2, r.2.1, within)
      | .copy i0 n0, .copy i1 n1 =>
        let r := copyCopy i0 n0 i1 n1
        (r.1, r.2.1, r.2.2, false)

/-- `flush_remaining` (merge.py:164-172).  `remaining == fragments0` holds exactly when
`fragments0` is not empty. -/
def flushRemaining (fs0 fs1 : List (Fragment α)) (within : Bool) : List (MFragment α) :=
  let remaining := if fs0.isEmpty then fs1 else fs0
  remaining.map fun item =>
    if within ∧ ¬ fs0.isEmpty then .conflict (.seq item.insert) .strLit
    else if within then .conflict .strLit (.seq item.insert)
    else .input item

/-- `_merge` (merge.py:125-161).  Every iteration removes at least one fragment for good, so the
total number of fragments is enough fuel. -/
def mergeLoop : Nat → List (Fragment α) → List (Fragment α) → Bool → Option (List (MFragment α))
  | _, [], [], _ => some []
  | _, [], f1 :: fs1, within => some (flushRemaining [] (f1 :: fs1) within)
  | _, f0 :: fs0, [], within => some (flushRemaining (f0 :: fs0) [] within)
  | 0, _ :: _, _ :: _, _ => none
  | fuel + 1, f0 :: fs0, f1 :: fs1, within =>
    let r := processFragments f0 f1 within
    match mergeLoop fuel (r.2.1.toList ++ fs0) (r.2.2.1.toList ++ fs1) r.2.2.2 with
    | none => none
    | some out => some (r.1.toList ++ out)

/-- `get_joiner(empty)(pieces)` (common.py:18-42): `b"".join` raises `TypeError` when a piece is
a `str`; `"".join` accepts it and `chain` iterates over its (no) characters. -/
def joinSides (kind : Kind) (sides : List (Side α)) : Except PyErr (List α) :=
  if kind = .bytes ∧ .strLit ∈ sides then .error .typeError
  else .ok (sides.flatMap fun
    | .seq l => l
    | .strLit => [])

/-- `fragment.version1`. -/
def MFragment.version1 : MFragment α → Side α
  | .conflict v _ => v
  | .input _ => .strLit

/-- `fragment.version2`. -/
def MFragment.version2 : MFragment α → Side α
  | .conflict _ v => v
  | .input _ => .strLit

/-- The fragments `find_changeset(version2, version1)._stream(version2)` as re-yielded by
`consolidate_conflicts` (merge.py:75-84). -/
def reSplit (version1 version2 : List α) : Except PyErr (List (MFragment α)) :=
  match findChangeset version2 version1 with
  | none => .error .diverges
  | some cs => .ok ((cs.stream version2).map fun
    | .copy i n => .input (.copy i n)
    | .change i d _ => .conflict (.seq i) (.seq d))

/-- `consolidate_conflicts` (merge.py:60-91). -/
def consolidateConflicts (kind : Kind) :
    Nat → List (MFragment α) → Except PyErr (List (MFragment α))
  | _, [] => .ok []
  | 0, _ :: _ => .error .diverges
  | fuel + 1, input => do
    let group := input.takeWhile (·.isConflict)
    let rest := input.dropWhile (·.isConflict)
    let version1 ← joinSides kind (group.map (·.version1))
    let version2 ← joinSides kind (group.map (·.version2))
    let out ← reSplit version1 version2
    let others := rest.takeWhile (fun f => !f.isConflict)
    let rest' ← consolidateConflicts kind fuel (rest.dropWhile (fun f => !f.isConflict))
    return out ++ others ++ rest'

/-- `fragment.insert` of a copy or change fragment. -/
def MFragment.insert : MFragment α → Side α
  | .input f => .seq f.insert
  | .conflict _ _ => .strLit

/-- The loop of `consolidate_all` (merge.py:100-119). -/
def consolidateAllLoop (kind : Kind) :
    Nat → List (MFragment α) → Except PyErr (List (DiffItem α))
  | _, [] => .ok []
  | 0, _ :: _ => .error .diverges
  | fuel + 1, staged => do
    let group := staged.takeWhile (·.isConflict)
    let rest := staged.dropWhile (·.isConflict)
    let version1 ← joinSides kind (group.map (·.version1))
    let version2 ← joinSides kind (group.map (·.version2))
    let others := rest.takeWhile (fun f => !f.isConflict)
    let insert ← joinSides kind (others.map (·.insert))
    let rest' ← consolidateAllLoop kind fuel (rest.dropWhile (fun f => !f.isConflict))
    return (if bothEmpty version1 version2 then [] else [.change version1 version2]) ++
      (if insert.isEmpty then [] else [.common insert]) ++ rest'

/-- `consolidate_all` (merge.py:94-122). -/
def consolidateAll (kind : Kind) (staged : List (MFragment α)) :
    Except PyErr (List (DiffItem α)) := do
  let out ← consolidateAllLoop kind staged.length staged
  return if out.isEmpty then [.common []] else out

/-- `consolidate` (merge.py:40-57). -/
def consolidate (kind : Kind) (fragments : List (MFragment α)) :
    Except PyErr (List (DiffItem α)) := do
  let staged ← consolidateConflicts kind fragments.length fragments
  consolidateAll kind staged

/-- `merge_token_sequence` (merge.py:17-37), as the list of items it yields. -/
def mergeTokenSequence (kind : Kind) (parent branch0 branch1 : List α) :
    Except PyErr (List (DiffItem α)) :=
  match findChangeset parent branch0, findChangeset parent branch1 with
  | some cs0, some cs1 =>
    let fs0 := cs0.stream parent
    let fs1 := cs1.stream parent
    match mergeLoop (fs0.length + fs1.length) fs0 fs1 false with
    | none => .error .diverges
    | some merged => consolidate kind merged
  | _, _ => .error .diverges

end Gaspra
