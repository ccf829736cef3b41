import Verif.Model.SuffixAutomaton

/-!
# Model of `src/gaspra/changesets.py` and of the data types in `src/gaspra/types.py`
-/

namespace Gaspra

variable {α : Type _}

/-- `Changeset | ChangesetLeaf` (changesets.py:39-45 and 101-107). -/
inductive Changeset (α : Type _) where
  | leaf (original modified : List α) (originalSlice modifiedSlice : Slice)
  | node (commonOriginal commonModified : Slice) (pre suf : Changeset α)
deriving Repr

/-- `CopyFragment | ChangeFragment` (changesets.py:20-30). -/
inductive Fragment (α : Type _) where
  | copy (insert : List α) (length : Nat)
  | change (insert delete : List α) (length : Nat)
deriving DecidableEq, Repr

/-- Element of a `ChangeIterable` (types.py:17-22): `CommonSlice(a_slice, b_slice)` or
`Change(a, b)`. -/
inductive ChangeItem (α : Type _) where
  | common (aSlice bSlice : Slice)
  | change (a b : List α)
deriving DecidableEq, Repr

/-- Element of a `PatchIterable` (types.py:24-29): a slice or a literal piece. -/
inductive PatchItem (α : Type _) where
  | slice (s : Slice)
  | piece (p : List α)
deriving DecidableEq, Repr

/-- Element of a `DiffIterable` (types.py:31-37): a common piece or `Change(a, b)`. -/
inductive DiffItem (α : Type _) where
  | common (p : List α)
  | change (a b : List α)
deriving DecidableEq, Repr

/-- `not (self.modified or self.original)`: both sequences are empty. -/
def bothEmpty (a b : List α) : Bool := a.isEmpty && b.isEmpty

/-- `_stream` (changesets.py:47-60 and 109-120). -/
def Changeset.stream (cs : Changeset α) (original : List α) : List (Fragment α) :=
  match cs with
  | .leaf o m _ _ => if bothEmpty m o then [] else [.change m o o.length]
  | .node co _ p s =>
    let copy := co.get original
    p.stream original ++ [.copy copy copy.length] ++ s.stream original

/-- `as_change_stream` (changesets.py:62-74 and 122-133). -/
def Changeset.asChangeStream : Changeset α → List (ChangeItem α)
  | .leaf o m _ _ => if bothEmpty m o then [] else [.change m o]
  | .node co cm p s => p.asChangeStream ++ [.common co cm] ++ s.asChangeStream

/-- `as_diff_stream` (changesets.py:76-83 and 135-146). -/
def Changeset.asDiffStream (cs : Changeset α) (original : List α) : List (DiffItem α) :=
  match cs with
  | .leaf o m _ _ => if bothEmpty m o then [] else [.change m o]
  | .node co _ p s =>
    p.asDiffStream original ++ [.common (co.get original)] ++ s.asDiffStream original

/-- `old_apply_forward` generators (changesets.py:85-86 and 148-151). -/
def Changeset.oldForward (cs : Changeset α) (original : List α) : List (List α) :=
  match cs with
  | .leaf _ m _ _ => [m]
  | .node co _ p s => p.oldForward original ++ [co.get original] ++ s.oldForward original

/-- `old_apply_reverse` generators (changesets.py:88-89 and 153-156). -/
def Changeset.oldReverse (cs : Changeset α) (modified : List α) : List (List α) :=
  match cs with
  | .leaf o _ _ _ => [o]
  | .node _ cm p s => p.oldReverse modified ++ [cm.get modified] ++ s.oldReverse modified

/-- `strip_forward` (changesets.py:165-171).  A slice object is always truthy. -/
def stripForward (stream : List (ChangeItem α)) : List (PatchItem α) :=
  stream.filterMap fun
    | .change a _ => if a.isEmpty then none else some (.piece a)
    | .common a _ => some (.slice a)

/-- `strip_reverse` (changesets.py:174-180). -/
def stripReverse (stream : List (ChangeItem α)) : List (PatchItem α) :=
  stream.filterMap fun
    | .change _ b => if b.isEmpty then none else some (.piece b)
    | .common _ b => some (.slice b)

/-- `join_changes` (changesets.py:264-271): concatenation, for every kind of sequence. -/
def joinChanges (changed : List (List α)) : List α := changed.flatten

/-- `apply` (changesets.py:274-292). -/
def applyPatch (patch : List (PatchItem α)) (version : List α) : List α :=
  joinChanges (patch.map fun
    | .slice s => s.get version
    | .piece p => p)

/-- `apply_forward` (changesets.py:295-296). -/
def applyForward (cs : List (ChangeItem α)) (original : List α) : List α :=
  applyPatch (stripForward cs) original

/-- `apply_reverse` (changesets.py:299-300). -/
def applyReverse (cs : List (ChangeItem α)) (modified : List α) : List α :=
  applyPatch (stripReverse cs) modified

/-- `old_apply_forward` (changesets.py:303-305). -/
def oldApplyForward (cs : Changeset α) (original : List α) : List α :=
  joinChanges (cs.oldForward original)

/-- `old_apply_reverse` (changesets.py:308-310). -/
def oldApplyReverse (cs : Changeset α) (modified : List α) : List α :=
  joinChanges (cs.oldReverse modified)

variable [DecidableEq α]

/-- `find_changeset` (changesets.py:213-261); the fuel bounds the recursion depth. -/
def findChangesetAux (original modified : List α) : Nat → Slice → Slice → Option (Changeset α)
  | 0, _, _ => none
  | f + 1, os, ms =>
    match findLcs (os.get original) (ms.get modified) with
    | none => none
    | some (offO, offM, len) =>
      if len = 0 then
        some (.leaf (os.get original) (ms.get modified) os ms)
      else
        let commonO : Slice := ⟨os.start + offO, some (os.start + offO + len)⟩
        let commonM : Slice := ⟨ms.start + offM, some (ms.start + offM + len)⟩
        match findChangesetAux original modified f
            ⟨os.start, some (os.start + offO)⟩ ⟨ms.start, some (ms.start + offM)⟩ with
        | none => none
        | some p =>
          match findChangesetAux original modified f
              ⟨os.start + offO + len, os.stop⟩ ⟨ms.start + offM + len, ms.stop⟩ with
          | none => none
          | some s => some (.node commonO commonM p s)

/-- `find_changeset(original, modified)` with the default slices `slice(0, None)`. -/
def findChangeset (original modified : List α) : Option (Changeset α) :=
  findChangesetAux original modified (original.length + 1) ⟨0, none⟩ ⟨0, none⟩

/-- `diff_token_sequences` (changesets.py:183-210). -/
def diffTokenSequences (original modified : List α) : Option (List (DiffItem α)) :=
  match findChangeset original modified with
  | none => none
  | some cs => some (cs.asDiffStream original)

/-- The loop `for length, (x, y) in enumerate(zip(a, b)): if x != y: return length`
of `common_prefix_length` (common.py:46-48); `none` when the loop runs to its end. -/
def commonPrefixLoop : Nat → List (α × α) → Option Nat
  | _, [] => none
  | n, (x, y) :: rest => if x ≠ y then some n else commonPrefixLoop (n + 1) rest

/-- `common.common_prefix_length` (common.py:45-50). -/
def commonPrefixLength (a b : List α) : Nat :=
  match commonPrefixLoop 0 (a.zip b) with
  | some n => n
  | none => min a.length b.length

end Gaspra
