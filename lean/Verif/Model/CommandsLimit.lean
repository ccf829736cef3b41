import Verif.Model.Commands

/-!
# The commands under the recursion limit of Python

`find_changeset` calls itself (changesets.py:242-253); when too many calls are nested, Python raises
`RecursionError`.  How many are possible depends on how deep its caller is, so the three places that
call it have limits of their own.  Walking through the changeset nests one generator per level, which
takes no more frames than `find_changeset` and the automaton it builds on its deepest level.

In the other models all diffs are computed at once.  Here it matters when: the generators of
`diff_token_sequences` and `consolidate` start when the first item is read, which is after the header
has been printed; `merge_token_sequence` computes its two changesets when it is called, and
`consolidate_all` (merge.py:97) reads all fragments before it yields an item.
-/

namespace Gaspra

/-- How many calls of `find_changeset` may be nested: in `diff_token_sequences`
(changesets.py:209), in `merge_token_sequence` (merge.py:29-30) and in `consolidate_conflicts`
(merge.py:75). -/
structure Limits where
  diff : Nat
  merge : Nat
  conflict : Nat

section
variable {α : Type _} [DecidableEq α]

/-- `find_changeset(original, modified)` (changesets.py:213-260) with a limit. -/
def findChangesetLim (limit : Nat) (original modified : List α) : Except PyErr (Changeset α) :=
  match findChangesetAux original modified limit ⟨0, none⟩ ⟨0, none⟩ with
  | none => .error .recursionError
  | some cs => .ok cs

/-- `merge_token_sequence` (merge.py:17-37) up to its `return`: the fragments that `consolidate` will
read from `_merge`. -/
def mergeStartLim (limit : Nat) (parent branch0 branch1 : List α) :
    Except PyErr (List (MFragment α)) := do
  let cs0 ← findChangesetLim limit parent branch0
  let cs1 ← findChangesetLim limit parent branch1
  let fs0 := cs0.stream parent
  let fs1 := cs1.stream parent
  match mergeLoop (fs0.length + fs1.length) fs0 fs1 false with
  | none => .error .diverges
  | some merged => .ok merged

/-- `reSplit` (merge.py:75-84) with a limit. -/
def reSplitLim (limit : Nat) (version1 version2 : List α) : Except PyErr (List (MFragment α)) := do
  let cs ← findChangesetLim limit version2 version1
  return (cs.stream version2).map fun
    | .copy i n => .input (.copy i n)
    | .change i d _ => .conflict (.seq i) (.seq d)

/-- `consolidate_conflicts` (merge.py:60-91) with a limit. -/
def consolidateConflictsLim (limit : Nat) (kind : Kind) :
    Nat → List (MFragment α) → Except PyErr (List (MFragment α))
  | _, [] => .ok []
  | 0, _ :: _ => .error .diverges
  | fuel + 1, input => do
    let group := input.takeWhile (·.isConflict)
    let rest := input.dropWhile (·.isConflict)
    let version1 ← joinSides kind (group.map (·.version1))
    let version2 ← joinSides kind (group.map (·.version2))
    let out ← reSplitLim limit version1 version2
    let others := rest.takeWhile (fun f => !f.isConflict)
    let rest' ← consolidateConflictsLim limit kind fuel (rest.dropWhile (fun f => !f.isConflict))
    return out ++ others ++ rest'

/-- `consolidate` (merge.py:40-57) with a limit, up to the first item. -/
def consolidateLim (limit : Nat) (kind : Kind) (fragments : List (MFragment α)) :
    Except PyErr (List (DiffItem α)) := do
  let staged ← consolidateConflictsLim limit kind fragments.length fragments
  consolidateAll kind staged

end

/-- A stream that raises when its first item is read, displayed: the header has been printed. -/
def displayFailing (style : Style × Style) (args : Args) (branch0 branch1 header : PyStr) (e : PyErr) :
    List PyStr × Option PyErr :=
  ((display style args [] branch0 branch1 header).1, some e)

section
variable {S : Type _} (tk : Tokenizer (List Nat) S) (sp : Nat → Bool) (args : Args) (lim : Limits)

/-- A diff of token tuples (changesets.py:183-210), decoded, converted and displayed. -/
def displayDiffLim (st : S) (style : Style × Style) (original modified : List Nat)
    (branch0 branch1 header : PyStr) : List PyStr × Option PyErr :=
  match findChangesetLim lim.diff original modified with
  | .error e => displayFailing style args branch0 branch1 header e
  | .ok cs =>
    displayChanges sp style args
      (decodeChanges tk st ((cs.asDiffStream original).map (DiffItem.toItem id))) branch0 branch1 header

/-- `diff_cli` (merge_tool.py:252-277) after the files have been read. -/
def diffRunLim (t : Tables) (originalName modifiedName original modified : PyStr) : Run :=
  let (t, style) := getMarkupStyle args true t
  let escape := getEscape args
  match tk.encode tk.init (.str original) with
  | (_, .error e) => (t, [], some e)
  | (st, .ok eo) =>
    match tk.encode st (.str modified) with
    | (_, .error e) => (t, [], some e)
    | (st, .ok em) =>
      (t, displayDiffLim tk sp args lim st style eo em (escape modifiedName) (escape originalName) [])

/-- The end of `_merge` (merge_tool.py:228-241). -/
def mergePartLim (t : Tables) (st : S) (parent current other : List Nat) (currentName otherName : PyStr) :
    Run :=
  match mergeStartLim lim.merge parent current other with
  | .error e => (t, [], some e)
  | .ok fragments =>
    let (t, style) := getMarkupStyle args false t
    let header := if args.diff then lit "Merged" else []
    match consolidateLim lim.conflict .tuple fragments with
    | .error e => (t, displayFailing style args currentName otherName header e)
    | .ok merged =>
      (t, displayChanges sp style args (decodeChanges tk st (merged.map (DiffItem.toItem id))) currentName
        otherName header)

/-- `_merge` (merge_tool.py:191-241) after the files have been read. -/
def mergeRunLim (t : Tables) (parentName currentName otherName parent current other : PyStr) : Run :=
  match tk.encode tk.init (.str parent) with
  | (_, .error e) => (t, [], some e)
  | (st, .ok ep) =>
    match tk.encode st (.str current) with
    | (_, .error e) => (t, [], some e)
    | (st, .ok ec) =>
      match tk.encode st (.str other) with
      | (_, .error e) => (t, [], some e)
      | (st, .ok eo) =>
        if args.diff then
          let (t, style) := getMarkupStyle args true t
          match andThen
              (displayDiffLim tk sp args lim st style ep ec currentName parentName currentName)
              (displayDiffLim tk sp args lim st style ep eo otherName parentName otherName) with
          | (out, some e) => (t, out, some e)
          | (out, none) =>
            let r := mergePartLim tk sp args lim t st ep ec eo currentName otherName
            (r.1, andThen (out, none) r.2)
        else mergePartLim tk sp args lim t st ep ec eo currentName otherName

end

section
variable (lim : Limits) (cls sp : Nat → Bool) (args : Args)

/-- `diff_cli` with `make_tokenizer` (merge_tool.py:244-249). -/
def diffCliLim (t : Tables) (originalName modifiedName original modified : PyStr) : Run :=
  if args.words then
    diffRunLim (symbolTokenizer cls) sp args lim t originalName modifiedName original modified
  else if args.lines then
    diffRunLim lineTokenizer sp args lim t originalName modifiedName original modified
  else diffRunLim charTokenizer sp args lim t originalName modifiedName original modified

/-- `_merge` with `make_tokenizer` (merge_tool.py:244-249). -/
def mergeCliLim (t : Tables) (parentName currentName otherName parent current other : PyStr) : Run :=
  if args.words then
    mergeRunLim (symbolTokenizer cls) sp args lim t parentName currentName otherName parent current other
  else if args.lines then
    mergeRunLim lineTokenizer sp args lim t parentName currentName otherName parent current other
  else mergeRunLim charTokenizer sp args lim t parentName currentName otherName parent current other

/-- `diff_cli` (merge_tool.py:252-278) on a file system. -/
def diffCommandLim (fs : FileSystem) (original modified : PyStr) : Outcome :=
  match getText fs [original, modified] with
  | .error e => ⟨fs, [], some e⟩
  | .ok [o, m] => withWriter fs args (diffCliLim lim cls sp args {} original modified o m)
  | .ok _ => ⟨fs, [], none⟩

/-- `merge_cli` (merge_tool.py:172-178, 191-241) on a file system. -/
def mergeCommandLim (fs : FileSystem) (parent fromHead intoHead : PyStr) : Outcome :=
  match getText fs [parent, intoHead, fromHead] with
  | .error e => ⟨fs, [], some e⟩
  | .ok [p, c, o] => withWriter fs args (mergeCliLim lim cls sp args {} parent intoHead fromHead p c o)
  | .ok _ => ⟨fs, [], none⟩

end

end Gaspra
