import Verif.Model.Markup

/-!
# Model of `src/gaspra/merge_tool.py`

The command line functions as functions of the parsed arguments and the texts of the files.
`argparse`, reading and decoding the files (`get_text`), the output file and the console are not
modelled.  The style tables of `markup.py` are module-level dicts that `get_markup_style` changes,
so they are part of the state.
-/

namespace Gaspra

/-- The parsed arguments (merge_tool.py:31-78, 89-92; `characters` is never looked at). -/
structure Args where
  output : Option PyStr := none
  words : Bool := false
  lines : Bool := false
  showLines : Bool := false
  gitCompatible : Bool := false
  strikeout : Bool := false
  diff : Bool := false

/-- The module-level style tables. -/
structure Tables where
  git : Style := gitLevel0
  colored : Style := coloredLevel0
  plain1 : Style := plainLevel1
  colored1 : Style := coloredLevel1

/-- `arguments.output` is true. -/
def Args.toFile (args : Args) : Bool :=
  match args.output with
  | none => false
  | some s => !s.isEmpty

/-- `get_markup_style` (merge_tool.py:145-161): the tables afterwards and the two styles.
`copy.deepcopy` leaves functions as they are. -/
def getMarkupStyle (args : Args) (allowStrikeout : Bool) (t : Tables) : Tables × Style × Style :=
  let t :=
    if args.strikeout && allowStrikeout then
      let t := if args.gitCompatible then { t with git := { t.git with frm := .function } }
        else { t with colored := { t.colored with frm := .function } }
      if args.toFile then { t with plain1 := { t.plain1 with frm := .function } }
      else { t with colored1 := { t.colored1 with frm := .function } }
    else t
  (t, if args.gitCompatible then t.git else t.colored, if args.toFile then t.plain1 else t.colored1)

/-- `os.path.basename`: what follows the last slash. -/
def basename (s : PyStr) : PyStr := (pySplit 47 s).getLastD []

/-- The second component of `get_writer` (merge_tool.py:164-169): `escape`. -/
def getEscape (args : Args) : PyStr → PyStr :=
  match args.output with
  | none => richEscape
  | some _ => id

/-- What a run of a command does: changed tables, printed strings, exception. -/
abbrev Run := Tables × List PyStr × Option PyErr

/-- The function that `get_markup_function` returns (merge_tool.py:121-142), applied. -/
def display (style : Style × Style) (args : Args) (stream : List MItem) (branch0 branch1 header : PyStr) :
    List PyStr × Option PyErr :=
  markupChanges style.1 style.2 (basename branch0) (basename branch1) (basename header)
    (getEscape args) stream

/-- The pieces of a decoded diff of `str` texts; other pieces do not occur (C58). -/
def strItem : Item Text → Option (DiffItem Nat)
  | .common (.str s) => some (.common s)
  | .change (.str a) (.str b) => some (.change a b)
  | _ => none

/-- `consolidated_line_diff` if lines are asked for (merge_tool.py:221-223, 230-231, 269-270),
and the items to display. -/
def toDisplay (sp : Nat → Bool) (args : Args) (d : List (DiffItem Nat)) : Except PyErr (List MItem) :=
  if args.showLines || args.gitCompatible then
    match consolidatedLineDiff sp d with
    | .ok items => .ok (items.map LineItem.toM)
    | .error e => .error e
  else .ok (d.map DiffItem.toM)

/-- The decoded changes, converted and displayed.  An exception in `decode_changes` is reported
before anything is printed; by C58 and C60 there is none. -/
def displayChanges (sp : Nat → Bool) (style : Style × Style) (args : Args)
    (changes : List (Item Text) × Option PyErr) (branch0 branch1 header : PyStr) :
    List PyStr × Option PyErr :=
  match changes with
  | (_, some e) => ([], some e)
  | (items, none) =>
    match toDisplay sp args (items.filterMap strItem) with
    | .error e => ([], some e)
    | .ok stream => display style args stream branch0 branch1 header

section
variable {S : Type _} (tk : Tokenizer (List Nat) S) (sp : Nat → Bool) (args : Args)

/-- `diff_cli` (merge_tool.py:252-277) after the files have been read, with a given tokenizer. -/
def diffRun (t : Tables) (originalName modifiedName original modified : PyStr) : Run :=
  let (t, style) := getMarkupStyle args true t
  let escape := getEscape args
  match (tokDiff tk tk.init (.str original) (.str modified)).2 with
  | .error e => (t, [], some e)
  | .ok changes =>
    (t, displayChanges sp style args changes (escape modifiedName) (escape originalName) [])

/-- An exception ends the run, otherwise `next` follows. -/
def andThen (r : List PyStr × Option PyErr) (next : List PyStr × Option PyErr) :
    List PyStr × Option PyErr :=
  match r with
  | (out, some e) => (out, some e)
  | (out, none) => (out ++ next.1, next.2)

/-- The items of a merge as items with token tuples. -/
def mergeItems (parent current other : List Nat) : Except PyErr (List (Item (List Nat))) :=
  match mergeTokenSequence .tuple parent current other with
  | .ok d => .ok (d.map (DiffItem.toItem id))
  | .error e => .error e

/-- `_merge` (merge_tool.py:191-241) after the files have been read, with a given tokenizer. -/
def mergeRun (t : Tables) (parentName currentName otherName parent current other : PyStr) : Run :=
  match tk.encode tk.init (.str parent) with
  | (_, .error e) => (t, [], some e)
  | (st, .ok ep) =>
    match tk.encode st (.str current) with
    | (_, .error e) => (t, [], some e)
    | (st, .ok ec) =>
      match tk.encode st (.str other) with
      | (_, .error e) => (t, [], some e)
      | (st, .ok eo) =>
        let merge (t : Tables) : Run :=
          match mergeItems ep ec eo with
          | .error e => (t, [], some e)
          | .ok merged =>
            let (t, style) := getMarkupStyle args false t
            (t, displayChanges sp style args (decodeChanges tk st merged) currentName otherName
              (if args.diff then lit "Merged" else []))
        if args.diff then
          let (t, style) := getMarkupStyle args true t
          match tk.diffSeq ep ec, tk.diffSeq ep eo with
          | some dc, some d =>
            let first := andThen
              (displayChanges sp style args (decodeChanges tk st dc) currentName parentName currentName)
              (displayChanges sp style args (decodeChanges tk st d) otherName parentName otherName)
            match first with
            | (out, some e) => (t, out, some e)
            | (out, none) => ((merge t).1, andThen (out, none) (merge t).2)
          | _, _ => (t, [], some .diverges)
        else merge t

end

/-- `diff_cli` with `make_tokenizer` (merge_tool.py:244-249). -/
def diffCli (cls sp : Nat → Bool) (args : Args) (t : Tables)
    (originalName modifiedName original modified : PyStr) : Run :=
  if args.words then diffRun (symbolTokenizer cls) sp args t originalName modifiedName original modified
  else if args.lines then diffRun lineTokenizer sp args t originalName modifiedName original modified
  else diffRun charTokenizer sp args t originalName modifiedName original modified

/-- `_merge` with `make_tokenizer` (merge_tool.py:244-249). -/
def mergeCli (cls sp : Nat → Bool) (args : Args) (t : Tables)
    (parentName currentName otherName parent current other : PyStr) : Run :=
  if args.words then
    mergeRun (symbolTokenizer cls) sp args t parentName currentName otherName parent current other
  else if args.lines then
    mergeRun lineTokenizer sp args t parentName currentName otherName parent current other
  else mergeRun charTokenizer sp args t parentName currentName otherName parent current other

end Gaspra
