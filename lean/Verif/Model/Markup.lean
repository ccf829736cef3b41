import Verif.Model.DiffToLines

/-!
# Model of `src/gaspra/markup.py`

What is printed is a list of strings, one for each call of `print`, together with the exception
that ends the display, if any.  `rich.console.Console.print` itself, which interprets the markup,
is not modelled; neither is opening and closing the output file.
-/

namespace Gaspra

/-- A `str` literal as code points. -/
def lit (s : String) : PyStr := s.toList.map Char.toNat

/-- `rich_escape` (markup.py:9-10): every `[` becomes `\[`. -/
def richEscape (s : PyStr) : PyStr := s.flatMap fun c => if c = 91 then [92, 91] else [c]

/-- The value of `markup["into"]` or `markup["from"]`: a dict of two functions of the branch name
(`None` at the inner level), or a function, which cannot be subscripted. -/
inductive BranchMarkup where
  | entry (pre suf : Option PyStr → PyStr)
  | function

/-- A style table such as `COLORED_LEVEL0` (markup.py:13-38). -/
structure Style where
  into : BranchMarkup
  frm : BranchMarkup
  separator : PyStr
  /-- The `prefix` and `suffix` of `header`, empty if there is none. -/
  header : PyStr × PyStr

/-- `lambda _: s`. -/
def always (s : String) : Option PyStr → PyStr := fun _ => lit s

/-- `f"{name}"`. -/
def showName : Option PyStr → PyStr
  | none => lit "None"
  | some s => s

/-- `COLORED_LEVEL0` (markup.py:13-18). -/
def coloredLevel0 : Style where
  into := .entry (always "[green4]") (always "[/]")
  frm := .entry (always "[dark_red]") (always "[/]")
  separator := []
  header := (lit "<<<[bright_blue]", lit "[/]>>>\n")

/-- `GIT_MARKUP_LEVEL0` (markup.py:20-24). -/
def gitLevel0 : Style where
  into := .entry (fun n => lit "<<<<<<< " ++ showName n ++ lit "\n") (always "")
  frm := .entry (always "") (fun n => lit ">>>>>>> " ++ showName n ++ lit "\n")
  separator := lit "=======\n"
  header := ([], [])

/-- `PLAIN_LEVEL1` (markup.py:26-31). -/
def plainLevel1 : Style where
  into := .entry (always "") (always "")
  frm := .entry (always "") (always "")
  separator := []
  header := (lit "<<<", lit ">>>\n")

/-- `COLORED_LEVEL1` (markup.py:34-38). -/
def coloredLevel1 : Style where
  into := .entry (always "[light_green]") (always "[/]")
  frm := .entry (always "[pink1]") (always "[/]")
  separator := []
  header := ([], [])

/-- A side of a `Change`: a string, or (in line diffs) a tuple. -/
inductive MSide where
  | str (s : PyStr)
  | seq (l : List (DiffItem Nat))
deriving DecidableEq, Repr

/-- An item of the stream to display. -/
inductive MItem where
  | text (s : PyStr)
  | change (a b : MSide)
deriving DecidableEq, Repr

/-- Truth value of a side. -/
def MSide.truthy : MSide → Bool
  | .str s => !s.isEmpty
  | .seq l => !l.isEmpty

/-- An item of a plain diff. -/
def DiffItem.toM : DiffItem Nat → MItem
  | .common s => .text s
  | .change a b => .change (.str a) (.str b)

/-- An item of a line diff. -/
def LineItem.toM : LineItem → MItem
  | .text s => .text s
  | .change a b => .change (.seq a) (.seq b)

/-- `branch_markup["prefix"](name)` and `branch_markup["suffix"](name)` around the contents
(markup.py:127-133).  Subscripting a function is a `TypeError`. -/
def surround (bm : BranchMarkup) (name : Option PyStr) (contents : Except PyErr PyStr) :
    Except PyErr PyStr :=
  match bm with
  | .function => .error .typeError
  | .entry pre suf =>
    match contents with
    | .ok s => .ok (pre name ++ s ++ suf name)
    | .error e => .error e

/-- One inner item (markup.py:88-116 with `markup0` the inner style and both names `None`): what is
written to the buffer. -/
def markupInnerItem (m : Style) (escape : PyStr → PyStr) : DiffItem Nat → Except PyErr PyStr
  | .common s => .ok (escape s)
  | .change a b =>
    match (if a.isEmpty then .ok [] else surround m.into none (.ok (escape a))) with
    | .error e => .error e
    | .ok x =>
      match (if b.isEmpty then .ok [] else surround m.frm none (.ok (escape b))) with
      | .error e => .error e
      | .ok y => .ok (x ++ m.separator ++ y)

/-- `markup_stream(write, item, markup, escape=escape)` on a tuple (markup.py:131). -/
def markupInner (m : Style) (escape : PyStr → PyStr) : List (DiffItem Nat) → Except PyErr PyStr
  | [] => .ok []
  | x :: rest =>
    match markupInnerItem m escape x with
    | .error e => .error e
    | .ok s =>
      match markupInner m escape rest with
      | .error e => .error e
      | .ok t => .ok (s ++ t)

/-- `markup_change_item` (markup.py:119-133). -/
def markupChangeItem (side : MSide) (bm : BranchMarkup) (name : Option PyStr) (m1 : Style)
    (escape : PyStr → PyStr) : Except PyErr PyStr :=
  match side with
  | .str s => surround bm name (.ok (escape s))
  | .seq l => surround bm name (markupInner m1 escape l)

/-- Printing the side of a change if it is true (markup.py:94-103 and 107-116). -/
def printSide (side : MSide) (bm : BranchMarkup) (name : Option PyStr) (m1 : Style)
    (escape : PyStr → PyStr) : List PyStr × Option PyErr :=
  if side.truthy then
    match markupChangeItem side bm name m1 escape with
    | .ok s => ([s], none)
    | .error e => ([], some e)
  else ([], none)

/-- `markup_stream` (markup.py:76-116): the strings printed and the exception, if any. -/
def markupStream (m0 m1 : Style) (nameInto nameFrom : PyStr) (escape : PyStr → PyStr) :
    List MItem → List PyStr × Option PyErr
  | [] => ([], none)
  | .text s :: rest =>
    let (out, e) := markupStream m0 m1 nameInto nameFrom escape rest
    (escape s :: out, e)
  | .change a b :: rest =>
    match printSide a m0.into (some nameInto) m1 escape with
    | (out1, some e) => (out1, some e)
    | (out1, none) =>
      match printSide b m0.frm (some nameFrom) m1 escape with
      | (out2, some e) => (out1 ++ [m0.separator] ++ out2, some e)
      | (out2, none) =>
        let (out, e) := markupStream m0 m1 nameInto nameFrom escape rest
        (out1 ++ [m0.separator] ++ out2 ++ out, e)

/-- `show_header` (markup.py:49-54) for a header that is not empty. -/
def showHeader (m0 : Style) (header : PyStr) : PyStr :=
  lit "\n" ++ m0.header.1 ++ header ++ m0.header.2

/-- `markup_changes` (markup.py:136-149).  `header = None` or empty prints nothing. -/
def markupChanges (m0 m1 : Style) (nameInto nameFrom : PyStr) (header : PyStr)
    (escape : PyStr → PyStr) (stream : List MItem) : List PyStr × Option PyErr :=
  let (out, e) := markupStream m0 m1 nameInto nameFrom escape stream
  ((if header.isEmpty then [] else [showHeader m0 header]) ++ out, e)

end Gaspra
