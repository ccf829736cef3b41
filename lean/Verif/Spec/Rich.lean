import Verif.Model.MergeTool
import Verif.Spec.DiffToLines
import Verif.Spec.Merge

/-!
# What console markup means

A reader of `rich` markup: `[name]` opens a style, `[/]` closes the last one opened and `\[` is a
bracket.  This is how `rich` reads markup in which backslashes occur only before brackets and every
other bracket belongs to a tag (emoji codes aside).
-/

namespace Gaspra

/-- Characters with the styles they are shown in, innermost first. -/
abbrev Shown := List (Nat × List PyStr)

/-- What is shown for a markup text, given the open styles and the part of the tag read so far. -/
def render : List PyStr → Option PyStr → PyStr → Shown
  | _, _, [] => []
  | st, some t, c :: rest =>
    if c = 93 then render (if t = lit "/" then st.tail else t :: st) none rest
    else render st (some (t ++ [c])) rest
  | st, none, 92 :: 91 :: rest => (91, st) :: render st none rest
  | st, none, c :: rest => if c = 91 then render st (some []) rest else (c, st) :: render st none rest

/-- What is shown by a sequence of calls of `print`, each of which starts without a style. -/
def renderAll (out : List PyStr) : Shown := out.flatMap (render [] none)

/-- A text in a given style. -/
def styled (st : List PyStr) (s : PyStr) : Shown := s.map fun c => (c, st)

/-- One side of a change in colour: changed pieces within it are in a lighter shade. -/
def shownSide (colour : PyStr) : MSide → Shown
  | .str s => styled [colour] s
  | .seq l => l.flatMap fun
    | .common s => styled [colour] s
    | .change a b => styled [lit "light_green", colour] a ++ styled [lit "pink1", colour] b

/-- An item in colour. -/
def shownItem : MItem → Shown
  | .text s => styled [] s
  | .change a b => shownSide (lit "green4") a ++ shownSide (lit "dark_red") b

/-- A diff of pieces in colour. -/
def shownDiff (d : List (DiffItem PyStr)) : Shown :=
  d.flatMap fun
    | .common p => styled [] p.flatten
    | .change a b => styled [lit "green4"] a.flatten ++ styled [lit "dark_red"] b.flatten

/-- A header: a line with the name in colour, after an end of line. -/
def shownHeader (name : PyStr) : Shown :=
  styled [] (lit "\n<<<") ++ styled [lit "bright_blue"] name ++ styled [] (lit ">>>\n")

/-- The characters that are not in the given colour. -/
def without (colour : PyStr) (sh : Shown) : PyStr :=
  (sh.filter fun x => x.2.getLast? ≠ some colour).map Prod.fst

/-- There is no backslash in the side of a change. -/
def MSide.NoBackslash : MSide → Prop
  | .str s => 92 ∉ s
  | .seq l => ∀ x ∈ l, 92 ∉ x.tokens

/-- There is no backslash in an item. -/
def MItem.NoBackslash : MItem → Prop
  | .text s => 92 ∉ s
  | .change a b => a.NoBackslash ∧ b.NoBackslash

/-- Coloured output on the console. -/
structure Args.Console (args : Args) : Prop where
  output : args.output = none
  git : args.gitCompatible = false

end Gaspra
