import Verif.Model.MergeTool
import Verif.Spec.DiffToLines

/-!
# A file with coloured output, and a way to read it

With `--output` and without `--git-compatible` the markup of the console is written to the file.
-/

namespace Gaspra

/-- Output to a file, not in the git style. -/
structure Args.ColouredFile (args : Args) : Prop where
  named : (args.output.getD []).isEmpty = false
  git : args.gitCompatible = false

/-- A part of the file: of both texts, or of only one of them. -/
inductive Chunk where
  | both (s : PyStr)
  | first (s : PyStr)
  | second (s : PyStr)
deriving DecidableEq, Repr

namespace Chunk

def text : Chunk → PyStr
  | both s => s
  | first s => s
  | second s => s

/-- How it is written. -/
def written : Chunk → PyStr
  | both s => s
  | first s => lit "[green4]" ++ s ++ lit "[/]"
  | second s => lit "[dark_red]" ++ s ++ lit "[/]"

/-- Its part of the first text. -/
def inFirst : Chunk → PyStr
  | both s => s
  | first s => s
  | second _ => []

/-- Its part of the second text. -/
def inSecond : Chunk → PyStr
  | both s => s
  | first _ => []
  | second s => s

end Chunk

/-- The parts of an item of a diff: nothing for an empty side. -/
def DiffItem.chunks : DiffItem Nat → List Chunk
  | .common s => [.both s]
  | .change a b => (if a = [] then [] else [.first a]) ++ (if b = [] then [] else [.second b])

/-- What one is in while reading: text of both, the first or the second side (0, 1, 2), the start of
a tag, or the rest of a tag after which text of the given kind follows. -/
inductive TagMode where
  | text (k : Nat)
  | tag
  | rest (k : Nat)

/-- Reads one of the two texts back, `want` being 1 or 2: a bracket starts a tag, and the first
character of the tag tells whose text follows. -/
def readTags (want : Nat) : TagMode → PyStr → PyStr
  | _, [] => []
  | .text k, c :: s =>
    if c = 91 then readTags want .tag s
    else if k = 0 ∨ k = want then c :: readTags want (.text k) s
    else readTags want (.text k) s
  | .tag, c :: s => readTags want (.rest (if c = 103 then 1 else if c = 100 then 2 else 0)) s
  | .rest k, c :: s => if c = 93 then readTags want (.text k) s else readTags want (.rest k) s

end Gaspra
