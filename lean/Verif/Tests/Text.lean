import Verif.Model.Markup
import Verif.Props.Tokenizers
import Verif.Props.Lines

/-!
The expectations of the project's own tests about tokenizers and markup, evaluated by the kernel in
the model.  These are tests of the model, not proofs about it.
-/

namespace Gaspra

/-! test_tokenizers.py, lines 26-82: every tokenizer gives back what it was given; `LineTokenizer` and
`SymbolTokenizer` make it shorter. -/

/-- The assertions of both tests for one tokenizer: `encode`, then `decode` in the state reached. -/
def comesBack {E S : Type} (tk : Tokenizer E S) (size : E → Nat) (below : Nat) (t : Text) : Bool :=
  match tk.encode tk.init t with
  | (st, .ok e) =>
    size e < below && (match tk.decode st e with | .ok r => r == t | .error _ => false)
  | _ => false

/-- A text in the four tokenizers; `n` is its length. -/
def comesBackAll (t : Text) (n : Nat) : Bool :=
  comesBack nullTokenizer (fun _ => 0) 1 t && comesBack charTokenizer List.length (n + 1) t &&
  comesBack lineTokenizer List.length n t && comesBack (symbolTokenizer asciiWord) List.length n t

example : comesBackAll (.str (cps "a b c\nxx y z\n")) 13 = true := by decide +kernel
example : ((utf8Encode (cps "a b c\nxx y z\n")).map fun b => comesBackAll (.bytes b) 13) = some
    true := by decide +kernel
example : comesBackAll (.str (cps "abc def xyz\n1234 456 789\n")) 25 = true := by decide +kernel
example : ((utf8Encode (cps "abc def xyz\n1234 456 789\n")).map fun b => comesBackAll (.bytes b)
    25) = some true := by decide +kernel
example : comesBackAll (.str (cps "a += b*c;\n   switch() {};")) 25 = true := by decide +kernel
example : ((utf8Encode (cps "a += b*c;\n   switch() {};")).map fun b => comesBackAll (.bytes b)
    25) = some true := by decide +kernel
example : comesBackAll (.str (cps "the quick brown fox")) 19 = true := by decide +kernel
example : ((utf8Encode (cps "the quick brown fox")).map fun b => comesBackAll (.bytes b) 19) =
    some true := by decide +kernel
example : comesBackAll (.str (cps "$abc a-b-c d_e\nxyz")) 18 = true := by decide +kernel
example : ((utf8Encode (cps "$abc a-b-c d_e\nxyz")).map fun b => comesBackAll (.bytes b) 18) =
    some true := by decide +kernel
example : comesBackAll (.str (cps "$ABC!@#$%^&*()")) 14 = true := by decide +kernel
example : ((utf8Encode (cps "$ABC!@#$%^&*()")).map fun b => comesBackAll (.bytes b) 14) = some
    true := by decide +kernel
-- All 256 bytes, which are not UTF-8.
example : comesBack nullTokenizer (fun _ => 0) 1 (.bytes ((List.range 256).map UInt8.ofNat)) =
    true := by decide +kernel
example : comesBack lineTokenizer List.length 256 (.bytes ((List.range 256).map UInt8.ofNat)) =
    true := by decide +kernel

/-! test_tokenizers.py, lines 85-119: `line_encode_strings`. -/

/-- `"\n".join(token_mapper[t] for t in token_stream)`. -/
def joinedLines (x : PyStr) : Option PyStr :=
  match lineEncodeStrings [x] with
  | some (dec, [toks]) => some (List.intercalate [10] (toks.map fun t => dec.getD t []))
  | _ => none

example : joinedLines (cps "") = some (cps "") := by decide +kernel
example : joinedLines (cps "\n") = some (cps "\n") := by decide +kernel
example : joinedLines (cps "\n\n") = some (cps "\n\n") := by decide +kernel
example : joinedLines (cps "\n\n\n") = some (cps "\n\n\n") := by decide +kernel
example : joinedLines (cps "a") = some (cps "a") := by decide +kernel
example : joinedLines (cps "a\n") = some (cps "a\n") := by decide +kernel
example : joinedLines (cps "a\n\n") = some (cps "a\n\n") := by decide +kernel
example : joinedLines (cps "a\nb") = some (cps "a\nb") := by decide +kernel
example : joinedLines (cps "a\nb\n") = some (cps "a\nb\n") := by decide +kernel
example : joinedLines (cps "a\nb\nc") = some (cps "a\nb\nc") := by decide +kernel
example : joinedLines (cps "a\nb\nc\n") = some (cps "a\nb\nc\n") := by decide +kernel
example : joinedLines (cps "\na\nb\nc\n") = some (cps "\na\nb\nc\n") := by decide +kernel

/-! test_markup.py, lines 11-79: `TEST_DIFF_MARKUP`. -/

def testLevel0 : Style where
  into := .entry (fun n => cps "< " ++ showName n ++ cps "\n") (always "[i]")
  frm := .entry (always "[f]") (fun n => cps "> " ++ showName n ++ cps "\n")
  separator := cps "=\n"
  header := (cps "{", cps "}")

def testLevel1 : Style where
  into := .entry (always "<") (always ">")
  frm := .entry (always "[") (always "]")
  separator := cps "|"
  header := ([], [])

/-- What is written to the buffer. -/
def markedUp (escape : PyStr → PyStr) (stream : List MItem) : PyStr × Option PyErr :=
  let (out, e) := markupChanges testLevel0 testLevel1 (cps "x") (cps "y") [] escape stream
  (out.flatten, e)

/-- A change of words inside a change of lines. -/
def nestedSample : List MItem :=
  [.text (cps "a\n"),
   .change (.seq [.common (cps "b"), .change (cps "c") [], .common (cps "\n")])
     (.seq [.common (cps "d"), .change [] (cps "e"), .common (cps "\n")]),
   .text (cps "f\n")]

example : markedUp id [.text (cps "")] = (cps "", none) := by decide +kernel
example : markedUp id [.text (cps "\n")] = (cps "\n", none) := by decide +kernel
example : markedUp id [.text (cps "\n\n")] = (cps "\n\n", none) := by decide +kernel
example : markedUp id [.text (cps "a\n")] = (cps "a\n", none) := by decide +kernel
example : markedUp id [.text (cps "a\n\n")] = (cps "a\n\n", none) := by decide +kernel
example : markedUp id [.text (cps "a\nb\n")] = (cps "a\nb\n", none) := by decide +kernel
example : markedUp id [.change (.str (cps "a\n")) (.str (cps "b\n"))] = (cps
    "< x\na\n[i]=\n[f]b\n> y\n", none) := by decide +kernel
example : markedUp id nestedSample = (cps "a\n< x\nb<c>|\n[i]=\n[f]d|[e]\n> y\nf\n", none) := by
    decide +kernel

/-! test_markup.py, lines 82-115: the escape function is `str.upper`. -/

def upper (s : PyStr) : PyStr := s.map fun c => if 97 ≤ c ∧ c ≤ 122 then c - 32 else c

example : markedUp upper [.text []] = ([], none) := by decide +kernel
example : markedUp upper [.text (cps "a\n")] = (cps "A\n", none) := by decide +kernel
example : markedUp upper [.change (.str (cps "a\n")) (.str (cps "b\n"))] = (cps
    "< x\nA\n[i]=\n[f]B\n> y\n", none) := by decide +kernel
example : markedUp upper nestedSample = (cps "A\n< x\nB<C>|\n[i]=\n[f]D|[E]\n> y\nF\n", none) :=
    by decide +kernel

/-! `str.isspace` for single characters. -/

#guard ((List.range 0x3100).filter pyIsSpace) = [0x9, 0xa, 0xb, 0xc, 0xd, 0x1c, 0x1d, 0x1e, 0x1f, 0x20, 0x85, 0xa0,
  0x1680, 0x2000, 0x2001, 0x2002, 0x2003, 0x2004, 0x2005, 0x2006, 0x2007, 0x2008, 0x2009, 0x200a, 0x2028, 0x2029,
  0x202f, 0x205f, 0x3000]

end Gaspra
