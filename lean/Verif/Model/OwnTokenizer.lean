import Verif.Model.Tokenizers

/-!
# Tokenizers with another way of cutting texts

`Versions` takes any `tokenizer_factory` (versions.py:31-32).  Here: the class `LineTokenizer` of
`src/gaspra/tokenizers.py` with the lines 143-151, which cut the text, replaced by any function.
-/

namespace Gaspra

/-- `LineTokenizer.encode` (tokenizers.py:138-153) with `pieces contents` for `lines`. -/
def pieceEncode (pieces : Text → List Text) (st : DictTok) (contents : Text) :
    DictTok × Except PyErr (List Nat) :=
  if wrongType st.src contents then (st, .error .runtimeError)
  else { st with src := some contents.type }.number (pieces contents)

/-- The tokenizer (tokenizers.py:129-161). -/
def pieceTokenizer (pieces : Text → List Text) : Tokenizer (List Nat) DictTok where
  init := .new
  encode := pieceEncode pieces
  decode := DictTok.decode
  diffSeq := diffInts

/-- The lines of `LineTokenizer` (tokenizers.py:151) without the last one if it is empty. -/
def cutLines : Text → List Text
  | .bytes b => ((addSeps 10 (pySplit 10 b)).filter fun p => !p.isEmpty).map .bytes
  | .str s => ((addSeps nl (pySplit nl s)).filter fun p => !p.isEmpty).map .str

end Gaspra
