import Verif.Model.Tokenizers

/-!
# Counting the steps of numbering pieces

`generic_encode` and `line_encode_strings` (tokenizers.py:13-28, 40-49) once more, together with the
number of steps they take.  A step is one round of a loop or of a generator expression.  Splitting
the contents into pieces is not counted, and a dictionary access is part of its step.  Leaving out
the count gives back the original functions (theorem `C113_same_result`).
-/

namespace Gaspra

variable {β : Type _} [DecidableEq β]

/-- `numberTokens` with the number of rounds (tokenizers.py:43-45). -/
def numberTokensC : List (β × Nat) → List β → List (β × Nat) × Nat
  | enc, [] => (enc, 0)
  | enc, t :: rest =>
    let r := if dmem enc t then numberTokensC enc rest
      else numberTokensC (dset enc t enc.length) rest
    (r.1, r.2 + 1)

/-- `lookupTokens` with the number of rounds (tokenizers.py:49). -/
def lookupTokensC (enc : List (β × Nat)) : List β → Option (List Nat) × Nat
  | [] => (some [], 0)
  | t :: rest =>
    match dget enc t with
    | none => (none, 1)
    | some i =>
      let r := lookupTokensC enc rest
      (r.1.map (i :: ·), r.2 + 1)

/-- `tuple(k for k, _ in encoding.items())` with the number of rounds (tokenizers.py:47). -/
def decodingC : List (β × Nat) → List β × Nat
  | [] => ([], 0)
  | (k, _) :: rest =>
    let r := decodingC rest
    (k :: r.1, r.2 + 1)

/-- `DictTok.number` with the number of steps (tokenizers.py:40-49). -/
def DictTok.numberC (st : DictTok) (pieces : List Text) :
    (DictTok × Except PyErr (List Nat)) × Nat :=
  let r := numberTokensC st.encoding pieces
  let d := decodingC r.1
  match lookupTokensC r.1 pieces with
  | (none, n) => (({ st with encoding := r.1 }, .error .keyError), r.2 + d.2 + n)
  | (some toks, n) =>
    (({ st with encoding := r.1, decoding := some d.1 }, .ok toks), r.2 + d.2 + n)

/-- `lineEncode` with the number of steps (tokenizers.py:138-153). -/
def lineEncodeC (st : DictTok) (contents : Text) : (DictTok × Except PyErr (List Nat)) × Nat :=
  if wrongType st.src contents then ((st, .error .runtimeError), 0)
  else { st with src := some contents.type }.numberC (lineTokens contents)

/-- `symbolEncode` with the number of steps (tokenizers.py:173-190). -/
def symbolEncodeC (cls : Nat → Bool) (st : DictTok) (contents : Text) :
    (DictTok × Except PyErr (List Nat)) × Nat :=
  if wrongType st.src contents then ((st, .error .runtimeError), 0)
  else
    let st := { st with src := some contents.type }
    match contents with
    | .bytes b =>
      match utf8Decode b with
      | none => ((st, .error .unicodeError), 0)
      | some s =>
        match encodeAll (symbols cls s) with
        | none => ((st, .error .unicodeError), 0)
        | some ps => st.numberC (ps.map .bytes)
    | .str s => st.numberC ((symbols cls s).map .str)

/-- The steps of a sequence of calls of `encode` of one tokenizer. -/
def callsSteps (encodeC : DictTok → Text → (DictTok × Except PyErr (List Nat)) × Nat) :
    DictTok → List Text → Nat
  | _, [] => 0
  | st, x :: rest => (encodeC st x).2 + callsSteps encodeC (encodeC st x).1.1 rest

/-- The steps of the loop of `line_encode_strings` (tokenizers.py:19-26), and the dictionary. -/
def lineEncodeLoopC : List (PyStr × Nat) → List PyStr → List (PyStr × Nat) × Nat
  | enc, [] => (enc, 0)
  | enc, s :: rest =>
    let r := numberTokensC enc (pySplit nl s)
    let l := lookupTokensC r.1 (pySplit nl s)
    let m := lineEncodeLoopC r.1 rest
    (m.1, 1 + r.2 + l.2 + m.2)

/-- The steps of `line_encode_strings` (tokenizers.py:13-28): the table is made once. -/
def lineEncodeStringsSteps (strings : List PyStr) : Nat :=
  let m := lineEncodeLoopC [] strings
  m.2 + (decodingC m.1).2

end Gaspra
