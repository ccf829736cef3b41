import Verif.Model.Versions
import Verif.Model.Merge

/-!
# Model of `src/gaspra/tokenizers.py`

Contents are `Text`: a `bytes` or a `str` object.  A tokenizer object is a state; `encode` returns
the state after the call together with the result or the exception, because a call can change
`source_type` and then raise.  Tokens of `LineTokenizer`, `SymbolTokenizer` and `CharTokenizer`
are integers; `NullTokenizer` passes the text itself on, so its encoded form is a `Text`.
-/

namespace Gaspra

/-- `bytes` or `str` contents. -/
inductive Text where
  | bytes (b : Bytes)
  | str (s : PyStr)
deriving DecidableEq, Repr

/-- The value of `source_type` once it is set. -/
inductive SrcType where
  | bytes
  | str
deriving DecidableEq, Repr

/-- `type(contents)`. -/
def Text.type : Text → SrcType
  | .bytes _ => .bytes
  | .str _ => .str

/-- The code point of `"\n"`. -/
def nl : Nat := 10

/-! ## The protocol, diffs of encoded texts -/

/-- An item of a diff of encoded texts (`E`) or of texts. -/
inductive Item (E : Type _) where
  | common (p : E)
  | change (a b : E)
deriving DecidableEq, Repr

/-- `Tokenizer` (tokenizers.py:52-57) with encoded form `E` and state `S`. -/
structure Tokenizer (E : Type _) (S : Type _) where
  init : S
  encode : S → Text → S × Except PyErr E
  decode : S → E → Except PyErr Text
  /-- `diff_token_sequences` on the encoded form; `none` if it does not terminate. -/
  diffSeq : E → E → Option (List (Item E))

/-- An item of a diff of lists of tokens. -/
def DiffItem.toItem {α E : Type _} (f : List α → E) : DiffItem α → Item E
  | .common p => .common (f p)
  | .change a b => .change (f a) (f b)

/-- `diff_token_sequences` on tuples of integers. -/
def diffInts (a b : List Nat) : Option (List (Item (List Nat))) :=
  (diffTokenSequences a b).map (·.map (DiffItem.toItem id))

/-- `diff_token_sequences` on two `bytes` or two `str`.  A `bytes` and a `str` have no token in
common; `NullTokenizer.encode` never lets such a pair through. -/
def diffTexts : Text → Text → Option (List (Item Text))
  | .bytes a, .bytes b => (diffTokenSequences a b).map (·.map (DiffItem.toItem .bytes))
  | .str a, .str b => (diffTokenSequences a b).map (·.map (DiffItem.toItem .str))
  | a, b => some [.change b a]

/-- The check at the start of every `encode`
(tokenizers.py:92-93, 106-107, 139-140, 174-175). -/
def wrongType (src : Option SrcType) (contents : Text) : Bool :=
  match src with
  | none => false
  | some t => t ≠ contents.type

/-! ## `NullTokenizer` -/

/-- `NullTokenizer.encode` (tokenizers.py:91-96). -/
def nullEncode (src : Option SrcType) (contents : Text) :
    Option SrcType × Except PyErr Text :=
  if wrongType src contents then (src, .error .runtimeError)
  else (some contents.type, .ok contents)

/-- `NullTokenizer` (tokenizers.py:83-99); `decode` is the identity. -/
def nullTokenizer : Tokenizer Text (Option SrcType) where
  init := none
  encode := nullEncode
  decode _ contents := .ok contents
  diffSeq := diffTexts

/-! ## `CharTokenizer` -/

/-- `CharTokenizer.encode` (tokenizers.py:105-114). -/
def charEncode (src : Option SrcType) (contents : Text) :
    Option SrcType × Except PyErr (List Nat) :=
  if wrongType src contents then (src, .error .runtimeError)
  else
    match contents with
    | .bytes b =>
      match utf8Decode b with
      | none => (some .bytes, .error .unicodeError)
      | some s => (some .bytes, .ok s)
    | .str s => (some .str, .ok s)

/-- `b"".join(chr(code).encode("utf-8") for code in contents)`. -/
def charJoinBytes : List Nat → Except PyErr Bytes
  | [] => .ok []
  | c :: rest =>
    if c < 0x110000 then
      match utf8EncodeCp c with
      | none => .error .unicodeError
      | some b =>
        match charJoinBytes rest with
        | .ok r => .ok (b ++ r)
        | .error e => .error e
    else .error .valueError

/-- `"".join(chr(code) for code in contents)`. -/
def charJoinStr : List Nat → Except PyErr PyStr
  | [] => .ok []
  | c :: rest =>
    if c < 0x110000 then
      match charJoinStr rest with
      | .ok r => .ok (c :: r)
      | .error e => .error e
    else .error .valueError

/-- `CharTokenizer.decode` (tokenizers.py:116-126). -/
def charDecode (src : Option SrcType) (contents : List Nat) : Except PyErr Text :=
  if src = some .bytes then (charJoinBytes contents).map .bytes
  else (charJoinStr contents).map .str

/-- `CharTokenizer` (tokenizers.py:102-126). -/
def charTokenizer : Tokenizer (List Nat) (Option SrcType) where
  init := none
  encode := charEncode
  decode := charDecode
  diffSeq := diffInts

/-! ## Numbering tokens -/

/-- The loop of `generic_encode` (tokenizers.py:43-45). -/
def numberTokens {β : Type _} [DecidableEq β] : List (β × Nat) → List β → List (β × Nat)
  | enc, [] => enc
  | enc, t :: rest =>
    if dmem enc t then numberTokens enc rest else numberTokens (dset enc t enc.length) rest

/-- `tuple(encoding[token] for token in tokens)`; `none` is a `KeyError`. -/
def lookupTokens {β : Type _} [DecidableEq β] (enc : List (β × Nat)) :
    List β → Option (List Nat)
  | [] => some []
  | t :: rest =>
    match dget enc t, lookupTokens enc rest with
    | some i, some r => some (i :: r)
    | _, _ => none

/-- `separator.join(pieces)` with an empty separator of the given type: `TypeError` if a piece has
the other type. -/
def joinTexts (t : SrcType) : List Text → Except PyErr Text
  | [] =>
    match t with
    | .bytes => .ok (.bytes [])
    | .str => .ok (.str [])
  | p :: rest =>
    match t, p, joinTexts t rest with
    | .bytes, .bytes b, .ok (.bytes r) => .ok (.bytes (b ++ r))
    | .str, .str s, .ok (.str r) => .ok (.str (s ++ r))
    | _, _, .error e => .error e
    | _, _, _ => .error .typeError

/-- `(decoding[t] for t in contents)`; `none` is an `IndexError`. -/
def lookupDecoding (decoding : List Text) : List Nat → Option (List Text)
  | [] => some []
  | t :: rest =>
    match decoding[t]?, lookupDecoding decoding rest with
    | some p, some r => some (p :: r)
    | _, _ => none

/-- The fields of `LineTokenizer` and `SymbolTokenizer` (tokenizers.py:130-136, 165-171);
`decoding` is not set before the first successful `encode`. -/
structure DictTok where
  src : Option SrcType
  encoding : List (Text × Nat)
  decoding : Option (List Text)
deriving DecidableEq, Repr

/-- A new tokenizer. -/
def DictTok.new : DictTok := ⟨none, [], none⟩

/-- `generic_encode` (tokenizers.py:40-49) and the assignments of its results
(tokenizers.py:152-153, 189-190). -/
def DictTok.number (st : DictTok) (pieces : List Text) : DictTok × Except PyErr (List Nat) :=
  let enc := numberTokens st.encoding pieces
  match lookupTokens enc pieces with
  | none => ({ st with encoding := enc }, .error .keyError)
  | some toks => ({ st with encoding := enc, decoding := some (enc.map Prod.fst) }, .ok toks)

/-- `LineTokenizer.decode` and `SymbolTokenizer.decode` with `generic_decode`
(tokenizers.py:34-37, 155-161, 192-200). -/
def DictTok.decode (st : DictTok) (contents : List Nat) : Except PyErr Text :=
  match st.decoding with
  | none => .error .attributeError
  | some d =>
    match lookupDecoding d contents with
    | none => .error .indexError
    | some pieces => joinTexts (if st.src = some .bytes then .bytes else .str) pieces

/-! ## `LineTokenizer` -/

/-- `l.split(sep)` for a separator of length one.  Never empty. -/
def pySplit {β : Type _} [DecidableEq β] (sep : β) : List β → List (List β)
  | [] => [[]]
  | c :: rest =>
    if c = sep then [] :: pySplit sep rest
    else
      match pySplit sep rest with
      | [] => [[c]]
      | p :: ps => (c :: p) :: ps

/-- `[*(line + split_on for line in split[:-1]), split[-1]]` (tokenizers.py:151). -/
def addSeps {β : Type _} (sep : β) : List (List β) → List (List β)
  | [] => []
  | [p] => [p]
  | p :: q :: ps => (p ++ [sep]) :: addSeps sep (q :: ps)

/-- The lines that `LineTokenizer.encode` numbers (tokenizers.py:143-151). -/
def lineTokens : Text → List Text
  | .bytes b => (addSeps 10 (pySplit 10 b)).map .bytes
  | .str s => (addSeps nl (pySplit nl s)).map .str

/-- `LineTokenizer.encode` (tokenizers.py:138-153). -/
def lineEncode (st : DictTok) (contents : Text) : DictTok × Except PyErr (List Nat) :=
  if wrongType st.src contents then (st, .error .runtimeError)
  else { st with src := some contents.type }.number (lineTokens contents)

/-- `LineTokenizer` (tokenizers.py:129-161). -/
def lineTokenizer : Tokenizer (List Nat) DictTok where
  init := .new
  encode := lineEncode
  decode := DictTok.decode
  diffSeq := diffInts

/-! ## `SymbolTokenizer` -/

/-- The longest prefix of characters of the class, and the rest. -/
def spanClass (cls : Nat → Bool) : PyStr → PyStr × PyStr
  | [] => ([], [])
  | c :: s => if cls c then ((c :: (spanClass cls s).1), (spanClass cls s).2) else ([], c :: s)

/-- `[m[0] for m in SYMBOLS.finditer(s)]` for `SYMBOLS = [\w\d$-]+|.|\n` (tokenizers.py:10): a
maximal run of characters of the class, or any single character (`.` does not match a newline,
the last alternative does).  `cls` is the membership test of the character class `[\w\d$-]`;
the Unicode table behind `\w` is a parameter.  The fuel is the length of the text. -/
def symbolsAux (cls : Nat → Bool) : Nat → PyStr → List PyStr
  | _, [] => []
  | 0, _ :: _ => []
  | f + 1, c :: s =>
    if cls c then (c :: (spanClass cls s).1) :: symbolsAux cls f (spanClass cls s).2
    else [c] :: symbolsAux cls f s

/-- The matches of `SYMBOLS` in `s`. -/
def symbols (cls : Nat → Bool) (s : PyStr) : List PyStr := symbolsAux cls s.length s

/-- `[token[0].encode("utf-8") for token in …]`; `none` is a `UnicodeEncodeError`. -/
def encodeAll : List PyStr → Option (List Bytes)
  | [] => some []
  | s :: rest =>
    match utf8Encode s, encodeAll rest with
    | some b, some r => some (b :: r)
    | _, _ => none

/-- `SymbolTokenizer.encode` (tokenizers.py:173-190). -/
def symbolEncode (cls : Nat → Bool) (st : DictTok) (contents : Text) :
    DictTok × Except PyErr (List Nat) :=
  if wrongType st.src contents then (st, .error .runtimeError)
  else
    let st := { st with src := some contents.type }
    match contents with
    | .bytes b =>
      match utf8Decode b with
      | none => (st, .error .unicodeError)
      | some s =>
        match encodeAll (symbols cls s) with
        | none => (st, .error .unicodeError)
        | some ps => st.number (ps.map .bytes)
    | .str s => st.number ((symbols cls s).map .str)

/-- `SymbolTokenizer` (tokenizers.py:164-200). -/
def symbolTokenizer (cls : Nat → Bool) : Tokenizer (List Nat) DictTok where
  init := .new
  encode := symbolEncode cls
  decode := DictTok.decode
  diffSeq := diffInts

/-! ## `line_encode_strings` -/

/-- The loop of `line_encode_strings` (tokenizers.py:19-26); `none` is a `KeyError`. -/
def lineEncodeLoop : List (PyStr × Nat) → List PyStr → Option (List (PyStr × Nat) × List (List Nat))
  | enc, [] => some (enc, [])
  | enc, s :: rest =>
    let lines := pySplit nl s
    let enc := numberTokens enc lines
    match lookupTokens enc lines, lineEncodeLoop enc rest with
    | some toks, some (enc', r) => some (enc', toks :: r)
    | _, _ => none

/-- `line_encode_strings` (tokenizers.py:13-28): the decoding and the encoded strings. -/
def lineEncodeStrings (strings : List PyStr) : Option (List PyStr × List (List Nat)) :=
  match lineEncodeLoop [] strings with
  | none => none
  | some (enc, r) => some (enc.map Prod.fst, r)

/-! ## `diff` and `merged` -/

section
variable {E S : Type _} (tk : Tokenizer E S)

/-- `decode_changes` (tokenizers.py:203-218): the items yielded and the exception that ends the
generator, if any. -/
def decodeChanges (st : S) : List (Item E) → List (Item Text) × Option PyErr
  | [] => ([], none)
  | .common p :: rest =>
    match tk.decode st p with
    | .error e => ([], some e)
    | .ok t => (.common t :: (decodeChanges st rest).1, (decodeChanges st rest).2)
  | .change a b :: rest =>
    match tk.decode st a with
    | .error e => ([], some e)
    | .ok ta =>
      match tk.decode st b with
      | .error e => ([], some e)
      | .ok tb => (.change ta tb :: (decodeChanges st rest).1, (decodeChanges st rest).2)

/-- `diff(original, modified, tokenizer)` (tokenizers.py:229-241): the state of the tokenizer
afterwards, and the exception of the call or the generator it returns, run to its end. -/
def tokDiff (st : S) (original modified : Text) :
    S × Except PyErr (List (Item Text) × Option PyErr) :=
  match tk.encode st original with
  | (st, .error e) => (st, .error e)
  | (st, .ok eo) =>
    match tk.encode st modified with
    | (st, .error e) => (st, .error e)
    | (st, .ok em) =>
      match tk.diffSeq eo em with
      | none => (st, .error .diverges)
      | some cs => (st, .ok (decodeChanges tk st cs))

/-- `merged(parent, current, other, tokenizer)` (tokenizers.py:244-263).  `merge_token_sequence`
computes the two changesets (merge.py:29-30; they exist exactly when the diffs exist) and returns
a generator that has not started; `decode_changes` is then called with three arguments and takes
two. -/
def tokMerged (st : S) (parent current other : Text) :
    S × Except PyErr (List (Item Text) × Option PyErr) :=
  match tk.encode st parent with
  | (st, .error e) => (st, .error e)
  | (st, .ok ep) =>
    match tk.encode st current with
    | (st, .error e) => (st, .error e)
    | (st, .ok ec) =>
      match tk.encode st other with
      | (st, .error e) => (st, .error e)
      | (st, .ok eo) =>
        match tk.diffSeq ep ec, tk.diffSeq ep eo with
        | some _, some _ => (st, .error .typeError)
        | _, _ => (st, .error .diverges)

end

/-- A tokenizer as `Versions` uses it, on `bytes` only. -/
def Tokenizer.bytesOps {Tok S : Type _} (tk : Tokenizer (List Tok) S) : TokOps Tok S where
  init := tk.init
  encode st b :=
    match tk.encode st (.bytes b) with
    | (st, .ok toks) => .ok (toks, st)
    | (_, .error e) => .error e
  decode st toks :=
    match tk.decode st toks with
    | .ok (.bytes b) => .ok b
    | .ok (.str _) => .error .typeError
    | .error e => .error e

end Gaspra
