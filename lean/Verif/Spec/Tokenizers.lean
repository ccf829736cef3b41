import Verif.Model.Tokenizers

/-!
# What a tokenizer is expected to do
-/

namespace Gaspra

section
variable {E S : Type _}

/-- The tokenizer after a sequence of `encode` calls, whether or not they raise. -/
def tokAfter (tk : Tokenizer E S) (calls : List Text) : S :=
  calls.foldl (fun st y => (tk.encode st y).1) tk.init

/-- The results of a sequence of `encode` calls. -/
def encodings (tk : Tokenizer E S) : S → List Text → List (Except PyErr E)
  | _, [] => []
  | st, x :: rest => (tk.encode st x).2 :: encodings tk (tk.encode st x).1 rest

/-- The first call, if there is one, had contents of the type of `x`. -/
def FirstCallLike (x : Text) (calls : List Text) : Prop := ∀ y, calls.head? = some y → y.type = x.type

/-- Lossless: after any calls starting with the right type, `encode(x)` succeeds, and after any
further calls (failing ones included) decoding its result gives `x` back. -/
def Lossless (tk : Tokenizer E S) (Good : Text → Prop) : Prop :=
  ∀ (before after : List Text) (x : Text), Good x → FirstCallLike x before →
    ∃ e, (tk.encode (tokAfter tk before) x).2 = .ok e ∧
      tk.decode (tokAfter tk (before ++ x :: after)) e = .ok x

end

/-- `bytes` that are valid UTF-8; any `str` (code points below `0x110000`). -/
def WellEncoded : Text → Prop
  | .bytes b => ∃ s, utf8Encode s = some b
  | .str s => ∀ c ∈ s, c < 0x110000

/-- The pieces are texts of the type of `x` and give `x` when joined. -/
def Spells (x : Text) (pieces : List Text) : Prop :=
  match x with
  | .bytes b => ∃ bs : List Bytes, pieces = bs.map .bytes ∧ bs.flatten = b
  | .str s => ∃ ss : List PyStr, pieces = ss.map .str ∧ ss.flatten = s

/-- `ps` are the lines of `l`: joined they are `l`; each but the last ends with its only newline,
and the last has none. -/
def IsLinesOf {β : Type _} (newline : β) (l : List β) (ps : List (List β)) : Prop :=
  ps.flatten = l ∧ ∃ init last, ps = init ++ [last] ∧ newline ∉ last ∧
    ∀ p ∈ init, ∃ q, p = q ++ [newline] ∧ newline ∉ q

/-- The lines of a text. -/
def IsLines : Text → List Text → Prop
  | .bytes b, ps => ∃ qs, ps = qs.map .bytes ∧ IsLinesOf 10 b qs
  | .str s, ps => ∃ qs, ps = qs.map .str ∧ IsLinesOf 10 s qs

/-- A piece made of characters of the class. -/
def AllClass (cls : Nat → Bool) (p : PyStr) : Prop := ∀ c ∈ p, cls c = true

/-- `ps` are the symbols of `s`: joined they are `s`; each is a single character outside the class
or a nonempty run of characters of the class; no two runs are adjacent. -/
def IsSymbolsOf (cls : Nat → Bool) (s : PyStr) (ps : List PyStr) : Prop :=
  ps.flatten = s ∧
  (∀ p ∈ ps, (∃ c, p = [c] ∧ cls c = false) ∨ (p ≠ [] ∧ AllClass cls p)) ∧
  ∀ l p q r, ps = l ++ p :: q :: r → ¬ (AllClass cls p ∧ AllClass cls q)

/-- The symbols of a text; for `bytes` they are the encoded symbols of the decoded text. -/
def IsSymbols (cls : Nat → Bool) : Text → List Text → Prop
  | .bytes b, ps => ∃ (s : PyStr) (qs : List PyStr) (bs : List Bytes), utf8Encode s = some b ∧ IsSymbolsOf cls s qs ∧
      qs.map utf8Encode = bs.map some ∧ ps = bs.map .bytes
  | .str s, ps => ∃ qs, ps = qs.map .str ∧ IsSymbolsOf cls s qs

/-- The pieces of the text a diff leads to. -/
def intoPieces (d : List (Item Text)) : List Text :=
  d.map fun
    | .common p => p
    | .change a _ => a

/-- The pieces of the text a diff starts from. -/
def fromPieces (d : List (Item Text)) : List Text :=
  d.map fun
    | .common p => p
    | .change _ b => b

end Gaspra
