import Verif.Model.BuildOptions
import Verif.Model.Utf8

/-!
# The types of the suffixes (`all_suffixes` and the option `empty` of `build`)

`all_suffixes` (suffix_automaton.py:288-306) puts tokens before suffixes in a way that depends on the
types of both.  Tokens are integers, strings or objects of another type; `==` of tokens is identity
here (`True`, which equals `1` and is not of type `int`, is left out).
-/

namespace Gaspra

/-- A token; `other` is any hashable object that is not of type `int` or `str`. -/
inductive PyTok where
  | int (n : Int)
  | str (s : PyStr)
  | other (n : Nat)
deriving DecidableEq, Repr

/-- `empty` or a suffix: of type `bytes`, `str`, a tuple, or of another type (a list, a range). -/
inductive PySeq where
  | bytes (b : Bytes)
  | str (s : PyStr)
  | tuple (l : List PyTok)
  | other
deriving DecidableEq, Repr

/-- What `build` is called with: a string, `bytes`, a tuple, a sequence of another type (a list), or
something that is not a `Sequence` (a generator). -/
inductive Source where
  | str (s : PyStr)
  | bytes (b : Bytes)
  | tuple (l : List PyTok)
  | list (l : List PyTok)
  | iterable (l : List PyTok)
deriving DecidableEq, Repr

/-- `for token in tokens`: the tokens of a string are strings of one character, those of `bytes` are
integers. -/
def Source.tokens : Source → List PyTok
  | .str s => s.map fun c => .str [c]
  | .bytes b => b.map fun c => .int c.toNat
  | .tuple l => l
  | .list l => l
  | .iterable l => l

/-- `tokens[0:0] if isinstance(tokens, Sequence) else ()` (suffix_automaton.py:79-80). -/
def Source.empty : Source → PySeq
  | .str _ => .str []
  | .bytes _ => .bytes []
  | .tuple _ => .tuple []
  | .list _ => .other
  | .iterable _ => .tuple []

/-- One token before a suffix (suffix_automaton.py:299-306); `bytes((token,))` is a `ValueError`
outside of `range(256)`. -/
def joinToken : PyTok → PySeq → Except PyErr PySeq
  | .int n, .bytes b =>
    if 0 ≤ n ∧ n < 256 then .ok (.bytes (UInt8.ofNat n.toNat :: b)) else .error .valueError
  | .str t, .str s => .ok (.str (t ++ s))
  | t, .tuple l => .ok (.tuple (t :: l))
  | _, _ => .error .valueError

/-- A generator as the items that it yields and the exception that ends it. -/
abbrev Yields (β : Type _) := List β × Option PyErr

/-- `for x in xs: yield f(x)`, which ends at the first exception. -/
def mapUntil {β γ : Type _} (f : β → Except PyErr γ) : List β → Yields γ
  | [] => ([], none)
  | x :: xs =>
    match f x with
    | .error e => ([], some e)
    | .ok y => (y :: (mapUntil f xs).1, (mapUntil f xs).2)

/-- One round of the outer loop (suffix_automaton.py:297-306): the suffixes `sub` of one node, each
with `token` in front of it, unless an exception has ended the generator before. -/
def joinAll (token : PyTok) (acc : Yields PySeq) (sub : Yields PySeq) : Yields PySeq :=
  match acc.2 with
  | some e => (acc.1, some e)
  | none =>
    let r := mapUntil (joinToken token) sub.1
    (acc.1 ++ r.1, match r.2 with
      | some e => some e
      | none => sub.2)

/-- `all_suffixes(current)` (suffix_automaton.py:288-306).  Fuel bounds the recursion depth. -/
def typedSuffixesFrom (h : Heap PyTok) (empty : PySeq) : Nat → Nat → Option (Yields PySeq)
  | 0, _ => none
  | f + 1, cur =>
    match h[cur]? with
    | none => none
    | some nd =>
      nd.transitions.foldl (fun acc tr =>
        match acc, typedSuffixesFrom h empty f tr.2 with
        | some out, some sub => some (joinAll tr.1 out sub)
        | _, _ => none) (some (if nd.isTerminal then [empty] else [], none))

/-- `all_suffixes(build(source, reverse_links, mark_terminals, empty))`; without `empty` the default
of suffix_automaton.py:79-80. -/
def suffixesOf (reverseLinks markTerms : Bool) (source : Source) (empty : Option PySeq) :
    Option (Yields PySeq) :=
  match buildWith reverseLinks markTerms source.tokens with
  | none => none
  | some h => typedSuffixesFrom h (empty.getD source.empty) (h.length + 1) 0

end Gaspra
