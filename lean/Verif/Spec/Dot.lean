import Verif.Model.Utf8

/-!
# Reading the DOT language

The part of the language of graphviz that is needed here: identifiers of letters, digits and
underscores, quoted strings in which `\"` stands for a quote, one attribute in brackets, and the
statements `a = b`, `a [b = c]`, `a -> b` and `a -> b [c = d]`.
-/

namespace Gaspra

/-- A token of the DOT language. -/
inductive DotTok where
  | word (s : PyStr)
  | quoted (s : PyStr)
  | arrow
  /-- one of `{ } [ ] =` -/
  | sym (c : Nat)
deriving DecidableEq, Repr

/-- Letters, digits and the underscore. -/
def dotWordChar (c : Nat) : Bool :=
  (97 ≤ c && c ≤ 122) || (65 ≤ c && c ≤ 90) || (48 ≤ c && c ≤ 57) || c == 95

/-- Where the lexer is. -/
inductive DotMode where
  | plain
  | word (acc : PyStr)
  | quote (acc : PyStr)
  /-- after a backslash in a quoted string -/
  | escape (acc : PyStr)
  /-- after a minus sign -/
  | dash

/-- The tokens of a text. -/
def lexDot : DotMode → PyStr → Option (List DotTok)
  | .plain, [] => some []
  | .word acc, [] => some [.word acc]
  | .quote _, [] => none
  | .escape _, [] => none
  | .dash, [] => none
  | .plain, c :: s =>
    if c = 32 ∨ c = 10 then lexDot .plain s
    else if dotWordChar c then lexDot (.word [c]) s
    else if c = 34 then lexDot (.quote []) s
    else if c = 45 then lexDot .dash s
    else if c = 123 ∨ c = 125 ∨ c = 91 ∨ c = 93 ∨ c = 61 then (lexDot .plain s).map (.sym c :: ·)
    else none
  | .word acc, c :: s =>
    if dotWordChar c then lexDot (.word (acc ++ [c])) s
    else if c = 32 ∨ c = 10 then (lexDot .plain s).map (.word acc :: ·)
    else if c = 34 then (lexDot (.quote []) s).map (.word acc :: ·)
    else if c = 45 then (lexDot .dash s).map (.word acc :: ·)
    else if c = 123 ∨ c = 125 ∨ c = 91 ∨ c = 93 ∨ c = 61 then
      (lexDot .plain s).map fun ts => .word acc :: .sym c :: ts
    else none
  | .quote acc, c :: s =>
    if c = 34 then (lexDot .plain s).map (.quoted acc :: ·)
    else if c = 92 then lexDot (.escape acc) s
    else lexDot (.quote (acc ++ [c])) s
  | .escape acc, c :: s =>
    if c = 34 then lexDot (.quote (acc ++ [34])) s
    else lexDot (.quote (acc ++ [92, c])) s
  | .dash, c :: s => if c = 62 then (lexDot .plain s).map (.arrow :: ·) else none

/-- A statement. -/
inductive DotStmt where
  /-- `name = value` -/
  | setting (name value : PyStr)
  /-- `id [name = value]` -/
  | node (id name value : PyStr)
  /-- `src -> dst`, with or without `[name = value]` -/
  | edge (src dst : PyStr) (attr : Option (PyStr × PyStr))
deriving DecidableEq, Repr

/-- The statements up to the closing brace, which has to be the last token. -/
def parseStmts : List DotTok → Option (List DotStmt)
  | [.sym 125] => some []
  | .word a :: .sym 61 :: .word b :: ts => (parseStmts ts).map (.setting a b :: ·)
  | .word a :: .sym 91 :: .word b :: .sym 61 :: .word c :: .sym 93 :: ts =>
    (parseStmts ts).map (.node a b c :: ·)
  | .word a :: .arrow :: .word b :: .sym 91 :: .word c :: .sym 61 :: .quoted d :: .sym 93 :: ts =>
    (parseStmts ts).map (.edge a b (some (c, d)) :: ·)
  | .word a :: .arrow :: .word b :: ts => (parseStmts ts).map (.edge a b none :: ·)
  | _ => none

/-- Reading a directed graph: its name and its statements. -/
def readDot (s : PyStr) : Option (PyStr × List DotStmt) :=
  match lexDot .plain s with
  | some (.word d :: .word name :: .sym 123 :: ts) =>
    if d = [100, 105, 103, 114, 97, 112, 104] then (parseStmts ts).map (name, ·) else none
  | _ => none

/-- Along arrows labelled with the characters of `w` one gets from `u` to `v`. -/
inductive DotPath (stmts : List DotStmt) : PyStr → PyStr → PyStr → Prop
  | here (u : PyStr) : DotPath stmts u [] u
  | step {u v x : PyStr} {c : Nat} {w : PyStr}
      (arrow : .edge u v (some ([108, 97, 98, 101, 108], [c])) ∈ stmts) (rest : DotPath stmts v w x) :
      DotPath stmts u (c :: w) x

end Gaspra
