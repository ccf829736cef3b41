import Verif.Model.SuffixAutomaton

/-!
# Model of the dumps of an automaton

`dump` of `src/gaspra/dot_dump.py` and `dump` of `src/gaspra/suffix_automaton.py`.  Lines are values;
how ids and tokens are formatted is not modelled (a token is written as it is, so a quote or a newline
in the text breaks the dot file).
-/

namespace Gaspra

/-- A line written by `dump` (dot_dump.py:15, 18). -/
inductive DotLine (α : Type _) where
  /-- ` {id}[color=red]` -/
  | terminal (id : Nat)
  /-- ` {src} -> {dst} [label="{token}"]` -/
  | edge (src dst : Nat) (token : α)
deriving DecidableEq, Repr

variable {α : Type _}

/-- What is written for one node (dot_dump.py:14-18). -/
def dotBlock (h : Heap α) (cur : Nat) : List (DotLine α) :=
  match h[cur]? with
  | none => []
  | some nd => (if nd.isTerminal then [.terminal cur] else []) ++
      nd.transitions.map fun tr => .edge cur tr.2 tr.1

/-- The loop of `dump` (dot_dump.py:7-21).  The list `queue` has the top of the Python list first.
The first fuel argument bounds the number of passes. -/
def dotLoop (h : Heap α) : Nat → List Nat → List Nat → Option (List (DotLine α))
  | _, [], _ => some []
  | 0, _ :: _, _ => none
  | f + 1, cur :: queue, processed =>
    if cur ∈ processed then dotLoop h f queue processed
    else
      match h[cur]? with
      | none => none
      | some nd =>
        match dotLoop h f ((nd.transitions.map Prod.snd).reverse ++ queue) (cur :: processed) with
        | none => none
        | some rest => some (dotBlock h cur ++ rest)

/-- The number of transitions of all nodes. -/
def transitionCount (h : Heap α) : Nat := (h.map fun nd => nd.transitions.length).sum

/-- `dump(root, f)` (dot_dump.py:6-23). -/
def dotDump (h : Heap α) : Option (List (DotLine α)) := dotLoop h (transitionCount h + 1) [0] []

/-- A line printed by `dump` (suffix_automaton.py:321-329). -/
inductive DumpLine (α : Type _) where
  /-- `{id}: (length:{length}, is_terminal:{terminal})` -/
  | node (id length : Nat) (terminal : Bool)
  /-- `  {token} -> {dst}` -/
  | transition (token : α) (dst : Nat)
  /-- `  No transitions` -/
  | noTransitions
deriving DecidableEq, Repr

/-- What is printed for one node (suffix_automaton.py:321-329). -/
def dumpBlock (h : Heap α) (cur : Nat) : List (DumpLine α) :=
  match h[cur]? with
  | none => []
  | some nd => .node cur nd.length nd.isTerminal ::
      (if nd.transitions.isEmpty then [.noTransitions]
      else nd.transitions.map fun tr => .transition tr.1 tr.2)

/-- `dump(root, indent, dumped)` (suffix_automaton.py:311-334): the ids in `dumped` afterwards, in the
order of their addition, and the lines.  The fuel is the number of nested calls that Python allows;
`none` is a `RecursionError`. -/
def dumpFrom (h : Heap α) : Nat → Nat → List Nat → Option (List Nat × List (DumpLine α))
  | 0, _, _ => none
  | f + 1, cur, dumped =>
    if cur ∈ dumped then some (dumped, [])
    else
      match h[cur]? with
      | none => none
      | some nd =>
        nd.transitions.foldl (fun acc tr =>
          match acc with
          | none => none
          | some (dumped, out) =>
            match dumpFrom h f tr.2 dumped with
            | none => none
            | some (dumped, more) => some (dumped, out ++ more))
          (some (dumped ++ [cur], dumpBlock h cur))

end Gaspra
