import Verif.Model.Py

/-!
# Model of `src/gaspra/suffix_automaton.py`

The object graph of `Node`s is a heap: the list of all nodes in creation order
(exactly the `node_list` of `build`, lines 82-87); a reference to a node is its
position in the heap, which is also the node's `id` (lines 22-36).
-/

namespace Gaspra

/-- `class Node` (suffix_automaton.py:11-20).  `id` is the position in the heap; the field
`empty` is only used by `all_suffixes` to pick the result type and is not stored. -/
structure Node (α : Type _) where
  length : Nat := 0
  transitions : List (α × Nat) := []
  firstEndpos : Nat := 0
  isTerminal : Bool := false
  link : Option Nat := none
  reverseLinks : List Nat := []
deriving DecidableEq, Repr

/-- All nodes created so far, in creation order (`node_list`, suffix_automaton.py:84). -/
abbrev Heap (α : Type _) := List (Node α)

variable {α : Type _} [DecidableEq α]

/-- The first loop of `extend` (suffix_automaton.py:124-129):
`while current is not None and token not in current.transitions`.
Returns the heap, `previous` and `current`.  `none` = loop did not finish within the fuel. -/
def addLoop (tok : α) (new : Nat) : Nat → Heap α → Option Nat → Option Nat →
    Option (Heap α × Option Nat × Option Nat)
  | _, h, prev, none => some (h, prev, none)
  | 0, _, _, some _ => none
  | f + 1, h, prev, some cur =>
    match h[cur]? with
    | none => none
    | some nd =>
      match dget nd.transitions tok with
      | some _ => some (h, prev, some cur)
      | none =>
        addLoop tok new f (h.set cur { nd with transitions := dset nd.transitions tok new })
          (some cur) nd.link

/-- The loop of `insert_node` (suffix_automaton.py:157-164): redirect transitions on `tok`
from `q` to `clone` while climbing the suffix links.  The comparison
`current.transitions[token] == q` is the dataclass `__eq__`, modelled as equality of ids. -/
def redirectLoop (tok : α) (q clone : Nat) : Nat → Heap α → Option Nat → Option (Heap α)
  | _, h, none => some h
  | 0, _, some _ => none
  | f + 1, h, some cur =>
    match h[cur]? with
    | none => none
    | some nd =>
      if dget nd.transitions tok = some q then
        redirectLoop tok q clone f
          (h.set cur { nd with transitions := dset nd.transitions tok clone }) nd.link
      else some h

/-- `insert_node` (suffix_automaton.py:143-166).  Returns the heap and the clone. -/
def insertNode (tok : α) (p q : Nat) (h : Heap α) : Option (Heap α × Nat) :=
  match h[p]?, h[q]? with
  | some pn, some qn =>
    let clone := h.length
    -- clone = node_factory(length=..., first_endpos=..., link=q.link, transitions=copy)
    let h1 := h ++ [{ length := pn.length + 1, firstEndpos := qn.firstEndpos,
                      link := qn.link, transitions := qn.transitions }]
    -- q.link = clone
    let h2 := h1.set q { qn with link := some clone }
    match redirectLoop tok q clone (pn.length + 1) h2 (some p) with
    | none => none
    | some h3 => some (h3, clone)
  | _, _ => none

/-- `new_node.link = l`. -/
def setLink (h : Heap α) (i : Nat) (l : Option Nat) : Heap α :=
  match h[i]? with
  | none => h
  | some nd => h.set i { nd with link := l }

/-- `extend` (suffix_automaton.py:107-140).  Returns the heap and `new_node`. -/
def extend (tok : α) (last : Nat) (h : Heap α) : Option (Heap α × Nat) :=
  match h[last]? with
  | none => none
  | some ln =>
    let new := h.length
    let h1 := h ++ [{ length := ln.length + 1, firstEndpos := ln.length + 1 }]
    match addLoop tok new (ln.length + 1) h1 none (some last) with
    | none => none
    | some (h2, prev, none) => some (setLink h2 new prev, new)
    | some (h2, _, some cur) =>
      match h2[cur]? with
      | none => none
      | some cn =>
        match dget cn.transitions tok with
        | none => none
        | some q =>
          match h2[q]? with
          | none => none
          | some qn =>
            if qn.length = cn.length + 1 then
              some (setLink h2 new (some q), new)
            else
              match insertNode tok cur q h2 with
              | none => none
              | some (h3, clone) => some (setLink h3 new (some clone), new)

/-- The `for token in tokens` loop of `build` (suffix_automaton.py:92-96). -/
def extendAll : List α → Nat → Heap α → Option (Heap α × Nat)
  | [], last, h => some (h, last)
  | t :: ts, last, h =>
    match extend t last h with
    | none => none
    | some (h', last') => extendAll ts last' h'

/-- `mark_terminal_nodes` (suffix_automaton.py:169-174). -/
def markTerminals : Nat → Heap α → Option Nat → Option (Heap α)
  | _, h, none => some h
  | 0, _, some _ => none
  | f + 1, h, some cur =>
    match h[cur]? with
    | none => none
    | some nd => markTerminals f (h.set cur { nd with isTerminal := true }) nd.link

/-- One step of `add_reverse_links`: `node.link.reverse_links.append(node)`. -/
def addReverseLink (h : Heap α) (i : Nat) : Heap α :=
  match h[i]? with
  | none => h
  | some nd =>
    match nd.link with
    | none => h
    | some l =>
      match h[l]? with
      | none => h
      | some ln => h.set l { ln with reverseLinks := ln.reverseLinks ++ [i] }

/-- `add_reverse_links` (suffix_automaton.py:177-181). -/
def addReverseLinks (h : Heap α) : Heap α :=
  (List.range h.length).foldl addReverseLink h

/-- `build` (suffix_automaton.py:60-104) with the default flags `mark_terminals=True` and
`reverse_links=True`.  The returned root is node 0. -/
def build (tokens : List α) : Option (Heap α) :=
  match extendAll tokens 0 [{}] with
  | none => none
  | some (h, last) =>
    match h[last]? with
    | none => none
    | some ln =>
      match markTerminals (ln.length + 1) h (some last) with
      | none => none
      | some h' => some (addReverseLinks h')

/-- `_find_match_node` (suffix_automaton.py:208-214), started at node `cur`. -/
def matchNode (h : Heap α) : Nat → List α → Option Nat
  | cur, [] => some cur
  | cur, t :: ts =>
    match h[cur]? with
    | none => none
    | some nd =>
      match dget nd.transitions t with
      | none => none
      | some nxt => matchNode h nxt ts

/-- `first_endpos` of a node. -/
def endposOf (h : Heap α) (i : Nat) : Nat :=
  match h[i]? with
  | none => 0
  | some nd => nd.firstEndpos

/-- `find_substring(root, s)` (suffix_automaton.py:184-188). -/
def saFindSubstring (h : Heap α) (s : List α) : Option Nat :=
  match matchNode h 0 s with
  | none => none
  | some cur => some (endposOf h cur - s.length)

/-- `follow_reverse_links` (suffix_automaton.py:217-226): explicit stack, popped from the
end.  The list `stack` has the top of the Python list first, so appending the children
one after the other pushes them in reverse. -/
def followReverse (h : Heap α) : Nat → List Nat → List Nat → Option (List Nat)
  | _, [], all => some all
  | 0, _ :: _, _ => none
  | f + 1, cur :: stack, all =>
    match h[cur]? with
    | none => none
    | some nd => followReverse h f (nd.reverseLinks.reverse ++ stack) (all ++ [cur])

/-- `dedup_sorted` (suffix_automaton.py:229-234). -/
def dedupSorted (xs : List Nat) : List Nat :=
  xs.foldl (fun acc c => if acc.getLast? = some c then acc else acc ++ [c]) []

/-- `_get_all_start_positions` (suffix_automaton.py:199-205). -/
def allStartPositions (h : Heap α) (cur len : Nat) : Option (List Nat) :=
  match followReverse h (h.length + 1) [cur] [] with
  | none => none
  | some nodes => some (dedupSorted (sortNat (nodes.map fun i => endposOf h i - len)))

/-- `find_substring_all(root, s)` (suffix_automaton.py:191-196). -/
def saFindSubstringAll (h : Heap α) (s : List α) : Option (List Nat) :=
  match matchNode h 0 s with
  | none => some []
  | some cur => allStartPositions h cur s.length

/-- State of the loop of `find_lcs`. -/
structure LcsState where
  current : Nat
  curLen : Nat
  bestLen : Nat
  bestEnd1 : Nat
  bestEnd2 : Nat
deriving DecidableEq, Repr

/-- The inner `while` of `find_lcs` (suffix_automaton.py:265-269).  Returns `next`,
`current` and `current_match_length`. -/
def lcsClimb (h : Heap α) (tok : α) : Nat → Nat → Nat → Option (Option Nat × Nat × Nat)
  | 0, _, _ => none
  | f + 1, cur, len =>
    match h[cur]? with
    | none => none
    | some nd =>
      match dget nd.transitions tok with
      | some nxt => some (some nxt, cur, len)
      | none =>
        match nd.link with
        | none => some (none, cur, len)
        | some l =>
          match h[l]? with
          | none => none
          | some ln => lcsClimb h tok f l ln.length

/-- One iteration of the `for` loop of `find_lcs` (suffix_automaton.py:264-279). -/
def lcsStep (h : Heap α) (st : LcsState) (pos : Nat) (tok : α) : Option LcsState :=
  match lcsClimb h tok (h.length + 1) st.current st.curLen with
  | none => none
  | some (nxt, cur, len) =>
    let (cur, len) := match nxt with
      | some n => (n, len + 1)
      | none => (cur, len)
    if st.bestLen < len then
      some { current := cur, curLen := len, bestLen := len,
             bestEnd1 := endposOf h cur, bestEnd2 := pos + 1 }
    else
      some { st with current := cur, curLen := len }

/-- The `for position, token in enumerate(s)` loop of `find_lcs`. -/
def lcsLoop (h : Heap α) : LcsState → Nat → List α → Option LcsState
  | st, _, [] => some st
  | st, pos, t :: ts =>
    match lcsStep h st pos t with
    | none => none
    | some st' => lcsLoop h st' (pos + 1) ts

/-- `find_lcs(root, s)` (suffix_automaton.py:237-285). -/
def saFindLcs (h : Heap α) (s : List α) : Option (Nat × Nat × Nat) :=
  match lcsLoop h ⟨0, 0, 0, 0, 0⟩ 0 s with
  | none => none
  | some st => some (st.bestEnd1 - st.bestLen, st.bestEnd2 - st.bestLen, st.bestLen)

/-- `all_suffixes(current)` (suffix_automaton.py:288-306), as the list of yielded
sequences.  Fuel bounds the recursion depth. -/
def allSuffixesFrom (h : Heap α) : Nat → Nat → Option (List (List α))
  | 0, _ => none
  | f + 1, cur =>
    match h[cur]? with
    | none => none
    | some nd =>
      nd.transitions.foldl (fun acc tr =>
        match acc, allSuffixesFrom h f tr.2 with
        | some out, some subs => some (out ++ subs.map (tr.1 :: ·))
        | _, _ => none) (some (if nd.isTerminal then [[]] else []))

/-- `all_suffixes(root)`. -/
def allSuffixes (h : Heap α) : Option (List (List α)) :=
  allSuffixesFrom h (h.length + 1) 0

/-! ## `src/gaspra/wrappers.py` -/

/-- `wrappers.find_substring` (wrappers.py:6-21). -/
def findSubstring (searchIn searchFor : List α) : Option (List Nat) :=
  match build searchIn with
  | none => none
  | some h => saFindSubstringAll h searchFor

/-- `wrappers.find_lcs` (wrappers.py:24-47). -/
def findLcs (a b : List α) : Option (Nat × Nat × Nat) :=
  match build a with
  | none => none
  | some h => saFindLcs h b

end Gaspra
