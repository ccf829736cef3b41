import Verif.Model.SuffixAutomaton

/-!
# Model of the two functions that `src/gaspra/difflib_benchmark.py` compares

`difflib_lcs` calls `SequenceMatcher.find_longest_match` of the standard library, modelled here from
`Lib/difflib.py` of CPython 3.11 for the way it is called: without `isjunk`, with `autojunk=False` and with the
default ranges.  So no element is junk or popular, the `continue` and `break` for indices outside the ranges are
never taken, and the two loops that extend a match by junk are never entered.
The field `rounds` counts the rounds of the inner loop.
-/

namespace Gaspra

variable {α : Type _} [DecidableEq α]

/-- The loop of `__chain_b` (difflib.py:280-282): the indices of every element. -/
def chainB : Nat → List α → List (α × List Nat) → List (α × List Nat)
  | _, [], b2j => b2j
  | i, x :: rest, b2j => chainB (i + 1) rest (dset b2j x ((dget b2j x).getD [] ++ [i]))

/-- The variables of `find_longest_match`. -/
structure MatchState where
  besti : Nat
  bestj : Nat
  bestsize : Nat
  rounds : Nat
deriving DecidableEq, Repr

/-- `j2lenget(j-1, 0)` (difflib.py:385). -/
def lenBefore (j2len : List (Nat × Nat)) : Nat → Nat
  | 0 => 0
  | j + 1 => (dget j2len j).getD 0

/-- The inner loop (difflib.py:379-387). -/
def matchRow (i : Nat) (j2len : List (Nat × Nat)) :
    List Nat → List (Nat × Nat) → MatchState → List (Nat × Nat) × MatchState
  | [], new, st => (new, st)
  | j :: rest, new, st =>
    let k := lenBefore j2len j + 1
    let new := dset new j k
    let st := { st with rounds := st.rounds + 1 }
    matchRow i j2len rest new
      (if k > st.bestsize then { st with besti := i + 1 - k, bestj := j + 1 - k, bestsize := k } else st)

/-- The outer loop (difflib.py:374-388). -/
def matchRows (b2j : List (α × List Nat)) : Nat → List α → List (Nat × Nat) → MatchState → MatchState
  | _, [], _, st => st
  | i, x :: rest, j2len, st =>
    let r := matchRow i j2len ((dget b2j x).getD []) [] st
    matchRows b2j (i + 1) rest r.1 r.2

/-- The loop that extends a match to the left (difflib.py:394-397). -/
def extendLeft (a b : List α) : Nat → MatchState → MatchState
  | 0, st => st
  | f + 1, st =>
    if st.besti > 0 ∧ st.bestj > 0 ∧ a[st.besti - 1]? = b[st.bestj - 1]? then
      extendLeft a b f { st with besti := st.besti - 1, bestj := st.bestj - 1, bestsize := st.bestsize + 1 }
    else st

/-- The loop that extends a match to the right (difflib.py:398-401). -/
def extendRight (a b : List α) : Nat → MatchState → MatchState
  | 0, st => st
  | f + 1, st =>
    if st.besti + st.bestsize < a.length ∧ st.bestj + st.bestsize < b.length ∧
        a[st.besti + st.bestsize]? = b[st.bestj + st.bestsize]? then
      extendRight a b f { st with bestsize := st.bestsize + 1 }
    else st

/-- `find_longest_match()` (difflib.py:305-419) and its number of rounds.  Both loops at the end run at most
`len(a)` times. -/
def findLongestMatch (a b : List α) : MatchState :=
  extendRight a b a.length (extendLeft a b a.length (matchRows (chainB 0 b []) 0 a [] ⟨0, 0, 0, 0⟩))

/-- `difflib_lcs` (difflib_benchmark.py:14-20). -/
def difflibLcs (s1 s2 : List α) : Nat × Nat × Nat :=
  let st := findLongestMatch s1 s2
  (st.besti, st.bestj, st.bestsize)

/-- `string_matching_lcs` (difflib_benchmark.py:23-24). -/
def stringMatchingLcs (s1 s2 : List α) : Option (Nat × Nat × Nat) :=
  match build s1 with
  | none => none
  | some h => saFindLcs h s2

end Gaspra
