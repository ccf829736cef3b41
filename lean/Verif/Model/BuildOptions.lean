import Verif.Model.SuffixAutomaton

/-!
# The options of `build` (`src/gaspra/suffix_automaton.py`)

`Model/SuffixAutomaton.lean` has `build` with the default options, which is how the package calls
it.  `empty` only decides of which type the results of `all_suffixes` are (`Model/SuffixTypes.lean`).
-/

namespace Gaspra

variable {α : Type _} [DecidableEq α]

/-- `build(tokens, reverse_links, mark_terminals)` (suffix_automaton.py:60-104). -/
def buildWith (reverseLinks markTerms : Bool) (tokens : List α) : Option (Heap α) :=
  match extendAll tokens 0 [{}] with
  | none => none
  | some (h, last) =>
    match h[last]? with
    | none => none
    | some ln =>
      match (if markTerms then markTerminals (ln.length + 1) h (some last) else some h) with
      | none => none
      | some h' => some (if reverseLinks then addReverseLinks h' else h')

end Gaspra
