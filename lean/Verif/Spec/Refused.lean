import Verif.Spec.Versions

/-!
# Specification of a version store whose tokenizer refuses some contents

`CharTokenizer` and `SymbolTokenizer` decode the contents as UTF-8.  A store that uses one of them
is not asked to accept other contents; this is what it does with them.
-/

namespace Gaspra

variable {τ : Type _} [DecidableEq τ] (valid : Bytes → Prop) [DecidablePred valid]

/-- The exception of a call, given the current heads and their contents: a call without a base
succeeds, a base that is not a head is a `KeyError`, and a new version can only be based on a head
when the contents of both are valid. -/
def refusal (heads : List (τ × Bytes)) (a : AddOp τ) : Option PyErr :=
  match a.base with
  | none => none
  | some b =>
    match heads.find? (fun p => p.1 = b) with
    | none => some .keyError
    | some p => if valid p.2 ∧ valid a.content then none else some .unicodeError

/-- The heads after a call: a call that succeeds uses up its base, and every call leaves its own tag
as a head. -/
def headsAfter (heads : List (τ × Bytes)) (a : AddOp τ) : List (τ × Bytes) :=
  (if refusal valid heads a = none then heads.filter (fun p => a.base ≠ some p.1) else heads) ++
    [(a.tag, a.content)]

/-- The heads and their contents after a history. -/
def headsWith (h : List (AddOp τ)) : List (τ × Bytes) := h.foldl (headsAfter valid) []

end Gaspra
