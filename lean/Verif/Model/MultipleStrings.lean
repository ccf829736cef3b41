import Verif.Model.SuffixAutomaton

/-!
# Model of `src/gaspra/multiple_strings.py`

The functions are written for any token type `β` together with `sep : Nat → β`, the value of
`Separator(index)`, and `isSep id tok`, the outcome of `type(token) is Separator` for the key
object `tok` in the transition dictionary of node `id`.  For user tokens that are never equal to a
`Separator` this is `findLcsMultiple` below, on the disjoint sum of user tokens and separators.
(A `Separator` is a named tuple and equal to a plain 1-tuple, and a dictionary keeps the key object
that was inserted first; that is why `isSep` may depend on the node, see C08.)
-/

namespace Gaspra

variable {β : Type _} [DecidableEq β]

/-- `concatenate_strings` (multiple_strings.py:13-25). -/
def concatTokens (sep : Nat → β) (strings : List (List β)) : List β :=
  (strings.zipIdx.map fun (s, i) => s ++ [sep i]).flatten

/-- `set.add`, with a set as a list without repetitions. -/
def setAdd (s : List β) (x : β) : List β := if x ∈ s then s else s ++ [x]

/-- `set.union`. -/
def setUnion (s t : List β) : List β := t.foldl setAdd s

/-- `update_shared_strings` (multiple_strings.py:128-141); `none` is a `KeyError`.  The result is
the new value of `shared_strings[top.id]`. -/
def updateShared (isSep : β → Bool) (shared : List (Nat × List β)) :
    List (β × Nat) → List β → Option (List β)
  | [], acc => some acc
  | (tok, child) :: rest, acc =>
    if isSep tok then updateShared isSep shared rest (setAdd acc tok)
    else
      match dget shared child with
      | none => none
      | some m => updateShared isSep shared rest (setUnion acc m)

/-- The variables of the loop of `find_lcs` (multiple_strings.py:74-81).  The head of `stack` is
the last element of the Python list. -/
structure MultiState (β : Type _) where
  stack : List Nat
  shared : List (Nat × List β)
  maxLength : Nat
  bestNode : Nat
deriving DecidableEq, Repr

/-- The loop of `find_lcs` (multiple_strings.py:83-107). -/
def multiLoop (isSep : Nat → β → Bool) (h : Heap β) (count : Nat) :
    Nat → MultiState β → Option (MultiState β)
  | f, st =>
    match st.stack with
    | [] => some st
    | top :: rest =>
      match f with
      | 0 => none
      | f + 1 =>
        if dmem st.shared top then multiLoop isSep h count f { st with stack := rest }
        else
          match h[top]? with
          | none => none
          | some nd =>
            if nd.transitions.all fun t => dmem st.shared t.2 then
              match updateShared (isSep top) st.shared nd.transitions [] with
              | none => none
              | some s =>
                let st := { st with shared := dset st.shared top s, stack := rest }
                if s.length = count ∧ st.maxLength < nd.length then
                  multiLoop isSep h count f { st with maxLength := nd.length, bestNode := top }
                else multiLoop isSep h count f st
            else
              let unknown := (nd.transitions.map Prod.snd).filter fun c => !dmem st.shared c
              multiLoop isSep h count f { st with stack := unknown.reverse ++ top :: rest }

/-- `get_string_offsets` (multiple_strings.py:116-125): for every string the first position not
before its start. -/
def stringOffsets (positions : List Nat) : Nat → List (List β) → List Nat
  | _, [] => []
  | start, s :: rest =>
    match positions.find? fun p => start ≤ p with
    | some p => (p - start) :: stringOffsets positions (start + s.length + 1) rest
    | none => stringOffsets positions (start + s.length + 1) rest

/-- The number of loop iterations that is always enough. -/
def multiFuel (h : Heap β) : Nat :=
  h.length + (h.map fun nd => nd.transitions.length).sum + 1

/-- `find_lcs` (multiple_strings.py:28-113) for the given separators.  The outer `none` means that
the loop does not end or a `KeyError`. -/
def multiFindLcs (sep : Nat → β) (isSep : Nat → β → Bool) (strings : List (List β)) :
    Option (List Nat × Option Nat) :=
  match build (concatTokens sep strings) with
  | none => none
  | some h =>
    if strings.length = 0 then some ([], none)
    else
      match multiLoop isSep h strings.length (multiFuel h) ⟨[0], [], 0, 0⟩ with
      | none => none
      | some st =>
        match allStartPositions h st.bestNode st.maxLength with
        | none => none
        | some raw => some (stringOffsets raw 0 strings, some st.maxLength)

/-- `find_lcs(*string_set)` when no user token equals a `Separator`. -/
def findLcsMultiple {α : Type _} [DecidableEq α] (strings : List (List α)) :
    Option (List Nat × Option Nat) :=
  multiFindLcs (β := α ⊕ Nat) Sum.inr (fun _ t => t.isRight) (strings.map (·.map Sum.inl))

end Gaspra
