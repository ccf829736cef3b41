import Verif.Model.Cost
import Verif.Model.MultipleStrings

/-!
# Counting the steps of `multiple_strings.find_lcs`

The functions of `Model/MultipleStrings.lean` once more, together with the number of steps they
take.  A step is one round of a loop, one element looked at by a comprehension, one element copied
by `set.union`, or one step of `build` (Model/Cost.lean); a dictionary access, `set.add` and a
comparison are part of a step.  The call of `sorted` in `_get_all_start_positions` is not counted;
the list it sorts is part of the count.  Leaving out the count gives back the original functions
(theorem `C94_same_result`).
-/

namespace Gaspra

variable {β : Type _} [DecidableEq β]

/-- More steps. -/
def addSteps {σ : Type _} (n : Nat) (r : Option (σ × Nat)) : Option (σ × Nat) :=
  r.map fun p => (p.1, n + p.2)

/-- `updateShared` with the number of steps (multiple_strings.py:128-141): one for every transition,
and `set.union` copies both sets. -/
def updateSharedC (isSep : β → Bool) (shared : List (Nat × List β)) :
    List (β × Nat) → List β → Option (List β × Nat)
  | [], acc => some (acc, 0)
  | (tok, child) :: rest, acc =>
    if isSep tok then addSteps 1 (updateSharedC isSep shared rest (setAdd acc tok))
    else
      match dget shared child with
      | none => none
      | some m =>
        addSteps (1 + acc.length + m.length) (updateSharedC isSep shared rest (setUnion acc m))

/-- `multiLoop` with the number of steps (multiple_strings.py:83-107).  The list comprehension of
line 92 looks at every transition, and so does the loop of lines 105-107. -/
def multiLoopC (isSep : Nat → β → Bool) (h : Heap β) (count : Nat) :
    Nat → MultiState β → Option (MultiState β × Nat)
  | f, st =>
    match st.stack with
    | [] => some (st, 0)
    | top :: rest =>
      match f with
      | 0 => none
      | f + 1 =>
        if dmem st.shared top then
          addSteps 1 (multiLoopC isSep h count f { st with stack := rest })
        else
          match h[top]? with
          | none => none
          | some nd =>
            if nd.transitions.all fun t => dmem st.shared t.2 then
              match updateSharedC (isSep top) st.shared nd.transitions [] with
              | none => none
              | some (s, n) =>
                let st := { st with shared := dset st.shared top s, stack := rest }
                if s.length = count ∧ st.maxLength < nd.length then
                  addSteps (1 + nd.transitions.length + n)
                    (multiLoopC isSep h count f { st with maxLength := nd.length, bestNode := top })
                else addSteps (1 + nd.transitions.length + n) (multiLoopC isSep h count f st)
            else
              let unknown := (nd.transitions.map Prod.snd).filter fun c => !dmem st.shared c
              addSteps (1 + 2 * nd.transitions.length)
                (multiLoopC isSep h count f { st with stack := unknown.reverse ++ top :: rest })

/-- `allStartPositions` with the number of steps (suffix_automaton.py:199-234): every node is visited
once, and the sorted list is read once. -/
def allStartPositionsC (h : Heap β) (cur len : Nat) : Option (List Nat × Nat) :=
  match followReverse h (h.length + 1) [cur] [] with
  | none => none
  | some nodes =>
    some (dedupSorted (sortNat (nodes.map fun i => endposOf h i - len)), 2 * nodes.length)

/-- The positions the inner loop of `get_string_offsets` looks at (multiple_strings.py:120-123). -/
def lookedAt (start : Nat) : List Nat → Nat
  | [] => 0
  | p :: ps => if start ≤ p then 1 else 1 + lookedAt start ps

/-- `stringOffsets` with the number of steps (multiple_strings.py:116-125). -/
def stringOffsetsC (positions : List Nat) : Nat → List (List β) → List Nat × Nat
  | _, [] => ([], 0)
  | start, s :: rest =>
    let r := stringOffsetsC positions (start + s.length + 1) rest
    match positions.find? fun p => start ≤ p with
    | some p => ((p - start) :: r.1, 1 + lookedAt start positions + r.2)
    | none => (r.1, 1 + lookedAt start positions + r.2)

/-- `multiFindLcs` with the number of steps (multiple_strings.py:28-113). -/
def multiFindLcsC (sep : Nat → β) (isSep : Nat → β → Bool) (strings : List (List β)) :
    Option ((List Nat × Option Nat) × Nat) :=
  match buildC (concatTokens sep strings) with
  | none => none
  | some (h, n) =>
    if strings.length = 0 then some (([], none), n)
    else
      match multiLoopC isSep h strings.length (multiFuel h) ⟨[0], [], 0, 0⟩ with
      | none => none
      | some (st, m) =>
        match allStartPositionsC h st.bestNode st.maxLength with
        | none => none
        | some (raw, k) =>
          let r := stringOffsetsC raw 0 strings
          some ((r.1, some st.maxLength), n + m + k + r.2)

/-- `find_lcs(*string_set)` with the number of steps, when no user token equals a `Separator`. -/
def findLcsMultipleC {α : Type _} [DecidableEq α] (strings : List (List α)) :
    Option ((List Nat × Option Nat) × Nat) :=
  multiFindLcsC (β := α ⊕ Nat) Sum.inr (fun _ t => t.isRight) (strings.map (·.map Sum.inl))

end Gaspra
