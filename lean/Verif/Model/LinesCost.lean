import Verif.Model.DiffToLines

/-!
# Counting the steps of a line diff

The functions of `Model/DiffToLines.lean` once more, together with the number of steps they take.  A
step is one round of a loop, one call of a method, one item handed to the caller, one element of a
list that is copied or appended, one character that `isspace` looks at or that `split`, `+` or `join`
copies.  Handing an item on through `yield from` is counted where the item is made.  Leaving out the
count gives back the original functions (theorem `C108_same_result`).
-/

namespace Gaspra

/-- The characters that `s.isspace()` looks at: up to the first one that is not white space. -/
def isSpaceSteps (sp : Nat → Bool) : PyStr → Nat
  | [] => 0
  | c :: s => 1 + if sp c then isSpaceSteps sp s else 0

/-- `finishConflict` with the number of steps (diff_to_lines.py:57-71). -/
def LineAcc.finishConflictC (st : LineAcc) (f : PyStr) : (LineAcc × List LineItem) × Nat :=
  (st.finishConflict f,
    3 + ((st.conditionalAdd f).1.into.length + (st.conditionalAdd f).1.frm.length) * 2)

/-- The characters that `"".join` copies, and one step for every string; it stops at a `Change`. -/
def joinSteps : List (DiffItem Nat) → Nat
  | [] => 0
  | .common s :: rest => 1 + s.length + joinSteps rest
  | .change _ _ :: _ => 1

/-- `flush` with the number of steps (diff_to_lines.py:73-83). -/
def LineAcc.flushC (st : LineAcc) : (List LineItem × Option PyErr) × Nat :=
  (st.flush,
    if st.inConflict then 1 + (st.finishConflictC (if st.finishable then [] else [nl])).2
    else 1 + joinSteps (st.frm ++ [.common [nl]]))

/-- The steps of `join_with_newline` (diff_to_lines.py:132-136): the slice that is its argument, the
lines, the joined characters, and the copy with the newline. -/
def joinWithNewlineSteps (lines : List PyStr) : Nat :=
  1 + lines.length * 2 + (joinWithNewline lines).length * 2

/-- `handleFragment` with the number of steps (diff_to_lines.py:103-129). -/
def handleFragmentC (sp : Nat → Bool) (st : LineAcc) :
    DiffItem Nat → (LineAcc × List LineItem) × Nat
  | .change a b => ((st.addConflict a b, []), 2)
  | .common f =>
    let n0 := if st.inConflict then isSpaceSteps sp f else 0
    if st.inConflict && isSpaceStr sp f then ((st.add f, []), n0 + 2)
    else
      let r0 := if st.finishable && st.isNonempty then st.finishConflictC [] else ((st, []), 0)
      let st := r0.1.1
      let lines := pySplit nl f
      let n := n0 + 1 + r0.2 + lines.length + f.length
      if lines.length > 1 then
        let r1 :=
          if st.inConflict then
            let r := st.finishConflictC (lines.headD [] ++ [nl])
            ((r.1.1, r.1.2 ++ yieldText (joinWithNewline lines.dropLast.tail)),
              r.2 + (lines.headD []).length + 1 + joinWithNewlineSteps lines.dropLast.tail)
          else ((st, yieldText (joinWithNewline lines.dropLast)), joinWithNewlineSteps lines.dropLast)
        let last := lines.getLastD []
        ((if last.isEmpty then r1.1.1 else r1.1.1.add last, r0.1.2 ++ r1.1.2), n + r1.2 + 2)
      else ((st.add (lines.headD []), r0.1.2), n + 2)

/-- `lineLoop` with the number of steps (diff_to_lines.py:89-95). -/
def lineLoopC (sp : Nat → Bool) (st : LineAcc) :
    List (DiffItem Nat) → (LineAcc × List LineItem) × Nat
  | [] => ((st, []), 0)
  | x :: rest =>
    if truthy x then
      let r := handleFragmentC sp st x
      let r' := lineLoopC sp r.1.1 rest
      ((r'.1.1, r.1.2 ++ r'.1.2), 1 + r.2 + r'.2)
    else
      let r' := lineLoopC sp st rest
      (r'.1, 1 + r'.2)

/-- `toLineDiff` with the number of steps (diff_to_lines.py:86-100). -/
def toLineDiffC (sp : Nat → Bool) (stream : List (DiffItem Nat)) :
    (List LineItem × Option PyErr) × Nat :=
  let r := lineLoopC sp {} stream
  let q := r.1.1.flushC
  match q.1 with
  | (o, some e) => ((r.1.2 ++ o, some e), 1 + r.2 + q.2)
  | (o, none) =>
    ((r.1.2 ++ o ++ (if stream.any truthy then [] else [.text []]), none), 1 + r.2 + q.2 + 1)

/-- `consolidateLoop` with the number of steps (diff_to_lines.py:152-166). -/
def consolidateLoopC (a b : List (DiffItem Nat)) : List LineItem → List LineItem × Nat
  | [] => (yieldChange a b, 1 + a.length + b.length)
  | .change x y :: rest =>
    let r := consolidateLoopC (a ++ x) (b ++ y) rest
    (r.1, 1 + x.length + y.length + r.2)
  | .text s :: rest =>
    let r := consolidateLoopC [] [] rest
    (yieldChange a b ++ [.text s] ++ r.1, 2 + a.length * 2 + b.length * 2 + r.2)

/-- `consolidatedLineDiff` with the number of steps (diff_to_lines.py:169-170). -/
def consolidatedLineDiffC (sp : Nat → Bool) (stream : List (DiffItem Nat)) :
    Except PyErr (List LineItem × Nat) :=
  match toLineDiffC sp stream with
  | ((items, none), n) =>
    .ok ((consolidateLoopC [] [] items).1, n + (consolidateLoopC [] [] items).2)
  | ((_, some e), _) => .error e

end Gaspra
