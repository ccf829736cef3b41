import Verif.Model.Tokenizers

/-!
# Model of `src/gaspra/diff_to_lines.py`

Input streams consist of `str` fragments and `Change` objects of two `str`; a fragment that is
neither (for example `bytes`) is silently dropped by `handle_fragment` and does not occur here
(`Model/LinesAny.lean` has it).  `str.isspace` is a parameter `sp` on code points.  Generators are lists; the only place
where an exception could occur is the `"".join` in `flush`.
-/

namespace Gaspra

/-- Item of a line diff: text, or a `Change` of two tuples of texts and inner `Change`s. -/
inductive LineItem where
  | text (s : PyStr)
  | change (a b : List (DiffItem Nat))
deriving DecidableEq, Repr

/-- `DiffAccumulator` (diff_to_lines.py:6-16). -/
structure LineAcc where
  into : List (DiffItem Nat) := []
  frm : List (DiffItem Nat) := []
  finishable : Bool := true
  inConflict : Bool := false
deriving DecidableEq, Repr

/-- `fragment[-1:] == "\n"`. -/
def endsNl (s : PyStr) : Bool := s.getLast? = some nl

/-- `s.isspace()`: nonempty and only white space. -/
def isSpaceStr (sp : Nat → Bool) (s : PyStr) : Bool := !s.isEmpty && s.all sp

/-- The code points for which `str.isspace` holds (Unicode `White_Space` and `\x1c`-`\x1f`). -/
def pyIsSpace (c : Nat) : Bool :=
  (9 ≤ c ∧ c ≤ 13) ∨ (28 ≤ c ∧ c ≤ 32) ∨ c = 133 ∨ c = 160 ∨ c = 5760 ∨
    (8192 ≤ c ∧ c ≤ 8202) ∨ c = 8232 ∨ c = 8233 ∨ c = 8239 ∨ c = 8287 ∨ c = 12288

namespace LineAcc

/-- `add_conflict` (diff_to_lines.py:23-38). -/
def addConflict (st : LineAcc) (a b : PyStr) : LineAcc :=
  let aFin := if a.isEmpty then st.finishable else endsNl a
  let bFin := if b.isEmpty then st.finishable else endsNl b
  { into := st.into ++ [.change a []]
    frm := st.frm ++ [.change [] b]
    finishable := aFin && bFin
    inConflict := true }

/-- `add` (diff_to_lines.py:48-52). -/
def add (st : LineAcc) (f : PyStr) : LineAcc :=
  { into := st.into ++ [.common f]
    frm := st.frm ++ [.common f]
    finishable := if f.isEmpty then st.finishable else endsNl f
    inConflict := st.inConflict }

/-- `conditional_add` (diff_to_lines.py:40-46). -/
def conditionalAdd (st : LineAcc) (f : PyStr) : LineAcc × PyStr :=
  if st.finishable then (st, f)
  else if f.isEmpty then (st, [])
  else (st.add f, [])

/-- `is_nonempty` (diff_to_lines.py:54-55). -/
def isNonempty (st : LineAcc) : Bool := !st.into.isEmpty && !st.frm.isEmpty

/-- `finish_conflict` (diff_to_lines.py:57-71). -/
def finishConflict (st : LineAcc) (f : PyStr) : LineAcc × List LineItem :=
  let (st, f) := st.conditionalAdd f
  let out := LineItem.change st.into st.frm
  let st := { st with into := [], frm := [], inConflict := false }
  (st, if f.isEmpty then [out] else [out, .text f])

end LineAcc

/-- `"".join(items)`: a `TypeError` if an item is a `Change`. -/
def joinStrs : List (DiffItem Nat) → Except PyErr PyStr
  | [] => .ok []
  | .common s :: rest =>
    match joinStrs rest with
    | .ok r => .ok (s ++ r)
    | .error e => .error e
  | .change _ _ :: _ => .error .typeError

/-- Truth value of an item: an empty `str` is false, a `Change` (a pair) is true. -/
def truthy : DiffItem Nat → Bool
  | .common s => !s.isEmpty
  | .change _ _ => true

/-- `flush` (diff_to_lines.py:73-83): the items and the exception, if any. -/
def LineAcc.flush (st : LineAcc) : List LineItem × Option PyErr :=
  if st.inConflict then
    ((st.finishConflict (if st.finishable then [] else [nl])).2, none)
  else
    match st.frm with
    | [] => ([], none)
    | first :: _ =>
      if truthy first then
        match joinStrs (st.frm ++ [.common [nl]]) with
        | .ok s => ([.text s], none)
        | .error e => ([], some e)
      else ([], none)

/-- `join_with_newline` (diff_to_lines.py:132-136). -/
def joinWithNewline (lines : List PyStr) : PyStr :=
  if lines.isEmpty then [] else List.intercalate [nl] lines ++ [nl]

/-- `if joined := ...: yield joined`. -/
def yieldText (s : PyStr) : List LineItem := if s.isEmpty then [] else [.text s]

/-- `handle_fragment` (diff_to_lines.py:103-129). -/
def handleFragment (sp : Nat → Bool) (st : LineAcc) : DiffItem Nat → LineAcc × List LineItem
  | .change a b => (st.addConflict a b, [])
  | .common f =>
    if st.inConflict && isSpaceStr sp f then (st.add f, [])
    else
      let (st, out0) :=
        if st.finishable && st.isNonempty then st.finishConflict [] else (st, [])
      let lines := pySplit nl f
      if lines.length > 1 then
        let (st, out1) :=
          if st.inConflict then
            let (st, o) := st.finishConflict (lines.headD [] ++ [nl])
            (st, o ++ yieldText (joinWithNewline lines.dropLast.tail))
          else (st, yieldText (joinWithNewline lines.dropLast))
        let last := lines.getLastD []
        (if last.isEmpty then st else st.add last, out0 ++ out1)
      else (st.add (lines.headD []), out0)

/-- The loop of `to_line_diff` (diff_to_lines.py:89-95); falsy fragments are skipped. -/
def lineLoop (sp : Nat → Bool) (st : LineAcc) : List (DiffItem Nat) → LineAcc × List LineItem
  | [] => (st, [])
  | x :: rest =>
    if truthy x then
      let (st, out) := handleFragment sp st x
      let (st, out') := lineLoop sp st rest
      (st, out ++ out')
    else lineLoop sp st rest

/-- `to_line_diff` (diff_to_lines.py:86-100): the items and the exception, if any. -/
def toLineDiff (sp : Nat → Bool) (stream : List (DiffItem Nat)) : List LineItem × Option PyErr :=
  let (st, out) := lineLoop sp {} stream
  match st.flush with
  | (o, some e) => (out ++ o, some e)
  | (o, none) => (out ++ o ++ (if stream.any truthy then [] else [.text []]), none)

/-- `Change(tuple(a_fragments), tuple(b_fragments))` if there is anything to yield. -/
def yieldChange (a b : List (DiffItem Nat)) : List LineItem :=
  if a.isEmpty && b.isEmpty then [] else [.change a b]

/-- The loop of `consolidate` (diff_to_lines.py:152-166). -/
def consolidateLoop (a b : List (DiffItem Nat)) : List LineItem → List LineItem
  | [] => yieldChange a b
  | .change x y :: rest => consolidateLoop (a ++ x) (b ++ y) rest
  | .text s :: rest => yieldChange a b ++ [.text s] ++ consolidateLoop [] [] rest

/-- `consolidate` (diff_to_lines.py:143-166).  The input is drained before anything else happens
in the model; if it raises, the items before the exception that were still being collected are
lost. -/
def consolidateLines (stream : List LineItem) : List LineItem := consolidateLoop [] [] stream

/-- `consolidated_line_diff` (diff_to_lines.py:169-170). -/
def consolidatedLineDiff (sp : Nat → Bool) (stream : List (DiffItem Nat)) :
    Except PyErr (List LineItem) :=
  match toLineDiff sp stream with
  | (items, none) => .ok (consolidateLines items)
  | (_, some e) => .error e

end Gaspra
