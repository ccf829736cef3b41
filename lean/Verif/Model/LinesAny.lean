import Verif.Model.DiffToLines

/-!
# `src/gaspra/diff_to_lines.py` on text of either type

`Model/DiffToLines.lean` covers streams of `str`.  Here the pieces may be `str` or `bytes`, as in
`decode_and_line_diff_changes` of `tokenizers.py`, whose tokenizer decides.  The literals `""` and
`"\n"` of the code are `str`.
-/

namespace Gaspra

/-- Item of a line diff: text, or a `Change` of two tuples of texts and inner `Change`s. -/
inductive AnyLine where
  | text (t : Text)
  | change (a b : List (Item Text))
deriving DecidableEq, Repr

/-- Truth value of a text. -/
def Text.truthy : Text → Bool
  | .bytes b => !b.isEmpty
  | .str s => !s.isEmpty

/-- `t[-1:] == "\n"`: `bytes` are never equal to a `str`. -/
def Text.endsNl : Text → Bool
  | .bytes _ => false
  | .str s => Gaspra.endsNl s

/-- Truth value of an item; a `Change` is true. -/
def Item.truthy : Item Text → Bool
  | .common t => t.truthy
  | .change _ _ => true

/-- `DiffAccumulator` (diff_to_lines.py:6-16). -/
structure AnyAcc where
  into : List (Item Text) := []
  frm : List (Item Text) := []
  finishable : Bool := true
  inConflict : Bool := false
deriving DecidableEq, Repr

namespace AnyAcc

/-- `add_conflict` (diff_to_lines.py:23-38). -/
def addConflict (st : AnyAcc) (a b : Text) : AnyAcc :=
  let aFin := if a.truthy then a.endsNl else st.finishable
  let bFin := if b.truthy then b.endsNl else st.finishable
  { into := st.into ++ [.change a (.str [])]
    frm := st.frm ++ [.change (.str []) b]
    finishable := aFin && bFin
    inConflict := true }

/-- `add` (diff_to_lines.py:48-52), which is only called with `str`. -/
def add (st : AnyAcc) (f : PyStr) : AnyAcc :=
  { into := st.into ++ [.common (.str f)]
    frm := st.frm ++ [.common (.str f)]
    finishable := if f.isEmpty then st.finishable else Gaspra.endsNl f
    inConflict := st.inConflict }

/-- `conditional_add` (diff_to_lines.py:40-46). -/
def conditionalAdd (st : AnyAcc) (f : PyStr) : AnyAcc × PyStr :=
  if st.finishable then (st, f)
  else if f.isEmpty then (st, [])
  else (st.add f, [])

/-- `is_nonempty` (diff_to_lines.py:54-55). -/
def isNonempty (st : AnyAcc) : Bool := !st.into.isEmpty && !st.frm.isEmpty

/-- `finish_conflict` (diff_to_lines.py:57-71). -/
def finishConflict (st : AnyAcc) (f : PyStr) : AnyAcc × List AnyLine :=
  let (st, f) := st.conditionalAdd f
  let out := AnyLine.change st.into st.frm
  let st := { st with into := [], frm := [], inConflict := false }
  (st, if f.isEmpty then [out] else [out, .text (.str f)])

end AnyAcc

/-- `"".join(items)`: a `TypeError` if an item is not a `str`. -/
def joinAny : List (Item Text) → Except PyErr PyStr
  | [] => .ok []
  | .common (.str s) :: rest =>
    match joinAny rest with
    | .ok r => .ok (s ++ r)
    | .error e => .error e
  | .common (.bytes _) :: _ => .error .typeError
  | .change _ _ :: _ => .error .typeError

/-- `flush` (diff_to_lines.py:73-83). -/
def AnyAcc.flush (st : AnyAcc) : List AnyLine × Option PyErr :=
  if st.inConflict then
    ((st.finishConflict (if st.finishable then [] else [nl])).2, none)
  else
    match st.frm with
    | [] => ([], none)
    | first :: _ =>
      if first.truthy then
        match joinAny (st.frm ++ [.common (.str [nl])]) with
        | .ok s => ([.text (.str s)], none)
        | .error e => ([], some e)
      else ([], none)

/-- `if joined := ...: yield joined`. -/
def yieldAny (s : PyStr) : List AnyLine := if s.isEmpty then [] else [.text (.str s)]

/-- `handle_fragment` (diff_to_lines.py:103-129): a piece that is neither a `Change` nor a `str` falls
through both branches. -/
def handleAny (sp : Nat → Bool) (st : AnyAcc) : Item Text → AnyAcc × List AnyLine
  | .change a b => (st.addConflict a b, [])
  | .common (.bytes _) => (st, [])
  | .common (.str f) =>
    if st.inConflict && isSpaceStr sp f then (st.add f, [])
    else
      let (st, out0) :=
        if st.finishable && st.isNonempty then st.finishConflict [] else (st, [])
      let lines := pySplit nl f
      if lines.length > 1 then
        let (st, out1) :=
          if st.inConflict then
            let (st, o) := st.finishConflict (lines.headD [] ++ [nl])
            (st, o ++ yieldAny (joinWithNewline lines.dropLast.tail))
          else (st, yieldAny (joinWithNewline lines.dropLast))
        let last := lines.getLastD []
        (if last.isEmpty then st else st.add last, out0 ++ out1)
      else (st.add (lines.headD []), out0)

/-- The loop of `to_line_diff` (diff_to_lines.py:89-95). -/
def anyLoop (sp : Nat → Bool) (st : AnyAcc) : List (Item Text) → AnyAcc × List AnyLine
  | [] => (st, [])
  | x :: rest =>
    if x.truthy then
      let (st, out) := handleAny sp st x
      let (st, out') := anyLoop sp st rest
      (st, out ++ out')
    else anyLoop sp st rest

/-- `to_line_diff` (diff_to_lines.py:86-100): the items and the exception, if any. -/
def toLineDiffAny (sp : Nat → Bool) (stream : List (Item Text)) : List AnyLine × Option PyErr :=
  let (st, out) := anyLoop sp {} stream
  match st.flush with
  | (o, some e) => (out ++ o, some e)
  | (o, none) => (out ++ o ++ (if stream.any Item.truthy then [] else [.text (.str [])]), none)

/-- `decode_and_line_diff_changes` (tokenizers.py:221-226), whose argument `transform` is not used.  An
exception of `decode_changes` ends the loop before `flush`. -/
def decodeAndLineDiffChanges {E S : Type _} (sp : Nat → Bool) (tk : Tokenizer E S) (st : S)
    (changes : List (Item E)) : List AnyLine × Option PyErr :=
  match decodeChanges tk st changes with
  | (items, none) => toLineDiffAny sp items
  | (items, some e) => ((anyLoop sp {} items).2, some e)

end Gaspra
