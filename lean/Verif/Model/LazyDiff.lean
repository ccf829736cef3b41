import Verif.Model.Tokenizers

/-!
# Model of `diff` as a generator (`src/gaspra/tokenizers.py`)

`diff` returns a generator: the two texts are encoded at once, but a piece is decoded only when the
caller asks for it, with the tables that the tokenizer has then.  `tokDiff` of
`Model/Tokenizers.lean` runs the generator to its end at once.  Here the caller may call `encode` on
the same tokenizer before each item, for example by starting other diffs.
-/

namespace Gaspra

section
variable {E S : Type _} (tk : Tokenizer E S)

/-- The state after `encode` calls, whatever they return or raise. -/
def encodeCalls (st : S) : List Text → S
  | [] => st
  | x :: calls => encodeCalls (tk.encode st x).1 calls

/-- `diff` up to its `return` (tokenizers.py:229-241): the tokenizer, and the changes that
`decode_changes` has not looked at yet. -/
def startDiff (st : S) (original modified : Text) : S × Except PyErr (List (Item E)) :=
  match tk.encode st original with
  | (st, .error e) => (st, .error e)
  | (st, .ok eo) =>
    match tk.encode st modified with
    | (st, .error e) => (st, .error e)
    | (st, .ok em) =>
      match tk.diffSeq eo em with
      | none => (st, .error .diverges)
      | some cs => (st, .ok cs)

/-- One step of `decode_changes` (tokenizers.py:212-218). -/
def decodeItem (st : S) : Item E → Except PyErr (Item Text)
  | .common p =>
    match tk.decode st p with
    | .error e => .error e
    | .ok t => .ok (.common t)
  | .change a b =>
    match tk.decode st a with
    | .error e => .error e
    | .ok ta =>
      match tk.decode st b with
      | .error e => .error e
      | .ok tb => .ok (.change ta tb)

/-- `decode_changes` (tokenizers.py:203-218) read item by item; `calls` are the `encode` calls that
happen before the item is asked for.  When the schedule is used up, no more calls happen. -/
def readItems (st : S) : List (List Text) → List (Item E) → List (Item Text) × Option PyErr
  | _, [] => ([], none)
  | schedule, c :: rest =>
    let st := encodeCalls tk st (schedule.headD [])
    match decodeItem tk st c with
    | .error e => ([], some e)
    | .ok i => (i :: (readItems st schedule.tail rest).1, (readItems st schedule.tail rest).2)

end

end Gaspra
