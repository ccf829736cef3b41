import Verif.Proofs.LazyDiff
import Verif.Props.Tokenizers

/-!
# C107: a diff may be read at any time

The items of a diff are decoded when the caller asks for them.  They are the same however late that
is and whatever has been encoded with the same tokenizer in between: other texts, other diffs, calls
that fail.
-/

namespace Gaspra

/-- A diff started on a tokenizer with any history can be read under any schedule of further calls,
always with the same items and without an exception, and the items spell both texts. -/
def ReadAnyTime {E S : Type _} (tk : Tokenizer E S) (Good : Text → Prop) : Prop :=
  ∀ (before : List Text) (o m : Text), Good o → Good m → o.type = m.type →
    FirstCallLike o before →
    ∃ pending items, (startDiff tk (tokAfter tk before) o m).2 = .ok pending ∧
      (∀ schedule, readItems tk (startDiff tk (tokAfter tk before) o m).1 schedule pending =
        (items, none)) ∧
      Spells m (intoPieces items) ∧ Spells o (fromPieces items)

theorem readAnyTime {E S : Type _} {tk : Tokenizer E S} {Good : Text → Prop} (h : DiffSpells tk Good)
    {P : S → Prop} (D : DecodeStable tk P)
    (hp : ∀ before (o m : Text), Good o → o.type = m.type → FirstCallLike o before →
      P (tk.encode (tk.encode (tokAfter tk before) o).1 m).1) :
    ReadAnyTime tk Good := by
  intro before o m ho hm hom hf
  obtain ⟨items, h1, h2, h3⟩ := h before o m ho hm hom hf
  obtain ⟨pending, k1, k2, _, k4⟩ := tokDiff_start h1
  exact ⟨pending, items, k1, fun schedule => D.read schedule (k4 ▸ hp before o m ho hom hf) k2, h2, h3⟩

/-- C107, `NullTokenizer`. -/
theorem C107_null : ReadAnyTime nullTokenizer (fun _ => True) :=
  readAnyTime C41_null_diff null_stable fun _ _ _ _ _ _ => trivial

/-- C107, `CharTokenizer`. -/
theorem C107_char : ReadAnyTime charTokenizer WellEncoded :=
  readAnyTime C41_char_diff char_stable fun before o m _ _ hf => by
    have e : ∃ t, tokAfter charTokenizer (before ++ [o, m]) = some t := by
      cases before with
      | nil => exact ⟨_, char_src_first o [m]⟩
      | cons y ys => exact ⟨_, char_src_first y (ys ++ [o, m])⟩
    simpa [tokAfter, List.foldl_append] using e

theorem DictLike.after_two {encode : DictTok → Text → DictTok × Except PyErr (List Nat)}
    {Good : Text → Prop} {pieces : Text → List Text} (D : DictLike encode Good pieces)
    (before : List Text) (o m : Text) :
    DictInv (encode (encode (before.foldl (fun st y => (encode st y).1) DictTok.new) o).1 m).1 ∧
    ∃ t, (encode (encode (before.foldl (fun st y => (encode st y).1) DictTok.new) o).1 m).1.src =
      some t := by
  have e : ∃ t, ((before ++ [o, m]).foldl (fun st y => (encode st y).1) DictTok.new).src = some t := by
    cases before with
    | nil => exact ⟨_, D.src_first o [m]⟩
    | cons y ys => exact ⟨_, D.src_first y (ys ++ [o, m])⟩
  have i := (D.steps (before ++ [o, m]) .new).inv
  simp only [List.foldl_append, List.foldl_cons, List.foldl_nil] at e i
  exact ⟨i, e⟩

/-- C107, `LineTokenizer`. -/
theorem C107_line : ReadAnyTime lineTokenizer (fun _ => True) :=
  readAnyTime C41_line_diff (lineLike.stable rfl rfl) fun before o m _ _ _ =>
    lineLike.after_two before o m

/-- C107, `SymbolTokenizer`. -/
theorem C107_symbol (cls : Nat → Bool) : ReadAnyTime (symbolTokenizer cls)
    (fun x => ∀ b, x = .bytes b → ∃ s, utf8Encode s = some b) :=
  readAnyTime (C41_symbol_diff cls) ((symbolLike cls).stable rfl rfl) fun before o m _ _ _ =>
    (symbolLike cls).after_two before o m

/-- C107: reading at once is the schedule without calls. -/
theorem C107_at_once {E S : Type _} (tk : Tokenizer E S) (st : S) (cs : List (Item E)) :
    readItems tk st [] cs = decodeChanges tk st cs := by
  induction cs with
  | nil => rfl
  | cons c cs ih =>
    rw [decodeChanges_cons]
    simp only [readItems, List.headD_nil, encodeCalls, List.tail_nil, ih]
    cases decodeItem tk st c <;> rfl

/-- Three diffs on one tokenizer, the first one read after the start of the others. -/
example :
    let st := (startDiff lineTokenizer .new (strOf "a\nb\nc") (strOf "a\nX\nc")).1
    (readItems lineTokenizer st [[strOf "p\nq", strOf "q\na"], [], [bytesOf "z"]]
      [.common [0], .change [3] [1], .common [2]]) =
    ([.common (strOf "a\n"), .change (strOf "X\n") (strOf "b\n"), .common (strOf "c")], none) := by
  decide +kernel
example : (startDiff lineTokenizer .new (strOf "a\nb\nc") (strOf "a\nX\nc")).2 =
    .ok [.common [0], .change [3] [1], .common [2]] := by decide +kernel
/-- The later calls do change the tables. -/
example :
    let st := (startDiff lineTokenizer .new (strOf "a\nb\nc") (strOf "a\nX\nc")).1
    st ≠ encodeCalls lineTokenizer st [strOf "p\nq"] := by decide +kernel

end Gaspra
