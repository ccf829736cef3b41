import Verif.Model.LinesAny
import Verif.Props.Lines

/-!
# C96: line diffs of text of either type
-/

set_option linter.unusedSectionVars false
set_option linter.unusedSimpArgs false
set_option linter.unusedVariables false

namespace Gaspra

/-- An item of a line diff of `str`, as an item of a line diff of either type. -/
def LineItem.toAny : LineItem → AnyLine
  | .text s => .text (.str s)
  | .change a b => .change (a.map (DiffItem.toItem .str)) (b.map (DiffItem.toItem .str))

/-- The accumulator for `str`, as one for either type. -/
def LineAcc.toAny (st : LineAcc) : AnyAcc :=
  { into := st.into.map (DiffItem.toItem .str), frm := st.frm.map (DiffItem.toItem .str),
    finishable := st.finishable, inConflict := st.inConflict }

theorem truthy_toItem (x : DiffItem Nat) : (x.toItem Text.str).truthy = truthy x := by
  cases x <;> rfl

theorem addConflict_toAny (st : LineAcc) (a b : PyStr) :
    st.toAny.addConflict (.str a) (.str b) = (st.addConflict a b).toAny := by
  cases a <;> cases b <;>
    simp [AnyAcc.addConflict, LineAcc.addConflict, LineAcc.toAny, DiffItem.toItem, Text.truthy, Text.endsNl]

theorem add_toAny (st : LineAcc) (f : PyStr) : st.toAny.add f = (st.add f).toAny := by
  simp [AnyAcc.add, LineAcc.add, LineAcc.toAny, DiffItem.toItem]

theorem conditionalAdd_toAny (st : LineAcc) (f : PyStr) :
    st.toAny.conditionalAdd f = ((st.conditionalAdd f).1.toAny, (st.conditionalAdd f).2) := by
  have h : st.toAny.finishable = st.finishable := rfl
  unfold AnyAcc.conditionalAdd LineAcc.conditionalAdd
  rw [h, add_toAny]
  cases st.finishable <;> cases f <;> rfl

theorem finishConflict_toAny (st : LineAcc) (f : PyStr) :
    st.toAny.finishConflict f =
      ((st.finishConflict f).1.toAny, (st.finishConflict f).2.map LineItem.toAny) := by
  unfold AnyAcc.finishConflict LineAcc.finishConflict
  rw [conditionalAdd_toAny]
  obtain ⟨st', f'⟩ := st.conditionalAdd f
  cases f' <;> rfl

theorem joinAny_toItem : ∀ l : List (DiffItem Nat), joinAny (l.map (DiffItem.toItem .str)) = joinStrs l
  | [] => rfl
  | .common s :: rest => by
    simp only [List.map_cons, DiffItem.toItem, joinAny, joinStrs, joinAny_toItem rest]
    cases joinStrs rest <;> rfl
  | .change a b :: rest => rfl

theorem flush_toAny (st : LineAcc) : st.toAny.flush = (st.flush.1.map LineItem.toAny, st.flush.2) := by
  unfold AnyAcc.flush LineAcc.flush
  have h1 : st.toAny.inConflict = st.inConflict := rfl
  have h2 : st.toAny.finishable = st.finishable := rfl
  have h3 : st.toAny.frm = st.frm.map (DiffItem.toItem .str) := rfl
  rw [h1, h2, h3, finishConflict_toAny]
  cases st.inConflict with
  | true => rfl
  | false =>
    simp only [Bool.false_eq_true, if_false]
    cases hf : st.frm with
    | nil => rfl
    | cons x l =>
      have hj := joinAny_toItem (x :: l ++ [.common [nl]])
      simp only [List.map_append, List.map_cons, List.map_nil] at hj ⊢
      rw [truthy_toItem]
      have e : DiffItem.toItem Text.str (.common [nl]) = .common (.str [nl]) := rfl
      rw [e] at hj
      rw [hj]
      cases truthy x with
      | false => rfl
      | true => simp only [if_true]; cases joinStrs (x :: l ++ [.common [nl]]) <;> rfl

theorem yieldAny_eq (s : PyStr) : yieldAny s = (yieldText s).map LineItem.toAny := by
  unfold yieldAny yieldText
  split <;> rfl

theorem handle_toAny (sp : Nat → Bool) (st : LineAcc) (x : DiffItem Nat) :
    handleAny sp st.toAny (x.toItem .str) =
      ((handleFragment sp st x).1.toAny, (handleFragment sp st x).2.map LineItem.toAny) := by
  cases x with
  | change a b => simp only [DiffItem.toItem, handleAny, handleFragment, addConflict_toAny]; rfl
  | common f =>
    simp only [DiffItem.toItem, handleAny, handleFragment]
    have h1 : ∀ st : LineAcc, st.toAny.inConflict = st.inConflict := fun _ => rfl
    have h2 : st.toAny.finishable = st.finishable := rfl
    have h3 : st.toAny.isNonempty = st.isNonempty := by
      simp [AnyAcc.isNonempty, LineAcc.isNonempty, LineAcc.toAny]
    rw [h1, h2, h3, add_toAny]
    by_cases hc : (st.inConflict && isSpaceStr sp f) = true
    · rw [if_pos hc, if_pos hc]; rfl
    rw [if_neg hc, if_neg hc]
    have h4 : (if (st.finishable && st.isNonempty) = true then st.toAny.finishConflict [] else (st.toAny, [])) =
        ((if (st.finishable && st.isNonempty) = true then st.finishConflict [] else (st, [])).1.toAny,
         (if (st.finishable && st.isNonempty) = true then st.finishConflict [] else (st, [])).2.map
          LineItem.toAny) := by
      split
      · exact finishConflict_toAny _ _
      · rfl
    rw [h4]
    generalize (if (st.finishable && st.isNonempty) = true then st.finishConflict [] else (st, [])) = r
    obtain ⟨s1, o1⟩ := r
    simp only [h1, add_toAny, finishConflict_toAny, yieldAny_eq]
    by_cases hl : (pySplit nl f).length > 1
    · rw [if_pos hl, if_pos hl]
      by_cases hi : s1.inConflict = true
      · rw [if_pos hi, if_pos hi]
        simp only [add_toAny, List.map_append]
        split <;> rfl
      · rw [if_neg hi, if_neg hi]
        simp only [add_toAny, List.map_append]
        split <;> rfl
    · rw [if_neg hl, if_neg hl]

theorem loop_toAny (sp : Nat → Bool) : ∀ (l : List (DiffItem Nat)) (st : LineAcc),
    anyLoop sp st.toAny (l.map (DiffItem.toItem .str)) =
      ((lineLoop sp st l).1.toAny, (lineLoop sp st l).2.map LineItem.toAny)
  | [], st => rfl
  | x :: rest, st => by
    simp only [List.map_cons, anyLoop, lineLoop, truthy_toItem, handle_toAny]
    by_cases hx : truthy x = true
    · rw [if_pos hx, if_pos hx, loop_toAny sp rest, List.map_append]
    · rw [if_neg hx, if_neg hx, loop_toAny sp rest]

/-- C96, `str`.  On streams of `str` this is the line diff of the claims C45 to C47, C58 and C75. -/
theorem C96_str (sp : Nat → Bool) (d : List (DiffItem Nat)) :
    toLineDiffAny sp (d.map (DiffItem.toItem .str)) =
      ((toLineDiff sp d).1.map LineItem.toAny, (toLineDiff sp d).2) := by
  unfold toLineDiffAny toLineDiff
  have h0 : ({} : AnyAcc) = ({} : LineAcc).toAny := rfl
  have ha : (d.map (DiffItem.toItem Text.str)).any Item.truthy = d.any truthy := by
    induction d with
    | nil => rfl
    | cons x d ih => simp only [List.map_cons, List.any_cons, truthy_toItem, ih]
  rw [h0, loop_toAny, ha]
  obtain ⟨st, out⟩ := lineLoop sp {} d
  simp only [flush_toAny]
  obtain ⟨o, e⟩ := st.flush
  cases e with
  | some e => simp
  | none =>
    simp only [List.map_append]
    split <;> rfl

/-- The changes of a stream of `bytes`. -/
def byteChanges : List (Item Bytes) → List (Bytes × Bytes)
  | [] => []
  | .common _ :: rest => byteChanges rest
  | .change a b :: rest => (a, b) :: byteChanges rest

/-- A stream of `bytes` as a stream of either type. -/
def Item.asText : Item Bytes → Item Text
  | .common b => .common (.bytes b)
  | .change a b => .change (.bytes a) (.bytes b)

/-- Nothing but empty texts. -/
def emptyChange (c : Bytes × Bytes) : Bool := c.1.isEmpty && c.2.isEmpty

theorem anyLoop_bytes (sp : Nat → Bool) : ∀ (l : List (Item Bytes)) (st : AnyAcc),
    anyLoop sp st (l.map Item.asText) =
      ({ into := st.into ++ (byteChanges l).map fun c => .change (.bytes c.1) (.str [])
         frm := st.frm ++ (byteChanges l).map fun c => .change (.str []) (.bytes c.2)
         finishable := st.finishable && (byteChanges l).all emptyChange
         inConflict := st.inConflict || !(byteChanges l).isEmpty }, [])
  | [], st => by simp [anyLoop, byteChanges]
  | .common b :: rest, st => by
    simp only [List.map_cons, Item.asText, anyLoop, byteChanges, handleAny, anyLoop_bytes sp rest,
      List.nil_append]
    split <;> rfl
  | .change a b :: rest, st => by
    simp only [List.map_cons, Item.asText, anyLoop, byteChanges, handleAny, anyLoop_bytes sp rest,
      Item.truthy, if_true, AnyAcc.addConflict, Text.truthy, Text.endsNl]
    cases a <;> cases b <;> cases st.finishable <;> simp [emptyChange]

/-- C96, `bytes`.  A line diff of `bytes` loses every common piece and every line: if the stream has
changes, they all come out as one `Change`, closed by the `str` `"\n"` unless all of them are empty; if it
has none, nothing comes out, or the `str` `""` if all pieces are empty. -/
theorem C96_bytes (sp : Nat → Bool) (items : List (Item Bytes)) :
    toLineDiffAny sp (items.map Item.asText) =
      (if byteChanges items = [] then
        (if (items.map Item.asText).any Item.truthy then [] else [.text (.str [])])
      else
        let tail : List (Item Text) :=
          if (byteChanges items).all emptyChange then [] else [.common (.str [nl])]
        [.change ((byteChanges items).map (fun c => .change (.bytes c.1) (.str [])) ++ tail)
          ((byteChanges items).map (fun c => .change (.str []) (.bytes c.2)) ++ tail)], none) := by
  unfold toLineDiffAny
  rw [anyLoop_bytes]
  simp only [List.nil_append, Bool.true_and, Bool.false_or]
  by_cases hc : byteChanges items = []
  · rw [if_pos hc, hc]
    simp [AnyAcc.flush]
  · rw [if_neg hc]
    have hany : (items.map Item.asText).any Item.truthy = true := by
      revert hc
      induction items with
      | nil => intro hc; exact absurd rfl hc
      | cons x rest ih =>
        intro hc
        cases x with
        | common b =>
          simp only [byteChanges] at hc
          simp only [List.map_cons, List.any_cons, ih hc, Bool.or_true]
        | change a b => simp [Item.asText, Item.truthy]
    have hne : (byteChanges items).isEmpty = false := by
      cases h : byteChanges items with
      | nil => exact absurd h hc
      | cons _ _ => rfl
    rw [hany, hne]
    cases hf : (byteChanges items).all emptyChange <;>
      simp [AnyAcc.flush, AnyAcc.finishConflict, AnyAcc.conditionalAdd, AnyAcc.add, hf]

/-- Outside of a conflict only `str` is accumulated. -/
def AnyAcc.Joinable (st : AnyAcc) : Prop :=
  st.inConflict = false → ∀ x ∈ st.frm, ∃ s, x = .common (.str s)

theorem AnyAcc.Joinable.add {st : AnyAcc} (h : st.Joinable) (f : PyStr) : (st.add f).Joinable := by
  intro hc x hx
  rcases List.mem_append.1 hx with hx | hx
  · exact h hc x hx
  · exact ⟨f, List.mem_singleton.1 hx⟩

theorem AnyAcc.finishConflict_joinable (st : AnyAcc) (f : PyStr) : (st.finishConflict f).1.Joinable := by
  intro _ x hx
  simp [AnyAcc.finishConflict] at hx

theorem handleAny_joinable (sp : Nat → Bool) {st : AnyAcc} (h : st.Joinable) :
    ∀ x : Item Text, (handleAny sp st x).1.Joinable
  | .change a b => fun hc => by cases hc
  | .common (.bytes _) => h
  | .common (.str f) => by
    simp only [handleAny]
    split
    · exact h.add f
    have h0 : (if (st.finishable && st.isNonempty) = true then st.finishConflict [] else (st, [])).1.Joinable := by
      split
      · exact st.finishConflict_joinable []
      · exact h
    generalize (if (st.finishable && st.isNonempty) = true then st.finishConflict [] else (st, [])) = r at h0 ⊢
    obtain ⟨s1, o1⟩ := r
    split
    · by_cases hi : s1.inConflict = true
      · simp only [if_pos hi]
        split
        · exact s1.finishConflict_joinable _
        · exact (s1.finishConflict_joinable _).add _
      · simp only [if_neg hi]
        split
        · exact h0
        · exact AnyAcc.Joinable.add h0 _
    · exact h0.add _

theorem anyLoop_joinable (sp : Nat → Bool) : ∀ (l : List (Item Text)) {st : AnyAcc}, st.Joinable →
    (anyLoop sp st l).1.Joinable
  | [], _, h => h
  | x :: rest, st, h => by
    simp only [anyLoop]
    split
    · exact anyLoop_joinable sp rest (handleAny_joinable sp h x)
    · exact anyLoop_joinable sp rest h

theorem joinAny_strs : ∀ {l : List (Item Text)}, (∀ x ∈ l, ∃ s, x = .common (.str s)) →
    ∃ s, joinAny l = .ok s
  | [], _ => ⟨[], rfl⟩
  | x :: rest, h => by
    obtain ⟨s, rfl⟩ := h x List.mem_cons_self
    obtain ⟨r, hr⟩ := joinAny_strs fun y hy => h y (List.mem_cons_of_mem _ hy)
    exact ⟨s ++ r, by simp only [joinAny, hr]⟩

/-- C96, any stream.  No stream makes a line diff raise an exception, not even one that mixes `str` and
`bytes`: `bytes` are never joined. -/
theorem C96_no_error (sp : Nat → Bool) (stream : List (Item Text)) : (toLineDiffAny sp stream).2 = none := by
  have h := anyLoop_joinable sp stream (st := {}) fun _ _ hx => by cases hx
  unfold toLineDiffAny
  generalize anyLoop sp {} stream = r at h ⊢
  obtain ⟨st, out⟩ := r
  have hf : st.flush.2 = none := by
    unfold AnyAcc.flush
    split
    · rfl
    · next hc =>
      split
      · rfl
      · next first l hl =>
        split
        · have : ∀ x ∈ st.frm ++ [.common (.str [nl])], ∃ s, x = .common (.str s) := by
            intro x hx
            rcases List.mem_append.1 hx with hx | hx
            · exact h (by simpa using hc) x hx
            · exact ⟨_, List.mem_singleton.1 hx⟩
          obtain ⟨s, hs⟩ := joinAny_strs this
          rw [hl] at hs ⊢
          simp only [hs]
        · rfl
  simp only
  cases hr : st.flush with
  | mk o e => rw [hr] at hf; cases hf; rfl

/-- A stream that mixes both types. -/
example : toLineDiffAny pyIsSpace [.change (.bytes [98]) (.str (cps "c")), .common (.bytes [97, 10]),
    .common (.str (cps "x\ny"))] =
    ([.change [.change (.bytes [98]) (.str []), .common (.str (cps "x\n"))]
      [.change (.str []) (.str (cps "c")), .common (.str (cps "x\n"))], .text (.str (cps "y\n"))], none) := by
  decide +kernel

/-- The bytes of the new text in a stream. -/
def intoBytes (d : List (Item Bytes)) : Bytes := (d.map fun | .common p => p | .change a _ => a).flatten

/-- The bytes of the old text in a stream. -/
def fromBytesOf (d : List (Item Bytes)) : Bytes := (d.map fun | .common p => p | .change _ b => b).flatten

theorem items_bytes : ∀ {items : List (Item Text)} {is fs : List Bytes},
    intoPieces items = is.map .bytes → fromPieces items = fs.map .bytes →
    ∃ d : List (Item Bytes), items = d.map Item.asText ∧ intoBytes d = is.flatten ∧
      fromBytesOf d = fs.flatten
  | [], is, fs, h1, h2 => by
    have e1 : is = [] := by simpa [intoPieces] using h1.symm
    have e2 : fs = [] := by simpa [fromPieces] using h2.symm
    subst e1 e2
    exact ⟨[], rfl, rfl, rfl⟩
  | x :: items, [], fs, h1, h2 => by simp [intoPieces] at h1
  | x :: items, i :: is, [], h1, h2 => by simp [fromPieces] at h2
  | x :: items, i :: is, f :: fs, h1, h2 => by
    simp only [intoPieces, fromPieces, List.map_cons, List.cons.injEq] at h1 h2
    obtain ⟨d, e1, e2, e3⟩ := items_bytes (items := items) h1.2 h2.2
    cases x with
    | common p =>
      have hi : p = .bytes i := h1.1
      have hf : p = .bytes f := h2.1
      rw [hi] at hf
      cases hf
      refine ⟨.common i :: d, by rw [e1, hi]; rfl, ?_, ?_⟩
      · simp only [intoBytes, List.map_cons, List.flatten_cons] at e2 ⊢; rw [e2]
      · simp only [fromBytesOf, List.map_cons, List.flatten_cons] at e3 ⊢; rw [e3]
    | change a b =>
      have hi : a = .bytes i := h1.1
      have hf : b = .bytes f := h2.1
      refine ⟨.change i f :: d, by rw [e1, hi, hf]; rfl, ?_, ?_⟩
      · simp only [intoBytes, List.map_cons, List.flatten_cons] at e2 ⊢; rw [e2]
      · simp only [fromBytesOf, List.map_cons, List.flatten_cons] at e3 ⊢; rw [e3]

section
variable {E S : Type _} {tk : Tokenizer E S} {st s1 s2 : S} {eo em : E} {cs : List (Item E)}

theorem tokDiff_of_steps {o m : Text} (h1 : tk.encode st o = (s1, .ok eo)) (h2 : tk.encode s1 m = (s2, .ok em))
    (h3 : tk.diffSeq eo em = some cs) : (tokDiff tk st o m).2 = .ok (decodeChanges tk s2 cs) := by
  simp only [tokDiff, h1, h2, h3]

/-- C96, two `str`.  `decode_and_line_diff_changes` of the changes between two texts gives both texts
back, followed by a newline if one of them needs it. -/
theorem C96_decoded_str {Good : PyStr → Prop} (h : DiffAlternates tk Good) (sp : Nat → Bool)
    {before : List Text} {o m : PyStr} (ho : Good o) (hm : Good m) (hf : FirstCallLike (.str o) before)
    (h1 : tk.encode (tokAfter tk before) (.str o) = (s1, .ok eo)) (h2 : tk.encode s1 (.str m) = (s2, .ok em))
    (h3 : tk.diffSeq eo em = some cs) :
    ∃ items, decodeAndLineDiffChanges sp tk s2 cs = (items.map LineItem.toAny, none) ∧
      ∃ e, (e = [] ∨ e = [nl]) ∧ lineInto items = m ++ e ∧ lineFrom items = o ++ e ∧
        (e = [] → Whole m ∧ Whole o) := by
  obtain ⟨d, d1, d2, d3, d4⟩ := h before o m ho hm hf
  rw [tokDiff_of_steps h1 h2 h3, Except.ok.injEq] at d1
  obtain ⟨hn, hall⟩ := C45_line_diff_texts sp d
  obtain ⟨e, e1, e2, e3, e4⟩ := hall d2.textsApart.fragments
  refine ⟨(toLineDiff sp d).1, ?_, e, e1, by rw [e2, d3], by rw [e3, d4], by rw [d3, d4] at e4; exact e4⟩
  simp only [decodeAndLineDiffChanges, d1]
  rw [C96_str, hn]

/-- C96, two `bytes`.  The changes spell both texts, but only the changed parts come out; if nothing
changed, nothing comes out, however long the text is. -/
theorem C96_decoded_bytes {Good : Text → Prop} (h : DiffSpells tk Good) (sp : Nat → Bool)
    {before : List Text} {o m : Bytes} (ho : Good (.bytes o)) (hm : Good (.bytes m))
    (hf : FirstCallLike (.bytes o) before)
    (h1 : tk.encode (tokAfter tk before) (.bytes o) = (s1, .ok eo))
    (h2 : tk.encode s1 (.bytes m) = (s2, .ok em)) (h3 : tk.diffSeq eo em = some cs) :
    ∃ d : List (Item Bytes), decodeChanges tk s2 cs = (d.map Item.asText, none) ∧
      intoBytes d = m ∧ fromBytesOf d = o ∧
      (byteChanges d = [] → o ≠ [] → decodeAndLineDiffChanges sp tk s2 cs = ([], none)) ∧
      (byteChanges d ≠ [] → ∃ tail, (tail = [] ∨ tail = [.common (.str [nl])]) ∧
        decodeAndLineDiffChanges sp tk s2 cs =
          ([.change ((byteChanges d).map (fun c => .change (.bytes c.1) (.str [])) ++ tail)
            ((byteChanges d).map (fun c => .change (.str []) (.bytes c.2)) ++ tail)], none)) := by
  obtain ⟨items, d1, ⟨is, d2, d3⟩, fs, d4, d5⟩ := h before _ _ ho hm rfl hf
  obtain ⟨d, rfl, i1, i2⟩ := items_bytes d2 d4
  rw [tokDiff_of_steps h1 h2 h3, Except.ok.injEq] at d1
  have hout : decodeAndLineDiffChanges sp tk s2 cs = toLineDiffAny sp (d.map Item.asText) := by
    simp only [decodeAndLineDiffChanges, d1]
  refine ⟨d, d1, by rw [i1, d3], by rw [i2, d5], ?_, ?_⟩
  · intro hc hne
    have hany : (d.map Item.asText).any Item.truthy = true := by
      rw [← d5, ← i2] at hne
      revert hne
      clear hout d1 d2 d4 i1 i2 hc
      induction d with
      | nil => intro hne; exact absurd rfl hne
      | cons x d ih =>
        intro hne
        cases x with
        | change a b => simp [Item.asText, Item.truthy]
        | common p =>
          cases p with
          | cons y p => simp [Item.asText, Item.truthy, Text.truthy]
          | nil =>
            have : fromBytesOf d ≠ [] := by simpa [fromBytesOf] using hne
            simp only [List.map_cons, List.any_cons, ih this, Bool.or_true]
    rw [hout, C96_bytes, if_pos hc, hany]
    rfl
  · intro hc
    rw [hout, C96_bytes, if_neg hc]
    refine ⟨_, ?_, rfl⟩
    split
    · exact .inl rfl
    · exact .inr rfl

end

theorem anyLoop_append (sp : Nat → Bool) (b : List (Item Text)) : ∀ (a : List (Item Text)) (st : AnyAcc),
    anyLoop sp st (a ++ b) =
      ((anyLoop sp (anyLoop sp st a).1 b).1, (anyLoop sp st a).2 ++ (anyLoop sp (anyLoop sp st a).1 b).2)
  | [], st => by simp [anyLoop]
  | x :: a, st => by
    rw [List.cons_append, anyLoop, anyLoop]
    split
    · simp only [anyLoop_append sp b a, List.append_assoc]
    · exact anyLoop_append sp b a st

theorem anyLoop_falsy (sp : Nat → Bool) (st : AnyAcc) : ∀ {a : List (Item Text)}, a.any Item.truthy = false →
    anyLoop sp st a = (st, [])
  | [], _ => rfl
  | x :: a, h => by
    rw [List.any_cons, Bool.or_eq_false_iff] at h
    rw [anyLoop, h.1, if_neg (by decide)]
    exact anyLoop_falsy sp st h.2

theorem flush_length (st : AnyAcc) : st.flush.1.length ≤ 1 := by
  unfold AnyAcc.flush
  split
  · simp only [AnyAcc.finishConflict, AnyAcc.conditionalAdd]
    split <;> simp [*]
  · split
    · simp
    · split
      · split <;> simp
      · simp

/-- C96, a token that cannot be decoded.  The generator ends with the exception of `decode`.  What it
yielded before is the beginning of what it yields whenever the same pieces come first, so no line is
closed that could go on; of what the pieces give alone, at most the last item is missing. -/
theorem C96_broken {E S : Type _} (sp : Nat → Bool) (tk : Tokenizer E S) (st : S) {changes : List (Item E)}
    {items : List (Item Text)} {e : PyErr} (h : decodeChanges tk st changes = (items, some e)) :
    (decodeAndLineDiffChanges sp tk st changes).2 = some e ∧
    (∀ more, ∃ rest, (toLineDiffAny sp (items ++ more)).1 =
      (decodeAndLineDiffChanges sp tk st changes).1 ++ rest) ∧
    ∃ last, (toLineDiffAny sp items).1 = (decodeAndLineDiffChanges sp tk st changes).1 ++ last ∧
      last.length ≤ 1 := by
  simp only [decodeAndLineDiffChanges, h]
  refine ⟨trivial, ?_, ?_⟩
  · intro more
    rw [toLineDiffAny, anyLoop_append]
    dsimp only
    split
    · exact ⟨_, by rw [List.append_assoc]⟩
    · exact ⟨_, by rw [List.append_assoc, List.append_assoc]⟩
  · rw [toLineDiffAny]
    dsimp only
    split
    · rename_i o e' ho
      exact ⟨o, rfl, by have := flush_length (anyLoop sp {} items).1; rw [ho] at this; exact this⟩
    · rename_i o ho
      refine ⟨_, List.append_assoc _ _ _, ?_⟩
      have hl := flush_length (anyLoop sp {} items).1
      rw [ho] at hl
      cases ha : items.any Item.truthy with
      | true => simpa using hl
      | false =>
        rw [anyLoop_falsy sp {} ha] at ho
        have : o = [] := by
          have : (AnyAcc.flush {}).1 = [] := rfl
          rw [ho] at this
          exact this
        subst this
        simp

/-- The second token is unknown.  The first is the start of a line, which is not yielded. -/
example : decodeChanges lineTokenizer (lineTokenizer.encode lineTokenizer.init (.str (cps "a\nb"))).1
      [.common [0, 1], .common [7]] = ([.common (.str (cps "a\nb"))], some .indexError) ∧
    decodeAndLineDiffChanges pyIsSpace lineTokenizer
      (lineTokenizer.encode lineTokenizer.init (.str (cps "a\nb"))).1 [.common [0, 1], .common [7]] =
      ([.text (.str (cps "a\n"))], some .indexError) := by decide +kernel

/-- Two lines, of which one changes: the other is lost for `bytes`, kept for `str`. -/
example : toLineDiffAny pyIsSpace [.common (.bytes [97, 10]), .change (.bytes [98]) (.bytes [99])] =
    ([.change [.change (.bytes [98]) (.str []), .common (.str [nl])]
      [.change (.str []) (.bytes [99]), .common (.str [nl])]], none) ∧
    toLineDiffAny pyIsSpace [.common (.str (cps "a\n")), .change (.str (cps "b")) (.str (cps "c"))] =
    ([.text (.str (cps "a\n")), .change [.change (.str (cps "b")) (.str []), .common (.str [nl])]
      [.change (.str []) (.str (cps "c")), .common (.str [nl])]], none) := by decide +kernel

/-- Two equal texts of two lines, with the line tokenizer: nothing comes out. -/
example : ∃ s1 s2 cs, lineTokenizer.encode lineTokenizer.init (.bytes [97, 10, 98]) = (s1, .ok [0, 1]) ∧
    lineTokenizer.encode s1 (.bytes [97, 10, 98]) = (s2, .ok [0, 1]) ∧
    lineTokenizer.diffSeq [0, 1] [0, 1] = some cs ∧
    decodeAndLineDiffChanges pyIsSpace lineTokenizer s2 cs = ([], none) :=
  ⟨_, _, _, rfl, rfl, rfl, by decide +kernel⟩

end Gaspra
