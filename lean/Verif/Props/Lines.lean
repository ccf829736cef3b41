import Verif.Proofs.DiffToLines
import Verif.Props.Tokenizers
import Verif.Props.Merge
import Verif.Proofs.DiffKinds

set_option linter.unusedSectionVars false
set_option linter.unusedSimpArgs false
set_option linter.unusedVariables false

/-!
# Properties of line diffs
-/

namespace Gaspra

/-- Code points of a string, for the examples. -/
def cps (s : String) : PyStr := s.toList.map Char.toNat

/-- The newline that completes both texts. -/
def finalNewline (s : List (DiffItem Nat)) : PyStr :=
  if Whole (intoText s) ∧ Whole (fromText s) then [] else [nl]

/-! ### C45 -/

theorem TextsApart.fragments {s : List (DiffItem Nat)} (h : TextsApart s) :
    TextsApart (fragments s) := by
  have key : ∀ (s : List (DiffItem Nat)) (x : DiffItem Nat), TextsApart (x :: s) →
      TextsApart (x :: Gaspra.fragments s) := by
    intro s
    induction s with
    | nil => intro x _; trivial
    | cons y s ih =>
      intro x h
      by_cases hy : y = .common []
      · have e : Gaspra.fragments (y :: s) = Gaspra.fragments s := by
          unfold Gaspra.fragments
          rw [List.filter_cons_of_neg (by simpa using hy)]
        rw [e]
        have hx : x.isChange = true := by
          have := h.1
          subst hy
          simpa [DiffItem.isChange] using this
        have h2 : TextsApart (Gaspra.fragments s) := (ih y h.2).tail
        cases hf : Gaspra.fragments s with
        | nil => trivial
        | cons z r => rw [hf] at h2; exact ⟨.inl hx, h2⟩
      · have e : Gaspra.fragments (y :: s) = y :: Gaspra.fragments s := by
          unfold Gaspra.fragments
          rw [List.filter_cons_of_pos (by simpa using hy)]
        rw [e]
        exact ⟨h.1, ih y h.2⟩
  cases s with
  | nil => trivial
  | cons x s =>
    by_cases hx : x = .common []
    · have e : Gaspra.fragments (x :: s) = Gaspra.fragments s := by
        unfold Gaspra.fragments
        rw [List.filter_cons_of_neg (by simpa using hx)]
      rw [e]
      exact (key s x h).tail
    · have e : Gaspra.fragments (x :: s) = x :: Gaspra.fragments s := by
        unfold Gaspra.fragments
        rw [List.filter_cons_of_pos (by simpa using hx)]
      rw [e]
      exact key s x h

theorem Alternating.textsApart {α : Type _} : ∀ {d : List (DiffItem α)}, Alternating d → TextsApart d
  | [], _ => trivial
  | [_], _ => trivial
  | x :: y :: d, h => by
    refine ⟨?_, h.2.textsApart⟩
    have := h.1
    cases hx : x.isChange <;> cases hy : y.isChange <;> simp [hx, hy] at this ⊢

theorem fragments_truthy (s : List (DiffItem Nat)) : ∀ x ∈ fragments s, truthy x = true := by
  intro x hx
  unfold fragments at hx
  rw [List.mem_filter] at hx
  rw [truthy_iff]; simpa using hx.2

/-- The two texts of `to_line_diff`, and the newline. -/
theorem toLineDiff_texts (sp : Nat → Bool) {s : List (DiffItem Nat)} (h : TextsApart (fragments s)) :
    lineInto (toLineDiff sp s).1 =
      intoText s ++ (if (lineLoop sp {} s).1.finishable then [] else [nl]) ∧
    lineFrom (toLineDiff sp s).1 =
      fromText s ++ (if (lineLoop sp {} s).1.finishable then [] else [nl]) := by
  rw [toLineDiff_eq]
  by_cases he : fragments s = []
  · rw [if_pos he, lineLoop_fragments, he]
    have h1 := fragments_into s
    have h2 := fragments_from s
    rw [he] at h1 h2
    rw [← h1, ← h2]
    simp [lineInto, lineFrom, lineLoop]
  · rw [if_neg he]
    dsimp only
    obtain ⟨G, _⟩ := lineLoop_good sp s LineAcc.Good.init
    obtain ⟨_, _, f1, f2⟩ := G.flush
    have ht := lineLoop_texts sp (fragments s) LineAcc.Good.init (fragments_truthy s) h (.inl (.inr rfl))
    rw [← lineLoop_fragments, fragments_into, fragments_from] at ht
    rw [lineInto_append, lineFrom_append, f1, f2, ← List.append_assoc, ← List.append_assoc,
      ht.1, ht.2]
    simp

/-- C45.  `to_line_diff` never raises; if no two text fragments follow each other directly, it
keeps both texts up to one newline appended to both, and appends it only if one of the texts does
not end in a newline. -/
theorem C45_line_diff_texts (sp : Nat → Bool) (s : List (DiffItem Nat)) :
    (toLineDiff sp s).2 = none ∧
    (TextsApart (fragments s) → ∃ e, (e = [] ∨ e = [nl]) ∧
      lineInto (toLineDiff sp s).1 = intoText s ++ e ∧
      lineFrom (toLineDiff sp s).1 = fromText s ++ e ∧
      (e = [] → Whole (intoText s) ∧ Whole (fromText s))) := by
  refine ⟨by rw [toLineDiff_eq], fun h => ⟨_, ?_, (toLineDiff_texts sp h).1, (toLineDiff_texts sp h).2, ?_⟩⟩
  · split <;> simp
  · intro he
    have hfin : (lineLoop sp {} s).1.finishable = true := by
      cases hf : (lineLoop sp {} s).1.finishable with
      | true => rfl
      | false => rw [hf] at he; simp at he
    have ht := lineLoop_texts sp (fragments s) LineAcc.Good.init (fragments_truthy s) h (.inl (.inr rfl))
    rw [← lineLoop_fragments, fragments_into, fragments_from] at ht
    obtain ⟨G, hw⟩ := lineLoop_good sp s LineAcc.Good.init
    obtain ⟨w1, w2⟩ := G.whole hfin
    have hall : ∀ (d : List LineItem), (∀ i ∈ d, i.WholeLines) → Whole (lineInto d) ∧ Whole (lineFrom d) := by
      intro d
      induction d with
      | nil => intro _; exact ⟨.inl rfl, .inl rfl⟩
      | cons i d ih =>
        intro hd
        obtain ⟨i1, i2⟩ := ih fun j hj => hd j (by simp [hj])
        have hi := hd i (by simp)
        have e1 : lineInto (i :: d) = lineInto [i] ++ lineInto d := by rw [← lineInto_append]; rfl
        have e2 : lineFrom (i :: d) = lineFrom [i] ++ lineFrom d := by rw [← lineFrom_append]; rfl
        rw [e1, e2]
        cases i with
        | text t => exact ⟨Whole.append (by simpa [lineInto] using hi.2) i1,
            Whole.append (by simpa [lineFrom] using hi.2) i2⟩
        | change a b => exact ⟨Whole.append (by simpa [lineInto] using hi.1.1) i1,
            Whole.append (by simpa [lineFrom] using hi.1.2) i2⟩
    obtain ⟨l1, l2⟩ := hall _ hw
    have a1 := l1.append w1
    have a2 := l2.append w2
    rw [ht.1] at a1
    rw [ht.2] at a2
    exact ⟨by simpa using a1, by simpa using a2⟩

/-- C45.  If texts and changes strictly alternate, the newline is appended exactly if one of the
two texts does not consist of whole lines. -/
theorem C45_newline_exact (sp : Nat → Bool) {s : List (DiffItem Nat)} (h : Alternating (fragments s)) :
    lineInto (toLineDiff sp s).1 = intoText s ++ finalNewline s ∧
    lineFrom (toLineDiff sp s).1 = fromText s ++ finalNewline s := by
  have hap : TextsApart (fragments s) := h.textsApart
  have hf := lineLoop_finishable sp (fragments s) (I := []) (F := []) LineAcc.Good.init (fragments_truthy s) h
    (.inl (.inr rfl)) (by simp [Whole]) (.inl Iff.rfl)
  rw [← lineLoop_fragments, fragments_into, fragments_from, List.nil_append, List.nil_append] at hf
  have e : (if (lineLoop sp {} s).1.finishable then [] else [nl]) = finalNewline s := by
    unfold finalNewline
    by_cases hw : Whole (intoText s) ∧ Whole (fromText s)
    · rw [if_pos hw, hf.2 hw]; rfl
    · have : (lineLoop sp {} s).1.finishable = false := by
        cases hh : (lineLoop sp {} s).1.finishable with
        | false => rfl
        | true => exact absurd (hf.1 hh) hw
      rw [if_neg hw, this]; rfl
  rw [← e]
  exact toLineDiff_texts sp hap

/-- C45.  `consolidated_line_diff` never raises and yields the same two texts. -/
theorem C45_consolidated_texts (sp : Nat → Bool) (s : List (DiffItem Nat)) :
    ∃ d, consolidatedLineDiff sp s = .ok d ∧
      lineInto d = lineInto (toLineDiff sp s).1 ∧ lineFrom d = lineFrom (toLineDiff sp s).1 := by
  have h := (C45_line_diff_texts sp s).1
  unfold consolidatedLineDiff
  generalize toLineDiff sp s = r at h ⊢
  obtain ⟨items, e⟩ := r
  dsimp only at h
  subst h
  exact ⟨_, rfl, by simpa [consolidateLines] using (consolidateLoop_texts items [] []).1,
    by simpa [consolidateLines] using (consolidateLoop_texts items [] []).2⟩

/-- C45.  Adjacent texts are reordered, so the hypothesis is needed. -/
theorem C45_adjacent_reordered (sp : Nat → Bool) :
    toLineDiff sp [.common (cps "abc"), .common (cps "def\n")] =
      ([.text (cps "def\n"), .text (cps "abc\n")], none) := by
  have e : ∀ st : LineAcc, st.inConflict = false → ∀ f, handleFragment sp st (.common f) =
      handleFragment (fun _ => false) st (.common f) := by
    intro st hst f
    rw [handleFragment_text, handleFragment_text, hst]
    simp
  have t1 : truthy (.common (cps "abc")) = true := by decide +kernel
  have t2 : truthy (.common (cps "def\n")) = true := by decide +kernel
  have hl : lineLoop sp {} [.common (cps "abc"), .common (cps "def\n")] =
      lineLoop (fun _ => false) {} [.common (cps "abc"), .common (cps "def\n")] := by
    simp only [lineLoop, t1, t2, if_true]
    rw [e _ rfl, e _ (by decide +kernel)]
  have : toLineDiff sp [.common (cps "abc"), .common (cps "def\n")] =
      toLineDiff (fun _ => false) [.common (cps "abc"), .common (cps "def\n")] := by
    simp only [toLineDiff, hl]
  rw [this]
  decide +kernel

example : toLineDiff pyIsSpace [.common (cps "a\nb"), .change (cps "x") (cps "y\nz"), .common (cps "c\nd")] =
    ([.text (cps "a\n"),
      .change [.common (cps "b"), .change (cps "x") [], .common (cps "c\n")]
        [.common (cps "b"), .change [] (cps "y\nz"), .common (cps "c\n")],
      .text (cps "d\n")], none) := by decide +kernel
example : TextsApart (fragments [.common (cps "a\nb"), .change (cps "x") (cps "y\nz"), .common []]) := by
  decide +kernel
-- One side lacks the newline: both get it.
example : toLineDiff pyIsSpace [.change (cps "x\n") (cps "y")] =
    ([.change [.change (cps "x\n") [], .common [nl]] [.change [] (cps "y"), .common [nl]]], none) := by
  decide +kernel
-- Adjacent changes: the newline is added although both texts end in one.
example : toLineDiff pyIsSpace [.change (cps "x\n") (cps "y"), .change [] (cps "\n")] =
    ([.change [.change (cps "x\n") [], .change [] [], .common [nl]]
      [.change [] (cps "y"), .change [] (cps "\n"), .common [nl]]], none) := by
  decide +kernel

/-! ### C46 -/

/-- C46.  Every item of a line diff covers whole lines, whatever the fragments; only a stream
without fragments gives the single empty text. -/
theorem C46_whole_lines (sp : Nat → Bool) (s : List (DiffItem Nat)) :
    (fragments s = [] ∧ toLineDiff sp s = ([.text []], none)) ∨
    (fragments s ≠ [] ∧ (toLineDiff sp s).1 ≠ [] ∧ ∀ i ∈ (toLineDiff sp s).1, i.WholeLines) := by
  by_cases he : fragments s = []
  · left; exact ⟨he, by rw [toLineDiff_eq, if_pos he]⟩
  · right
    have G := lineLoop_good sp s LineAcc.Good.init
    have W : ∀ i ∈ (toLineDiff sp s).1, i.WholeLines := by
      rw [toLineDiff_eq, if_neg he]
      intro i hi
      rcases List.mem_append.1 hi with hi | hi
      · exact G.2 i hi
      · exact G.1.flush.2.1 i hi
    refine ⟨he, ?_, W⟩
    -- something is yielded or pending
    have key : ∀ (d : List (DiffItem Nat)) (st : LineAcc), st.Good →
        (∀ x ∈ d, truthy x = true) → (d ≠ [] ∨ st.into ≠ []) →
        (lineLoop sp st d).2 ≠ [] ∨ (lineLoop sp st d).1.into ≠ [] := by
      intro d
      induction d with
      | nil => intro st _ _ h; right; simpa [lineLoop] using h
      | cons x d ih =>
        intro st Gs ht _
        have hx := ht x (by simp)
        have S := handleFragment_ok sp Gs hx
        simp only [lineLoop, hx, if_true]
        by_cases h2 : (handleFragment sp st x).1.into = []
        · -- then it yielded something
          have hout : (handleFragment sp st x).2 ≠ [] := by
            cases x with
            | change a b => simp [handleFragment, LineAcc.addConflict] at h2
            | common f =>
              have hf : f ≠ [] := by simpa [truthy] using hx
              rw [handleFragment_text] at h2 ⊢
              have hsplit : ∀ st : LineAcc, (splitPhase st f).1.into = [] → (splitPhase st f).2 ≠ [] := by
                intro st h
                unfold splitPhase at h ⊢
                dsimp only at h ⊢
                by_cases hl : (pySplit nl f).length > 1
                · rw [if_pos hl] at h ⊢
                  rcases split_cases f with ⟨q, _⟩ | ⟨_, _, _, h4⟩
                  · omega
                  · cases hc : st.inConflict with
                    | true =>
                      simp only [if_true]
                      intro hh
                      have := (List.append_eq_nil_iff.1 hh).1
                      simp only [LineAcc.finishConflict] at this
                      split at this <;> simp at this
                    | false =>
                      simp only [Bool.false_eq_true, if_false]
                      unfold yieldText
                      rw [h4]
                      simp
                · rw [if_neg hl] at h
                  simp [LineAcc.add] at h
              split at h2 <;> rename_i c1
              · simp [LineAcc.add] at h2
              · split at h2 <;> rename_i c2
                · rw [if_neg c1, if_pos c2]
                  simp only [Bool.and_eq_true] at c2
                  rw [finishConflict_done c2.1]
                  simp
                · rw [if_neg c1, if_neg c2]
                  exact hsplit st h2
          left
          intro hh
          exact hout (List.append_eq_nil_iff.1 hh).1
        · rcases ih _ S.good (fun y hy => ht y (by simp [hy])) (.inr h2) with h | h
          · left; intro hh; exact h (List.append_eq_nil_iff.1 hh).2
          · right; exact h
    rw [toLineDiff_eq, if_neg he]
    dsimp only
    have := key (fragments s) {} LineAcc.Good.init (fragments_truthy s) (.inl he)
    rw [← lineLoop_fragments] at this
    intro hh
    obtain ⟨h1, h2⟩ := List.append_eq_nil_iff.1 hh
    have hinto := this.resolve_left (by simp [h1])
    generalize (lineLoop sp {} s).1 = st at G hinto h2
    have Gs := G.1
    unfold LineAcc.flush at h2
    cases hc : st.inConflict with
    | true =>
      rw [hc] at h2
      simp only [if_true, LineAcc.finishConflict] at h2
      generalize (if st.finishable = true then [] else [nl]) = f at h2
      split at h2 <;> simp at h2
    | false =>
      rw [hc] at h2
      simp only [Bool.false_eq_true, if_false] at h2
      obtain ⟨t1, t2⟩ := Gs.text hc
      rw [t1] at hinto
      cases hfr : st.frm with
      | nil => exact hinto hfr
      | cons x l =>
        rw [hfr] at h2
        dsimp only at h2
        obtain ⟨u, hu, hne⟩ := t2 x (by rw [hfr]; simp)
        rw [if_pos (by subst hu; simpa [truthy] using hne)] at h2
        have hj := joinStrs_texts st.frm t2 [nl]
        rw [hfr] at hj
        rw [hj] at h2
        simp at h2

/-- C46.  `consolidated_line_diff` never yields two `Change`s in a row, and its items cover whole
lines. -/
theorem C46_consolidated (sp : Nat → Bool) (s : List (DiffItem Nat)) :
    ∃ d, consolidatedLineDiff sp s = .ok d ∧ ChangesApart d ∧
      (d = [.text []] ∨ ∀ i ∈ d, i.WholeLines) := by
  have h := (C45_line_diff_texts sp s).1
  have hw := C46_whole_lines sp s
  unfold consolidatedLineDiff
  generalize toLineDiff sp s = r at h hw ⊢
  obtain ⟨items, e⟩ := r
  dsimp only at h
  subst h
  refine ⟨_, rfl, consolidateLoop_apart _ _ _, ?_⟩
  rcases hw with ⟨_, h⟩ | ⟨_, _, h⟩
  · cases h; left; rfl
  · right
    exact consolidateLoop_whole items [] [] (.inl ⟨rfl, rfl⟩) h

example : consolidatedLineDiff pyIsSpace
    [.change (cps "x\n") (cps "y\n"), .common (cps "c"), .change (cps "p") (cps "q")] =
    .ok [.change [.change (cps "x\n") [], .common (cps "c"), .change (cps "p") [], .common [nl]]
      [.change [] (cps "y\n"), .common (cps "c"), .change [] (cps "q"), .common [nl]]] := by
  decide +kernel
example : ¬ (LineItem.text (cps "a")).WholeLines := by
  intro h
  exact absurd h.2 (by decide +kernel)

/-! ### C58 -/

/-- The diff of two `str` is a list of `str` pieces in which texts and changes alternate, and
which spells both. -/
def DiffAlternates {E S : Type _} (tk : Tokenizer E S) (Good : PyStr → Prop) : Prop :=
  ∀ (before : List Text) (o m : PyStr), Good o → Good m → FirstCallLike (.str o) before →
    ∃ d : List (DiffItem Nat),
      (tokDiff tk (tokAfter tk before) (.str o) (.str m)).2 = .ok (d.map (DiffItem.toItem .str), none) ∧
      Alternating d ∧ intoText d = m ∧ fromText d = o

theorem DiffSpells.alternates {E S : Type _} {tk : Tokenizer E S} {Good : Text → Prop}
    (h : DiffSpells tk Good)
    (hk : ∀ eo em cs, tk.diffSeq eo em = some cs → AltKinds (cs.map Item.isChange)) :
    DiffAlternates tk (fun s => Good (.str s)) := by
  intro before o m ho hm hf
  obtain ⟨items, h1, h2, h3⟩ := h before _ _ ho hm rfl hf
  obtain ⟨is, i1, i2⟩ := h2
  obtain ⟨fs, f1, f2⟩ := h3
  obtain ⟨d, e1, e2, e3⟩ := items_str i1 f1
  obtain ⟨eo, em, cs, c1, c2⟩ := tokDiff_kinds h1
  refine ⟨d, by rw [h1, e1], ?_, by rw [e2, i2], by rw [e3, f2]⟩
  rw [alternating_iff, ← toItem_kind (E := Text) .str, ← e1, c2]
  exact hk eo em cs c1

/-- C58.  With every tokenizer. -/
theorem C58_diff_alternates (cls : Nat → Bool) :
    DiffAlternates nullTokenizer (fun _ => True) ∧
    DiffAlternates charTokenizer (fun s => WellEncoded (.str s)) ∧
    DiffAlternates lineTokenizer (fun _ => True) ∧
    DiffAlternates (symbolTokenizer cls) (fun _ => True) := by
  refine ⟨C41_null_diff.alternates fun _ _ _ => diffTexts_kinds,
    C41_char_diff.alternates fun _ _ _ => diffInts_kinds,
    C41_line_diff.alternates fun _ _ _ => diffInts_kinds, ?_⟩
  have := (C41_symbol_diff cls).alternates fun _ _ _ => diffInts_kinds
  intro before o m _ _ hf
  exact this before o m (by intro b h; cases h) (by intro b h; cases h) hf

example : (tokDiff (symbolTokenizer asciiWord) (tokAfter (symbolTokenizer asciiWord) []) (.str (cps "ab cd"))
    (.str (cps "xy cd e"))).2 = .ok (List.map (DiffItem.toItem .str)
      [.change (cps "xy") (cps "ab"), .common (cps " cd"), .change (cps " e") []], none) := by
  decide +kernel

/-- C58.  So line diffs of tokenized diffs never reorder text: the two texts come back, followed
by a newline if one of them needs it. -/
theorem C58_line_diff_of_diff {E S : Type _} {tk : Tokenizer E S} {Good : PyStr → Prop}
    (h : DiffAlternates tk Good) (sp : Nat → Bool) {o m : PyStr} (ho : Good o) (hm : Good m) :
    ∃ d items, (tokDiff tk tk.init (.str o) (.str m)).2 = .ok (d.map (DiffItem.toItem .str), none) ∧
      consolidatedLineDiff sp d = .ok items ∧
      ∃ e, (e = [] ∨ e = [nl]) ∧ lineInto items = m ++ e ∧ lineFrom items = o ++ e ∧
        (e = [] → Whole m ∧ Whole o) := by
  obtain ⟨d, h1, h2, h3, h4⟩ := h [] o m ho hm (by intro y hy; simp at hy)
  obtain ⟨items, i1, i2, i3⟩ := C45_consolidated_texts sp d
  obtain ⟨e, e1, e2, e3, e4⟩ := (C45_line_diff_texts sp d).2 h2.textsApart.fragments
  refine ⟨d, items, h1, i1, e, e1, by rw [i2, e2, h3], by rw [i3, e3, h4], ?_⟩
  rw [h3, h4] at e4
  exact e4

/-- The white space of Python. -/
example (c : Nat) : pyIsSpace c = true ↔ c ∈
    [9, 10, 11, 12, 13, 28, 29, 30, 31, 32, 0x85, 0xA0, 0x1680, 0x2000, 0x2001, 0x2002, 0x2003, 0x2004, 0x2005,
      0x2006, 0x2007, 0x2008, 0x2009, 0x200A, 0x2028, 0x2029, 0x202F, 0x205F, 0x3000] := by
  unfold pyIsSpace
  simp only [decide_eq_true_iff, List.mem_cons, List.not_mem_nil, or_false]
  omega

end Gaspra
