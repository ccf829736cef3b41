import Verif.Proofs.LineTight
import Verif.Props.Lines

/-!
# C75: line conflicts are no larger than necessary
-/

set_option linter.unusedSimpArgs false
set_option linter.unusedVariables false

namespace Gaspra

/-- C75.  Every item of a line diff is a text or a conflict of pieces.  An unchanged piece in a
conflict is blank, or it lies within one line and its newline ends the conflict. -/
theorem C75_conflicts (sp : Nat → Bool) (s : List (DiffItem Nat)) :
    ∀ i ∈ (toLineDiff sp s).1, (∃ t, i = .text t) ∨ ∃ P, i = conflictOf P ∧ WithinLines sp P := by
  rw [toLineDiff_eq]
  split
  · intro i hi
    simp only [List.mem_singleton] at hi
    exact .inl ⟨_, hi⟩
  · obtain ⟨P, H, h, ho⟩ := lineLoop_within sp s LineAcc.Good.init Holds.nil (HeldOK.nil sp)
    have G := (lineLoop_good sp s LineAcc.Good.init).1
    intro i hi
    rcases List.mem_append.1 hi with hi | hi
    · exact ho i hi
    · rcases flush_cases G H with ⟨_, _, e⟩ | ⟨_, _, e⟩ | ⟨_, _, _, ⟨_, e⟩ | ⟨_, _, e⟩⟩ <;> rw [e] at hi
      · simp only [List.mem_singleton] at hi
        exact .inr ⟨P, hi, h.within⟩
      · simp only [List.mem_singleton] at hi
        exact .inr ⟨_, hi, h.withLast (q := []) (by simp)⟩
      · simp at hi
      · simp only [List.mem_singleton] at hi
        exact .inl ⟨_, hi⟩

/-- C75.  Changes with only white space between them are in the same conflict. -/
theorem C75_together (sp : Nat → Bool) {s L : List (DiffItem Nat)} (hL : BlankBetween sp L)
    (h : L <:+: fragments s) : ∃ Q, L <:+: Q ∧ conflictOf Q ∈ (toLineDiff sp s).1 := by
  obtain ⟨Q, q1, q2⟩ := together sp hL h
  refine ⟨Q, q1, ?_⟩
  rw [← lineLoop_fragments] at q2
  rw [toLineDiff_eq, if_neg ?_]
  · exact q2
  · intro e
    rw [e] at h
    rw [List.eq_nil_of_infix_nil h] at hL
    exact hL

theorem spell_fragments (s : List (DiffItem Nat)) : spell (fragments s) = spell s := by
  induction s with
  | nil => rfl
  | cons x s ih =>
    have e : ∀ L : List (DiffItem Nat), spell (x :: L) = spell [x] ++ spell L := by
      intro L; simp [spell]
    unfold fragments at ih ⊢
    rw [List.filter_cons]
    split
    · rw [e, ih, ← e]
    · next h =>
      have hx : x = .common [] := by simpa using h
      rw [ih, hx]; simp [spell]

/-- C75.  The line diff consists of the characters and changes of the stream in their order,
followed by at most one newline. -/
theorem C75_order (sp : Nat → Bool) {s : List (DiffItem Nat)} (h : TextsApart (fragments s)) :
    ∃ e, (e = [] ∨ e = [nl]) ∧
      spell (allPieces (toLineDiff sp s).1) = spell s ++ spell [.common e] := by
  rw [toLineDiff_eq]
  by_cases he : fragments s = []
  · rw [if_pos he]
    refine ⟨[], .inl rfl, ?_⟩
    rw [← spell_fragments s, he]
    rfl
  · rw [if_neg he]
    obtain ⟨P, H, hs⟩ := lineLoop_spells sp (fragments s) LineAcc.Good.init Holds.nil (fragments_truthy s) h
      (.inl (.inr rfl))
    have G := (lineLoop_good sp (fragments s) LineAcc.Good.init).1
    rw [← lineLoop_fragments] at H hs G
    rw [List.nil_append, spell_fragments, spell_append] at hs
    dsimp only
    rw [allPieces_append, spell_append]
    rcases flush_cases G H with ⟨_, _, e⟩ | ⟨_, _, e⟩ | ⟨_, _, hP, ⟨hn, e⟩ | ⟨hn, _, e⟩⟩ <;> rw [e]
    · exact ⟨[], .inl rfl, by rw [allPieces_conflict, ← hs]; simp [allPieces, spell]⟩
    · exact ⟨[nl], .inr rfl, by rw [allPieces_conflict, ← hs]; simp [allPieces, spell]⟩
    · exact ⟨[], .inl rfl, by rw [← hs, hn]; simp [allPieces, spell]⟩
    · refine ⟨[nl], .inr rfl, ?_⟩
      have : spell P = (fromText P).map Sum.inl := by
        clear H hs e hn
        induction P with
        | nil => rfl
        | cons x P ih =>
          obtain ⟨t, rfl, _⟩ := hP x (by simp)
          have ih' := ih (fun y hy => hP y (by simp [hy]))
          simp only [spell, fromText, List.flatMap_cons, List.map_append] at ih' ⊢
          rw [ih']
      rw [← hs, this]
      simp [allPieces, spell, LineItem.pieces]

theorem conflictOf_inj {P Q : List (DiffItem Nat)} (h : conflictOf P = conflictOf Q) : P = Q := by
  rw [← conflictOf_pieces P, h, conflictOf_pieces]

/-- C75.  When texts and changes alternate, a conflict ends where both sides have reached the end of a
line and unchanged text that is not blank follows. -/
theorem C75_stops (sp : Nat → Bool) {s : List (DiffItem Nat)} (h : Alternating (fragments s)) :
    ∀ P, conflictOf P ∈ (toLineDiff sp s).1 → StopsEarly sp P := by
  rw [toLineDiff_eq]
  have key : ∀ P, ItemOK (StopsEarly sp) (conflictOf P) → StopsEarly sp P := by
    rintro P (⟨t, e⟩ | ⟨Q, e, hQ⟩)
    · cases e
    · rw [conflictOf_inj e]; exact hQ
  split
  · intro P hP
    simp [conflictOf] at hP
  · obtain ⟨P, H, hst, hf, ho⟩ := lineLoop_stops sp (fragments s) LineAcc.Good.init Holds.nil
      (fragments_truthy s) h (.inl (.inr rfl)) (by simp [Whole, intoText, fromText]) (.inl Iff.rfl) (.nil sp)
    have G := (lineLoop_good sp (fragments s) LineAcc.Good.init).1
    rw [← lineLoop_fragments] at H hf ho G
    intro Q hQ
    apply key
    rcases List.mem_append.1 hQ with hi | hi
    · exact ho _ hi
    · rcases flush_cases G H with ⟨_, _, e⟩ | ⟨_, hfin, e⟩ | ⟨_, _, _, ⟨_, e⟩ | ⟨_, _, e⟩⟩ <;> rw [e] at hi
      · simp only [List.mem_singleton] at hi
        exact .inr ⟨P, hi, hst⟩
      · simp only [List.mem_singleton] at hi
        refine .inr ⟨_, hi, hst.snoc ?_⟩
        intro f _ _
        right
        intro hw
        rw [hf.2 hw] at hfin; cases hfin
      · simp at hi
      · simp [conflictOf] at hi

/-- Joining neighbouring conflicts keeps the pieces. -/
theorem consolidateLoop_pieces : ∀ (items : List LineItem) (P : List (DiffItem Nat)),
    (∀ i ∈ items, (∃ t, i = .text t) ∨ ∃ P, i = conflictOf P) →
    allPieces (consolidateLoop (P.map onlyInto) (P.map onlyFrom) items) = P ++ allPieces items
  | [], P, _ => by
    unfold consolidateLoop yieldChange
    split
    · next h =>
      have : P = [] := by simpa using h
      subst this; rfl
    · have := allPieces_conflict P []
      unfold conflictOf at this
      rw [this]
  | i :: items, P, h => by
    rcases h i (by simp) with ⟨t, rfl⟩ | ⟨Q, rfl⟩
    · have ih := consolidateLoop_pieces items [] (fun j hj => h j (by simp [hj]))
      have e : allPieces (yieldChange (P.map onlyInto) (P.map onlyFrom)) = P := by
        have := consolidateLoop_pieces [] P (by simp)
        simpa [consolidateLoop, allPieces] using this
      simp only [consolidateLoop]
      rw [allPieces_append, allPieces_append, e]
      simp only [List.map_nil, List.nil_append] at ih
      rw [ih]
      simp [allPieces]
    · have ih := consolidateLoop_pieces items (P ++ Q) (fun j hj => h j (by simp [hj]))
      rw [allPieces_conflict, ← List.append_assoc, ← ih]
      simp only [conflictOf, consolidateLoop, List.map_append]

/-- C75.  The consolidated line diff has the same pieces. -/
theorem C75_consolidated (sp : Nat → Bool) (s : List (DiffItem Nat)) :
    ∃ d, consolidatedLineDiff sp s = .ok d ∧ allPieces d = allPieces (toLineDiff sp s).1 := by
  have h := (C45_line_diff_texts sp s).1
  have hw := C75_conflicts sp s
  unfold consolidatedLineDiff
  generalize toLineDiff sp s = r at h hw ⊢
  obtain ⟨items, e⟩ := r
  dsimp only at h
  subst h
  refine ⟨_, rfl, ?_⟩
  have := consolidateLoop_pieces items [] (fun i hi => by
    rcases hw i hi with h | ⟨P, h, _⟩
    · exact .inl h
    · exact .inr ⟨P, h⟩)
  simpa [consolidateLines] using this

-- A blank line between two changed lines stays in the conflict, any other line ends it.
example : (toLineDiff pyIsSpace [.change (cps "x\n") (cps "y\n"), .common (cps "\n"),
      .change (cps "p\n") (cps "q\n"), .common (cps "a\nb\n"), .change (cps "r\n") []]).1 =
    [conflictOf [.change (cps "x\n") (cps "y\n"), .common (cps "\n"), .change (cps "p\n") (cps "q\n")],
      .text (cps "a\nb\n"), conflictOf [.change (cps "r\n") []]] := by decide +kernel
example : BlankBetween pyIsSpace [.change (cps "x\n") (cps "y\n"), .common (cps "\n"),
    .change (cps "p\n") (cps "q\n")] := by
  intro f hf
  simp at hf
  subst hf
  decide
-- Within a line the conflict takes in the rest of the line.
example : (toLineDiff pyIsSpace [.common (cps "k\na "), .change (cps "x") (cps "y"), .common (cps " b "),
      .change (cps "p") (cps "q"), .common (cps " c\nd\n")]).1 =
    [.text (cps "k\n"),
      conflictOf [.common (cps "a "), .change (cps "x") (cps "y"), .common (cps " b "),
        .change (cps "p") (cps "q"), .common (cps " c\n")],
      .text (cps "d\n")] := by decide +kernel
-- Without alternation a conflict can go on: here it takes in `c`.
example : (toLineDiff pyIsSpace [.change (cps "x\n") (cps "y"), .change [] (cps "\n"), .common (cps "c")]).1 =
    [conflictOf [.change (cps "x\n") (cps "y"), .change [] (cps "\n"), .common (cps "c"), .common [nl]]] := by
  decide +kernel

end Gaspra
