import Verif.Spec.DiffToLines
import Verif.Proofs.Tokenizers

set_option linter.unusedSectionVars false
set_option linter.unusedSimpArgs false
set_option linter.unusedVariables false

/-!
# Proofs about line diffs
-/

namespace Gaspra

/-! ## Texts -/

@[simp] theorem intoText_nil : intoText ([] : List (DiffItem Nat)) = [] := rfl
@[simp] theorem fromText_nil : fromText ([] : List (DiffItem Nat)) = [] := rfl

theorem intoText_append' (a b : List (DiffItem Nat)) : intoText (a ++ b) = intoText a ++ intoText b := by
  simp [intoText]

theorem fromText_append' (a b : List (DiffItem Nat)) : fromText (a ++ b) = fromText a ++ fromText b := by
  simp [fromText]

theorem lineInto_append (a b : List LineItem) : lineInto (a ++ b) = lineInto a ++ lineInto b := by
  simp [lineInto]

theorem lineFrom_append (a b : List LineItem) : lineFrom (a ++ b) = lineFrom a ++ lineFrom b := by
  simp [lineFrom]

theorem endsNl_iff (s : PyStr) : endsNl s = true ↔ ∃ t, s = t ++ [nl] := by
  unfold endsNl
  rw [decide_eq_true_iff, List.getLast?_eq_some_iff]

theorem Whole.append {s t : PyStr} (hs : Whole s) (ht : Whole t) : Whole (s ++ t) := by
  rcases ht with rfl | ⟨u, rfl⟩
  · simpa using hs
  · right; exact ⟨s ++ u, by simp⟩

theorem whole_append_right {s t : PyStr} (ht : t ≠ []) : Whole (s ++ t) ↔ Whole t := by
  constructor
  · intro h
    rcases h with h | ⟨u, h⟩
    · simp at h; exact absurd h.2 ht
    · right
      rcases List.eq_nil_or_concat t with h' | ⟨L, b, h'⟩
      · exact absurd h' ht
      · rw [List.concat_eq_append] at h'
        subst h'
        rw [← List.append_assoc] at h
        have := List.append_inj_right' h rfl
        cases this
        exact ⟨L, rfl⟩
  · intro h
    rcases h with h | ⟨u, rfl⟩
    · exact absurd h ht
    · right; exact ⟨s ++ u, by simp⟩

theorem whole_iff_endsNl {s : PyStr} (h : s ≠ []) : Whole s ↔ endsNl s = true := by
  rw [endsNl_iff]
  simp [Whole, h]

theorem endsNl_of_not_mem {s : PyStr} (h : nl ∉ s) : endsNl s = false := by
  cases he : endsNl s with
  | false => rfl
  | true =>
    obtain ⟨t, rfl⟩ := (endsNl_iff s).1 he
    simp at h

theorem pySplit_spec' : ∀ (f : PyStr), (∀ p ∈ pySplit nl f, nl ∉ p) ∧ (pySplit nl f ≠ [])
    ∧ f = joinWithNewline (pySplit nl f).dropLast ++ (pySplit nl f).getLastD []
  | [] => by simp [pySplit, joinWithNewline]
  | c :: f => by
    obtain ⟨h1, h2, h3⟩ := pySplit_spec' f
    simp only [pySplit]
    cases hs : pySplit nl f with
    | nil => exact absurd hs h2
    | cons q qs =>
      rw [hs] at h1 h3
      split
      · next hc =>
        refine ⟨?_, by simp, ?_⟩
        · intro p hp
          rcases List.mem_cons.1 hp with rfl | hp
          · simp
          · exact h1 p hp
        · rw [hc]
          cases qs with
          | nil => simpa [joinWithNewline] using h3
          | cons r rs =>
            have e : (q :: r :: rs).dropLast = q :: (r :: rs).dropLast := rfl
            have e' : ([] :: q :: r :: rs).dropLast = [] :: q :: (r :: rs).dropLast := rfl
            rw [e] at h3
            rw [e']
            simp only [joinWithNewline, List.isEmpty_cons, Bool.false_eq_true, if_false] at h3 ⊢
            rw [List.intercalate_cons_of_ne_nil (by simp)]
            conv => lhs; rw [h3]
            simp [List.getLastD]
      · next hc =>
        refine ⟨?_, by simp, ?_⟩
        · intro p hp
          rcases List.mem_cons.1 hp with rfl | hp
          · have := h1 q (by simp)
            simp only [List.mem_cons, not_or]
            exact ⟨fun h => hc h.symm, this⟩
          · exact h1 p (by simp [hp])
        · cases qs with
          | nil => simpa [joinWithNewline] using h3
          | cons r rs =>
            have e : (q :: r :: rs).dropLast = q :: (r :: rs).dropLast := rfl
            have e' : ((c :: q) :: r :: rs).dropLast = (c :: q) :: (r :: rs).dropLast := rfl
            rw [e] at h3
            rw [e']
            simp only [joinWithNewline, List.isEmpty_cons, Bool.false_eq_true, if_false] at h3 ⊢
            cases rs' : (r :: rs).dropLast with
            | nil =>
              rw [rs'] at h3
              conv => lhs; rw [h3]
              simp [List.getLastD, List.intercalate]
            | cons u us =>
              rw [rs'] at h3
              rw [List.intercalate_cons_of_ne_nil (by simp)] at h3 ⊢
              conv => lhs; rw [h3]
              simp [List.getLastD]

/-- Without a newline `split` gives the text itself; with newlines it gives a first line, whole
lines and a rest. -/
theorem split_cases (f : PyStr) : ((pySplit nl f).length ≤ 1 ∧ (pySplit nl f).headD [] = f ∧ nl ∉ f) ∨
    ((pySplit nl f).length > 1 ∧ nl ∉ (pySplit nl f).getLastD [] ∧
      f = joinWithNewline (pySplit nl f).dropLast ++ (pySplit nl f).getLastD [] ∧
      joinWithNewline (pySplit nl f).dropLast =
        (pySplit nl f).headD [] ++ [nl] ++ joinWithNewline (pySplit nl f).dropLast.tail) := by
  obtain ⟨h1, h2, h3⟩ := pySplit_spec' f
  generalize hs : pySplit nl f = ps at *
  match ps with
  | [] => exact absurd rfl h2
  | [p] =>
    left
    simp only [List.dropLast_singleton, joinWithNewline, List.isEmpty_nil, if_true, List.nil_append,
      List.getLastD_cons, List.getLastD_nil] at h3
    refine ⟨by simp, by simp [h3], ?_⟩
    rw [h3]; exact h1 p (by simp)
  | p :: q :: r =>
    right
    refine ⟨by simp, ?_, h3, ?_⟩
    · apply h1
      rw [List.getLastD_eq_getLast?, List.getLast?_eq_some_getLast (by simp)]
      exact List.getLast_mem (by simp)
    · have e : (p :: q :: r).dropLast = p :: (q :: r).dropLast := rfl
      rw [e]
      simp only [List.tail_cons, List.headD_cons, joinWithNewline, List.isEmpty_cons,
        Bool.false_eq_true, if_false]
      cases rs' : (q :: r).dropLast with
      | nil => simp [List.intercalate]
      | cons u us =>
        rw [List.intercalate_cons_of_ne_nil (by simp)]
        simp

theorem joinWithNewline_whole (ls : List PyStr) : Whole (joinWithNewline ls) := by
  unfold joinWithNewline
  split
  · left; rfl
  · right; exact ⟨_, rfl⟩

/-! ## The accumulator -/

/-- What always holds between two fragments. -/
structure LineAcc.Good (st : LineAcc) : Prop where
  empty : st.into = [] → st.frm = [] ∧ st.finishable = true ∧ st.inConflict = false
  text : st.inConflict = false → st.into = st.frm ∧ ∀ x ∈ st.frm, ∃ s, x = .common s ∧ s ≠ []
  notFin : st.inConflict = false → st.into ≠ [] → st.finishable = false
  conf : st.inConflict = true → (∃ x ∈ st.into, x.isChange = true) ∧ ∃ x ∈ st.frm, x.isChange = true
  sides : (∀ x y, DiffItem.change x y ∈ st.into → y = []) ∧ ∀ x y, DiffItem.change x y ∈ st.frm → x = []
  whole : st.finishable = true → Whole (intoText st.into) ∧ Whole (fromText st.frm)

theorem LineAcc.Good.init : LineAcc.Good {} :=
  ⟨by simp, by simp, by simp, by simp, by simp, fun _ => ⟨.inl rfl, .inl rfl⟩⟩

/-- The state after a conflict has been finished. -/
def LineAcc.fresh : LineAcc := {}

namespace LineAcc

theorem add_into (st : LineAcc) (f : PyStr) : intoText (st.add f).into = intoText st.into ++ f := by
  simp [add, intoText]

theorem add_frm (st : LineAcc) (f : PyStr) : fromText (st.add f).frm = fromText st.frm ++ f := by
  simp [add, fromText]

theorem Good.addSide {st : LineAcc} (G : st.Good) (f : PyStr) :
    (∀ x y, DiffItem.change x y ∈ (st.add f).into → y = []) ∧
      ∀ x y, DiffItem.change x y ∈ (st.add f).frm → x = [] := by
  simp only [add, List.mem_append, List.mem_singleton, reduceCtorEq, or_false]
  exact G.sides

theorem Good.addWhole {st : LineAcc} {f : PyStr} (hf : f ≠ []) (h : (st.add f).finishable = true) :
    Whole (intoText (st.add f).into) ∧ Whole (fromText (st.add f).frm) := by
  rw [add_into, add_frm, whole_append_right hf, whole_append_right hf, whole_iff_endsNl hf]
  have : endsNl f = true := by simpa [add, hf] using h
  exact ⟨this, this⟩

/-- Adding text within a conflict. -/
theorem Good.addConf {st : LineAcc} (G : st.Good) (hc : st.inConflict = true) {f : PyStr} (hf : f ≠ []) :
    (st.add f).Good where
  empty := by simp [add]
  text := by simp [add, hc]
  notFin := by simp [add, hc]
  conf _ := by
    obtain ⟨⟨x, hx, h⟩, ⟨y, hy, h'⟩⟩ := G.conf hc
    exact ⟨⟨x, by simp [add, hx], h⟩, ⟨y, by simp [add, hy], h'⟩⟩
  sides := G.addSide f
  whole := Good.addWhole hf

/-- Adding text without a newline. -/
theorem Good.addLine {st : LineAcc} (G : st.Good) {f : PyStr} (hf : f ≠ []) (hn : nl ∉ f) :
    (st.add f).Good := by
  cases hc : st.inConflict with
  | true => exact G.addConf hc hf
  | false =>
    refine ⟨by simp [add], fun _ => ?_, fun _ _ => ?_, by simp [add, hc], G.addSide f, Good.addWhole hf⟩
    · obtain ⟨h1, h2⟩ := G.text hc
      refine ⟨by simp [add, h1], ?_⟩
      intro x hx
      simp only [add, List.mem_append, List.mem_singleton] at hx
      rcases hx with hx | rfl
      · exact h2 x hx
      · exact ⟨f, rfl, hf⟩
    · simp [add, hf, endsNl_of_not_mem hn]

theorem Good.addConflict {st : LineAcc} (G : st.Good) (a b : PyStr) : (st.addConflict a b).Good where
  empty := by simp [LineAcc.addConflict]
  text := by simp [LineAcc.addConflict]
  notFin := by simp [LineAcc.addConflict]
  conf _ := by simp [LineAcc.addConflict, DiffItem.isChange]
  sides := by
    obtain ⟨h1, h2⟩ := G.sides
    constructor
    · intro x y h
      simp only [LineAcc.addConflict, List.mem_append, List.mem_singleton, DiffItem.change.injEq] at h
      rcases h with h | h
      · exact h1 x y h
      · exact h.2
    · intro x y h
      simp only [LineAcc.addConflict, List.mem_append, List.mem_singleton, DiffItem.change.injEq] at h
      rcases h with h | h
      · exact h2 x y h
      · exact h.1
  whole h := by
    simp only [LineAcc.addConflict, Bool.and_eq_true, List.isEmpty_iff] at h ⊢
    obtain ⟨ha, hb⟩ := h
    constructor
    · rw [intoText_append']
      show Whole (_ ++ (a ++ []))
      rw [List.append_nil]
      by_cases h : a = []
      · subst h; simp only [if_true] at ha; simpa using (G.whole ha).1
      · rw [if_neg h] at ha
        rw [whole_append_right h, whole_iff_endsNl h]; exact ha
    · rw [fromText_append']
      show Whole (_ ++ (b ++ []))
      rw [List.append_nil]
      by_cases h : b = []
      · subst h; simp only [if_true] at hb; simpa using (G.whole hb).2
      · rw [if_neg h] at hb
        rw [whole_append_right h, whole_iff_endsNl h]; exact hb

/-- A finished conflict is a `Change` of whole lines. -/
theorem Good.item {st : LineAcc} (G : st.Good) (hc : st.inConflict = true) (hf : st.finishable = true) :
    (LineItem.change st.into st.frm).WholeLines :=
  ⟨G.whole hf, G.conf hc, G.sides⟩

end LineAcc

/-- `handle_fragment` from the `split` on. -/
def splitPhase (st : LineAcc) (f : PyStr) : LineAcc × List LineItem :=
  let lines := pySplit nl f
  if lines.length > 1 then
    let (st, out1) :=
      if st.inConflict then
        let (st, o) := st.finishConflict (lines.headD [] ++ [nl])
        (st, o ++ yieldText (joinWithNewline lines.dropLast.tail))
      else (st, yieldText (joinWithNewline lines.dropLast))
    let last := lines.getLastD []
    (if last.isEmpty then st else st.add last, out1)
  else (st.add (lines.headD []), [])

theorem handleFragment_text (sp : Nat → Bool) (st : LineAcc) (f : PyStr) :
    handleFragment sp st (.common f) =
      if st.inConflict && isSpaceStr sp f then (st.add f, [])
      else if st.finishable && st.isNonempty then
        ((splitPhase (st.finishConflict []).1 f).1,
          (st.finishConflict []).2 ++ (splitPhase (st.finishConflict []).1 f).2)
      else splitPhase st f := by
  unfold handleFragment splitPhase
  by_cases h1 : (st.inConflict && isSpaceStr sp f) = true
  · simp only [h1, if_true]
  · simp only [h1, Bool.false_eq_true, if_false]
    by_cases h2 : (st.finishable && st.isNonempty) = true
    · simp only [h2, if_true]
      split <;> simp
    · simp only [h2, Bool.false_eq_true, if_false]
      split <;> simp

theorem finishConflict_done {st : LineAcc} (h : st.finishable = true) :
    st.finishConflict [] = ({ }, [.change st.into st.frm]) := by
  simp [LineAcc.finishConflict, LineAcc.conditionalAdd, h]

theorem finishConflict_open {st : LineAcc} (h : st.finishable = false) (f : PyStr) :
    st.finishConflict (f ++ [nl]) =
      ({ }, [.change (st.add (f ++ [nl])).into (st.add (f ++ [nl])).frm]) := by
  have : endsNl (f ++ [nl]) = true := (endsNl_iff _).2 ⟨f, rfl⟩
  simp [LineAcc.finishConflict, LineAcc.conditionalAdd, h, LineAcc.add, this]

theorem yieldText_into (s : PyStr) : lineInto (yieldText s) = s := by
  unfold yieldText
  split
  · next h => simp [lineInto, (List.isEmpty_iff.1 h)]
  · simp [lineInto]

theorem yieldText_from (s : PyStr) : lineFrom (yieldText s) = s := by
  unfold yieldText
  split
  · next h => simp [lineFrom, (List.isEmpty_iff.1 h)]
  · simp [lineFrom]

theorem yieldText_whole {s : PyStr} (h : Whole s) : ∀ x ∈ yieldText s, x.WholeLines := by
  unfold yieldText
  intro x hx
  split at hx
  · simp at hx
  · next hs =>
    simp only [List.mem_singleton] at hx
    subst hx
    exact ⟨by simpa using hs, h⟩

/-- The result of a step: invariant, whole lines, and (if nothing was pending outside a conflict)
the texts. -/
structure LineStepOK (st : LineAcc) (x : DiffItem Nat) (r : LineAcc × List LineItem) : Prop where
  good : r.1.Good
  whole : ∀ i ∈ r.2, i.WholeLines
  into : (st.inConflict = true ∨ st.into = []) →
    lineInto r.2 ++ intoText r.1.into = intoText st.into ++ intoText [x]
  frm : (st.inConflict = true ∨ st.into = []) →
    lineFrom r.2 ++ fromText r.1.frm = fromText st.frm ++ fromText [x]
  fin : r.1.finishable = true → x.isChange = false → Whole (intoText [x])
  fin' : x.isChange = false → Whole (intoText [x]) → (st.inConflict = true ∨ st.into = []) →
    r.1.finishable = true

theorem intoText_common (f : PyStr) : intoText [DiffItem.common f] = f := by simp [intoText]
theorem fromText_common (f : PyStr) : fromText [DiffItem.common f] = f := by simp [fromText]

theorem finAdd {st : LineAcc} {f : PyStr} (hf : f ≠ []) : (st.add f).finishable = true ↔ Whole f := by
  rw [whole_iff_endsNl hf]
  simp [LineAcc.add, hf]

theorem fin_last {f j l : PyStr} (hl : nl ∉ l) (hf : f = j ++ l) (hj : Whole j) {st : LineAcc}
    (h : st.finishable = true) :
    (if l.isEmpty = true then st else st.add l).finishable = true ↔ Whole f := by
  by_cases hle : l = []
  · subst hle hf
    simp [h, hj]
  · rw [if_neg (by simpa using hle), finAdd hle, hf, whole_append_right hle]

theorem splitPhase_ok {st : LineAcc} (G : st.Good)
    (h : st.into = [] ∨ st.finishable = false) {f : PyStr} (hf : f ≠ []) :
    LineStepOK st (.common f) (splitPhase st f) := by
  unfold splitPhase
  dsimp only
  rcases split_cases f with ⟨h1, h2, h3⟩ | ⟨h1, h2, h3, h4⟩
  · rw [if_neg (by omega), h2]
    have hnf : ¬ Whole f := by rw [whole_iff_endsNl hf, endsNl_of_not_mem h3]; simp
    refine ⟨G.addLine hf h3, by simp, ?_, ?_, ?_, ?_⟩
    · intro _; rw [LineAcc.add_into, intoText_common]; simp [lineInto]
    · intro _; rw [LineAcc.add_frm, fromText_common]; simp [lineFrom]
    · intro h _; rw [finAdd hf] at h; exact absurd h hnf
    · intro _ h; rw [intoText_common] at h; exact absurd h hnf
  · rw [if_pos h1]
    generalize hl : (pySplit nl f).getLastD [] = l at *
    generalize hj : joinWithNewline (pySplit nl f).dropLast = j at *
    have hjw : Whole j := by rw [← hj]; exact joinWithNewline_whole _
    have key : ∀ st : LineAcc, st.Good →
        (if l.isEmpty = true then st else st.add l).Good ∧
        intoText (if l.isEmpty = true then st else st.add l).into = intoText st.into ++ l ∧
        fromText (if l.isEmpty = true then st else st.add l).frm = fromText st.frm ++ l := by
      intro st G
      by_cases hle : l = []
      · subst hle; simp [G]
      · rw [if_neg (by simpa using hle)]
        exact ⟨G.addLine hle h2, LineAcc.add_into _ _, LineAcc.add_frm _ _⟩
    cases hc : st.inConflict with
    | true =>
      have hne : st.into ≠ [] := by
        intro h
        have := (G.empty h).2.2
        rw [hc] at this; cases this
      have hfin : st.finishable = false := h.resolve_left hne
      simp only [if_true]
      rw [finishConflict_open hfin]
      dsimp only
      generalize hq : (pySplit nl f).headD [] ++ [nl] = q at *
      have hqne : q ≠ [] := by rw [← hq]; simp
      have hqw : Whole q := by rw [← hq]; right; exact ⟨_, rfl⟩
      have hmw := joinWithNewline_whole (pySplit nl f).dropLast.tail
      generalize joinWithNewline (pySplit nl f).dropLast.tail = m at *
      have Gq := G.addConf hc hqne
      obtain ⟨k1, k2, k3⟩ := key {} LineAcc.Good.init
      refine ⟨k1, ?_, ?_, ?_, ?_, ?_⟩
      · intro i hi
        rcases List.mem_append.1 hi with hi | hi
        · simp only [List.mem_singleton] at hi
          subst hi
          exact Gq.item (by simpa [LineAcc.add] using hc) ((finAdd hqne).2 hqw)
        · exact yieldText_whole hmw i hi
      · intro _
        rw [k2, lineInto_append, yieldText_into, intoText_common, h3, h4]
        simp [lineInto, LineAcc.add_into]
      · intro _
        rw [k3, lineFrom_append, yieldText_from, fromText_common, h3, h4]
        simp [lineFrom, LineAcc.add_frm]
      · intro h _; rw [intoText_common]; exact (fin_last h2 h3 hjw rfl).1 h
      · intro _ h _; rw [intoText_common] at h; exact (fin_last h2 h3 hjw rfl).2 h
    | false =>
      simp only [Bool.false_eq_true, if_false]
      obtain ⟨k1, k2, k3⟩ := key st G
      refine ⟨k1, yieldText_whole hjw, ?_, ?_, ?_, ?_⟩
      · intro h
        have he : st.into = [] := by simpa [hc] using h
        rw [k2, yieldText_into, intoText_common, he, h3]
        simp
      · intro h
        have he : st.into = [] := by simpa [hc] using h
        rw [k3, yieldText_from, fromText_common, (G.empty he).1, h3]
        simp
      · intro h _
        rw [intoText_common]
        by_cases hle : l = []
        · subst hle; rw [h3]; simpa using hjw
        · rw [if_neg (by simpa using hle), finAdd hle] at h
          rw [h3, whole_append_right hle]; exact h
      · intro _ h h'
        have he : st.into = [] := by simpa [hc] using h'
        rw [intoText_common] at h
        exact (fin_last h2 h3 hjw (G.empty he).2.1).2 h

theorem handleFragment_ok (sp : Nat → Bool) {st : LineAcc} (G : st.Good) {x : DiffItem Nat}
    (hx : truthy x = true) : LineStepOK st x (handleFragment sp st x) := by
  cases x with
  | change a b =>
    refine ⟨G.addConflict a b, by simp [handleFragment], ?_, ?_, ?_, ?_⟩
    · intro _; simp [handleFragment, LineAcc.addConflict, intoText, lineInto]
    · intro _; simp [handleFragment, LineAcc.addConflict, fromText, lineFrom]
    · simp [DiffItem.isChange]
    · simp [DiffItem.isChange]
  | common f =>
    have hf : f ≠ [] := by simpa [truthy] using hx
    rw [handleFragment_text]
    split
    · next h =>
      simp only [Bool.and_eq_true] at h
      refine ⟨G.addConf h.1 hf, by simp, ?_, ?_, ?_, ?_⟩
      · intro _; rw [LineAcc.add_into, intoText_common]; simp [lineInto]
      · intro _; rw [LineAcc.add_frm, fromText_common]; simp [lineFrom]
      · intro h _; rw [finAdd hf] at h; rw [intoText_common]; exact h
      · intro _ h _; rw [intoText_common] at h; exact (finAdd hf).2 h
    · next hsp =>
      split
      · next h =>
        simp only [Bool.and_eq_true, LineAcc.isNonempty, Bool.not_eq_true', List.isEmpty_eq_false_iff] at h
        have hc : st.inConflict = true := by
          cases hc : st.inConflict with
          | true => rfl
          | false => have := G.notFin hc h.2.1; rw [h.1] at this; cases this
        rw [finishConflict_done h.1]
        dsimp only
        have S := splitPhase_ok LineAcc.Good.init (.inl rfl) hf
        refine ⟨S.good, ?_, ?_, ?_, S.fin, fun h1 h2 _ => S.fin' h1 h2 (.inr rfl)⟩
        · intro i hi
          rcases List.mem_append.1 hi with hi | hi
          · simp only [List.mem_singleton] at hi
            subst hi
            exact G.item hc h.1
          · exact S.whole i hi
        · intro _
          rw [lineInto_append, List.append_assoc, S.into (.inr rfl)]
          simp [lineInto]
        · intro _
          rw [lineFrom_append, List.append_assoc, S.frm (.inr rfl)]
          simp [lineFrom]
      · next h =>
        apply splitPhase_ok G _ hf
        by_cases he : st.into = []
        · exact .inl he
        · right
          simp only [Bool.and_eq_true, LineAcc.isNonempty, Bool.not_eq_true', List.isEmpty_eq_false_iff] at h
          cases hc : st.inConflict with
          | false => exact G.notFin hc he
          | true =>
            obtain ⟨_, x, hx, _⟩ := G.conf hc
            have : st.frm ≠ [] := List.ne_nil_of_mem hx
            cases hfi : st.finishable with
            | false => rfl
            | true => exact absurd ⟨hfi, he, this⟩ h

/-- After a text fragment nothing is known, after a change a conflict is open. -/
theorem handleFragment_change (sp : Nat → Bool) (st : LineAcc) (a b : PyStr) :
    (handleFragment sp st (.change a b)).1.inConflict = true := rfl

/-! ## The loop -/

theorem lineLoop_good (sp : Nat → Bool) : ∀ (s : List (DiffItem Nat)) {st : LineAcc}, st.Good →
    (lineLoop sp st s).1.Good ∧ ∀ i ∈ (lineLoop sp st s).2, i.WholeLines
  | [], st, G => ⟨G, by simp [lineLoop]⟩
  | x :: s, st, G => by
    simp only [lineLoop]
    split
    · next h =>
      have S := handleFragment_ok sp G h
      obtain ⟨h1, h2⟩ := lineLoop_good sp s S.good
      refine ⟨h1, ?_⟩
      intro i hi
      rcases List.mem_append.1 hi with hi | hi
      · exact S.whole i hi
      · exact h2 i hi
    · exact lineLoop_good sp s G

theorem truthy_iff (x : DiffItem Nat) : truthy x = true ↔ x ≠ .common [] := by
  cases x with
  | common s => cases s <;> simp [truthy]
  | change a b => simp [truthy]

theorem lineLoop_fragments (sp : Nat → Bool) : ∀ (s : List (DiffItem Nat)) (st : LineAcc),
    lineLoop sp st s = lineLoop sp st (fragments s)
  | [], st => rfl
  | x :: s, st => by
    by_cases h : truthy x = true
    · have hx := (truthy_iff x).1 h
      have e : fragments (x :: s) = x :: fragments s := by
        unfold fragments
        rw [List.filter_cons_of_pos (by simpa using hx)]
      rw [e]
      simp only [lineLoop, h, if_true]
      rw [lineLoop_fragments sp s]
    · have hx : x = .common [] := by
        have := mt (truthy_iff x).2 h
        simpa using this
      have e : fragments (x :: s) = fragments s := by
        unfold fragments
        rw [List.filter_cons_of_neg (by simpa using hx)]
      rw [e]
      simp only [lineLoop, h, if_false]
      rw [← lineLoop_fragments sp s]
      simp

theorem fragments_into : ∀ (s : List (DiffItem Nat)), intoText (fragments s) = intoText s
  | [] => rfl
  | x :: s => by
    by_cases h : x = .common []
    · have e : fragments (x :: s) = fragments s := by
        unfold fragments
        rw [List.filter_cons_of_neg (by simpa using h)]
      rw [e, fragments_into s, h]; simp [intoText]
    · have e : fragments (x :: s) = x :: fragments s := by
        unfold fragments
        rw [List.filter_cons_of_pos (by simpa using h)]
      rw [e]
      show intoText ([x] ++ fragments s) = intoText ([x] ++ s)
      rw [intoText_append', intoText_append', fragments_into s]

theorem fragments_from : ∀ (s : List (DiffItem Nat)), fromText (fragments s) = fromText s
  | [] => rfl
  | x :: s => by
    by_cases h : x = .common []
    · have e : fragments (x :: s) = fragments s := by
        unfold fragments
        rw [List.filter_cons_of_neg (by simpa using h)]
      rw [e, fragments_from s, h]; simp [fromText]
    · have e : fragments (x :: s) = x :: fragments s := by
        unfold fragments
        rw [List.filter_cons_of_pos (by simpa using h)]
      rw [e]
      show fromText ([x] ++ fragments s) = fromText ([x] ++ s)
      rw [fromText_append', fromText_append', fragments_from s]

theorem TextsApart.tail {x : DiffItem Nat} {s : List (DiffItem Nat)} (h : TextsApart (x :: s)) :
    TextsApart s := by
  cases s with
  | nil => trivial
  | cons y s => exact h.2

/-- With texts apart the loop keeps both texts. -/
theorem lineLoop_texts (sp : Nat → Bool) : ∀ (s : List (DiffItem Nat)) {st : LineAcc}, st.Good →
    (∀ x ∈ s, truthy x = true) → TextsApart s →
    ((st.inConflict = true ∨ st.into = []) ∨ ∀ x ∈ s.head?, x.isChange = true) →
    lineInto (lineLoop sp st s).2 ++ intoText (lineLoop sp st s).1.into =
        intoText st.into ++ intoText s ∧
    lineFrom (lineLoop sp st s).2 ++ fromText (lineLoop sp st s).1.frm =
        fromText st.frm ++ fromText s
  | [], st, G, _, _, _ => by simp [lineLoop, lineInto, lineFrom]
  | x :: s, st, G, ht, ha, hp => by
    have hx := ht x (by simp)
    have S := handleFragment_ok sp G hx
    simp only [lineLoop, hx, if_true]
    have hnext : ((handleFragment sp st x).1.inConflict = true ∨ (handleFragment sp st x).1.into = []) ∨
        ∀ y ∈ s.head?, y.isChange = true := by
      cases x with
      | change a b => left; left; rfl
      | common f =>
        right
        intro y hy
        cases s with
        | nil => simp at hy
        | cons z s =>
          simp only [List.head?_cons, Option.mem_some_iff] at hy
          subst hy
          have := ha.1
          simpa [DiffItem.isChange] using this
    obtain ⟨i1, i2⟩ := lineLoop_texts sp s S.good (fun y hy => ht y (by simp [hy])) ha.tail hnext
    have c1 : intoText (x :: s) = intoText [x] ++ intoText s := by
      rw [← intoText_append']; rfl
    have c2 : fromText (x :: s) = fromText [x] ++ fromText s := by
      rw [← fromText_append']; rfl
    have hst : (lineInto (handleFragment sp st x).2 ++ intoText (handleFragment sp st x).1.into =
          intoText st.into ++ intoText [x]) ∧
        (lineFrom (handleFragment sp st x).2 ++ fromText (handleFragment sp st x).1.frm =
          fromText st.frm ++ fromText [x]) := by
      cases x with
      | change a b =>
        simp [handleFragment, LineAcc.addConflict, intoText, lineInto, fromText, lineFrom]
      | common f =>
        have := hp.resolve_right (by intro h; have := h (.common f) (by simp); simp [DiffItem.isChange] at this)
        exact ⟨S.into this, S.frm this⟩
    rw [lineInto_append, lineFrom_append, List.append_assoc, List.append_assoc, i1, i2,
      ← List.append_assoc, ← List.append_assoc, hst.1, hst.2, c1, c2]
    simp

/-! ## The end of the stream -/

theorem joinStrs_texts : ∀ (l : List (DiffItem Nat)), (∀ x ∈ l, ∃ s, x = .common s ∧ s ≠ []) →
    ∀ (e : PyStr), joinStrs (l ++ [.common e]) = .ok (fromText l ++ e)
  | [], _, e => by simp [joinStrs]
  | x :: l, h, e => by
    obtain ⟨s, rfl, _⟩ := h x (by simp)
    have := joinStrs_texts l (fun y hy => h y (by simp [hy])) e
    simp only [List.cons_append, joinStrs, this]
    have c2 : fromText (.common s :: l) = s ++ fromText l := by simp [fromText]
    rw [c2]; simp

theorem into_eq_from_of_texts : ∀ (l : List (DiffItem Nat)), (∀ x ∈ l, ∃ s, x = .common s ∧ s ≠ []) →
    intoText l = fromText l
  | [], _ => rfl
  | x :: l, h => by
    obtain ⟨s, rfl, _⟩ := h x (by simp)
    have := into_eq_from_of_texts l (fun y hy => h y (by simp [hy]))
    simp only [intoText, fromText, List.flatMap_cons] at this ⊢
    rw [this]

/-- What `flush` adds: one newline if the text so far cannot be finished. -/
theorem LineAcc.Good.flush {st : LineAcc} (G : st.Good) :
    st.flush.2 = none ∧ (∀ i ∈ st.flush.1, i.WholeLines) ∧
    lineInto st.flush.1 = intoText st.into ++ (if st.finishable then [] else [nl]) ∧
    lineFrom st.flush.1 = fromText st.frm ++ (if st.finishable then [] else [nl]) := by
  unfold LineAcc.flush
  cases hc : st.inConflict with
  | true =>
    simp only [if_true]
    cases hf : st.finishable with
    | true =>
      simp only [if_true]
      rw [finishConflict_done hf]
      refine ⟨trivial, ?_, by simp [lineInto], by simp [lineFrom]⟩
      intro i hi
      simp only [List.mem_singleton] at hi
      subst hi
      exact G.item hc hf
    | false =>
      simp only [Bool.false_eq_true, if_false]
      have := finishConflict_open hf []
      rw [List.nil_append] at this
      rw [this]
      refine ⟨trivial, ?_, by simp [lineInto, LineAcc.add_into], by simp [lineFrom, LineAcc.add_frm]⟩
      intro i hi
      simp only [List.mem_singleton] at hi
      subst hi
      exact (G.addConf hc (by simp)).item (by simpa [LineAcc.add] using hc)
        ((finAdd (by simp)).2 (.inr ⟨[], rfl⟩))
  | false =>
    simp only [Bool.false_eq_true, if_false]
    obtain ⟨t1, t2⟩ := G.text hc
    cases hfr : st.frm with
    | nil =>
      have := G.empty (by rw [t1, hfr])
      simp [this.2.1, t1, hfr, lineInto, lineFrom]
    | cons x l =>
      dsimp only
      obtain ⟨s, hs, hne⟩ := t2 x (by rw [hfr]; simp)
      have htr : truthy x = true := by subst hs; simpa [truthy] using hne
      rw [if_pos htr]
      have hj := joinStrs_texts st.frm t2 [nl]
      rw [hfr] at hj
      rw [hj]
      have hfin : st.finishable = false := G.notFin hc (by rw [t1, hfr]; simp)
      rw [hfin]
      simp only [Bool.false_eq_true, if_false]
      refine ⟨trivial, ?_, ?_, ?_⟩
      · intro i hi
        simp only [List.mem_singleton] at hi
        subst hi
        exact ⟨by simp, .inr ⟨_, rfl⟩⟩
      · have := into_eq_from_of_texts st.frm t2
        rw [t1, this, hfr]
        simp [lineInto]
      · simp [lineFrom]

theorem fragments_eq_nil {s : List (DiffItem Nat)} : fragments s = [] ↔ s.any truthy = false := by
  unfold fragments
  rw [List.filter_eq_nil_iff, List.any_eq_false]
  constructor
  · intro h x hx
    rw [truthy_iff]; simpa using h x hx
  · intro h x hx
    have := h x hx
    rw [truthy_iff] at this; simpa using this

theorem toLineDiff_eq (sp : Nat → Bool) (s : List (DiffItem Nat)) :
    toLineDiff sp s = (if fragments s = [] then [.text []] else
      (lineLoop sp {} s).2 ++ (lineLoop sp {} s).1.flush.1, none) := by
  obtain ⟨G, _⟩ := lineLoop_good sp s LineAcc.Good.init
  have hn := G.flush.1
  unfold toLineDiff
  dsimp only
  cases hf : (lineLoop sp {} s).1.flush with
  | mk o e =>
    rw [hf] at hn
    dsimp only at hn
    subst hn
    dsimp only
    by_cases h : fragments s = []
    · rw [if_pos h]
      have h2 := fragments_eq_nil.1 h
      rw [lineLoop_fragments, h] at hf ⊢
      simp only [lineLoop, LineAcc.flush] at hf ⊢
      cases hf
      rw [h2]; rfl
    · rw [if_neg h]
      have h2 : s.any truthy = true := by
        cases hh : s.any truthy with
        | true => rfl
        | false => exact absurd (fragments_eq_nil.2 hh) h
      simp [h2]

/-! ## When the newline is added -/

/-- The two texts before a fragment agree on being whole lines and `finishable` says so. -/
theorem lineLoop_finishable (sp : Nat → Bool) : ∀ (s : List (DiffItem Nat)) {st : LineAcc}
    {I F : PyStr}, st.Good → (∀ x ∈ s, truthy x = true) → Alternating s →
    ((st.inConflict = true ∨ st.into = []) ∨ ∀ x ∈ s.head?, x.isChange = true) →
    (st.finishable = true ↔ Whole I ∧ Whole F) →
    ((Whole I ↔ Whole F) ∨ ∀ x ∈ s.head?, x.isChange = false) →
    ((lineLoop sp st s).1.finishable = true ↔ Whole (I ++ intoText s) ∧ Whole (F ++ fromText s))
  | [], st, I, F, G, _, _, _, h, _ => by simpa [lineLoop] using h
  | x :: s, st, I, F, G, ht, ha, hp, hI, hIF => by
    have hx := ht x (by simp)
    have S := handleFragment_ok sp G hx
    simp only [lineLoop, hx, if_true]
    have c1 : intoText (x :: s) = intoText [x] ++ intoText s := by
      rw [← intoText_append']; rfl
    have c2 : fromText (x :: s) = fromText [x] ++ fromText s := by
      rw [← fromText_append']; rfl
    rw [c1, c2, ← List.append_assoc, ← List.append_assoc]
    have hat : Alternating s := by
      cases s with
      | nil => trivial
      | cons y s => exact ha.2
    have hhead : ∀ y ∈ s.head?, y.isChange ≠ x.isChange := by
      intro y hy
      cases s with
      | nil => simp at hy
      | cons z s =>
        simp only [List.head?_cons, Option.mem_some_iff] at hy
        subst hy
        exact fun h => ha.1 h.symm
    cases x with
    | common f =>
      have hf : f ≠ [] := by simpa [truthy] using hx
      have hst := hp.resolve_right (by intro h; have := h (.common f) (by simp); simp [DiffItem.isChange] at this)
      apply lineLoop_finishable sp s S.good (fun y hy => ht y (by simp [hy])) hat
      · right
        intro y hy
        have := hhead y hy
        simpa [DiffItem.isChange] using this
      · rw [intoText_common, fromText_common, whole_append_right hf, whole_append_right hf, and_self]
        constructor
        · intro h; have := S.fin h rfl; rwa [intoText_common] at this
        · intro h; exact S.fin' rfl (by rwa [intoText_common]) hst
      · left
        rw [intoText_common, fromText_common, whole_append_right hf, whole_append_right hf]
    | change a b =>
      apply lineLoop_finishable sp s S.good (fun y hy => ht y (by simp [hy])) hat
      · left; left; rfl
      · have hIF' : Whole I ↔ Whole F :=
          hIF.resolve_right (by intro h; have := h (.change a b) (by simp); simp [DiffItem.isChange] at this)
        have e1 : intoText [DiffItem.change a b] = a := by simp [intoText]
        have e2 : fromText [DiffItem.change a b] = b := by simp [fromText]
        rw [e1, e2]
        show ((if a.isEmpty = true then st.finishable else endsNl a) &&
          (if b.isEmpty = true then st.finishable else endsNl b)) = true ↔ _
        rw [Bool.and_eq_true]
        have ea : (if a.isEmpty = true then st.finishable else endsNl a) = true ↔ Whole (I ++ a) := by
          by_cases h : a = []
          · subst h
            simp only [List.isEmpty_nil, if_true, List.append_nil, hI, hIF', and_self]
          · rw [if_neg (by simpa using h), whole_append_right h, whole_iff_endsNl h]
        have eb : (if b.isEmpty = true then st.finishable else endsNl b) = true ↔ Whole (F ++ b) := by
          by_cases h : b = []
          · subst h
            simp only [List.isEmpty_nil, if_true, List.append_nil, hI, hIF', and_self]
          · rw [if_neg (by simpa using h), whole_append_right h, whole_iff_endsNl h]
        rw [ea, eb]
      · right
        intro y hy
        have := hhead y hy
        simpa [DiffItem.isChange] using this

/-! ## `consolidate` -/

theorem yieldChange_into (a b : List (DiffItem Nat)) : lineInto (yieldChange a b) = intoText a := by
  unfold yieldChange
  split
  · next h => simp only [Bool.and_eq_true, List.isEmpty_iff] at h; simp [h.1, lineInto]
  · simp [lineInto]

theorem yieldChange_from (a b : List (DiffItem Nat)) : lineFrom (yieldChange a b) = fromText b := by
  unfold yieldChange
  split
  · next h => simp only [Bool.and_eq_true, List.isEmpty_iff] at h; simp [h.2, lineFrom]
  · simp [lineFrom]

theorem consolidateLoop_texts : ∀ (d : List LineItem) (a b : List (DiffItem Nat)),
    lineInto (consolidateLoop a b d) = intoText a ++ lineInto d ∧
    lineFrom (consolidateLoop a b d) = fromText b ++ lineFrom d
  | [], a, b => by
    simp only [consolidateLoop, yieldChange_into, yieldChange_from]
    simp [lineInto, lineFrom]
  | .change x y :: d, a, b => by
    obtain ⟨h1, h2⟩ := consolidateLoop_texts d (a ++ x) (b ++ y)
    simp only [consolidateLoop, h1, h2, intoText_append', fromText_append']
    simp [lineInto, lineFrom]
  | .text s :: d, a, b => by
    obtain ⟨h1, h2⟩ := consolidateLoop_texts d [] []
    simp only [consolidateLoop, lineInto_append, lineFrom_append, yieldChange_into, yieldChange_from, h1, h2]
    simp [lineInto, lineFrom]

theorem ChangesApart.text_append {s : PyStr} {d : List LineItem} (h : ChangesApart d) (a b : List (DiffItem Nat)) :
    ChangesApart (yieldChange a b ++ [.text s] ++ d) := by
  have h1 : ChangesApart (.text s :: d) := by
    cases d with
    | nil => trivial
    | cons y d => exact ⟨.inl rfl, h⟩
  unfold yieldChange
  split
  · simpa using h1
  · exact ⟨.inr rfl, h1⟩

theorem consolidateLoop_apart : ∀ (d : List LineItem) (a b : List (DiffItem Nat)),
    ChangesApart (consolidateLoop a b d)
  | [], a, b => by
    simp only [consolidateLoop, yieldChange]
    split <;> trivial
  | .change x y :: d, a, b => consolidateLoop_apart d _ _
  | .text s :: d, a, b => ChangesApart.text_append (consolidateLoop_apart d [] []) a b

theorem consolidateLoop_whole : ∀ (d : List LineItem) (a b : List (DiffItem Nat)),
    (a = [] ∧ b = [] ∨ (LineItem.change a b).WholeLines) → (∀ i ∈ d, i.WholeLines) →
    ∀ i ∈ consolidateLoop a b d, i.WholeLines
  | [], a, b, hab, _ => by
    intro i hi
    simp only [consolidateLoop, yieldChange] at hi
    split at hi
    · simp at hi
    · next h =>
      simp only [List.mem_singleton] at hi
      subst hi
      exact hab.resolve_left (by simpa using h)
  | .change x y :: d, a, b, hab, hd => by
    apply consolidateLoop_whole d _ _ _ (fun i hi => hd i (by simp [hi]))
    right
    have hxy := hd (.change x y) (by simp)
    rcases hab with ⟨rfl, rfl⟩ | hab
    · simpa using hxy
    · obtain ⟨⟨w1, w2⟩, ⟨⟨u, hu, hu'⟩, ⟨v, hv, hv'⟩⟩, s1, s2⟩ := hab
      obtain ⟨⟨w1', w2'⟩, _, s1', s2'⟩ := hxy
      refine ⟨⟨?_, ?_⟩, ⟨⟨u, by simp [hu], hu'⟩, ⟨v, by simp [hv], hv'⟩⟩, ?_, ?_⟩
      · rw [intoText_append']; exact w1.append w1'
      · rw [fromText_append']; exact w2.append w2'
      · intro p q hpq
        rcases List.mem_append.1 hpq with h | h
        · exact s1 p q h
        · exact s1' p q h
      · intro p q hpq
        rcases List.mem_append.1 hpq with h | h
        · exact s2 p q h
        · exact s2' p q h
  | .text s :: d, a, b, hab, hd => by
    intro i hi
    simp only [consolidateLoop, List.mem_append, List.mem_singleton] at hi
    rcases hi with (hi | rfl) | hi
    · simp only [yieldChange] at hi
      split at hi
      · simp at hi
      · next h =>
        simp only [List.mem_singleton] at hi
        subst hi
        exact hab.resolve_left (by simpa using h)
    · exact hd _ (by simp)
    · exact consolidateLoop_whole d [] [] (.inl ⟨rfl, rfl⟩) (fun i hi => hd i (by simp [hi])) i hi

end Gaspra
