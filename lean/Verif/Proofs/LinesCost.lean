import Verif.Model.LinesCost
import Verif.Spec.LinesCost
import Verif.Proofs.DiffToLines
import Verif.Proofs.LineVersions

/-!
# The steps of a line diff
-/

namespace Gaspra

/-- What is collected in the accumulator. -/
def LineAcc.pot (st : LineAcc) : Nat :=
  st.into.length + st.frm.length + (st.frm.map charsOf).sum

/-- The elements of the items of a line diff. -/
def lineItemSize : LineItem → Nat
  | .text _ => 1
  | .change a b => 1 + a.length + b.length

theorem isSpaceSteps_le (sp : Nat → Bool) : ∀ s, isSpaceSteps sp s ≤ s.length
  | [] => by simp [isSpaceSteps]
  | c :: s => by
    have := isSpaceSteps_le sp s
    simp only [isSpaceSteps, List.length_cons]
    split <;> omega

theorem isSpaceSteps_all (sp : Nat → Bool) : ∀ s, s.all sp = true → isSpaceSteps sp s = s.length
  | [], _ => by simp [isSpaceSteps]
  | c :: s, h => by
    simp only [List.all_cons, Bool.and_eq_true] at h
    have := isSpaceSteps_all sp s h.2
    simp only [isSpaceSteps, List.length_cons, h.1, if_true]
    omega

theorem LineAcc.pot_add (st : LineAcc) (f : PyStr) : (st.add f).pot = st.pot + 2 + f.length := by
  simp [LineAcc.pot, LineAcc.add, charsOf]
  omega

theorem LineAcc.pot_conflict (st : LineAcc) (a b : PyStr) :
    (st.addConflict a b).pot = st.pot + 2 := by
  simp [LineAcc.pot, LineAcc.addConflict, charsOf]
  omega

theorem LineAcc.conditional_length (st : LineAcc) (f : PyStr) :
    (st.conditionalAdd f).1.into.length + (st.conditionalAdd f).1.frm.length ≤
      st.into.length + st.frm.length + 2 := by
  unfold LineAcc.conditionalAdd
  split
  · simp
  · split
    · simp
    · simp [LineAcc.add]; omega

theorem LineAcc.finish_bound (st : LineAcc) (f : PyStr) :
    (st.finishConflictC f).2 ≤ 7 + 2 * st.pot ∧ (st.finishConflictC f).1.1.pot = 0 ∧
      ((st.finishConflictC f).1.2.map lineItemSize).sum ≤ 4 + st.pot := by
  have h := st.conditional_length f
  have hp : st.into.length + st.frm.length ≤ st.pot := by simp [LineAcc.pot]
  refine ⟨?_, ?_, ?_⟩
  · simp only [LineAcc.finishConflictC]; omega
  · simp [LineAcc.finishConflictC, LineAcc.finishConflict, LineAcc.pot]
  · simp only [LineAcc.finishConflictC, LineAcc.finishConflict]
    split <;> simp [lineItemSize] <;> omega

theorem yieldText_size (s : PyStr) : ((yieldText s).map lineItemSize).sum ≤ 1 := by
  unfold yieldText
  split <;> simp [lineItemSize]

theorem handleFragmentC_fst (sp : Nat → Bool) (st : LineAcc) (x : DiffItem Nat) :
    (handleFragmentC sp st x).1 = handleFragment sp st x := by
  cases x with
  | change a b => rfl
  | common f =>
    simp only [handleFragmentC, handleFragment]
    split
    · rfl
    · by_cases h : (st.finishable && st.isNonempty) = true
      · simp only [h, if_true, LineAcc.finishConflictC]
        split
        · split <;> rfl
        · rfl
      · simp only [h, Bool.false_eq_true, if_false, LineAcc.finishConflictC]
        by_cases hc : st.inConflict = true
        · simp only [hc, if_true]
          split <;> rfl
        · simp only [hc, Bool.false_eq_true, if_false]
          split <;> rfl

theorem handleFragmentC_bound (sp : Nat → Bool) (st : LineAcc) (x : DiffItem Nat) :
    (handleFragmentC sp st x).2 + 10 * (handleFragmentC sp st x).1.1.pot ≤
        10 * st.pot + 20 * charsOf x + 50 ∧
      ((handleFragmentC sp st x).1.2.map lineItemSize).sum + (handleFragmentC sp st x).1.1.pot ≤
        st.pot + charsOf x + 12 ∧
      charsOf x ≤ (handleFragmentC sp st x).2 := by
  cases x with
  | change a b =>
    simp only [handleFragmentC, st.pot_conflict, charsOf]
    simp
    omega
  | common f =>
    simp only [handleFragmentC, charsOf]
    have hn : (if st.inConflict = true then isSpaceSteps sp f else 0) ≤ f.length := by
      have := isSpaceSteps_le sp f
      split <;> omega
    split
    · next h =>
      simp only [Bool.and_eq_true, isSpaceStr] at h
      have := isSpaceSteps_all sp f h.2.2
      simp only [st.pot_add, h.1, if_true] at *
      simp
      omega
    · generalize (if st.inConflict = true then isSpaceSteps sp f else 0) = n0 at hn ⊢
      have h0 : ∀ r0 : (LineAcc × List LineItem) × Nat,
          r0 = (if (st.finishable && st.isNonempty) = true then st.finishConflictC [] else ((st, []), 0)) →
          r0.2 + 2 * r0.1.1.pot ≤ 7 + 2 * st.pot ∧
          (r0.1.2.map lineItemSize).sum + r0.1.1.pot ≤ 4 + st.pot := by
        rintro r0 rfl
        have := st.finish_bound []
        split
        · omega
        · simp
      have h0' := h0 _ rfl
      clear h0
      have hp0 : (if (st.finishable && st.isNonempty) = true then st.finishConflictC []
          else ((st, []), 0)).1.1.pot ≤ st.pot := by
        have := st.finish_bound []
        split
        · omega
        · simp
      generalize (if (st.finishable && st.isNonempty) = true then st.finishConflictC []
          else ((st, []), 0)) = r0 at h0' hp0 ⊢
      obtain ⟨⟨st0, out0⟩, t0⟩ := r0
      simp only at h0' hp0
      have hl := pySplit_length nl f
      have hsz := split_cases f
      split
      · next hgt =>
        rcases hsz with hsz | ⟨_, _, e1, e2⟩
        · omega
        · have l1 := congrArg List.length e1
          have l2 := congrArg List.length e2
          simp only [List.length_append, List.length_cons, List.length_nil] at l1 l2
          have d1 : (pySplit nl f).dropLast.length ≤ f.length + 1 := by simp; omega
          have d2 : (pySplit nl f).dropLast.tail.length ≤ f.length + 1 := by simp; omega
          have hadd : ∀ (s : LineAcc), (if ((pySplit nl f).getLastD []).isEmpty = true then s
              else s.add ((pySplit nl f).getLastD [])).pot ≤ s.pot + 2 + f.length := by
            intro s
            split
            · omega
            · rw [s.pot_add]; omega
          by_cases hc : st0.inConflict = true
          · simp only [hc, if_true]
            have hf := st0.finish_bound ((pySplit nl f).headD [] ++ [nl])
            have hy := yieldText_size (joinWithNewline (pySplit nl f).dropLast.tail)
            have ha := hadd (st0.finishConflictC ((pySplit nl f).headD [] ++ [nl])).1.1
            simp only [joinWithNewlineSteps, List.map_append, List.sum_append]
            omega
          · simp only [hc, Bool.false_eq_true, if_false]
            have hy := yieldText_size (joinWithNewline (pySplit nl f).dropLast)
            have ha := hadd st0
            simp only [joinWithNewlineSteps, List.map_append, List.sum_append]
            omega
      · next hgt =>
        rcases hsz with ⟨_, e1, _⟩ | hsz
        · simp only [e1, st0.pot_add]
          omega
        · omega

theorem lineLoopC_fst (sp : Nat → Bool) : ∀ (stream : List (DiffItem Nat)) (st : LineAcc),
    (lineLoopC sp st stream).1 = lineLoop sp st stream
  | [], _ => rfl
  | x :: rest, st => by
    simp only [lineLoopC, lineLoop]
    split
    · rw [← handleFragmentC_fst, ← lineLoopC_fst sp rest]
    · rw [← lineLoopC_fst sp rest]

theorem charsOf_falsy {x : DiffItem Nat} (h : ¬ truthy x = true) : charsOf x = 0 := by
  cases x with
  | common s => simpa [truthy, charsOf] using h
  | change a b => rfl

theorem lineLoopC_bound (sp : Nat → Bool) : ∀ (stream : List (DiffItem Nat)) (st : LineAcc),
    (lineLoopC sp st stream).2 + 10 * (lineLoopC sp st stream).1.1.pot ≤
        10 * st.pot + 20 * (stream.map charsOf).sum + 51 * stream.length ∧
      ((lineLoopC sp st stream).1.2.map lineItemSize).sum + (lineLoopC sp st stream).1.1.pot ≤
        st.pot + (stream.map charsOf).sum + 12 * stream.length ∧
      stream.length + (stream.map charsOf).sum ≤ (lineLoopC sp st stream).2
  | [], st => by simp [lineLoopC]
  | x :: rest, st => by
    simp only [lineLoopC]
    split
    · have h1 := handleFragmentC_bound sp st x
      have h2 := lineLoopC_bound sp rest (handleFragmentC sp st x).1.1
      simp only [List.map_append, List.sum_append, List.map_cons, List.sum_cons, List.length_cons]
      omega
    · next h =>
      have h2 := lineLoopC_bound sp rest st
      have := charsOf_falsy h
      simp only [List.map_cons, List.sum_cons, List.length_cons]
      omega

theorem joinSteps_le : ∀ l : List (DiffItem Nat), joinSteps l ≤ l.length + (l.map charsOf).sum
  | [] => by simp [joinSteps]
  | .common s :: l => by
    have := joinSteps_le l
    simp [joinSteps, charsOf]
    omega
  | .change _ _ :: l => by simp [joinSteps]; omega

theorem LineAcc.flush_bound (st : LineAcc) :
    st.flushC.2 ≤ 8 + 2 * st.pot ∧ (st.flush.1.map lineItemSize).sum ≤ 4 + st.pot := by
  constructor
  · simp only [LineAcc.flushC]
    split
    · have := st.finish_bound (if st.finishable then [] else [nl])
      omega
    · have := joinSteps_le (st.frm ++ [.common [nl]])
      simp only [List.map_append, List.sum_append, List.length_append, List.map_cons, List.map_nil,
        List.sum_cons, List.sum_nil, List.length_cons, List.length_nil, charsOf] at this
      simp only [LineAcc.pot]
      omega
  · have := (st.finish_bound (if st.finishable then [] else [nl])).2.2
    unfold LineAcc.flush
    split
    · exact this
    · cases st.frm with
      | nil => simp
      | cons x l =>
        simp only
        split
        · split <;> simp [lineItemSize] <;> omega
        · simp

theorem toLineDiffC_fst (sp : Nat → Bool) (stream : List (DiffItem Nat)) :
    (toLineDiffC sp stream).1 = toLineDiff sp stream := by
  simp only [toLineDiffC, toLineDiff, LineAcc.flushC, ← lineLoopC_fst]
  cases h : (lineLoopC sp {} stream).1.1.flush with
  | mk o e => cases e <;> rfl

theorem toLineDiffC_bound (sp : Nat → Bool) (stream : List (DiffItem Nat)) :
    (toLineDiffC sp stream).2 ≤ 20 * (stream.map charsOf).sum + 51 * stream.length + 10 ∧
      ((toLineDiffC sp stream).1.1.map lineItemSize).sum ≤
        (stream.map charsOf).sum + 12 * stream.length + 5 ∧
      stream.length + (stream.map charsOf).sum ≤ (toLineDiffC sp stream).2 := by
  have h := lineLoopC_bound sp stream {}
  have h0 : ({} : LineAcc).pot = 0 := rfl
  rw [h0] at h
  have k := (lineLoopC sp {} stream).1.1.flush_bound
  have e : (lineLoopC sp {} stream).1.1.flushC.1 = (lineLoopC sp {} stream).1.1.flush := rfl
  have hs : ((if stream.any truthy then [] else [LineItem.text []]).map lineItemSize).sum ≤ 1 := by
    split <;> simp [lineItemSize]
  simp only [toLineDiffC, e]
  cases hf : (lineLoopC sp {} stream).1.1.flush with
  | mk o r =>
    rw [hf] at k
    simp only at k
    cases r with
    | none =>
      simp only [List.map_append, List.sum_append]
      omega
    | some err =>
      simp only [List.map_append, List.sum_append]
      omega

theorem consolidateLoopC_fst : ∀ (items : List LineItem) (a b : List (DiffItem Nat)),
    (consolidateLoopC a b items).1 = consolidateLoop a b items
  | [], _, _ => rfl
  | .change x y :: rest, a, b => by
    simp only [consolidateLoopC, consolidateLoop, consolidateLoopC_fst rest]
  | .text s :: rest, a, b => by
    simp only [consolidateLoopC, consolidateLoop, consolidateLoopC_fst rest]

theorem consolidateLoopC_bound : ∀ (items : List LineItem) (a b : List (DiffItem Nat)),
    (consolidateLoopC a b items).2 ≤
      1 + 2 * a.length + 2 * b.length + 3 * (items.map lineItemSize).sum
  | [], a, b => by simp [consolidateLoopC]; omega
  | .change x y :: rest, a, b => by
    have := consolidateLoopC_bound rest (a ++ x) (b ++ y)
    simp only [consolidateLoopC, List.length_append, List.map_cons, List.sum_cons, lineItemSize] at *
    omega
  | .text s :: rest, a, b => by
    have := consolidateLoopC_bound rest [] []
    simp only [consolidateLoopC, List.length_nil, List.map_cons, List.sum_cons, lineItemSize] at *
    omega

end Gaspra
