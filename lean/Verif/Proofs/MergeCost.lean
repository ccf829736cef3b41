import Verif.Model.MergeCost
import Verif.Spec.Merge
import Verif.Proofs.Merge
import Verif.Proofs.DiffCost
import Verif.Proofs.Recursion

/-!
# The size and the cost of a merge
-/

set_option linter.unusedSectionVars false
set_option linter.unusedSimpArgs false
set_option linter.unusedVariables false

namespace Gaspra

variable {α : Type _} [DecidableEq α]

/-! ## Leaving out the count -/

theorem mergeLoopC_fst : ∀ (fuel : Nat) (fs0 fs1 : List (Fragment α)) (w : Bool),
    (mergeLoopC fuel fs0 fs1 w).map Prod.fst = mergeLoop fuel fs0 fs1 w
  | _, [], [], _ => by simp [mergeLoopC, mergeLoop]
  | _, [], _ :: _, _ => by simp [mergeLoopC, mergeLoop]
  | _, _ :: _, [], _ => by simp [mergeLoopC, mergeLoop]
  | 0, _ :: _, _ :: _, _ => rfl
  | fuel + 1, f0 :: fs0, f1 :: fs1, w => by
    simp only [mergeLoopC, mergeLoop]
    rw [← mergeLoopC_fst fuel]
    cases mergeLoopC fuel ((processFragments f0 f1 w).2.1.toList ++ fs0)
      ((processFragments f0 f1 w).2.2.1.toList ++ fs1) (processFragments f0 f1 w).2.2.2 with
    | none => rfl
    | some x => rfl

theorem reSplitC_fst (v1 v2 : List α) : (reSplitC v1 v2).map Prod.fst = reSplit v1 v2 := by
  unfold reSplitC reSplit
  rw [findChangeset, ← findChangesetAuxC_fst]
  rw [findChangesetC]
  cases findChangesetAuxC v2 v1 (v2.length + 1) ⟨0, none⟩ ⟨0, none⟩ with
  | none => rfl
  | some x => rfl

theorem consolidateConflictsC_fst (kind : Kind) : ∀ (fuel : Nat) (L : List (MFragment α)),
    (consolidateConflictsC kind fuel L).map Prod.fst = consolidateConflicts kind fuel L
  | _, [] => by simp [consolidateConflictsC, consolidateConflicts, Except.map]
  | 0, _ :: _ => rfl
  | fuel + 1, x :: L => by
    simp only [consolidateConflictsC, consolidateConflicts]
    generalize ((x :: L).dropWhile (·.isConflict)) = rest
    generalize ((x :: L).takeWhile (·.isConflict)) = g
    cases joinSides kind (g.map (·.version1)) with
    | error e => rfl
    | ok v1 =>
    cases joinSides kind (g.map (·.version2)) with
    | error e => rfl
    | ok v2 =>
    simp only [bind, Except.bind, pure, Except.pure]
    rw [← reSplitC_fst]
    cases reSplitC v1 v2 with
    | error e => rfl
    | ok r =>
    simp only [Except.map]
    rw [← consolidateConflictsC_fst kind fuel]
    cases consolidateConflictsC kind fuel (rest.dropWhile fun f => !f.isConflict) with
    | error e => rfl
    | ok r => rfl

theorem consolidateAllLoopC_fst (kind : Kind) : ∀ (fuel : Nat) (L : List (MFragment α)),
    (consolidateAllLoopC kind fuel L).map Prod.fst = consolidateAllLoop kind fuel L
  | _, [] => by simp [consolidateAllLoopC, consolidateAllLoop, Except.map]
  | 0, _ :: _ => rfl
  | fuel + 1, x :: L => by
    simp only [consolidateAllLoopC, consolidateAllLoop]
    generalize ((x :: L).dropWhile (·.isConflict)) = rest
    generalize ((x :: L).takeWhile (·.isConflict)) = g
    cases joinSides kind (g.map (·.version1)) with
    | error e => rfl
    | ok v1 =>
    cases joinSides kind (g.map (·.version2)) with
    | error e => rfl
    | ok v2 =>
    simp only [bind, Except.bind, pure, Except.pure]
    cases joinSides kind ((rest.takeWhile fun f => !f.isConflict).map (·.insert)) with
    | error e => rfl
    | ok ins =>
    simp only
    rw [← consolidateAllLoopC_fst kind fuel]
    cases consolidateAllLoopC kind fuel (rest.dropWhile fun f => !f.isConflict) with
    | error e => rfl
    | ok r => rfl

theorem consolidateC_fst (kind : Kind) (L : List (MFragment α)) :
    (consolidateC kind L).map Prod.fst = consolidate kind L := by
  simp only [consolidateC, consolidate]
  rw [← consolidateConflictsC_fst]
  cases consolidateConflictsC kind L.length L with
  | error e => rfl
  | ok r =>
    simp only [bind, Except.bind, Except.map, consolidateAllC, consolidateAll]
    rw [← consolidateAllLoopC_fst]
    cases consolidateAllLoopC kind r.1.length r.1 with
    | error e => rfl
    | ok r => rfl

theorem mergeTokenSequenceC_fst (kind : Kind) (p b0 b1 : List α) :
    (mergeTokenSequenceC kind p b0 b1).map Prod.fst = mergeTokenSequence kind p b0 b1 := by
  simp only [mergeTokenSequenceC, mergeTokenSequence]
  rw [show findChangeset p b0 = (findChangesetC p b0).map Prod.fst from
      (findChangesetAuxC_fst p b0 _ _ _).symm,
    show findChangeset p b1 = (findChangesetC p b1).map Prod.fst from
      (findChangesetAuxC_fst p b1 _ _ _).symm]
  cases findChangesetC p b0 with
  | none => rfl
  | some x =>
  cases findChangesetC p b1 with
  | none => rfl
  | some y =>
  obtain ⟨cs0, n0⟩ := x
  obtain ⟨cs1, n1⟩ := y
  simp only [Option.map]
  rw [← mergeLoopC_fst]
  cases mergeLoopC ((cs0.stream p).length + (cs1.stream p).length) (cs0.stream p) (cs1.stream p)
    false with
  | none => rfl
  | some z =>
    obtain ⟨L, n⟩ := z
    simp only [Option.map]
    rw [← consolidateC_fst]
    cases consolidateC kind L with
    | error e => rfl
    | ok r => rfl

/-! ## A measure of sequences that is additive -/

/-- A number for every sequence, such that the number of a concatenation is the sum. -/
structure Additive (w : List α → Nat) : Prop where
  nil : w [] = 0
  append : ∀ a b, w (a ++ b) = w a + w b

theorem Additive.length : Additive (fun l : List α => l.length) :=
  ⟨rfl, fun _ _ => List.length_append⟩

theorem Additive.count (t : α) : Additive (fun l : List α => l.count t) :=
  ⟨rfl, fun _ _ => List.count_append⟩

theorem Additive.split {w : List α → Nat} (A : Additive w) (l : List α) (n : Nat) :
    w l = w (l.take n) + w (l.drop n) := by
  rw [← A.append, List.take_append_drop]

/-- The measure of the text a fragment inserts. -/
def insW (w : List α → Nat) (l : List (Fragment α)) : Nat := w (l.flatMap (·.insert))

/-- What a fragment deletes. -/
def Fragment.deleted : Fragment α → List α
  | .copy _ _ => []
  | .change _ d _ => d

def delW (l : List (Fragment α)) : Nat := (l.flatMap (·.deleted)).length

def outW (w : List α → Nat) (l : List (MFragment α)) : Nat := w (l.flatMap (·.tokens))

def optIns : Option (Fragment α) → List α
  | none => []
  | some f => f.insert

def optDel : Option (Fragment α) → List α
  | none => []
  | some f => f.deleted

theorem flatMap_optIns (o : Option (Fragment α)) : o.toList.flatMap (·.insert) = optIns o := by
  cases o <;> simp [optIns]

theorem flatMap_optDel (o : Option (Fragment α)) : o.toList.flatMap (·.deleted) = optDel o := by
  cases o <;> simp [optDel]

theorem splitFragment_ins {w : List α → Nat} (A : Additive w) (f : Fragment α) (n : Nat) :
    w (insertOrLit (splitFragment f n).1).toList + w (optIns (splitFragment f n).2) ≤ w f.insert := by
  cases f with
  | copy i m =>
    simp only [splitFragment, splitCopy]
    have := A.split i n
    by_cases h1 : n > 0 <;> by_cases h2 : n < m <;>
      simp [h1, h2, insertOrLit, Side.toList, optIns, Fragment.insert, A.nil] <;> omega
  | change i d m =>
    simp only [splitFragment, splitChange]
    have hd : i.drop i.length = [] := by simp
    have ht : i.take i.length = i := by simp
    rw [hd, ht]
    by_cases h1 : n > 0 ∨ i.length > 0 <;> by_cases h2 : n < m ∨ i.length < i.length <;>
      simp only [h1, h2, if_true, if_false, insertOrLit, Side.toList, optIns, Fragment.insert,
        A.nil] <;> omega

theorem splitFragment_del (f : Fragment α) (n : Nat) :
    (optDel (splitFragment f n).2).length ≤ f.deleted.length := by
  cases f with
  | copy i m =>
    simp only [splitFragment, splitCopy]
    by_cases h2 : n < m <;> simp [h2, optDel, Fragment.deleted]
  | change i d m =>
    simp only [splitFragment, splitChange]
    by_cases h2 : n < m ∨ i.length < i.length <;>
      simp only [h2, if_true, if_false, optDel, Fragment.deleted, List.length_drop,
        List.length_nil] <;> omega

theorem splitFragment_tail (f : Fragment α) (n : Nat) (h : f.length ≤ n) :
    (splitFragment f n).2 = none := by
  cases f with
  | copy i m =>
    simp only [Fragment.length] at h
    simp only [splitFragment, splitCopy]
    rw [if_neg (by omega)]
  | change i d m =>
    simp only [Fragment.length] at h
    simp only [splitFragment, splitChange]
    rw [if_neg (by omega)]

/-- What one round of `_merge` does to the sizes. -/
structure RoundOK (w : List α → Nat) (f0 f1 : Fragment α)
    (r : Option (MFragment α) × Option (Fragment α) × Option (Fragment α) × Bool) : Prop where
  ins : outW w r.1.toList + w (optIns r.2.1) + w (optIns r.2.2.1) ≤ w f0.insert + w f1.insert
  del : (optDel r.2.1).length + (optDel r.2.2.1).length ≤ f0.deleted.length + f1.deleted.length
  tail : r.2.1 = none ∨ r.2.2.1 = none

theorem outW_conflict {w : List α → Nat} (A : Additive w) (a b : Side α) :
    outW w (some (MFragment.conflict a b)).toList = w a.toList + w b.toList := by
  simp [outW, MFragment.tokens, A.append]

theorem outW_input {w : List α → Nat} (f : Fragment α) :
    outW w (some (MFragment.input f)).toList = w f.insert := by
  simp [outW, MFragment.tokens]

theorem outW_none {w : List α → Nat} (A : Additive w) :
    outW w (none : Option (MFragment α)).toList = 0 := by
  simp [outW, A.nil]

theorem pending_ok {w : List α → Nat} (A : Additive w) (f0 f1 : Fragment α) (b : Bool) :
    RoundOK w f0 f1 ((pendingConflict f0 f1).1, (pendingConflict f0 f1).2.1,
      (pendingConflict f0 f1).2.2, b) := by
  simp only [pendingConflict]
  have h0 := splitFragment_ins A f0 (min f0.length f1.length)
  have h1 := splitFragment_ins A f1 (min f0.length f1.length)
  have d0 := splitFragment_del f0 (min f0.length f1.length)
  have d1 := splitFragment_del f1 (min f0.length f1.length)
  refine ⟨?_, ?_, ?_⟩
  · simp only [outW_conflict A]; omega
  · simp only; omega
  · by_cases h : f0.length ≤ f1.length
    · left; exact splitFragment_tail _ _ (by omega)
    · right; exact splitFragment_tail _ _ (by omega)

theorem copyCopy_ok {w : List α → Nat} (A : Additive w) (i0 i1 : List α) (n0 n1 : Nat) (b : Bool) :
    RoundOK w (.copy i0 n0) (.copy i1 n1) ((copyCopy i0 n0 i1 n1).1, (copyCopy i0 n0 i1 n1).2.1,
      (copyCopy i0 n0 i1 n1).2.2, b) := by
  rcases copyCopy_cases i0 i1 n0 n1 with ⟨_, h⟩ | ⟨_, h⟩
  · rw [h]
    have h0 := splitFragment_ins A (.copy i1 n1) n0
    have d0 := splitFragment_del (.copy i1 n1) n0
    refine ⟨?_, ?_, Or.inl rfl⟩
    · simp only [outW_input, optIns, A.nil, Fragment.insert] at h0 ⊢; omega
    · simpa [optDel, Fragment.deleted] using d0
  · rw [h]
    have h0 := splitFragment_ins A (.copy i0 n0) n1
    have d0 := splitFragment_del (.copy i0 n0) n1
    refine ⟨?_, ?_, Or.inr rfl⟩
    · simp only [outW_input, optIns, A.nil, Fragment.insert] at h0 ⊢; omega
    · simpa [optDel, Fragment.deleted] using d0

theorem splitChange_eq (i d : List α) (n m : Nat) :
    splitChange i d n i.length m = splitFragment (.change i d n) m := rfl

/-- The three facts of `copy_change`; the result has the tails in the order copy, change. -/
theorem copyChange_ok {w : List α → Nat} (A : Additive w) (ci i d : List α) (cn n : Nat) (b : Bool) :
    RoundOK w (.copy ci cn) (.change i d n) ((copyChange ci cn i d n).1, (copyChange ci cn i d n).2.1,
      (copyChange ci cn i d n).2.2, b) := by
  unfold copyChange
  by_cases hs : n = min cn n
  · simp only [if_pos hs]
    have h0 := splitFragment_ins A (.copy ci cn) (min cn n)
    have d0 := splitFragment_del (.copy ci cn) (min cn n)
    refine ⟨?_, ?_, Or.inr rfl⟩
    · simp only [outW_input, show optIns (none : Option (Fragment α)) = [] from rfl, A.nil,
        Fragment.insert]
      by_cases hc : cn > min cn n
      · simp only [if_pos hc]
        simp only [splitFragment, Fragment.insert] at h0
        generalize (splitCopy ci cn (min cn n)).2 = q at h0 ⊢
        omega
      · simp only [if_neg hc, optIns, A.nil]; omega
    · by_cases hc : cn > min cn n
      · simp only [if_pos hc]
        simp only [splitFragment, Fragment.deleted] at d0 ⊢
        simp only [optDel, List.length_nil] at d0 ⊢
        omega
      · simp [if_neg hc, optDel, Fragment.deleted]
  · simp only [if_neg hs]
    have h0 := splitFragment_ins A (.change i d n) (min cn n)
    have d0 := splitFragment_del (.change i d n) (min cn n)
    simp only [splitChange_eq]
    refine ⟨?_, ?_, Or.inl rfl⟩
    · cases hh : (splitFragment (.change i d n) (min cn n)).1 with
      | none =>
        rw [hh] at h0
        simp only [outW_none A, optIns, A.nil, insertOrLit, Side.toList, Fragment.insert] at h0 ⊢
        omega
      | some h =>
        rw [hh] at h0
        simp only [outW_conflict A, optIns, A.nil, insertOrLit, Side.toList, Fragment.insert] at h0 ⊢
        omega
    · simp only [optDel, Fragment.deleted, List.length_nil] at d0 ⊢
      omega

theorem RoundOK.swap {w : List α → Nat} {f0 f1 : Fragment α} {o : Option (MFragment α)}
    {t0 t1 : Option (Fragment α)} {b : Bool} (h : RoundOK w f0 f1 (o, t0, t1, b)) :
    RoundOK w f1 f0 (o, t1, t0, b) := by
  obtain ⟨h1, h2, h3⟩ := h
  simp only at h1 h2 h3
  exact ⟨by simp only; omega, by simp only; omega, h3.symm⟩

theorem changeChange_ok {w : List α → Nat} (A : Additive w) (i0 d0 i1 d1 : List α) (n0 n1 : Nat) :
    RoundOK w (.change i0 d0 n0) (.change i1 d1 n1) (changeChange i0 d0 n0 i1 d1 n1) := by
  unfold changeChange
  by_cases hc : hasComposable i0 n0 i1 n1 = true
  · simp only [hc, if_true]
    by_cases h1 : n0 = 0 ∧ i1.length = 0
    · rw [if_pos h1]
      refine ⟨?_, ?_, Or.inl rfl⟩
      · simp only [outW_none A, optIns, A.nil, Fragment.insert]; omega
      · simp only [optDel, Fragment.deleted, List.length_nil]; omega
    · rw [if_neg h1]
      refine ⟨?_, ?_, Or.inr rfl⟩
      · simp only [outW_none A, optIns, A.nil, Fragment.insert]; omega
      · simp only [optDel, Fragment.deleted, List.length_nil]; omega
  · rw [if_neg hc]
    by_cases hi : areIdentical i0 d0 n0 i1 d1 n1 = true
    · rw [if_pos hi]
      refine ⟨?_, ?_, Or.inl rfl⟩
      · simp only [outW_input, optIns, A.nil, Fragment.insert]; omega
      · simp only [optDel, Fragment.deleted, List.length_nil]; omega
    · rw [if_neg hi]
      simp only [ordinaryConflict, splitChange_eq]
      have a0 := splitFragment_ins A (.change i0 d0 n0) (min n0 n1)
      have a1 := splitFragment_ins A (.change i1 d1 n1) (min n0 n1)
      have e0 := splitFragment_del (.change i0 d0 n0) (min n0 n1)
      have e1 := splitFragment_del (.change i1 d1 n1) (min n0 n1)
      refine ⟨?_, ?_, ?_⟩
      · cases hh0 : (splitFragment (.change i0 d0 n0) (min n0 n1)).1 with
        | none =>
          simp only [outW_none A]
          omega
        | some x0 =>
          cases hh1 : (splitFragment (.change i1 d1 n1) (min n0 n1)).1 with
          | none => simp only [outW_none A]; omega
          | some x1 =>
            rw [hh0] at a0
            rw [hh1] at a1
            simp only [outW_conflict A, insertOrLit, Side.toList] at a0 a1 ⊢
            omega
      · simp only; omega
      · by_cases h : n0 ≤ n1
        · left; exact splitFragment_tail _ _ (by simp only [Fragment.length]; omega)
        · right; exact splitFragment_tail _ _ (by simp only [Fragment.length]; omega)

theorem round_ok {w : List α → Nat} (A : Additive w) (f0 f1 : Fragment α) (b : Bool) :
    RoundOK w f0 f1 (processFragments f0 f1 b) := by
  cases f0 with
  | copy i0 n0 =>
    cases f1 with
    | copy i1 n1 => exact copyCopy_ok A i0 i1 n0 n1 false
    | change i1 d1 n1 =>
      simp only [processFragments]
      cases b with
      | true => exact pending_ok A _ _ true
      | false => exact copyChange_ok A i0 i1 d1 n0 n1 false
  | change i0 d0 n0 =>
    cases f1 with
    | copy i1 n1 =>
      simp only [processFragments]
      cases b with
      | true => exact pending_ok A _ _ true
      | false => exact (copyChange_ok A i1 i0 d0 n1 n0 false).swap
    | change i1 d1 n1 =>
      simp only [processFragments]
      cases b with
      | true => exact pending_ok A _ _ true
      | false => exact changeChange_ok A i0 d0 i1 d1 n0 n1

/-! ## The loop -/

theorem insW_cons {w : List α → Nat} (A : Additive w) (f : Fragment α) (l : List (Fragment α)) :
    insW w (f :: l) = w f.insert + insW w l := by
  simp [insW, A.append]

theorem insW_opt {w : List α → Nat} (A : Additive w) (o : Option (Fragment α))
    (l : List (Fragment α)) : insW w (o.toList ++ l) = w (optIns o) + insW w l := by
  simp [insW, A.append, flatMap_optIns]

theorem delW_cons (f : Fragment α) (l : List (Fragment α)) :
    delW (f :: l) = f.deleted.length + delW l := by
  simp [delW]

theorem delW_opt (o : Option (Fragment α)) (l : List (Fragment α)) :
    delW (o.toList ++ l) = (optDel o).length + delW l := by
  simp only [delW, List.flatMap_append, List.length_append, flatMap_optDel]

theorem outW_append {w : List α → Nat} (A : Additive w) (a b : List (MFragment α)) :
    outW w (a ++ b) = outW w a + outW w b := by
  simp [outW, A.append]

theorem outW_flush {w : List α → Nat} (A : Additive w) (fs0 fs1 : List (Fragment α)) (b : Bool)
    (h : fs0 = [] ∨ fs1 = []) :
    outW w (flushRemaining fs0 fs1 b) ≤ insW w fs0 + insW w fs1 := by
  have key : ∀ (l : List (Fragment α)) (g : Fragment α → MFragment α),
      (∀ f ∈ l, (g f).tokens = f.insert) → outW w (l.map g) = insW w l := by
    intro l g hg
    unfold outW insW
    congr 1
    induction l with
    | nil => rfl
    | cons f l ih =>
      simp only [List.map_cons, List.flatMap_cons, hg f (by simp)]
      rw [ih (fun x hx => hg x (by simp [hx]))]
  unfold flushRemaining
  rw [key]
  · split <;> omega
  · intro f _
    split
    · simp [MFragment.tokens, Side.toList]
    · split <;> simp [MFragment.tokens, Side.toList]

theorem flushSteps_le (fs0 fs1 : List (Fragment α)) (b : Bool) (h : fs0 = [] ∨ fs1 = []) :
    flushSteps fs0 fs1 b ≤ (fs0.length + fs1.length) * (fs0.length + fs1.length + 1) := by
  unfold flushSteps
  rw [Nat.mul_add, Nat.mul_one]
  rcases h with rfl | rfl
  · simp only [List.isEmpty_nil, if_true, List.length_nil, Nat.zero_add, Nat.mul_one]
    cases fs1 with
    | nil => simp
    | cons f fs =>
      have : (f :: fs).length ≤ (f :: fs).length * (f :: fs).length :=
        Nat.le_mul_of_pos_left _ (by simp)
      split <;> omega
  · cases fs0 with
    | nil => simp
    | cons f fs =>
      simp only [List.isEmpty_cons, List.length_nil, Nat.add_zero]
      simp
      split <;> omega

theorem flushRemaining_length (fs0 fs1 : List (Fragment α)) (b : Bool) :
    (flushRemaining fs0 fs1 b).length ≤ fs0.length + fs1.length := by
  simp only [flushRemaining, List.length_map]
  split <;> omega

theorem commonPrefixRounds_le : ∀ (l : List (α × α)), commonPrefixRounds l ≤ l.length
  | [] => by simp [commonPrefixRounds]
  | (x, y) :: l => by
    have := commonPrefixRounds_le l
    simp only [commonPrefixRounds, List.length_cons]
    split <;> omega

theorem processRounds_le (f0 f1 : Fragment α) (b : Bool) :
    processRounds f0 f1 b ≤ f0.insert.length + f0.deleted.length := by
  unfold processRounds
  split
  · rename_i i0 d0 n0 i1 d1 n1
    have h1 := commonPrefixRounds_le (i0.zip i1)
    have h2 := commonPrefixRounds_le (d0.zip d1)
    simp only [List.length_zip] at h1 h2
    simp only [Fragment.insert, Fragment.deleted]
    split
    · omega
    · split <;> omega
  · omega

theorem mergeLoopC_spec {w : List α → Nat} (A : Additive w) : ∀ (fuel : Nat)
    (fs0 fs1 : List (Fragment α)) (b : Bool) (L : List (MFragment α)) (t W : Nat),
    mergeLoopC fuel fs0 fs1 b = some (L, t) →
    insW (fun l => l.length) fs0 + insW (fun l => l.length) fs1 + delW fs0 + delW fs1 ≤ W →
    outW w L ≤ insW w fs0 + insW w fs1 ∧
    L.length ≤ fs0.length + fs1.length ∧
    t ≤ (fs0.length + fs1.length) * (W + 1) +
      (fs0.length + fs1.length) * (fs0.length + fs1.length + 1) := by
  intro fuel
  have base : ∀ (fs0 fs1 : List (Fragment α)) (b : Bool) (W : Nat), (fs0 = [] ∨ fs1 = []) →
      outW w (flushRemaining fs0 fs1 b) ≤ insW w fs0 + insW w fs1 ∧
      (flushRemaining fs0 fs1 b).length ≤ fs0.length + fs1.length ∧
      flushSteps fs0 fs1 b ≤ (fs0.length + fs1.length) * (W + 1) +
        (fs0.length + fs1.length) * (fs0.length + fs1.length + 1) := by
    intro fs0 fs1 b W h
    have := flushSteps_le fs0 fs1 b h
    exact ⟨outW_flush A _ _ _ h, flushRemaining_length _ _ _, by omega⟩
  induction fuel with
  | zero =>
    intro fs0 fs1 b L t W h hW
    cases fs0 with
    | nil =>
      cases fs1 with
      | nil =>
        simp only [mergeLoopC, Option.some.injEq, Prod.mk.injEq] at h
        obtain ⟨rfl, rfl⟩ := h
        simp [outW, A.nil]
      | cons f1 fs1 =>
        simp only [mergeLoopC, Option.some.injEq, Prod.mk.injEq] at h
        obtain ⟨rfl, rfl⟩ := h
        exact base _ _ _ _ (Or.inl rfl)
    | cons f0 fs0 =>
      cases fs1 with
      | nil =>
        simp only [mergeLoopC, Option.some.injEq, Prod.mk.injEq] at h
        obtain ⟨rfl, rfl⟩ := h
        exact base _ _ _ _ (Or.inr rfl)
      | cons f1 fs1 => simp [mergeLoopC] at h
  | succ fuel ih =>
    intro fs0 fs1 b L t W h hW
    cases fs0 with
    | nil =>
      cases fs1 with
      | nil =>
        simp only [mergeLoopC, Option.some.injEq, Prod.mk.injEq] at h
        obtain ⟨rfl, rfl⟩ := h
        simp [outW, A.nil]
      | cons f1 fs1 =>
        simp only [mergeLoopC, Option.some.injEq, Prod.mk.injEq] at h
        obtain ⟨rfl, rfl⟩ := h
        exact base _ _ _ _ (Or.inl rfl)
    | cons f0 fs0 =>
      cases fs1 with
      | nil =>
        simp only [mergeLoopC, Option.some.injEq, Prod.mk.injEq] at h
        obtain ⟨rfl, rfl⟩ := h
        exact base _ _ _ _ (Or.inr rfl)
      | cons f1 fs1 =>
        have R := round_ok A f0 f1 b
        have R' := round_ok Additive.length f0 f1 b
        have hr := processRounds_le f0 f1 b
        simp only [mergeLoopC] at h
        generalize processFragments f0 f1 b = r at h R R'
        obtain ⟨o, t0, t1, b'⟩ := r
        simp only at h
        cases hrec : mergeLoopC fuel (t0.toList ++ fs0) (t1.toList ++ fs1) b' with
        | none => rw [hrec] at h; simp at h
        | some x =>
          obtain ⟨L', n⟩ := x
          rw [hrec] at h
          simp only [Option.some.injEq, Prod.mk.injEq] at h
          obtain ⟨rfl, rfl⟩ := h
          obtain ⟨r1, r2, r3⟩ := R
          obtain ⟨q1, _, _⟩ := R'
          simp only at r1 r2 r3 q1
          have hlen : (t0.toList ++ fs0).length + (t1.toList ++ fs1).length + 1 ≤
              (f0 :: fs0).length + (f1 :: fs1).length := by
            rcases r3 with rfl | rfl
            · cases t1 <;> simp <;> omega
            · cases t0 <;> simp <;> omega
          rw [insW_cons Additive.length, insW_cons Additive.length, delW_cons, delW_cons] at hW
          obtain ⟨s1, s2, s3⟩ := ih _ _ _ _ _ W hrec (by
            rw [insW_opt Additive.length, insW_opt Additive.length, delW_opt, delW_opt]
            omega)
          refine ⟨?_, ?_, ?_⟩
          · rw [outW_append A, insW_cons A, insW_cons A]
            rw [insW_opt A, insW_opt A] at s1
            omega
          · have : o.toList.length ≤ 1 := by cases o <;> simp
            simp only [List.length_append] at s2 hlen ⊢
            omega
          · generalize (t0.toList ++ fs0).length + (t1.toList ++ fs1).length = F' at s3 hlen
            generalize (f0 :: fs0).length + (f1 :: fs1).length = F at hlen ⊢
            have e1 : (F' + 1) * (W + 1) ≤ F * (W + 1) := Nat.mul_le_mul_right _ hlen
            have e2 : F' * (F' + 1) ≤ F * (F + 1) := Nat.mul_le_mul (by omega) (by omega)
            rw [Nat.add_mul, Nat.one_mul] at e1
            omega

/-! ## The streams -/

theorem stream_length_le (o : List α) : ∀ (cs : Changeset α), (cs.stream o).length ≤ cs.calls
  | .leaf a b _ _ => by
    simp only [Changeset.stream, Changeset.calls]
    split <;> simp
  | .node co cm p s => by
    have h1 := stream_length_le o p
    have h2 := stream_length_le o s
    simp only [Changeset.stream, Changeset.calls, List.length_append, List.length_singleton]
    omega

theorem streamSteps_le (o : List α) : ∀ (cs : Changeset α),
    cs.streamSteps o ≤ 3 * (cs.calls * cs.depth)
  | .leaf a b os ms => by
    have := stream_length_le o (.leaf a b os ms)
    simp only [Changeset.streamSteps, Changeset.calls, Changeset.depth] at this ⊢
    omega
  | .node co cm p s => by
    have h1 := streamSteps_le o p
    have h2 := streamSteps_le o s
    have l1 := stream_length_le o p
    have l2 := stream_length_le o s
    simp only [Changeset.streamSteps, Changeset.calls, Changeset.depth]
    have e1 : p.calls * p.depth ≤ p.calls * max p.depth s.depth :=
      Nat.mul_le_mul_left _ (Nat.le_max_left _ _)
    have e2 : s.calls * s.depth ≤ s.calls * max p.depth s.depth :=
      Nat.mul_le_mul_left _ (Nat.le_max_right _ _)
    generalize max p.depth s.depth = d at e1 e2 ⊢
    have e3 : (1 + p.calls + s.calls) * (1 + d) =
        1 + d + (p.calls + p.calls * d) + (s.calls + s.calls * d) := by
      simp only [Nat.add_mul, Nat.mul_add, Nat.one_mul, Nat.mul_one]
      omega
    rw [e3]
    omega

/-- The steps of making a changeset and of reading it as a stream. -/
theorem diffStream_cost (o m : List α) : ∃ cs t, findChangesetC o m = some (cs, t) ∧
    intoText (cs.asDiffStream o) = m ∧ fromText (cs.asDiffStream o) = o ∧
    (cs.stream o).length ≤ o.length + m.length + 1 ∧
    t + cs.streamSteps o + (cs.stream o).length ≤
      (o.length + m.length + 1) * (13 * (o.length + m.length) + 7) := by
  obtain ⟨cs, t, h, _, V, h1, _⟩ := findChangesetC_cost o m
  obtain ⟨i1, i2⟩ := V.into (OccursAt.whole o)
  obtain ⟨hd, hc⟩ := V.depth_le
  have hs := streamSteps_le o cs
  have hl := stream_length_le o cs
  refine ⟨cs, t, h, i1, i2, by omega, ?_⟩
  generalize hS : o.length + m.length = s
  have e1 : cs.depth * (10 * o.length + 2 * m.length) ≤ (s + 1) * (10 * s) :=
    Nat.mul_le_mul (by omega) (by omega)
  have e2 : cs.calls * cs.depth ≤ (s + 1) * (s + 1) := Nat.mul_le_mul (by omega) (by omega)
  have e3 : (s + 1) * (13 * s + 7) = (s + 1) * (10 * s) + 3 * ((s + 1) * (s + 1)) + 4 * (s + 1) := by
    have : 13 * s + 7 = 10 * s + (3 * (s + 1) + 4) := by omega
    rw [this, Nat.mul_add, Nat.mul_add, Nat.mul_left_comm (s + 1) 3 (s + 1)]
    omega
  omega

theorem insW_toFrag {w : List α → Nat} (d : List (DiffItem α)) :
    insW w (d.map toFrag) = w (intoText d) := by
  unfold insW intoText
  congr 1
  induction d with
  | nil => rfl
  | cons x d ih =>
    simp only [List.map_cons, List.flatMap_cons, ih]
    cases x <;> rfl

theorem delW_toFrag (d : List (DiffItem α)) : delW (d.map toFrag) ≤ (fromText d).length := by
  unfold delW fromText
  induction d with
  | nil => simp
  | cons x d ih =>
    simp only [List.map_cons, List.flatMap_cons, List.length_append]
    have : (toFrag x).deleted.length ≤ (match x with
      | .common p => p
      | .change _ b => b).length := by
      cases x
      · exact Nat.zero_le _
      · exact Nat.le_refl _
    exact Nat.add_le_add this ih

/-! ## The two passes -/

theorem joinSides_eq {kind : Kind} {s : List (Side α)} {v : List α} (h : joinSides kind s = .ok v) :
    v = s.flatMap (·.toList) := by
  unfold joinSides at h
  split at h
  · cases h
  · injection h with h
    exact h.symm

theorem outW_group {w : List α → Nat} (A : Additive w) (g : List (MFragment α))
    (hg : ∀ x ∈ g, x.isConflict = true) :
    w ((g.map (·.version1)).flatMap (·.toList)) + w ((g.map (·.version2)).flatMap (·.toList)) =
      outW w g := by
  induction g with
  | nil => simp [outW, A.nil]
  | cons x g ih =>
    have ih := ih (fun y hy => hg y (by simp [hy]))
    have hx := hg x (by simp)
    cases x with
    | input f => simp [MFragment.isConflict] at hx
    | conflict a b =>
      simp only [outW, List.map_cons, List.flatMap_cons, MFragment.version1, MFragment.version2,
        MFragment.tokens, A.append] at ih ⊢
      omega

theorem outW_others {w : List α → Nat} (g : List (MFragment α))
    (hg : ∀ x ∈ g, x.isConflict = false) :
    w ((g.map (·.insert)).flatMap (·.toList)) = outW w g := by
  unfold outW
  congr 1
  induction g with
  | nil => rfl
  | cons x g ih =>
    have ih := ih (fun y hy => hg y (by simp [hy]))
    have hx := hg x (by simp)
    cases x with
    | input f =>
      simp only [List.map_cons, List.flatMap_cons, ih]
      rfl
    | conflict a b => simp [MFragment.isConflict] at hx

theorem outW_diff {w : List α → Nat} (A : Additive w) (d : List (DiffItem α)) :
    outW w (d.map toM) ≤ w (intoText d) + w (fromText d) := by
  induction d with
  | nil => simp [outW, A.nil]
  | cons x d ih =>
    cases x <;> simp only [outW, intoText, fromText, List.map_cons, List.flatMap_cons, toM,
      MFragment.tokens, Fragment.insert, Side.toList, A.append] at ih ⊢ <;> omega

theorem reSplitC_spec {w : List α → Nat} (A : Additive w) (v1 v2 : List α) :
    ∃ d t, reSplitC v1 v2 = .ok (d, t) ∧ outW w d ≤ w v1 + w v2 ∧
      d.length ≤ v1.length + v2.length + 1 ∧
      t ≤ (v1.length + v2.length + 1) * (13 * (v1.length + v2.length) + 7) := by
  obtain ⟨cs, t, h, i1, i2, hl, ht⟩ := diffStream_cost v2 v1
  have hr : reSplitC v1 v2 = .ok ((cs.asDiffStream v2).map toM,
      t + cs.streamSteps v2 + (cs.stream v2).length) := by
    simp only [reSplitC, h]
    refine congrArg (fun q => Except.ok (q, t + cs.streamSteps v2 + (cs.stream v2).length)) ?_
    rw [stream_eq, List.map_map]
    apply List.map_congr_left
    intro x _
    cases x <;> rfl
  refine ⟨_, _, hr, ?_, ?_, ?_⟩
  · have := outW_diff A (cs.asDiffStream v2)
    rw [i1, i2] at this
    exact this
  · rw [stream_eq, List.length_map] at hl
    rw [List.length_map]; omega
  · rw [Nat.add_comm v1.length]; exact ht

theorem sq_add_le (a b : Nat) : a * a + b * b ≤ (a + b) * (a + b) := by
  simp only [Nat.add_mul, Nat.mul_add]
  omega

theorem consolidateConflictsC_spec {w : List α → Nat} (A : Additive w) (kind : Kind) :
    ∀ (fuel : Nat) (L R : List (MFragment α)) (t : Nat),
    consolidateConflictsC kind fuel L = .ok (R, t) →
    outW w R ≤ outW w L ∧ R.length ≤ outW (fun l => l.length) L + 2 * L.length ∧
    t ≤ 13 * (outW (fun l => l.length) L * outW (fun l => l.length) L) +
      20 * outW (fun l => l.length) L + 9 * L.length
  | _, [], R, t, h => by
    simp only [consolidateConflictsC, Except.ok.injEq, Prod.mk.injEq] at h
    obtain ⟨rfl, rfl⟩ := h
    simp
  | 0, _ :: _, R, t, h => by simp [consolidateConflictsC] at h
  | fuel + 1, x :: L0, R, t, h => by
    simp only [consolidateConflictsC] at h
    obtain ⟨g, o, r, h1, h2, h3, h4, h5, h6, h7, h8, h9⟩ := decompose (x :: L0)
    have hlen := congrArg List.length h4
    have hr := h8 (by simp)
    simp only [h1, h2, h3] at h
    cases hj1 : joinSides kind (g.map (·.version1)) with
    | error e => rw [hj1] at h; cases h
    | ok v1 =>
    cases hj2 : joinSides kind (g.map (·.version2)) with
    | error e => rw [hj1, hj2] at h; cases h
    | ok v2 =>
    obtain ⟨d, n, hd, d1, d2, d3⟩ := reSplitC_spec A v1 v2
    have e1 := joinSides_eq hj1
    have e2 := joinSides_eq hj2
    have g1 := outW_group A g h5
    have g2 := outW_group Additive.length g h5
    rw [← e1, ← e2] at g1 g2
    rw [hj1, hj2] at h
    simp only [bind, Except.bind, hd, pure, Except.pure] at h
    cases hrec : consolidateConflictsC kind fuel r with
    | error e => rw [hrec] at h; cases h
    | ok q =>
      obtain ⟨R', t'⟩ := q
      rw [hrec] at h
      simp only [Except.ok.injEq, Prod.mk.injEq] at h
      obtain ⟨rfl, rfl⟩ := h
      obtain ⟨i1, i2, i3⟩ := consolidateConflictsC_spec A kind fuel r R' t' hrec
      rw [h4, outW_append A, outW_append A, outW_append A, outW_append A]
      rw [outW_append Additive.length, outW_append Additive.length]
      simp only [List.length_append] at hlen ⊢
      generalize outW (fun l : List α => l.length) r = Sr at *
      generalize outW (fun l : List α => l.length) o = So at *
      generalize outW (fun l : List α => l.length) g = Sg at *
      rw [g2] at d2 d3
      refine ⟨by omega, by omega, ?_⟩
      have q1 := sq_add_le Sg Sr
      have q2 : (Sg + Sr) * (Sg + Sr) ≤ (Sg + (So + Sr)) * (Sg + (So + Sr)) :=
        Nat.mul_le_mul (by omega) (by omega)
      have q3 : (Sg + 1) * (13 * Sg + 7) = 13 * (Sg * Sg) + 20 * Sg + 7 := by
        simp only [Nat.add_mul, Nat.mul_add, Nat.one_mul, Nat.mul_left_comm Sg 13 Sg]
        omega
      omega

theorem consolidateAllLoopC_spec {w : List α → Nat} (A : Additive w) (kind : Kind) :
    ∀ (fuel : Nat) (L : List (MFragment α)) (out : List (DiffItem α)) (t : Nat),
    consolidateAllLoopC kind fuel L = .ok (out, t) →
    w (out.flatMap (·.tokens)) = outW w L ∧ t ≤ 2 * L.length
  | _, [], R, t, h => by
    simp only [consolidateAllLoopC, Except.ok.injEq, Prod.mk.injEq] at h
    obtain ⟨rfl, rfl⟩ := h
    simp [outW]
  | 0, _ :: _, R, t, h => by simp [consolidateAllLoopC] at h
  | fuel + 1, x :: L0, R, t, h => by
    simp only [consolidateAllLoopC] at h
    obtain ⟨g, o, r, h1, h2, h3, h4, h5, h6, h7, h8, h9⟩ := decompose (x :: L0)
    have hlen := congrArg List.length h4
    have hr := h8 (by simp)
    simp only [h1, h2, h3] at h
    cases hj1 : joinSides kind (g.map (·.version1)) with
    | error e => rw [hj1] at h; cases h
    | ok v1 =>
    cases hj2 : joinSides kind (g.map (·.version2)) with
    | error e => rw [hj1, hj2] at h; cases h
    | ok v2 =>
    cases hj3 : joinSides kind (o.map (·.insert)) with
    | error e => rw [hj1, hj2] at h; simp only [bind, Except.bind, hj3] at h; cases h
    | ok ins =>
    have g1 := outW_group A g h5
    have g3 := outW_others (w := w) o h6
    rw [← joinSides_eq hj1, ← joinSides_eq hj2] at g1
    rw [← joinSides_eq hj3] at g3
    rw [hj1, hj2] at h
    simp only [bind, Except.bind, hj3, pure, Except.pure] at h
    cases hrec : consolidateAllLoopC kind fuel r with
    | error e => rw [hrec] at h; cases h
    | ok q =>
      obtain ⟨R', t'⟩ := q
      rw [hrec] at h
      simp only [Except.ok.injEq, Prod.mk.injEq] at h
      obtain ⟨rfl, rfl⟩ := h
      obtain ⟨i1, i2⟩ := consolidateAllLoopC_spec A kind fuel r R' t' hrec
      rw [h4, outW_append A, outW_append A]
      simp only [List.length_append] at hlen ⊢
      refine ⟨?_, by omega⟩
      rw [List.flatMap_append, List.flatMap_append, A.append, A.append, i1]
      have k1 : w ((if bothEmpty v1 v2 then ([] : List (DiffItem α)) else
          [.change v1 v2]).flatMap (·.tokens)) = w v1 + w v2 := by
        unfold bothEmpty
        by_cases hb : (v1.isEmpty && v2.isEmpty) = true
        · rw [if_pos hb]
          simp only [Bool.and_eq_true, List.isEmpty_iff] at hb
          rw [hb.1, hb.2]
          simp [A.nil]
        · rw [if_neg hb]
          simp only [List.flatMap_cons, List.flatMap_nil, List.append_nil, DiffItem.tokens, A.append]
      have k2 : w ((if ins.isEmpty then ([] : List (DiffItem α)) else [.common ins]).flatMap
          (·.tokens)) = w ins := by
        cases ins <;> simp [DiffItem.tokens, A.nil]
      rw [k1, k2]
      omega

/-- The size and the cost of a merge. -/
theorem mergeC_spec {w : List α → Nat} (A : Additive w) {kind : Kind} {p b0 b1 : List α}
    {out : List (DiffItem α)} {t : Nat} (h : mergeTokenSequenceC kind p b0 b1 = .ok (out, t)) :
    w (out.flatMap (·.tokens)) ≤ w b0 + w b1 ∧
    t ≤ 28 * ((2 * p.length + b0.length + b1.length + 2) *
      (2 * p.length + b0.length + b1.length + 2)) := by
  obtain ⟨cs0, n0, hc0, i0, j0, l0, t0⟩ := diffStream_cost p b0
  obtain ⟨cs1, n1, hc1, i1, j1, l1, t1⟩ := diffStream_cost p b1
  simp only [mergeTokenSequenceC, hc0, hc1] at h
  cases hL : mergeLoopC ((cs0.stream p).length + (cs1.stream p).length) (cs0.stream p)
    (cs1.stream p) false with
  | none => rw [hL] at h; cases h
  | some x =>
  obtain ⟨L, n⟩ := x
  rw [hL] at h
  have e0 : ∀ v : List α → Nat, insW v (cs0.stream p) = v b0 := fun v => by
    rw [stream_eq, insW_toFrag, i0]
  have e1 : ∀ v : List α → Nat, insW v (cs1.stream p) = v b1 := fun v => by
    rw [stream_eq, insW_toFrag, i1]
  have f0 : delW (cs0.stream p) ≤ p.length := by
    have := delW_toFrag (cs0.asDiffStream p)
    rwa [j0, ← stream_eq] at this
  have f1 : delW (cs1.stream p) ≤ p.length := by
    have := delW_toFrag (cs1.asDiffStream p)
    rwa [j1, ← stream_eq] at this
  have hW : insW (fun l => l.length) (cs0.stream p) + insW (fun l => l.length) (cs1.stream p) +
      delW (cs0.stream p) + delW (cs1.stream p) ≤ 2 * p.length + b0.length + b1.length := by
    rw [e0, e1]; omega
  obtain ⟨m1, m2, m3⟩ := mergeLoopC_spec A _ _ _ _ _ _ _ hL hW
  obtain ⟨m4, _, _⟩ := mergeLoopC_spec Additive.length _ _ _ _ _ _ _ hL hW
  rw [e0, e1] at m1 m4
  simp only [consolidateC, consolidateAllC] at h
  cases hR : consolidateConflictsC kind L.length L with
  | error e => rw [hR] at h; cases h
  | ok q =>
  obtain ⟨R, tR⟩ := q
  rw [hR] at h
  simp only [bind, Except.bind, pure, Except.pure] at h
  cases hO : consolidateAllLoopC kind R.length R with
  | error e => rw [hO] at h; cases h
  | ok q =>
  obtain ⟨O, tO⟩ := q
  rw [hO] at h
  simp only [Except.ok.injEq, Prod.mk.injEq] at h
  obtain ⟨hout, rfl⟩ := h
  obtain ⟨c1, c2, c3⟩ := consolidateConflictsC_spec A kind _ _ _ _ hR
  obtain ⟨o1, o2⟩ := consolidateAllLoopC_spec A kind _ _ _ _ hO
  refine ⟨?_, ?_⟩
  · have : w (out.flatMap (·.tokens)) = w (O.flatMap (·.tokens)) := by
      rw [← hout]
      cases O <;> simp [DiffItem.tokens]
    omega
  · generalize outW (fun l : List α => l.length) L = S at *
    generalize hF : (cs0.stream p).length + (cs1.stream p).length = F at *
    generalize hw : 2 * p.length + b0.length + b1.length = W at *
    have a1 : (p.length + b0.length + 1) * (13 * (p.length + b0.length) + 7) ≤
        13 * ((p.length + b0.length + 1) * (p.length + b0.length + 1)) := by
      rw [Nat.mul_left_comm]; exact Nat.mul_le_mul_left _ (by omega)
    have a2 : (p.length + b1.length + 1) * (13 * (p.length + b1.length) + 7) ≤
        13 * ((p.length + b1.length + 1) * (p.length + b1.length + 1)) := by
      rw [Nat.mul_left_comm]; exact Nat.mul_le_mul_left _ (by omega)
    have a3 := sq_add_le (p.length + b0.length + 1) (p.length + b1.length + 1)
    rw [show p.length + b0.length + 1 + (p.length + b1.length + 1) = W + 2 by omega] at a3
    have a4 : F * (W + 1) ≤ (W + 2) * (W + 1) := Nat.mul_le_mul_right _ (by omega)
    have a5 : F * (F + 1) ≤ (W + 2) * (W + 3) := Nat.mul_le_mul (by omega) (by omega)
    have a6 : S * S ≤ W * W := Nat.mul_le_mul (by omega) (by omega)
    have x1 : (W + 2) * (W + 1) = W * W + 3 * W + 2 := by
      simp only [Nat.add_mul, Nat.mul_add]; omega
    have x2 : (W + 2) * (W + 3) = W * W + 5 * W + 6 := by
      simp only [Nat.add_mul, Nat.mul_add]; omega
    have x3 : (W + 2) * (W + 2) = W * W + 4 * W + 4 := by
      simp only [Nat.add_mul, Nat.mul_add]; omega
    rw [x3] at a3 ⊢
    rw [x1] at a4
    rw [x2] at a5
    omega

end Gaspra
