import Verif.Proofs.MergeGeneral

/-!
# Conflict sides when overlapping edits start together
-/

set_option linter.unusedSectionVars false
set_option linter.unusedSimpArgs false
set_option linter.unusedVariables false

namespace Gaspra

variable {α : Type _} [DecidableEq α]

/-- The edits of a stream, without the fragment at its head. -/
def exEdits : Nat → List (Fragment α) → List (Edit α)
  | k, .change _ _ n :: F => fedits (k + n) F
  | k, F => fedits k F

theorem exEdits_sub (k : Nat) (F : List (Fragment α)) : ∀ e ∈ exEdits k F, e ∈ fedits k F := by
  intro e he
  cases F with
  | nil => exact he
  | cons f F =>
    cases f with
    | copy => exact he
    | change => simp only [exEdits] at he; simp [fedits, he]

theorem exEdits_of_FS {c : Bool} {p : List α} {F : List (Fragment α)} (H : FS c false p F) (k : Nat) :
    exEdits k F = fedits k F := by
  cases H <;> rfl

theorem mergeLoop_inv {fuel : Nat} {f0 f1 : Fragment α} {fs0 fs1 : List (Fragment α)}
    {w w' : Bool} {o : Option (MFragment α)} {t0 t1 : Option (Fragment α)}
    {out : List (MFragment α)} (h : mergeLoop (fuel + 1) (f0 :: fs0) (f1 :: fs1) w = some out)
    (hp : processFragments f0 f1 w = (o, t0, t1, w')) :
    ∃ out', mergeLoop fuel (t0.toList ++ fs0) (t1.toList ++ fs1) w' = some out' ∧
      out = o.toList ++ out' := by
  simp only [mergeLoop, hp] at h
  cases hm : mergeLoop fuel (t0.toList ++ fs0) (t1.toList ++ fs1) w' with
  | none => rw [hm] at h; simp at h
  | some out' => rw [hm] at h; simp at h; exact ⟨out', rfl, h.symm⟩

theorem splitCopy_FS {c h : Bool} {p w : List α} {n m : Nat} {fs : List (Fragment α)}
    (H : FS c h p (.copy w n :: fs)) (hm : m ≤ n) (k : Nat) :
    (∃ a b, FS a b (p.drop m) ((splitFragment (.copy w n) m).2.toList ++ fs)) ∧
      w = p.take m ++ allTokens (splitFragment (.copy w n) m).2.toList ∧
      fedits (k + m) ((splitFragment (.copy w n) m).2.toList ++ fs) =
        fedits k (.copy w n :: fs) := by
  obtain ⟨p1, hp, hn, hw, hF⟩ := H.inv_copy
  subst hn hp
  simp only [splitFragment, splitCopy, length_copy]
  rw [List.take_append_of_le_length hm, List.drop_append_of_le_length hm]
  by_cases h1 : m < w.length
  · have hd : w.drop m ≠ [] := by
      intro h; have := congrArg List.length h; simp at this; omega
    simp only [h1, if_true, Option.toList_some, List.cons_append, List.nil_append]
    refine ⟨⟨true, true, ?_⟩, ?_, ?_⟩
    · have := FS.copy (h := true) hd hF
      rwa [List.length_drop] at this
    · simp [allTokens]
    · simp only [fedits]
      rw [show k + m + (w.length - m) = k + w.length by omega]
  · have hmw : m = w.length := by omega
    subst hmw
    simp only [Nat.lt_irrefl, if_false, Option.toList_none, List.nil_append]
    refine ⟨⟨false, true, by simpa using hF⟩, by simp, rfl⟩

theorem splitChange_FS {c h : Bool} {p i d : List α} {n m : Nat} {fs : List (Fragment α)}
    (H : FS c h p (.change i d n :: fs)) (hm : m ≤ n) (k : Nat) :
    (∃ a b, FS a b (p.drop m) ((splitFragment (.change i d n) m).2.toList ++ fs)) ∧
      i = (insertOrLit (splitFragment (.change i d n) m).1).toList ∧
      allTokens (splitFragment (.change i d n) m).2.toList = [] ∧
      exEdits (k + m) ((splitFragment (.change i d n) m).2.toList ++ fs) =
        exEdits k (.change i d n :: fs) := by
  obtain ⟨p1, hp, hn, hne, hF⟩ := H.inv_change
  subst hn hp
  simp only [splitFragment, splitChange, length_change, Nat.lt_irrefl, or_false]
  rw [List.drop_append_of_le_length hm]
  have hhead : (insertOrLit (if m > 0 ∨ i.length > 0 then
      some (Fragment.change (i.take i.length) (d.take m) m) else none)).toList = i := by
    by_cases h0 : m > 0 ∨ i.length > 0
    · simp [h0, insertOrLit, Side.toList]
    · have : i = [] := List.eq_nil_of_length_eq_zero (by omega)
      subst this
      simp at h0
      simp [h0, insertOrLit, Side.toList]
  rw [hhead]
  by_cases h1 : m < d.length
  · have hd : d.drop m ≠ [] := by
      intro h; have := congrArg List.length h; simp at this; omega
    simp only [h1, if_true, Option.toList_some, List.cons_append, List.nil_append]
    refine ⟨⟨true, true, ?_⟩, trivial, ?_, ?_⟩
    · have := FS.change (c := true) (i := i.drop i.length) (Or.inr hd) hF
      rwa [List.length_drop] at this
    · simp
    · simp only [exEdits]
      rw [show k + m + (d.length - m) = k + d.length by omega]
  · have hmd : m = d.length := by omega
    subst hmd
    simp only [Nat.lt_irrefl, if_false, Option.toList_none, List.nil_append]
    refine ⟨⟨true, false, by simpa using hF⟩, trivial, rfl, ?_⟩
    rw [exEdits_of_FS hF]
    rfl

theorem split_FS {c h : Bool} {p : List α} {f : Fragment α} {m : Nat} {fs : List (Fragment α)}
    (H : FS c h p (f :: fs)) (hm : m ≤ f.length) (k : Nat) :
    (∃ a b, FS a b (p.drop m) ((splitFragment f m).2.toList ++ fs)) ∧
      f.insert = (insertOrLit (splitFragment f m).1).toList ++
        allTokens (splitFragment f m).2.toList ∧
      (∀ e ∈ exEdits (k + m) ((splitFragment f m).2.toList ++ fs), e ∈ exEdits k (f :: fs)) := by
  cases f with
  | copy w n =>
    obtain ⟨h1, h2, h3⟩ := splitCopy_FS H hm k
    refine ⟨h1, ?_, ?_⟩
    · obtain ⟨_, _, _, _, h4, _⟩ := splitFragment_spec H hm k
      exact h4
    · intro e he
      have := exEdits_sub _ _ e he
      rw [h3] at this
      exact this
  | change i d n =>
    obtain ⟨h1, h2, h3, h4⟩ := splitChange_FS H hm k
    refine ⟨h1, ?_, ?_⟩
    · rw [h3, List.append_nil]; exact h2
    · rw [h4]; exact fun e he => he

theorem copyChange_le {ci i d : List α} {cn n : Nat} (h : n ≤ cn) :
    copyChange ci cn i d n =
      (some (.input (.change i d n)), (splitFragment (.copy ci cn) n).2, none) := by
  have hmin : min cn n = n := by omega
  simp only [copyChange, hmin, if_true, splitFragment, splitCopy]
  by_cases h : n < cn
  · simp [h]
  · simp [h]

theorem copyCopy_cases (i0 i1 : List α) (n0 n1 : Nat) :
    (n0 ≤ n1 ∧ copyCopy i0 n0 i1 n1 =
      (some (.input (.copy i0 n0)), none, (splitFragment (.copy i1 n1) n0).2)) ∨
    (n1 ≤ n0 ∧ copyCopy i0 n0 i1 n1 =
      (some (.input (.copy i1 n1)), (splitFragment (.copy i0 n0) n1).2, none)) := by
  unfold copyCopy
  by_cases hlt : n0 < n1
  · left
    simp only [hlt, if_true]
    exact ⟨by omega, rfl⟩
  · right
    simp only [hlt, if_false]
    refine ⟨by omega, ?_⟩
    have ht : (if n1 ≠ n0 then (splitCopy i0 n0 n1).2 else none) =
        (splitFragment (.copy i0 n0) n1).2 := by
      simp only [splitFragment, splitCopy]
      by_cases h : n1 < n0
      · have : n1 ≠ n0 := by omega
        simp [h, this]
      · simp [h]
    rw [ht]

theorem suffix_drop {a b l : List α} (h : (a ++ b) <:+ l) : b <:+ l :=
  (List.suffix_append a b).trans h

theorem infix_of_suffix_left {a b l : List α} (h : (a ++ b) <:+ l) : a <:+: l :=
  (List.prefix_append a b).isInfix.trans h.isInfix

/-- When overlapping edits start at the same position, the two sides of every group of conflicts
are pieces of the respective branch. -/
theorem aligned_spec (b0 b1 : List α) : ∀ (fuel k : Nat) (p : List α) (F0 F1 : List (Fragment α))
    (w : Bool) (a1 a2 : List α) (out : List (MFragment α)),
    (∃ c h, FS c h p F0) → (∃ c h, FS c h p F1) →
    (w = false → a1 = [] ∧ a2 = [] ∧
      ∀ e0 ∈ fedits k F0, ∀ e1 ∈ fedits k F1, e0.Aligned e1) →
    (∀ e0 ∈ exEdits k F0, ∀ e1 ∈ exEdits k F1, e0.Aligned e1) →
    (a1 ++ allTokens F0) <:+ b0 → (a2 ++ allTokens F1) <:+ b1 →
    mergeLoop fuel F0 F1 w = some out → GroupsOK b0 b1 a1 a2 out := by
  intro fuel
  induction fuel using Nat.strongRecOn with
  | _ fuel ih =>
  rintro k p F0 F1 w a1 a2 out ⟨c0, h0, H0⟩ ⟨c1, h1, H1⟩ hfalse htrue hs0 hs1 hrun
  have hi1 := infix_of_suffix_left hs0
  have hi2 := infix_of_suffix_left hs1
  cases F0 with
  | nil =>
    have := H0.inv_nil; subst this
    rcases H1.nil_of with rfl | ⟨i, hi, rfl⟩
    · simp [mergeLoop] at hrun; subst hrun
      exact ⟨hi1, hi2⟩
    · simp [mergeLoop, flushRemaining] at hrun; subst hrun
      cases w
      · exact ⟨hi1, hi2, by simp [GroupsOK]⟩
      · simp only [if_true, GroupsOK, Side.toList, List.append_nil]
        refine ⟨hi1, ?_⟩
        simpa using hs1.isInfix
  | cons f0 fs0 =>
  cases F1 with
  | nil =>
    have := H1.inv_nil; subst this
    rcases H0.nil_of with h | ⟨i, hi, h⟩
    · simp at h
    · rw [h] at hrun hs0
      simp [mergeLoop, flushRemaining] at hrun; subst hrun
      cases w
      · exact ⟨hi1, hi2, by simp [GroupsOK]⟩
      · simp only [if_true, GroupsOK, Side.toList, List.append_nil]
        refine ⟨?_, hi2⟩
        simpa using hs0.isInfix
  | cons f1 fs1 =>
  cases fuel with
  | zero => simp [mergeLoop] at hrun
  | succ fuel =>
  have ih' := ih fuel (by omega)
  -- a conflict made of the two heads
  have pend : processFragments f0 f1 w = (some (.conflict
      (insertOrLit (splitFragment f0 (min f0.length f1.length)).1)
      (insertOrLit (splitFragment f1 (min f0.length f1.length)).1)),
      (splitFragment f0 (min f0.length f1.length)).2,
      (splitFragment f1 (min f0.length f1.length)).2, true) → GroupsOK b0 b1 a1 a2 out := by
    intro hpf
    generalize hm : min f0.length f1.length = m at hpf
    obtain ⟨out', ho, rfl⟩ := mergeLoop_inv hrun hpf
    obtain ⟨x1, x2, x3⟩ := split_FS H0 (m := m) (by omega) k
    obtain ⟨y1, y2, y3⟩ := split_FS H1 (m := m) (by omega) k
    simp only [Option.toList_some, List.cons_append, List.nil_append, GroupsOK]
    refine ih' (k + m) (p.drop m) _ _ true _ _ out' x1 y1 (by simp) ?_ ?_ ?_ ho
    · intro e0 he0 e1 he1
      exact htrue e0 (x3 e0 he0) e1 (y3 e1 he1)
    · simp only [allTokens_cons, x2] at hs0
      simpa [allTokens] using hs0
    · simp only [allTokens_cons, y2] at hs1
      simpa [allTokens] using hs1
  cases f0 with
  | copy w0 n0 =>
    cases f1 with
    | copy w1 n1 =>
      have hal : ∀ e0 ∈ fedits k (.copy w0 n0 :: fs0), ∀ e1 ∈ fedits k (.copy w1 n1 :: fs1),
          e0.Aligned e1 := htrue
      rcases copyCopy_cases w0 w1 n0 n1 with ⟨hle, hcc⟩ | ⟨hle, hcc⟩
      · obtain ⟨out', ho, rfl⟩ := mergeLoop_inv hrun
          (show processFragments (.copy w0 n0) (.copy w1 n1) w = (_, _, _, false) by
            simp only [processFragments, hcc]; rfl)
        obtain ⟨p0, e0, hn0, hw0, hF0⟩ := H0.inv_copy
        obtain ⟨y1, y2, y3⟩ := splitCopy_FS H1 (m := n0) hle k
        have hp0 : p.drop n0 = p0 := by rw [e0, hn0]; simp
        rw [hp0] at y1
        refine ⟨hi1, hi2, ?_⟩
        refine ih' (k + n0) p0 _ _ false [] [] out' ⟨_, _, hF0⟩ y1 ?_ ?_ ?_ ?_ ho
        · intro _
          refine ⟨rfl, rfl, ?_⟩
          rw [y3]; exact hal
        · intro e0 he0 e1 he1
          have h0 := exEdits_sub _ _ e0 he0
          have h1 := exEdits_sub _ _ e1 he1
          rw [y3] at h1
          exact hal e0 h0 e1 h1
        · exact suffix_drop (a := w0) (suffix_drop hs0)
        · rw [allTokens_cons, insert_copy, y2] at hs1
          have := suffix_drop hs1
          rw [List.append_assoc] at this
          simpa [allTokens] using suffix_drop this
      · obtain ⟨out', ho, rfl⟩ := mergeLoop_inv hrun
          (show processFragments (.copy w0 n0) (.copy w1 n1) w = (_, _, _, false) by
            simp only [processFragments, hcc]; rfl)
        obtain ⟨p0, e0, hn0, hw0, hF0⟩ := H1.inv_copy
        obtain ⟨y1, y2, y3⟩ := splitCopy_FS H0 (m := n1) hle k
        have hp0 : p.drop n1 = p0 := by rw [e0, hn0]; simp
        rw [hp0] at y1
        refine ⟨hi1, hi2, ?_⟩
        refine ih' (k + n1) p0 _ _ false [] [] out' y1 ⟨_, _, hF0⟩ ?_ ?_ ?_ ?_ ho
        · intro _
          refine ⟨rfl, rfl, ?_⟩
          rw [y3]; exact hal
        · intro e0 he0 e1 he1
          have h0 := exEdits_sub _ _ e0 he0
          have h1 := exEdits_sub _ _ e1 he1
          rw [y3] at h0
          exact hal e0 h0 e1 h1
        · rw [allTokens_cons, insert_copy, y2] at hs0
          have := suffix_drop hs0
          rw [List.append_assoc] at this
          simpa [allTokens] using suffix_drop this
        · exact suffix_drop (a := w1) (suffix_drop hs1)
    | change i1 d1 n1 =>
      cases w with
      | true => exact pend rfl
      | false =>
        obtain ⟨rfl, rfl, hal⟩ := hfalse rfl
        obtain ⟨p0, e0, hn0, hw0, hF0⟩ := H0.inv_copy
        obtain ⟨p1, e1, hn1, hne1, hF1⟩ := H1.inv_change
        have hle : n1 ≤ n0 := by
          rw [hn0, hn1]
          refine aligned_le e0 e1 hw0 hF0 (i := i1) (k := k) ?_
          intro e he
          rw [← hn1]
          exact hal e (by rw [← hn0] at he; exact he) _ (by simp [fedits])
        obtain ⟨out', ho, rfl⟩ := mergeLoop_inv hrun
          (show processFragments (.copy w0 n0) (.change i1 d1 n1) false = (_, _, _, false) by
            simp only [processFragments, copyChange_le hle, Bool.false_eq_true, if_false]; rfl)
        obtain ⟨y1, y2, y3⟩ := splitCopy_FS H0 (m := n1) hle k
        have hp1 : p.drop n1 = p1 := by rw [e1, hn1]; simp
        rw [hp1] at y1
        refine ⟨hi1, hi2, ?_⟩
        have hal' : ∀ e0 ∈ fedits (k + n1) ((splitFragment (.copy w0 n0) n1).2.toList ++ fs0),
            ∀ e1 ∈ fedits (k + n1) fs1, e0.Aligned e1 := by
          rw [y3]
          intro e0 h0 e1 h1
          exact hal e0 h0 e1 (by simp [fedits, h1])
        refine ih' (k + n1) p1 _ _ false [] [] out' y1 ⟨_, _, hF1⟩ (fun _ => ⟨rfl, rfl, hal'⟩) ?_ ?_ ?_ ho
        · intro e0 he0 e1 he1
          exact hal' e0 (exEdits_sub _ _ e0 he0) e1 (exEdits_sub _ _ e1 he1)
        · rw [allTokens_cons, insert_copy, y2] at hs0
          have := suffix_drop hs0
          rw [List.append_assoc] at this
          simpa [allTokens] using suffix_drop this
        · exact suffix_drop (a := i1) (suffix_drop hs1)
  | change i0 d0 n0 =>
    obtain ⟨p0, e0, hn0, hne0, hF0⟩ := H0.inv_change
    cases f1 with
    | copy w1 n1 =>
      cases w with
      | true => exact pend rfl
      | false =>
        obtain ⟨rfl, rfl, hal⟩ := hfalse rfl
        obtain ⟨p1, e1, hn1, hw1, hF1⟩ := H1.inv_copy
        have hle : n0 ≤ n1 := by
          rw [hn0, hn1]
          refine aligned_le e1 e0 hw1 hF1 (i := i0) (k := k) ?_
          intro e he
          rw [← hn0]
          exact (hal _ (by simp [fedits]) e (by rw [← hn1] at he; exact he)).symm
        obtain ⟨out', ho, rfl⟩ := mergeLoop_inv hrun
          (show processFragments (.change i0 d0 n0) (.copy w1 n1) false = (_, _, _, false) by
            simp only [processFragments, copyChange_le hle, Bool.false_eq_true, if_false]; rfl)
        obtain ⟨y1, y2, y3⟩ := splitCopy_FS H1 (m := n0) hle k
        have hp0 : p.drop n0 = p0 := by rw [e0, hn0]; simp
        rw [hp0] at y1
        refine ⟨hi1, hi2, ?_⟩
        have hal' : ∀ e0 ∈ fedits (k + n0) fs0,
            ∀ e1 ∈ fedits (k + n0) ((splitFragment (.copy w1 n1) n0).2.toList ++ fs1),
            e0.Aligned e1 := by
          rw [y3]
          intro e0 h0 e1 h1
          exact hal e0 (by simp [fedits, h0]) e1 h1
        refine ih' (k + n0) p0 _ _ false [] [] out' ⟨_, _, hF0⟩ y1 (fun _ => ⟨rfl, rfl, hal'⟩) ?_ ?_ ?_ ho
        · intro e0 he0 e1 he1
          exact hal' e0 (exEdits_sub _ _ e0 he0) e1 (exEdits_sub _ _ e1 he1)
        · exact suffix_drop (a := i0) (suffix_drop hs0)
        · rw [allTokens_cons, insert_copy, y2] at hs1
          have := suffix_drop hs1
          rw [List.append_assoc] at this
          simpa [allTokens] using suffix_drop this
    | change i1 d1 n1 =>
      cases w with
      | true => exact pend rfl
      | false =>
        obtain ⟨rfl, rfl, hal⟩ := hfalse rfl
        obtain ⟨p1, e1, hn1, hne1, hF1⟩ := H1.inv_change
        by_cases hc : hasComposable i0 n0 i1 n1 = true
        · by_cases hA : n0 = 0 ∧ i1.length = 0
          · -- an insertion of branch 0 at a deletion of branch 1
            obtain ⟨out1, ho, rfl⟩ := mergeLoop_inv hrun
              (show processFragments (.change i0 d0 n0) (.change i1 d1 n1) false =
                (none, none, some (.change i0 d1 n1), false) by
                simp only [processFragments, changeChange, hc, if_true,
                  Bool.false_eq_true, if_false]
                rw [if_pos hA])
            obtain ⟨hA1, hA2⟩ := hA
            have hii : i1 = [] := List.eq_nil_of_length_eq_zero hA2
            have hdd : d0 = [] := List.eq_nil_of_length_eq_zero (by omega)
            subst hii hdd
            simp at hn0 e0
            subst hn0 e0
            have hd1 : d1 ≠ [] := by simpa using hne1
            have hp : p ≠ [] := by rw [e1]; simp [hd1]
            obtain ⟨w0, p', fs0', e0', hfs, hw0, hF0'⟩ := hF0.cons_copy hp
            subst hfs
            have hle : n1 ≤ w0.length := by
              rw [hn1]
              refine aligned_le e0' e1 hw0 hF0' (i := []) (k := k) ?_
              intro e he
              rw [← hn1]
              exact hal e (by simp [fedits, he]) _ (by simp [fedits])
            cases fuel with
            | zero => simp [mergeLoop] at ho
            | succ fuel =>
            simp only [Option.toList_none, Option.toList_some, List.nil_append, List.cons_append]
              at ho ⊢
            obtain ⟨out', ho', rfl⟩ := mergeLoop_inv ho
              (show processFragments (.copy w0 w0.length) (.change i0 d1 n1) false =
                (_, _, _, false) by
                simp only [processFragments, copyChange_le hle, Bool.false_eq_true, if_false]; rfl)
            obtain ⟨y1, y2, y3⟩ := splitCopy_FS hF0 (m := n1) hle k
            have hp1 : p.drop n1 = p1 := by rw [e1, hn1]; simp
            rw [hp1] at y1
            refine ⟨hi1, hi2, ?_⟩
            have hal' : ∀ e0 ∈ fedits (k + n1)
                  ((splitFragment (.copy w0 w0.length) n1).2.toList ++ fs0'),
                ∀ e1 ∈ fedits (k + n1) fs1, e0.Aligned e1 := by
              rw [y3]
              intro e0 h0 e1 h1
              exact hal e0 (by rw [fedits]; simp [h0]) e1 (by simp [fedits, h1])
            refine ih fuel (by omega) (k + n1) p1 _ _ false [] [] out' y1 ⟨_, _, hF1⟩
              (fun _ => ⟨rfl, rfl, hal'⟩) ?_ ?_ ?_ ho'
            · intro e0 he0 e1 he1
              exact hal' e0 (exEdits_sub _ _ e0 he0) e1 (exEdits_sub _ _ e1 he1)
            · rw [allTokens_cons, insert_change, allTokens_cons, insert_copy, y2] at hs0
              have := suffix_drop (suffix_drop hs0)
              rw [List.append_assoc] at this
              simpa [allTokens] using suffix_drop this
            · simpa using hs1
          · -- an insertion of branch 1 at a deletion of branch 0
            have hB : i0.length = 0 ∧ n1 = 0 := by
              have hc' := hc
              simp only [hasComposable, Bool.or_eq_true, Bool.and_eq_true, beq_iff_eq] at hc'
              rcases hc' with h | h
              · exact absurd h hA
              · exact h
            obtain ⟨out1, ho, rfl⟩ := mergeLoop_inv hrun
              (show processFragments (.change i0 d0 n0) (.change i1 d1 n1) false =
                (none, some (.change i1 d0 n0), none, false) by
                simp only [processFragments, changeChange, hc, hA, if_true,
                  Bool.false_eq_true, if_false])
            obtain ⟨hA1, hA2⟩ := hB
            have hii : i0 = [] := List.eq_nil_of_length_eq_zero hA1
            have hdd : d1 = [] := List.eq_nil_of_length_eq_zero (by omega)
            subst hii hdd
            simp at hn1 e1
            subst hn1 e1
            have hd0 : d0 ≠ [] := by simpa using hne0
            have hp : p ≠ [] := by rw [e0]; simp [hd0]
            obtain ⟨w1, p', fs1', e1', hfs, hw1, hF1'⟩ := hF1.cons_copy hp
            subst hfs
            have hle : n0 ≤ w1.length := by
              rw [hn0]
              refine aligned_le e1' e0 hw1 hF1' (i := []) (k := k) ?_
              intro e he
              rw [← hn0]
              exact (hal _ (by simp [fedits]) e (by simp [fedits, he])).symm
            cases fuel with
            | zero => simp [mergeLoop] at ho
            | succ fuel =>
            simp only [Option.toList_none, Option.toList_some, List.nil_append, List.cons_append]
              at ho ⊢
            obtain ⟨out', ho', rfl⟩ := mergeLoop_inv ho
              (show processFragments (.change i1 d0 n0) (.copy w1 w1.length) false =
                (_, _, _, false) by
                simp only [processFragments, copyChange_le hle, Bool.false_eq_true, if_false]; rfl)
            obtain ⟨y1, y2, y3⟩ := splitCopy_FS hF1 (m := n0) hle k
            have hp0 : p.drop n0 = p0 := by rw [e0, hn0]; simp
            rw [hp0] at y1
            refine ⟨hi1, hi2, ?_⟩
            have hal' : ∀ e0 ∈ fedits (k + n0) fs0, ∀ e1 ∈ fedits (k + n0)
                  ((splitFragment (.copy w1 w1.length) n0).2.toList ++ fs1'), e0.Aligned e1 := by
              rw [y3]
              intro e0 h0 e1 h1
              exact hal e0 (by simp [fedits, h0]) e1 (by rw [fedits]; simp [h1])
            refine ih fuel (by omega) (k + n0) p0 _ _ false [] [] out' ⟨_, _, hF0⟩ y1
              (fun _ => ⟨rfl, rfl, hal'⟩) ?_ ?_ ?_ ho'
            · intro e0 he0 e1 he1
              exact hal' e0 (exEdits_sub _ _ e0 he0) e1 (exEdits_sub _ _ e1 he1)
            · simpa using hs0
            · rw [allTokens_cons, insert_change, allTokens_cons, insert_copy, y2] at hs1
              have := suffix_drop (suffix_drop hs1)
              rw [List.append_assoc] at this
              simpa [allTokens] using suffix_drop this
        · by_cases hid : areIdentical i0 d0 n0 i1 d1 n1 = true
          · obtain ⟨out', ho, rfl⟩ := mergeLoop_inv hrun
              (show processFragments (.change i0 d0 n0) (.change i1 d1 n1) false =
                (_, none, none, false) by
                simp only [processFragments, changeChange, hc, hid, if_true,
                  Bool.false_eq_true, if_false]; rfl)
            obtain ⟨hi, hd⟩ : i0 = i1 ∧ d0 = d1 := by
              simp only [areIdentical, Bool.and_eq_true, beq_iff_eq] at hid
              obtain ⟨⟨a1, a2⟩, a3, a4⟩ := hid
              constructor
              · exact eq_of_commonPrefixLength a1 a2
              · exact eq_of_commonPrefixLength (by omega) (by omega)
            subst hi hd
            have hpe : p0 = p1 := List.append_cancel_left (e0.symm.trans e1)
            subst hpe
            have hnn : n0 = n1 := hn0.trans hn1.symm
            subst hnn
            refine ⟨hi1, hi2, ?_⟩
            have hal' : ∀ e0 ∈ fedits (k + n0) fs0, ∀ e1 ∈ fedits (k + n0) fs1,
                e0.Aligned e1 := by
              intro e0 h0 e1 h1
              exact hal e0 (by simp [fedits, h0]) e1 (by simp [fedits, h1])
            refine ih' (k + n0) p0 _ _ false [] [] out' ⟨_, _, hF0⟩ ⟨_, _, hF1⟩
              (fun _ => ⟨rfl, rfl, hal'⟩) ?_ ?_ ?_ ho
            · intro e0 he0 e1 he1
              exact hal' e0 (exEdits_sub _ _ e0 he0) e1 (exEdits_sub _ _ e1 he1)
            · exact suffix_drop (a := i0) (suffix_drop hs0)
            · exact suffix_drop (a := i0) (suffix_drop hs1)
          · apply pend
            have hq : ¬ ((n0 = 0 ∧ i1 = []) ∨ (i0 = [] ∧ n1 = 0)) := by
              intro h
              apply hc
              simp only [hasComposable, Bool.or_eq_true, Bool.and_eq_true, beq_iff_eq]
              rcases h with ⟨h1, h2⟩ | ⟨h1, h2⟩
              · left; exact ⟨h1, by simp [h2]⟩
              · right; exact ⟨by simp [h1], h2⟩
            have hs0 : min n0 n1 > 0 ∨ i0.length > 0 := by
              by_cases hi : i0 = []
              · left
                have : d0 ≠ [] := by simpa [hi] using hne0
                have h3 : 0 < n0 := by rw [hn0]; exact List.length_pos_iff.2 this
                have h4 : n1 ≠ 0 := fun h => hq (Or.inr ⟨hi, h⟩)
                omega
              · right; exact List.length_pos_iff.2 hi
            have hs1 : min n0 n1 > 0 ∨ i1.length > 0 := by
              by_cases hi : i1 = []
              · left
                have : d1 ≠ [] := by simpa [hi] using hne1
                have h3 : 0 < n1 := by rw [hn1]; exact List.length_pos_iff.2 this
                have h4 : n0 ≠ 0 := fun h => hq (Or.inl ⟨h, hi⟩)
                omega
              · right; exact List.length_pos_iff.2 hi
            simp only [processFragments, changeChange, hc, hid, Bool.false_eq_true, if_false,
              ordinaryConflict, splitFragment, splitChange, hs0, hs1, if_true, insertOrLit,
              length_change, insert_change]
            rfl

end Gaspra
