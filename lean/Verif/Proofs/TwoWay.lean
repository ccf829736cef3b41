import Verif.Proofs.Merge

/-!
# Merges in which everything is in conflict
-/

set_option linter.unusedSectionVars false
set_option linter.unusedSimpArgs false

namespace Gaspra

variable {α : Type _} [DecidableEq α]

theorem toM_conflict_sides {x : MFragment α} (h : x.isConflict = true) :
    ∃ a b, x = .conflict a b := by
  cases x with
  | input f => cases h
  | conflict a b => exact ⟨a, b, rfl⟩

/-- Within a conflict and with no token of the parent in both branches, all is in conflict. -/
theorem within_spec : ∀ (fuel : Nat) (p : List α) (F0 F1 : List (Fragment α)) (out : List (MFragment α)),
    (∃ c h, FS c h p F0) → (∃ c h, FS c h p F1) →
    (∀ t ∈ p, t ∈ allTokens F0 → t ∉ allTokens F1) →
    mergeLoop fuel F0 F1 true = some out →
    (∀ x ∈ out, x.isConflict = true) ∧ out.flatMap (·.version1.toList) = allTokens F0 ∧
      out.flatMap (·.version2.toList) = allTokens F1 := by
  intro fuel
  induction fuel with
  | zero =>
    rintro p F0 F1 out ⟨c0, h0, H0⟩ ⟨c1, h1, H1⟩ hno hrun
    cases F0 with
    | nil =>
      cases F1 with
      | nil => simp [mergeLoop] at hrun; subst hrun; exact ⟨by simp, rfl, rfl⟩
      | cons f1 fs1 =>
        have := H0.inv_nil; subst this
        rcases H1.nil_of with h | ⟨i, hi, h⟩
        · cases h
        · rw [h] at hrun ⊢
          simp [mergeLoop, flushRemaining] at hrun; subst hrun
          simp [MFragment.isConflict, MFragment.version1, MFragment.version2, Side.toList, allTokens]
    | cons f0 fs0 =>
      cases F1 with
      | nil =>
        have := H1.inv_nil; subst this
        rcases H0.nil_of with h | ⟨i, hi, h⟩
        · cases h
        · rw [h] at hrun ⊢
          simp [mergeLoop, flushRemaining] at hrun; subst hrun
          simp [MFragment.isConflict, MFragment.version1, MFragment.version2, Side.toList, allTokens]
      | cons f1 fs1 => simp [mergeLoop] at hrun
  | succ fuel ih =>
    rintro p F0 F1 out ⟨c0, h0, H0⟩ ⟨c1, h1, H1⟩ hno hrun
    cases F0 with
    | nil =>
      cases F1 with
      | nil => simp [mergeLoop] at hrun; subst hrun; exact ⟨by simp, rfl, rfl⟩
      | cons f1 fs1 =>
        have := H0.inv_nil; subst this
        rcases H1.nil_of with h | ⟨i, hi, h⟩
        · cases h
        · rw [h] at hrun ⊢
          simp [mergeLoop, flushRemaining] at hrun; subst hrun
          simp [MFragment.isConflict, MFragment.version1, MFragment.version2, Side.toList, allTokens]
    | cons f0 fs0 =>
      cases F1 with
      | nil =>
        have := H1.inv_nil; subst this
        rcases H0.nil_of with h | ⟨i, hi, h⟩
        · cases h
        · rw [h] at hrun ⊢
          simp [mergeLoop, flushRemaining] at hrun; subst hrun
          simp [MFragment.isConflict, MFragment.version1, MFragment.version2, Side.toList, allTokens]
      | cons f1 fs1 =>
        have pend : processFragments f0 f1 true = (some (.conflict
            (insertOrLit (splitFragment f0 (min f0.length f1.length)).1)
            (insertOrLit (splitFragment f1 (min f0.length f1.length)).1)),
            (splitFragment f0 (min f0.length f1.length)).2,
            (splitFragment f1 (min f0.length f1.length)).2, true) := by
          cases f0 with
          | change i0 d0 n0 => cases f1 <;> rfl
          | copy w0 n0 =>
            cases f1 with
            | change i1 d1 n1 => rfl
            | copy w1 n1 =>
              exfalso
              obtain ⟨p0, e0, hn0, hw0, _⟩ := H0.inv_copy
              obtain ⟨p1, e1, hn1, hw1, _⟩ := H1.inv_copy
              cases w0 with
              | nil => exact hw0 rfl
              | cons t w0 =>
                cases w1 with
                | nil => exact hw1 rfl
                | cons t' w1 =>
                  rw [e0] at e1
                  simp only [List.cons_append, List.cons.injEq] at e1
                  obtain ⟨rfl, _⟩ := e1
                  exact hno t (by rw [e0]; simp) (by simp [allTokens]) (by simp [allTokens])
        generalize hm : min f0.length f1.length = m at pend
        obtain ⟨out', ho, rfl⟩ := mergeLoop_inv hrun pend
        obtain ⟨x1, x2, _⟩ := split_FS H0 (m := m) (by omega) 0
        obtain ⟨y1, y2, _⟩ := split_FS H1 (m := m) (by omega) 0
        have ea : ∀ a b : List (Fragment α), allTokens (a ++ b) = allTokens a ++ allTokens b := by
          intro a b; simp [allTokens]
        obtain ⟨r1, r2, r3⟩ := ih (p.drop m) _ _ out' x1 y1 (fun t ht h0 h1 => by
          refine hno t (List.mem_of_mem_drop ht) ?_ ?_
          · rw [allTokens_cons, x2]
            rw [ea] at h0
            rcases List.mem_append.1 h0 with h | h <;> simp [h]
          · rw [allTokens_cons, y2]
            rw [ea] at h1
            rcases List.mem_append.1 h1 with h | h <;> simp [h]) ho
        refine ⟨?_, ?_, ?_⟩
        · intro x hx
          simp only [Option.toList_some, List.cons_append, List.nil_append, List.mem_cons] at hx
          rcases hx with rfl | hx
          · rfl
          · exact r1 x hx
        · rw [ea] at r2
          simp only [Option.toList_some, List.cons_append, List.nil_append, List.flatMap_cons]
          rw [r2, allTokens_cons, x2, List.append_assoc]
          rfl
        · rw [ea] at r3
          simp only [Option.toList_some, List.cons_append, List.nil_append, List.flatMap_cons]
          rw [r3, allTokens_cons, y2, List.append_assoc]
          rfl

/-- The first step into a conflict. -/
theorem first_conflict {c0 h0 c1 h1 : Bool} {p i0 d0 i1 d1 : List α} {n0 n1 : Nat}
    {fs0 fs1 : List (Fragment α)} (H0 : FS c0 h0 p (.change i0 d0 n0 :: fs0))
    (H1 : FS c1 h1 p (.change i1 d1 n1 :: fs1))
    (hc : ¬ ((d0 = [] ∧ i1 = []) ∨ (i0 = [] ∧ d1 = []))) (hid : ¬ (i0 = i1 ∧ d0 = d1)) :
    processFragments (.change i0 d0 n0) (.change i1 d1 n1) false =
      processFragments (.change i0 d0 n0) (.change i1 d1 n1) true := by
  obtain ⟨p0, e0, hn0, hne0, hF0⟩ := H0.inv_change
  obtain ⟨p1, e1, hn1, hne1, hF1⟩ := H1.inv_change
  have z0 : n0 = 0 ↔ d0 = [] := by rw [hn0]; exact List.length_eq_zero_iff
  have z1 : n1 = 0 ↔ d1 = [] := by rw [hn1]; exact List.length_eq_zero_iff
  have hcb : hasComposable i0 n0 i1 n1 = false := by
    rw [Bool.eq_false_iff]
    intro h
    apply hc
    simp only [hasComposable, Bool.or_eq_true, Bool.and_eq_true, beq_iff_eq, z0, z1,
      List.length_eq_zero_iff] at h
    exact h
  have hidb : areIdentical i0 d0 n0 i1 d1 n1 = false := by
    rw [Bool.eq_false_iff]
    intro h
    apply hid
    simp only [areIdentical, Bool.and_eq_true, beq_iff_eq] at h
    obtain ⟨⟨a1, a2⟩, a3, a4⟩ := h
    exact ⟨eq_of_commonPrefixLength a1 a2, eq_of_commonPrefixLength (by omega) (by omega)⟩
  have hs0 : min n0 n1 > 0 ∨ i0.length > 0 := by
    by_cases hi : i0 = []
    · left
      have h3 : n0 ≠ 0 := fun h => hne0.elim (fun h' => h' hi) fun h' => h' (z0.1 h)
      have h4 : n1 ≠ 0 := fun h => hc (Or.inr ⟨hi, z1.1 h⟩)
      omega
    · right; exact List.length_pos_iff.2 hi
  have hs1 : min n0 n1 > 0 ∨ i1.length > 0 := by
    by_cases hi : i1 = []
    · left
      have h3 : n1 ≠ 0 := fun h => hne1.elim (fun h' => h' hi) fun h' => h' (z1.1 h)
      have h4 : n0 ≠ 0 := fun h => hc (Or.inl ⟨z0.1 h, hi⟩)
      omega
    · right; exact List.length_pos_iff.2 hi
  simp only [processFragments, changeChange, hcb, hidb, Bool.false_eq_true, if_false, if_true,
    pendingConflict, ordinaryConflict, splitFragment, splitChange, hs0, hs1, insertOrLit,
    length_change, insert_change]
  rfl

/-- The second pass leaves an alternating sequence of copies and conflicts as it is. -/
theorem consolidateAllLoop_toM (kind : Kind) : ∀ (fuel : Nat) (d : List (DiffItem α)), d.length ≤ fuel →
    (∀ x ∈ d, x.Normal) → Alternating d → consolidateAllLoop kind fuel (d.map toM) = .ok d := by
  have js : ∀ l : List α, joinSides kind [.seq l] = .ok l := by
    intro l; rw [joinSides_ok (.inr (by simp))]; simp [Side.toList]
  have j0 : joinSides kind ([] : List (Side α)) = .ok [] := by
    rw [joinSides_ok (.inr (by simp))]; rfl
  intro fuel
  induction fuel with
  | zero =>
    intro d hd _ _
    have : d = [] := List.eq_nil_of_length_eq_zero (by omega)
    subst this
    rfl
  | succ fuel ih =>
    intro d hd hn ha
    match d, hd, hn, ha with
    | [], _, _, _ => rfl
    | [.common c], hd, hn, ha =>
      have hc : c ≠ [] := hn (.common c) (by simp)
      simp [consolidateAllLoop, toM, MFragment.isConflict, j0, js, bind, Except.bind, pure, Except.pure,
        MFragment.insert, Fragment.insert, bothEmpty, hc]
    | [.change a b], hd, hn, ha =>
      have hab : a ≠ [] ∨ b ≠ [] := (hn (.change a b) (by simp)).1
      have hb : bothEmpty a b = false := by
        cases a <;> cases b <;> simp_all [bothEmpty]
      simp [consolidateAllLoop, toM, MFragment.isConflict, j0, js, bind, Except.bind, pure, Except.pure,
        MFragment.version1, MFragment.version2, hb]
    | .common c :: .common c' :: r, _, _, ha => exact absurd rfl ha.1
    | .change a b :: .change a' b' :: r, _, _, ha => exact absurd rfl ha.1
    | .common c :: .change a b :: r, hd, hn, ha =>
      have hc : c ≠ [] := hn (.common c) (by simp)
      have := ih (.change a b :: r) (by simp at hd ⊢; omega) (fun x hx => hn x (by simp at hx ⊢; exact .inr hx)) ha.2
      simp only [List.map_cons, toM] at this
      simp [consolidateAllLoop, toM, MFragment.isConflict, j0, js, bind, Except.bind, pure, Except.pure,
        MFragment.insert, Fragment.insert, bothEmpty, hc, this]
    | .change a b :: .common c :: r, hd, hn, ha =>
      have hc : c ≠ [] := hn (.common c) (by simp)
      have hab : a ≠ [] ∨ b ≠ [] := (hn (.change a b) (by simp)).1
      have hb : bothEmpty a b = false := by
        cases a <;> cases b <;> simp_all [bothEmpty]
      match r, hd, hn, ha with
      | [], _, _, _ =>
        simp [consolidateAllLoop, toM, MFragment.isConflict, j0, js, bind, Except.bind, pure, Except.pure,
          MFragment.insert, Fragment.insert, MFragment.version1, MFragment.version2, hb, hc]
      | .common _ :: _, _, _, ha => exact absurd rfl ha.2.1
      | .change a' b' :: r, hd, hn, ha =>
        have := ih (.change a' b' :: r) (by simp at hd ⊢; omega)
          (fun x hx => hn x (by simp at hx ⊢; exact .inr (.inr hx))) ha.2.2
        simp only [List.map_cons, toM] at this
        simp [consolidateAllLoop, toM, MFragment.isConflict, j0, js, bind, Except.bind, pure, Except.pure,
          MFragment.insert, Fragment.insert, MFragment.version1, MFragment.version2, hb, hc, this]

/-- `reSplit` is the diff of the two sides. -/
theorem reSplit_diff (v1 v2 : List α) : ∃ d, diffTokenSequences v2 v1 = some d ∧
    reSplit v1 v2 = .ok (d.map toM) ∧ (∀ x ∈ d, x.Normal) ∧ Alternating d := by
  obtain ⟨cs, h, V⟩ := findChangeset_spec v2 v1
  refine ⟨cs.asDiffStream v2, by simp only [diffTokenSequences, h], ?_, V.normal (OccursAt.whole _),
    V.alternating (OccursAt.whole _)⟩
  simp only [reSplit, h, stream_eq, List.map_map]
  congr 1
  apply List.map_congr_left
  intro x _
  cases x <;> rfl

/-- Consolidating nothing but conflicts is the diff of their sides. -/
theorem consolidate_conflicts {kind : Kind} {L : List (MFragment α)} (hL : L ≠ [])
    (hc : ∀ x ∈ L, x.isConflict = true)
    (hk : kind ≠ .bytes ∨ ∀ x ∈ L, x.noLit) :
    ∃ d, diffTokenSequences (L.flatMap (·.version2.toList)) (L.flatMap (·.version1.toList)) = some d ∧
      consolidate kind L = .ok (if d.isEmpty then [.common []] else d) := by
  obtain ⟨d, d1, d2, d3, d4⟩ := reSplit_diff (L.flatMap (·.version1.toList)) (L.flatMap (·.version2.toList))
  refine ⟨d, d1, ?_⟩
  have tw : L.takeWhile (·.isConflict) = L := by
    clear hL hk d1 d2
    induction L with
    | nil => rfl
    | cons x L ih =>
      rw [List.takeWhile_cons, if_pos (hc x (by simp)), ih fun y hy => hc y (by simp [hy])]
  have dw : L.dropWhile (·.isConflict) = [] := by
    clear hL hk d1 d2 tw
    induction L with
    | nil => rfl
    | cons x L ih =>
      rw [List.dropWhile_cons, if_pos (hc x (by simp)), ih fun y hy => hc y (by simp [hy])]
  cases L with
  | nil => exact absurd rfl hL
  | cons x L =>
    have j1 : joinSides kind ((x :: L).map (·.version1)) = .ok ((x :: L).flatMap (·.version1.toList)) := by
      rw [joinSides_ok, List.flatMap_map]
      rcases hk with hk | hk
      · exact .inl hk
      · refine .inr fun h => ?_
        obtain ⟨y, hy, e⟩ := List.mem_map.1 h
        obtain ⟨a, b, rfl⟩ := toM_conflict_sides (hc y hy)
        have := hk _ hy
        simp only [MFragment.version1] at e
        subst e
        simp [MFragment.noLit] at this
    have j2 : joinSides kind ((x :: L).map (·.version2)) = .ok ((x :: L).flatMap (·.version2.toList)) := by
      rw [joinSides_ok, List.flatMap_map]
      rcases hk with hk | hk
      · exact .inl hk
      · refine .inr fun h => ?_
        obtain ⟨y, hy, e⟩ := List.mem_map.1 h
        obtain ⟨a, b, rfl⟩ := toM_conflict_sides (hc y hy)
        have := hk _ hy
        simp only [MFragment.version2] at e
        subst e
        simp [MFragment.noLit] at this
    have p1 : consolidateConflicts kind (x :: L).length (x :: L) = .ok (d.map toM) := by
      simp only [List.length_cons, consolidateConflicts, tw, dw, j1, j2, d2, bind, Except.bind, pure,
        Except.pure, List.takeWhile_nil, List.dropWhile_nil, List.append_nil]
    have p2 : consolidateAllLoop kind (d.map toM).length (d.map toM) = .ok d :=
      consolidateAllLoop_toM kind _ d (by simp) d3 d4
    simp only [consolidate, consolidateAll, p1, p2, bind, Except.bind, pure, Except.pure]

end Gaspra
