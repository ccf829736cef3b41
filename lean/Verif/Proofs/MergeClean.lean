import Verif.Proofs.MergeSpec

/-!
# Compatible edits merge cleanly
-/

set_option linter.unusedSectionVars false
set_option linter.unusedSimpArgs false
set_option linter.unusedVariables false

namespace Gaspra

variable {α : Type _}

theorem FS.inv_copy {c h : Bool} {p i : List α} {n : Nat} {F : List (Fragment α)}
    (H : FS c h p (.copy i n :: F)) :
    ∃ p', p = i ++ p' ∧ n = i.length ∧ i ≠ [] ∧ FS false true p' F := by
  cases H with
  | copy hw hF => exact ⟨_, rfl, rfl, hw, hF⟩

theorem FS.inv_change {c h : Bool} {p i d : List α} {n : Nat} {F : List (Fragment α)}
    (H : FS c h p (.change i d n :: F)) :
    ∃ p', p = d ++ p' ∧ n = d.length ∧ (i ≠ [] ∨ d ≠ []) ∧ FS true false p' F := by
  cases H with
  | change hw hF => exact ⟨_, rfl, rfl, hw, hF⟩

theorem FS.inv_nil {c h : Bool} {p : List α} (H : FS c h p []) : p = [] := by
  cases H; rfl

/-- A stream over an empty text that may not start with a change is empty. -/
theorem FS.nil_of {c h : Bool} {F : List (Fragment α)} (H : FS c h [] F) :
    F = [] ∨ ∃ i, i ≠ [] ∧ F = [.change i [] 0] := by
  generalize hp : ([] : List α) = p at H
  cases H with
  | nil => left; rfl
  | copy hw hF => simp at hp; exact absurd hp.1 hw
  | change hne hF =>
    simp at hp
    obtain ⟨rfl, rfl⟩ := hp
    right
    generalize hp : ([] : List α) = p at hF
    cases hF with
    | nil => exact ⟨_, by simpa using hne, rfl⟩
    | copy hw hF => simp at hp; exact absurd hp.1 hw

/-- A stream over a nonempty text that starts with a copy fragment, when changes are not allowed. -/
theorem FS.cons_copy {c : Bool} {p : List α} {F : List (Fragment α)} (H : FS c false p F)
    (hp : p ≠ []) : ∃ w p' F', p = w ++ p' ∧ F = .copy w w.length :: F' ∧ w ≠ [] ∧
      FS false true p' F' := by
  cases H with
  | nil => exact absurd rfl hp
  | copy hw hF => exact ⟨_, _, _, rfl, rfl, hw, hF⟩

theorem FS.cons_change {h : Bool} {p : List α} {F : List (Fragment α)} (H : FS false h p F)
    (hp : p ≠ []) : ∃ i d p' F', p = d ++ p' ∧ F = .change i d d.length :: F' ∧
      FS true false p' F' := by
  cases H with
  | nil => exact absurd rfl hp
  | change hne hF => exact ⟨_, _, _, _, rfl, rfl, hF⟩

/-- Aligned streams: a change facing a copy outside a conflict is not longer than the copy. -/
theorem aligned_le {p p0 p1 w i d : List α} {fs0 : List (Fragment α)} {k : Nat}
    (hp : p = w ++ p0) (hp1 : p = d ++ p1) (hw : w ≠ []) (hF : FS false true p0 fs0)
    (hal : ∀ e ∈ fedits (k + w.length) fs0, e.Aligned ⟨k, k + d.length, i⟩) :
    d.length ≤ w.length := by
  rcases Nat.lt_or_ge w.length d.length with hlt | hge
  · exfalso
    have hp0 : p0 ≠ [] := by
      rintro rfl
      have := congrArg List.length (hp.symm.trans hp1)
      simp at this; omega
    obtain ⟨i', d', p', F', _, rfl, _⟩ := hF.cons_change hp0
    have := hal ⟨k + w.length, k + w.length + d'.length, i'⟩ (by simp [fedits])
    have hwl : 0 < w.length := List.length_pos_iff.2 hw
    rcases this with h | h | h <;> simp only at h <;> omega
  · exact hge

theorem append_split {a b c d : List α} (h : a ++ b = c ++ d) (hl : a.length ≤ c.length) :
    ∃ x, c = a ++ x ∧ b = x ++ d := by
  rcases List.append_eq_append_iff.1 h with ⟨x, h1, h2⟩ | ⟨x, h1, h2⟩
  · exact ⟨x, h1, h2⟩
  · have : x = [] := by
      apply List.eq_nil_of_length_eq_zero
      have := congrArg List.length h1
      simp at this; omega
    subst this
    exact ⟨[], by simpa using h1.symm, by simpa using h2.symm⟩

variable [DecidableEq α]

/-- `mergedText` from position `k` on. -/
def MT (k : Nat) (p : List α) (es0 es1 : List (Edit α)) : List α :=
  weave (fun g => bothInserts (insertedAt es0 g) (insertedAt es1 g))
    (fun g => !deletes es0 g && !deletes es1 g) k p

theorem bothInserts_nil_left (a : List α) : bothInserts [] a = a := by
  simp [bothInserts]

theorem bothInserts_nil_right (a : List α) : bothInserts a [] = a := by
  unfold bothInserts; split <;> simp_all

theorem bothInserts_self (a : List α) : bothInserts a a = a := by simp [bothInserts]

theorem bothInserts_nil : bothInserts ([] : List α) [] = [] := rfl

theorem MT_copy {k : Nat} {w p : List α} {es0 es1 : List (Edit α)} (h0 : LB (k + w.length) es0)
    (h1 : LB (k + w.length) es1) : MT k (w ++ p) es0 es1 = w ++ MT (k + w.length) p es0 es1 := by
  unfold MT
  rw [weave_keep]
  intro g hg hg'
  simp [insertedAt_lt h0 hg', insertedAt_lt h1 hg', deletes_lt h0 hg', deletes_lt h1 hg',
    bothInserts_nil]

/-- A change of the second stream facing a copy of the first one. -/
theorem MT_change1 {k : Nat} {i d p : List α} {es0 es1 : List (Edit α)} (hk : LB (k + 1) es0)
    (h0 : LB (k + d.length) es0) (h1 : LB (k + d.length + 1) es1) :
    MT k (d ++ p) es0 (⟨k, k + d.length, i⟩ :: es1) = i ++ MT (k + d.length) p es0 es1 := by
  unfold MT
  apply weave_edit
  · have e0 : insertedAt es0 k = [] := insertedAt_lt hk (by omega)
    have e1 : insertedAt es1 k = [] := insertedAt_lt h1 (by omega)
    simp [insertedAt_cons, e0, e1, bothInserts_nil_left]
  · intro g hg hg'
    have e0 : insertedAt es0 g = [] := insertedAt_lt h0 (by omega)
    have e1 : insertedAt es1 g = [] := insertedAt_lt h1 (by omega)
    have : ¬ k = g := by omega
    simp [insertedAt_cons, e0, e1, this, bothInserts_nil]
  · intro g hg hg'
    simp [deletes_cons, hg, hg']
  · intro g hg hg'
    have : ¬ k = g := by omega
    simp [insertedAt_cons, this]
  · intro g hg
    have : ¬ g < k + d.length := by omega
    simp [deletes_cons, this]

theorem bothInserts_swap_of {a b : List α} (h : a = b ∨ a = [] ∨ b = []) :
    bothInserts a b = bothInserts b a := by
  rcases h with rfl | rfl | rfl
  · rfl
  · rw [bothInserts_nil_left, bothInserts_nil_right]
  · rw [bothInserts_nil_left, bothInserts_nil_right]

theorem MT_change0 {k : Nat} {i d p : List α} {es0 es1 : List (Edit α)} (hk : LB (k + 1) es1)
    (h1 : LB (k + d.length) es1) (h0 : LB (k + d.length + 1) es0) :
    MT k (d ++ p) (⟨k, k + d.length, i⟩ :: es0) es1 = i ++ MT (k + d.length) p es0 es1 := by
  unfold MT
  apply weave_edit
  · have e0 : insertedAt es1 k = [] := insertedAt_lt hk (by omega)
    have e1 : insertedAt es0 k = [] := insertedAt_lt h0 (by omega)
    simp [insertedAt_cons, e0, e1, bothInserts_nil_right, bothInserts_nil]
  · intro g hg hg'
    have e0 : insertedAt es0 g = [] := insertedAt_lt h0 (by omega)
    have e1 : insertedAt es1 g = [] := insertedAt_lt h1 (by omega)
    have : ¬ k = g := by omega
    simp [insertedAt_cons, e0, e1, this, bothInserts_nil]
  · intro g hg hg'
    simp [deletes_cons, hg, hg']
  · intro g hg hg'
    have : ¬ k = g := by omega
    simp [insertedAt_cons, this]
  · intro g hg
    have : ¬ g < k + d.length := by omega
    simp [deletes_cons, this]

/-- The same change in both streams. -/
theorem MT_same {k : Nat} {i d p : List α} {es0 es1 : List (Edit α)}
    (h0 : LB (k + d.length + 1) es0) (h1 : LB (k + d.length + 1) es1) :
    MT k (d ++ p) (⟨k, k + d.length, i⟩ :: es0) (⟨k, k + d.length, i⟩ :: es1) =
      i ++ MT (k + d.length) p es0 es1 := by
  unfold MT
  apply weave_edit
  · have e0 : insertedAt es1 k = [] := insertedAt_lt h1 (by omega)
    have e1 : insertedAt es0 k = [] := insertedAt_lt h0 (by omega)
    simp [insertedAt_cons, e0, e1, bothInserts_self, bothInserts_nil]
  · intro g hg hg'
    have e0 : insertedAt es0 g = [] := insertedAt_lt h0 (by omega)
    have e1 : insertedAt es1 g = [] := insertedAt_lt h1 (by omega)
    have : ¬ k = g := by omega
    simp [insertedAt_cons, e0, e1, this, bothInserts_nil]
  · intro g hg hg'
    simp [deletes_cons, hg, hg']
  · intro g hg hg'
    have : ¬ k = g := by omega
    simp [insertedAt_cons, this]
  · intro g hg
    have : ¬ g < k + d.length := by omega
    simp [deletes_cons, this]

/-- `compose_changes`: an insertion of the first stream moves to the deletion of the second. -/
theorem MT_compose1 {k n : Nat} {i p : List α} {es0 es1 : List (Edit α)}
    (h0 : LB (k + 1) es0) (h1 : LB (k + 1) es1) :
    MT k p (⟨k, k, i⟩ :: es0) (⟨k, n, []⟩ :: es1) = MT k p es0 (⟨k, n, i⟩ :: es1) := by
  unfold MT
  apply weave_congr
  · intro g hg
    by_cases hgk : k = g
    · subst hgk
      have e0 : insertedAt es1 k = [] := insertedAt_lt h1 (by omega)
      have e1 : insertedAt es0 k = [] := insertedAt_lt h0 (by omega)
      simp [insertedAt_cons, e0, e1, bothInserts_nil_left, bothInserts_nil_right]
    · simp [insertedAt_cons, hgk]
  · intro g hg
    have : ¬ g < k := by omega
    simp [deletes_cons, this]

theorem MT_compose0 {k n : Nat} {i p : List α} {es0 es1 : List (Edit α)}
    (h0 : LB (k + 1) es0) (h1 : LB (k + 1) es1) :
    MT k p (⟨k, n, []⟩ :: es0) (⟨k, k, i⟩ :: es1) = MT k p (⟨k, n, i⟩ :: es0) es1 := by
  unfold MT
  apply weave_congr
  · intro g hg
    by_cases hgk : k = g
    · subst hgk
      have e0 : insertedAt es1 k = [] := insertedAt_lt h1 (by omega)
      have e1 : insertedAt es0 k = [] := insertedAt_lt h0 (by omega)
      simp [insertedAt_cons, e0, e1, bothInserts_nil_left, bothInserts_nil_right]
    · simp [insertedAt_cons, hgk]
  · intro g hg
    have : ¬ g < k := by omega
    simp [deletes_cons, this]

theorem commonPrefixLength_self (a : List α) : commonPrefixLength a a = a.length := by
  unfold commonPrefixLength
  rcases commonPrefixLoop_spec a a 0 with ⟨p, x, y, a', b', _, h1, h2, h3⟩ | ⟨h, _⟩
  · rw [h1] at h2
    have := List.append_cancel_left h2
    simp at this
    exact absurd this.1 h3
  · rw [h]; simp

theorem areIdentical_self (i d : List α) : areIdentical i d d.length i d d.length = true := by
  simp [areIdentical, commonPrefixLength_self]

theorem Compatible.aligned {e0 e1 : Edit α} (h : e0.Compatible e1) : e0.Aligned e1 := by
  rcases h with rfl | ⟨h, _⟩
  · left; rfl
  · right; exact h

theorem Edit.Aligned.symm {e0 e1 : Edit α} (h : e0.Aligned e1) : e1.Aligned e0 := by
  rcases h with h | h
  · left; exact h.symm
  · right; exact h.symm

theorem mergeLoop_step {fuel : Nat} {f0 f1 : Fragment α} {fs0 fs1 : List (Fragment α)}
    {w w' : Bool} {o : Option (MFragment α)} {t0 t1 : Option (Fragment α)}
    {out : List (MFragment α)} (hp : processFragments f0 f1 w = (o, t0, t1, w'))
    (h : mergeLoop fuel (t0.toList ++ fs0) (t1.toList ++ fs1) w' = some out) :
    mergeLoop (fuel + 1) (f0 :: fs0) (f1 :: fs1) w = some (o.toList ++ out) := by
  simp only [mergeLoop, hp, h]

theorem clean_spec : ∀ (fuel k : Nat) (p : List α) (F0 F1 : List (Fragment α)) (c0 h0 c1 h1 : Bool),
    FS c0 h0 p F0 → FS c1 h1 p F1 →
    (∀ e0 ∈ fedits k F0, ∀ e1 ∈ fedits k F1, e0.Compatible e1) →
    F0.length + F1.length ≤ fuel →
    ∃ out : List (Fragment α), mergeLoop fuel F0 F1 false = some (out.map .input) ∧
      out.flatMap (·.insert) = MT k p (fedits k F0) (fedits k F1) := by
  intro fuel
  induction fuel with
  | zero =>
    intro k p F0 F1 c0 h0 c1 h1 H0 H1 _ hf
    have : F0 = [] := List.eq_nil_of_length_eq_zero (by omega)
    have : F1 = [] := List.eq_nil_of_length_eq_zero (by omega)
    subst F0 F1
    have := H0.inv_nil; subst this
    exact ⟨[], rfl, rfl⟩
  | succ fuel ih =>
    intro k p F0 F1 c0 h0 c1 h1 H0 H1 hc hf
    cases F0 with
    | nil =>
      have := H0.inv_nil; subst this
      rcases H1.nil_of with rfl | ⟨i, hi, rfl⟩
      · exact ⟨[], rfl, rfl⟩
      · refine ⟨[.change i [] 0], rfl, ?_⟩
        simp [MT, weave, fedits, insertedAt, bothInserts_nil_left]
    | cons f0 fs0 =>
    cases F1 with
    | nil =>
      have := H1.inv_nil; subst this
      rcases H0.nil_of with h | ⟨i, hi, h⟩
      · simp at h
      · rw [h]
        refine ⟨[.change i [] 0], rfl, ?_⟩
        simp [MT, weave, fedits, insertedAt, bothInserts_nil_right]
    | cons f1 fs1 =>
    simp only [List.length_cons] at hf
    cases f0 with
    | copy w0 n0 =>
      obtain ⟨p0, hp0, hn0, hw0, hF0⟩ := H0.inv_copy
      subst hn0
      cases f1 with
      | copy w1 n1 =>
        obtain ⟨p1, hp1, hn1, hw1, hF1⟩ := H1.inv_copy
        subst hn1
        simp only [fedits] at hc ⊢
        by_cases hlt : w0.length < w1.length
        · obtain ⟨x, hx, hpx⟩ := append_split (hp0.symm.trans hp1) (by omega)
          subst hx
          have hxne : x ≠ [] := by rintro rfl; simp at hlt
          have hx0 : 0 < x.length := List.length_pos_iff.2 hxne
          have hH1 : FS true false p0 (.copy x x.length :: fs1) := by
            rw [hpx]; exact .copy hxne hF1
          have hfe : fedits (k + w0.length) (.copy x x.length :: fs1) =
              fedits (k + (w0 ++ x).length) fs1 := by
            simp [fedits, Nat.add_assoc]
          obtain ⟨out, ho1, ho2⟩ := ih (k + w0.length) p0 fs0 (.copy x x.length :: fs1) _ _ _ _ hF0
            hH1 (by rw [hfe]; exact hc) (by simp; omega)
          refine ⟨.copy w0 w0.length :: out, ?_, ?_⟩
          · simp only [mergeLoop, processFragments, copyCopy, hlt, if_true, splitCopy]
            simp only [List.length_append, if_pos (show w0.length < w0.length + x.length by omega),
              List.drop_left, Nat.add_sub_cancel_left]
            simp [ho1]
          · rw [List.flatMap_cons, ho2, hfe, hp0]
            rw [MT_copy (fedits_LB _ _) ((fedits_LB _ _).mono (by simp))]
            rfl
        · by_cases heq : w1.length = w0.length
          · obtain ⟨x, hx, hpx⟩ := append_split (hp0.symm.trans hp1) (by omega)
            have : x = [] := by
              apply List.eq_nil_of_length_eq_zero
              have := congrArg List.length hx
              simp at this; omega
            subst this
            simp at hx hpx
            subst hx hpx
            obtain ⟨out, ho1, ho2⟩ := ih (k + w1.length) p0 fs0 fs1 _ _ _ _ hF0 hF1 hc (by omega)
            refine ⟨.copy w1 w1.length :: out, ?_, ?_⟩
            · simp [mergeLoop, processFragments, copyCopy, ho1]
            · rw [List.flatMap_cons, ho2, hp0, MT_copy (fedits_LB _ _) (fedits_LB _ _)]
              rfl
          · obtain ⟨x, hx, hpx⟩ := append_split (hp1.symm.trans hp0) (by omega)
            subst hx
            have hxne : x ≠ [] := by rintro rfl; simp at heq
            have hx0 : 0 < x.length := List.length_pos_iff.2 hxne
            have hH0 : FS true false p1 (.copy x x.length :: fs0) := by
              rw [hpx]; exact .copy hxne hF0
            have hfe : fedits (k + w1.length) (.copy x x.length :: fs0) =
                fedits (k + (w1 ++ x).length) fs0 := by
              simp [fedits, Nat.add_assoc]
            obtain ⟨out, ho1, ho2⟩ := ih (k + w1.length) p1 (.copy x x.length :: fs0) fs1 _ _ _ _
              hH0 hF1 (by rw [hfe]; exact hc) (by simp; omega)
            refine ⟨.copy w1 w1.length :: out, ?_, ?_⟩
            · simp only [mergeLoop, processFragments, copyCopy, hlt, if_false, splitCopy, ne_eq,
                heq, not_false_eq_true, if_true]
              simp only [List.length_append, if_pos (show w1.length < w1.length + x.length by omega),
                List.drop_left, Nat.add_sub_cancel_left]
              simp [ho1]
            · rw [List.flatMap_cons, ho2, hfe, hp1]
              rw [MT_copy ((fedits_LB _ _).mono (by simp)) (fedits_LB _ _)]
              rfl
      | change i1 d1 n1 =>
        obtain ⟨p1, hp1, hn1, hne1, hF1⟩ := H1.inv_change
        subst hn1
        simp only [fedits] at hc ⊢
        have hle : d1.length ≤ w0.length := aligned_le (i := i1) hp0 hp1 hw0 hF0
          (fun e he => Compatible.aligned (hc e he _ (by simp)))
        obtain ⟨x, hx, hpx⟩ := append_split (hp1.symm.trans hp0) hle
        subst hx
        have hw0l : 0 < (d1 ++ x).length := List.length_pos_iff.2 hw0
        have hMT : MT k p (fedits (k + (d1 ++ x).length) fs0)
            (⟨k, k + d1.length, i1⟩ :: fedits (k + d1.length) fs1) =
            i1 ++ MT (k + d1.length) p1 (fedits (k + (d1 ++ x).length) fs0)
              (fedits (k + d1.length) fs1) := by
          rw [hp1]
          exact MT_change1 ((fedits_LB _ _).mono (by omega)) ((fedits_LB _ _).mono (by simp))
            (hF1.LB_succ _)
        have hmin : min (d1 ++ x).length d1.length = d1.length := by omega
        by_cases hxe : x = []
        · subst hxe
          simp only [List.append_nil, List.nil_append] at *
          subst hpx
          obtain ⟨out, ho1, ho2⟩ := ih (k + d1.length) p1 fs0 fs1 _ _ _ _ hF0 hF1
            (fun e0 he0 e1 he1 => hc e0 he0 e1 (by simp [he1])) (by omega)
          refine ⟨.change i1 d1 d1.length :: out, ?_, ?_⟩
          · simp [mergeLoop, processFragments, copyChange, ho1]
          · rw [List.flatMap_cons, ho2, hMT]; rfl
        · have hx0 : 0 < x.length := List.length_pos_iff.2 hxe
          have hH0 : FS true false p1 (.copy x x.length :: fs0) := by
            rw [hpx]; exact .copy hxe hF0
          have hfe : fedits (k + d1.length) (.copy x x.length :: fs0) =
              fedits (k + (d1 ++ x).length) fs0 := by
            simp [fedits, Nat.add_assoc]
          obtain ⟨out, ho1, ho2⟩ := ih (k + d1.length) p1 (.copy x x.length :: fs0) fs1 _ _ _ _
            hH0 hF1 (by rw [hfe]; exact fun e0 he0 e1 he1 => hc e0 he0 e1 (by simp [he1]))
            (by simp; omega)
          refine ⟨.change i1 d1 d1.length :: out, ?_, ?_⟩
          · simp only [mergeLoop, processFragments, copyChange, hmin, if_true, Bool.false_eq_true,
              if_false, splitCopy]
            simp only [List.length_append, if_pos (show d1.length < d1.length + x.length by omega),
              if_pos (show d1.length + x.length > d1.length by omega),
              List.drop_left, Nat.add_sub_cancel_left]
            simp [ho1]
          · rw [List.flatMap_cons, ho2, hfe, hMT]; rfl
    | change i0 d0 n0 =>
      obtain ⟨p0, hp0, hn0, hne0, hF0⟩ := H0.inv_change
      subst hn0
      cases f1 with
      | copy w1 n1 =>
        obtain ⟨p1, hp1, hn1, hw1, hF1⟩ := H1.inv_copy
        subst hn1
        simp only [fedits] at hc ⊢
        have hle : d0.length ≤ w1.length := aligned_le (i := i0) hp1 hp0 hw1 hF1
          (fun e he => (Compatible.aligned (hc _ (by simp) e he)).symm)
        obtain ⟨x, hx, hpx⟩ := append_split (hp0.symm.trans hp1) hle
        subst hx
        have hw1l : 0 < (d0 ++ x).length := List.length_pos_iff.2 hw1
        have hMT : MT k p (⟨k, k + d0.length, i0⟩ :: fedits (k + d0.length) fs0)
            (fedits (k + (d0 ++ x).length) fs1) =
            i0 ++ MT (k + d0.length) p0 (fedits (k + d0.length) fs0)
              (fedits (k + (d0 ++ x).length) fs1) := by
          rw [hp0]
          exact MT_change0 ((fedits_LB _ _).mono (by omega)) ((fedits_LB _ _).mono (by simp))
            (hF0.LB_succ _)
        have hmin : min (d0 ++ x).length d0.length = d0.length := by omega
        by_cases hxe : x = []
        · subst hxe
          simp only [List.append_nil, List.nil_append] at *
          subst hpx
          obtain ⟨out, ho1, ho2⟩ := ih (k + d0.length) p0 fs0 fs1 _ _ _ _ hF0 hF1
            (fun e0 he0 e1 he1 => hc e0 (by simp [he0]) e1 he1) (by omega)
          refine ⟨.change i0 d0 d0.length :: out, ?_, ?_⟩
          · simp [mergeLoop, processFragments, copyChange, ho1]
          · rw [List.flatMap_cons, ho2, hMT]; rfl
        · have hx0 : 0 < x.length := List.length_pos_iff.2 hxe
          have hH1 : FS true false p0 (.copy x x.length :: fs1) := by
            rw [hpx]; exact .copy hxe hF1
          have hfe : fedits (k + d0.length) (.copy x x.length :: fs1) =
              fedits (k + (d0 ++ x).length) fs1 := by
            simp [fedits, Nat.add_assoc]
          obtain ⟨out, ho1, ho2⟩ := ih (k + d0.length) p0 fs0 (.copy x x.length :: fs1) _ _ _ _
            hF0 hH1 (by rw [hfe]; exact fun e0 he0 e1 he1 => hc e0 (by simp [he0]) e1 he1)
            (by simp; omega)
          refine ⟨.change i0 d0 d0.length :: out, ?_, ?_⟩
          · simp only [mergeLoop, processFragments, copyChange, hmin, if_true, Bool.false_eq_true,
              if_false, splitCopy]
            simp only [List.length_append, if_pos (show d0.length < d0.length + x.length by omega),
              if_pos (show d0.length + x.length > d0.length by omega),
              List.drop_left, Nat.add_sub_cancel_left]
            simp [ho1]
          · rw [List.flatMap_cons, ho2, hfe, hMT]; rfl
      | change i1 d1 n1 =>
        obtain ⟨p1, hp1, hn1, hne1, hF1⟩ := H1.inv_change
        subst hn1
        simp only [fedits] at hc ⊢
        have hL0 := hF0.LB_succ (k + d0.length)
        have hL1 := hF1.LB_succ (k + d1.length)
        by_cases hcomp : hasComposable i0 d0.length i1 d1.length = true
        · by_cases hfirst : d0.length = 0 ∧ i1.length = 0
          · have hd0 : d0 = [] := List.eq_nil_of_length_eq_zero hfirst.1
            have hi1 : i1 = [] := List.eq_nil_of_length_eq_zero hfirst.2
            subst hd0 hi1
            simp only [List.nil_append] at hp0
            subst hp0
            have hd1 : d1 ≠ [] := by simpa using hne1
            have hd1l : 0 < d1.length := List.length_pos_iff.2 hd1
            have hH1 : FS true true p (.change i0 d1 d1.length :: fs1) := by
              rw [hp1]; exact .change (Or.inr hd1) hF1
            obtain ⟨out, ho1, ho2⟩ := ih k p fs0 (.change i0 d1 d1.length :: fs1) _ _ _ _ hF0 hH1
              (by
                intro e0 he0 e1 he1
                simp only [fedits, List.mem_cons] at he1
                rcases he1 with rfl | he1
                · have hgt := (hL0 e0 (by simpa using he0)).1
                  simp only [List.length_nil, Nat.add_zero] at hgt
                  right
                  have := hc e0 (by simp [he0]) ⟨k, k + d1.length, []⟩ (by simp)
                  rcases this with h | ⟨hd, _⟩
                  · have := congrArg Edit.start h
                    simp only at this; omega
                  · exact ⟨hd, Or.inl (by simp; omega)⟩
                · exact hc e0 (by simp [he0]) e1 (by simp [he1])) (by simp; omega)
            refine ⟨out, ?_, ?_⟩
            · exact mergeLoop_step (o := none) (t0 := none) (t1 := some (.change i0 d1 d1.length))
                (by simp [processFragments, changeChange, hasComposable]) ho1
            · rw [ho2]
              simp only [List.length_nil, Nat.add_zero, fedits] at hL0 ⊢
              rw [MT_compose1 hL0 (hL1.mono (by omega))]
          · have hsecond : i0.length = 0 ∧ d1.length = 0 := by
              simp only [hasComposable, Bool.or_eq_true, Bool.and_eq_true, beq_iff_eq] at hcomp
              rcases hcomp with h | h
              · exact absurd h hfirst
              · exact h
            have hi0 : i0 = [] := List.eq_nil_of_length_eq_zero hsecond.1
            have hd1 : d1 = [] := List.eq_nil_of_length_eq_zero hsecond.2
            subst hi0 hd1
            simp only [List.nil_append] at hp1
            subst hp1
            have hd0 : d0 ≠ [] := by simpa using hne0
            have hd0l : 0 < d0.length := List.length_pos_iff.2 hd0
            have hH0 : FS true true p (.change i1 d0 d0.length :: fs0) := by
              rw [hp0]; exact .change (Or.inr hd0) hF0
            obtain ⟨out, ho1, ho2⟩ := ih k p (.change i1 d0 d0.length :: fs0) fs1 _ _ _ _ hH0 hF1
              (by
                intro e0 he0 e1 he1
                simp only [fedits, List.mem_cons] at he0
                rcases he0 with rfl | he0
                · have hgt := (hL1 e1 (by simpa using he1)).1
                  simp only [List.length_nil, Nat.add_zero] at hgt
                  right
                  have := hc ⟨k, k + d0.length, []⟩ (by simp) e1 (by simp [he1])
                  rcases this with h | ⟨hd, _⟩
                  · have := congrArg Edit.start h
                    simp only at this; omega
                  · exact ⟨hd, Or.inl (by simp; omega)⟩
                · exact hc e0 (by simp [he0]) e1 (by simp [he1])) (by simp; omega)
            refine ⟨out, ?_, ?_⟩
            · exact mergeLoop_step (o := none) (t0 := some (.change i1 d0 d0.length)) (t1 := none)
                (by simp [processFragments, changeChange, hasComposable, hd0]) ho1
            · rw [ho2]
              simp only [List.length_nil, Nat.add_zero, fedits] at hL1 ⊢
              rw [MT_compose0 (hL0.mono (by omega)) hL1]
        · have hcc := hc ⟨k, k + d0.length, i0⟩ (by simp) ⟨k, k + d1.length, i1⟩ (by simp)
          have heq : i0 = i1 ∧ d0.length = d1.length := by
            rcases hcc with h | ⟨_, h | h | h⟩
            · simp at h; exact ⟨h.2, h.1⟩
            · simp at h
            · exfalso; apply hcomp
              simp [Edit.PureInsertion, Edit.PureDeletion] at h
              simp [hasComposable, h]
            · exfalso; apply hcomp
              simp [Edit.PureInsertion, Edit.PureDeletion] at h
              simp [hasComposable, h]
          obtain ⟨rfl, hdl⟩ := heq
          obtain ⟨x, hx, hpx⟩ := append_split (hp0.symm.trans hp1) (by omega)
          have : x = [] := by
            apply List.eq_nil_of_length_eq_zero
            have := congrArg List.length hx
            simp at this; omega
          subst this
          simp at hx hpx
          subst hx hpx
          obtain ⟨out, ho1, ho2⟩ := ih (k + d1.length) p0 fs0 fs1 _ _ _ _ hF0 hF1
            (fun e0 he0 e1 he1 => hc e0 (by simp [he0]) e1 (by simp [he1])) (by omega)
          refine ⟨.change i0 d1 d1.length :: out, ?_, ?_⟩
          · simp only [mergeLoop, processFragments, changeChange, hcomp, areIdentical_self, if_true,
              Bool.false_eq_true, if_false]
            simp [ho1]
          · rw [List.flatMap_cons, ho2, hp0, MT_same hL0 hL1]; rfl

end Gaspra
