import Verif.Proofs.Dict
import Verif.Spec.Interrupt

set_option linter.unusedSectionVars false
set_option linter.unusedSimpArgs false
set_option linter.unusedVariables false

/-! # The list of stores during `add` leads to its result by single writes -/

namespace Gaspra

theorem Runs.append {ρ σ : Type _} {R : σ → σ → Prop} {s s₁ s₂ : σ} {a b : List (ρ × σ)}
    (h : Runs R s a s₁) (h' : Runs R s₁ b s₂) : Runs R s (a ++ b) s₂ := by
  induction h with
  | nil => exact h'
  | cons h1 _ ih => exact .cons h1 (ih h')

variable {τ : Type _} [DecidableEq τ]

/-- At most one node differs. -/
def NodeWrite (t t' : MTree τ) : Prop := ∃ k, ∀ x, x ≠ k → dget t' x = dget t x

theorem nodeWrite_dset (t : MTree τ) (k : τ) (nd : TNode τ) : NodeWrite t (dset t k nd) :=
  ⟨k, fun x hx => by rw [dget_dset, if_neg fun e => hx e.symm]⟩

theorem nodeWrite_refl (t : MTree τ) (k : τ) : NodeWrite t t := ⟨k, fun _ _ => rfl⟩

theorem metrics_runs : ∀ (f : Nat) (t : MTree τ) (x : Option τ),
    Runs NodeWrite t (mtMetricsTrace f t x) (mtUpdateMetrics f t x).1
  | _, _, none => by simp only [mtMetricsTrace, mtUpdateMetrics]; exact .nil
  | 0, _, some _ => .nil
  | f + 1, t, some x => by
    simp only [mtMetricsTrace, mtUpdateMetrics]
    cases hx : dget t x with
    | none => exact .nil
    | some nd =>
      simp only
      cases h1 : mtChildAttrs t TNode.height nd.children with
      | none => exact .nil
      | some hh =>
        cases h2 : mtChildAttrs t TNode.size nd.children with
        | none => exact .nil
        | some ss => exact .cons (nodeWrite_dset _ _ _) (metrics_runs f _ _)

theorem attach_runs (t : MTree τ) (c p : τ) :
    Runs NodeWrite t (mtAttachTrace t c p) (mtAttach t c (some p)).1 := by
  simp only [mtAttachTrace, mtAttach]
  cases hp : dget t p with
  | none => exact .nil
  | some pn => exact .cons (nodeWrite_dset _ _ _) (metrics_runs _ _ _)

theorem changeParent_runs (t : MTree τ) (c p : τ) :
    Runs NodeWrite t (mtChangeParentTrace t c p) (mtChangeParent t c (some p)).1 := by
  simp only [mtChangeParentTrace, mtChangeParent]
  cases hc : dget t c with
  | none => exact .nil
  | some nc =>
    simp only
    cases hd : mtDetach t c nc.parent with
    | none => exact .nil
    | some t1 =>
      have h1 : NodeWrite t t1 := by
        cases hp : nc.parent with
        | none => rw [hp] at hd; simp [mtDetach] at hd; subst hd; exact nodeWrite_refl _ c
        | some q =>
          rw [hp] at hd
          simp only [mtDetach] at hd
          split at hd
          · cases hd
          · split at hd
            · cases hd; exact nodeWrite_dset _ _ _
            · cases hd; exact nodeWrite_refl _ c
      refine .cons h1 (.cons (nodeWrite_dset _ _ _) ?_)
      dsimp only
      have ha := attach_runs (dset t1 c { (dget t1 c).getD nc with parent := some p }) c p
      cases hm : mtAttach (dset t1 c { (dget t1 c).getD nc with parent := some p }) c (some p) with
      | mk t3 e =>
        rw [hm] at ha
        cases e with
        | some e => simpa using ha
        | none => exact ha.append (metrics_runs _ _ _)

theorem runs_withTree {t t' : MTree τ} {tr : List (AddPoint τ × MTree τ)}
    (h : Runs NodeWrite t tr t') (v : Versions τ (MTree τ)) :
    Runs OneWrite { v with tree := t } (tr.map v.withTree) { v with tree := t' } := by
  induction h with
  | nil => exact .nil
  | cons h1 _ ih =>
    obtain ⟨k, hk⟩ := h1
    exact .cons (.node k rfl rfl hk) ih

theorem dget_ddel_other {β : Type _} : ∀ (d : List (τ × β)) {k x : τ}, x ≠ k →
    dget (ddel d k) x = dget d x
  | [], _, _, _ => rfl
  | (a, b) :: d, k, x, h => by
    by_cases e : a = k
    · subst e
      have : ¬ a = x := fun e => h e.symm
      simp [ddel, dget, this]
    · simp only [ddel, e, if_false, dget]
      split
      · rfl
      · exact dget_ddel_other d h

variable {Tok S : Type _} [DecidableEq Tok] {tk : TokOps Tok S}

theorem edge_runs (v : Versions τ (MTree τ)) (p c : τ) (cs : List (PatchItem UInt8)) :
    Runs OneWrite v (addEdgeTrace v p c cs) (addEdge (memoryTree τ) v p c cs).1 := by
  have hcp : ∀ t : MTree τ, (memoryTree τ).changeParent t c p = mtChangeParent t c (some p) :=
    fun _ => rfl
  simp only [addEdgeTrace, addEdge, hcp]
  cases hs : serializeChangeset cs with
  | error e => exact .nil
  | ok d =>
    simp only
    have hw : OneWrite v { v with diffs := dset v.diffs c d } :=
      .delta c rfl rfl fun x hx => by
        show dget (dset v.diffs c d) x = _
        rw [dget_dset, if_neg fun e => hx e.symm]
    refine .cons hw ?_
    have h := runs_withTree (changeParent_runs v.tree c p) { v with diffs := dset v.diffs c d }
    cases hm : mtChangeParent v.tree c (some p) with
    | mk t' e =>
      rw [hm] at h
      cases e with
      | some e => simpa using h
      | none =>
        simp only
        split
        · exact h.append (.cons (.head c rfl rfl fun x hx => dget_ddel_other _ hx) .nil)
        · simpa using h

theorem split_runs (v : Versions τ (MTree τ)) (tag : τ) (c : Bytes) (s : τ) (path : List τ) :
    Runs OneWrite v (addSplitTrace tk v tag c s path) (addSplit (memoryTree τ) tk v tag c s path).1 := by
  simp only [addSplitTrace, addSplit]
  cases retrieveUsingPath tk v path with
  | error e => exact .nil
  | ok sv =>
    simp only
    cases makeChangeset tk c sv with
    | error e => exact .nil
    | ok cs =>
      simp only
      have h := edge_runs v tag s cs
      cases hm : addEdge (memoryTree τ) v tag s cs with
      | mk w e =>
        rw [hm] at h
        cases e with
        | some e => simpa using h
        | none => exact h.append (runs_withTree (changeParent_runs w.tree s tag) w)

theorem oldHead_runs (v : Versions τ (MTree τ)) (tag : τ) (c : Bytes) (b : τ) :
    Runs OneWrite v (addOldHeadTrace tk v tag c b) (addOldHead (memoryTree τ) tk v tag c b).1 := by
  simp only [addOldHeadTrace, addOldHead]
  cases dget v.headVersion b with
  | none => exact .nil
  | some hv =>
    simp only
    cases makeChangeset tk c hv with
    | error e => exact .nil
    | ok cs => exact edge_runs v tag b cs

theorem add_runs (v : Versions τ (MTree τ)) (tag : τ) (c : Bytes) (base : Option τ) :
    Runs OneWrite v (versionsAddTrace tk v tag c base)
      (versionsAdd (memoryTree τ) tk v tag c base).1 := by
  have w1 : OneWrite v { v with headVersion := dset v.headVersion tag c } :=
    .head tag rfl rfl fun x hx => by
      show dget (dset v.headVersion tag c) x = _
      rw [dget_dset, if_neg fun e => hx e.symm]
  have w2 : OneWrite { v with headVersion := dset v.headVersion tag c }
      ⟨dset v.headVersion tag c, v.diffs, mtAdd v.tree tag base⟩ :=
    .node tag rfl rfl fun x hx => by
      show dget (mtAdd v.tree tag base) x = _
      unfold mtAdd
      rw [dget_dset, if_neg fun e => hx e.symm]
  refine .cons w1 (.cons w2 ?_)
  cases base with
  | none => exact .nil
  | some b =>
    show Runs OneWrite _ (addToHeadTrace tk _ tag c b) (addToHead (memoryTree τ) tk
      ⟨dset v.headVersion tag c, v.diffs, mtAdd v.tree tag (some b)⟩ tag c b).1
    generalize (⟨dset v.headVersion tag c, v.diffs, mtAdd v.tree tag (some b)⟩ :
      Versions τ (MTree τ)) = w
    have hgm : (memoryTree τ).getSplit w.tree b = mtGetSplit w.tree b := rfl
    simp only [addToHeadTrace, addToHead, hgm]
    cases mtGetSplit w.tree b with
    | error e => exact .nil
    | ok sp =>
      obtain ⟨s, path⟩ := sp
      simp only
      split
      · have h := split_runs (tk := tk) w tag c s path
        cases hm : addSplit (memoryTree τ) tk w tag c s path with
        | mk w' e =>
          rw [hm] at h
          cases e with
          | some e => simpa using h
          | none => exact h.append (oldHead_runs w' tag c b)
      · exact oldHead_runs w tag c b

end Gaspra
