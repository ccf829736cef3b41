import Verif.Proofs.Changesets

set_option linter.unusedSectionVars false
set_option linter.unusedSimpArgs false
set_option linter.unusedVariables false

/-! # The shape of the patches made by `strip_forward` and `strip_reverse` -/

namespace Gaspra

variable {α : Type _}

theorem OccursAt.infix {s w : List α} {i : Nat} (h : OccursAt s w i) : w <:+: s := by
  obtain ⟨p, q, rfl, _⟩ := h; exact ⟨p, q, rfl⟩

theorem OccursAt.bound {s w : List α} {i : Nat} (h : OccursAt s w i) : i + w.length ≤ s.length := by
  obtain ⟨p, q, rfl, rfl⟩ := h; simp

theorem SlicesWithin.mono {lo lo' hi : Nat} : ∀ {l : List (PatchItem α)}, SlicesWithin lo hi l →
    lo' ≤ lo → SlicesWithin lo' hi l
  | [], h, hl => Nat.le_trans hl h
  | .piece _ :: r, h, hl => SlicesWithin.mono (l := r) h hl
  | .slice sl :: r, h, hl => ⟨Nat.le_trans hl h.1, h.2⟩

theorem SlicesWithin.append {lo mid hi : Nat} : ∀ {l l' : List (PatchItem α)},
    SlicesWithin lo mid l → SlicesWithin mid hi l' → SlicesWithin lo hi (l ++ l')
  | [], l', h, h' => h'.mono h
  | .piece _ :: r, l', h, h' => SlicesWithin.append (l := r) h h'
  | .slice sl :: r, l', ⟨h1, e, h2, h3⟩, h' => ⟨h1, e, h2, SlicesWithin.append (l := r) h3 h'⟩

variable [DecidableEq α]

theorem stripForward_leaf (x y : List α) (os ms : Slice) :
    stripForward (Changeset.leaf x y os ms).asChangeStream = if y = [] then [] else [.piece y] := by
  simp only [Changeset.asChangeStream, stripForward]
  cases y <;> cases x <;> simp [bothEmpty]

theorem stripReverse_leaf (x y : List α) (os ms : Slice) :
    stripReverse (Changeset.leaf x y os ms).asChangeStream = if x = [] then [] else [.piece x] := by
  simp only [Changeset.asChangeStream, stripReverse]
  cases y <;> cases x <;> simp [bothEmpty]

theorem stripForward_node (co cm : Slice) (p s : Changeset α) :
    stripForward (Changeset.node co cm p s).asChangeStream =
      stripForward p.asChangeStream ++ .slice co :: stripForward s.asChangeStream := by
  simp [Changeset.asChangeStream, stripForward]

theorem stripReverse_node (co cm : Slice) (p s : Changeset α) :
    stripReverse (Changeset.node co cm p s).asChangeStream =
      stripReverse p.asChangeStream ++ .slice cm :: stripReverse s.asChangeStream := by
  simp [Changeset.asChangeStream, stripReverse]

theorem Valid.patchForward {o m : List α} {i j : Nat} {x y : List α} {cs : Changeset α}
    (V : Valid i x j y cs) (ho : OccursAt o x i) (hm : OccursAt m y j) :
    (∀ c ∈ stripForward cs.asChangeStream, c.WellFormed o m) ∧
      SlicesWithin i (i + x.length) (stripForward cs.asChangeStream) := by
  induction V with
  | leaf h =>
    rw [stripForward_leaf]
    split
    · simp [SlicesWithin]
    · next hy =>
      refine ⟨?_, by simp [SlicesWithin]⟩
      intro c hc
      simp at hc; subst hc
      exact ⟨hy, hm.infix⟩
  | @node i j x1 w x2 y1 y2 p s hw hmax _ _ hp hs ihp ihs =>
    obtain ⟨p1, p2⟩ := ihp ho.left hm.left
    obtain ⟨s1, s2⟩ := ihs ho.right hm.right
    rw [stripForward_node]
    have hwl : 0 < w.length := List.length_pos_iff.2 hw
    have hb := ho.mid.bound
    refine ⟨?_, ?_⟩
    · intro c hc
      rcases List.mem_append.1 hc with hc | hc
      · exact p1 c hc
      · rcases List.mem_cons.1 hc with rfl | hc
        · refine ⟨_, rfl, ?_, ?_⟩
          · show i + x1.length < i + x1.length + w.length
            omega
          · exact hb
        · exact s1 c hc
    · refine p2.append ⟨Nat.le_refl _, _, rfl, ?_⟩
      have : i + (x1 ++ w ++ x2).length = i + x1.length + w.length + x2.length := by simp; omega
      rw [this]; exact s2

theorem Valid.patchReverse {o m : List α} {i j : Nat} {x y : List α} {cs : Changeset α}
    (V : Valid i x j y cs) (ho : OccursAt o x i) (hm : OccursAt m y j) :
    (∀ c ∈ stripReverse cs.asChangeStream, c.WellFormed m o) ∧
      SlicesWithin j (j + y.length) (stripReverse cs.asChangeStream) := by
  induction V with
  | leaf h =>
    rw [stripReverse_leaf]
    split
    · simp [SlicesWithin]
    · next hy =>
      refine ⟨?_, by simp [SlicesWithin]⟩
      intro c hc
      simp at hc; subst hc
      exact ⟨hy, ho.infix⟩
  | @node i j x1 w x2 y1 y2 p s hw hmax _ _ hp hs ihp ihs =>
    obtain ⟨p1, p2⟩ := ihp ho.left hm.left
    obtain ⟨s1, s2⟩ := ihs ho.right hm.right
    rw [stripReverse_node]
    have hwl : 0 < w.length := List.length_pos_iff.2 hw
    have hb := hm.mid.bound
    refine ⟨?_, ?_⟩
    · intro c hc
      rcases List.mem_append.1 hc with hc | hc
      · exact p1 c hc
      · rcases List.mem_cons.1 hc with rfl | hc
        · refine ⟨_, rfl, ?_, ?_⟩
          · show j + y1.length < j + y1.length + w.length
            omega
          · exact hb
        · exact s1 c hc
    · refine p2.append ⟨Nat.le_refl _, _, rfl, ?_⟩
      have : j + (y1 ++ w ++ y2).length = j + y1.length + w.length + y2.length := by simp; omega
      rw [this]; exact s2

/-- Pieces and slices of a patch strictly alternate in the sense that literal pieces are never
adjacent. -/
theorem Valid.applyPatchForward {o : List α} {m : List α} {cs : Changeset α}
    (V : Valid 0 o 0 m cs) : applyPatch (stripForward cs.asChangeStream) o = m :=
  V.applyF (OccursAt.whole _)

end Gaspra
