import Verif.Proofs.MergeCut

/-!
# Merging is local

C76.
-/

set_option linter.unusedSectionVars false
set_option linter.unusedSimpArgs false
set_option linter.unusedVariables false

namespace Gaspra

variable {α : Type _} [DecidableEq α]

/-- C76: there is one function `M` of a text and two lists of edits such that every merge, spelled
token by token, is `M` of the parent and the edits of the two branches; at every token that neither
list removes, `M` is `M` of what is in front of it, the token, and `M` of what is behind it; and
where all edits are compatible, `M` is the text with both lists of edits made. -/
theorem C76_local : ∃ M : List α → List (Edit α) → List (Edit α) → List (α ⊕ (List α × List α)),
    (∀ (kind : Kind) (parent b0 b1 : List α) (d0 d1 out : List (DiffItem α)),
      diffTokenSequences parent b0 = some d0 → diffTokenSequences parent b1 = some d1 →
      mergeTokenSequence kind parent b0 b1 = .ok out →
      ValidEdits parent.length (editsOf 0 d0) ∧ ValidEdits parent.length (editsOf 0 d1) ∧
        spell out = M parent (editsOf 0 d0) (editsOf 0 d1)) ∧
    (∀ (text : List α) (es0 es1 : List (Edit α)), ValidEdits text.length es0 → ValidEdits text.length es1 →
      ∀ (g : Nat) (hg : g < text.length), deletes es0 g = false → deletes es1 g = false →
        M text es0 es1 = M (text.take g) (editsBefore g es0) (editsBefore g es1) ++ .inl text[g] ::
          M (text.drop (g + 1)) (editsAfter g es0) (editsAfter g es1)) ∧
    (∀ (text : List α) (es0 es1 : List (Edit α)), ValidEdits text.length es0 → ValidEdits text.length es1 →
      (∀ e0 ∈ es0, ∀ e1 ∈ es1, e0.Compatible e1) → M text es0 es1 = (mergedText text es0 es1).map .inl) :=
  ⟨mergeOf, fun _ _ _ _ _ _ _ h0 h1 h => ⟨valid_of_diff h0, valid_of_diff h1, mergeOf_merge h0 h1 h⟩,
    fun _ _ _ v0 v1 _ hg k0 k1 => mergeOf_cut v0 v1 hg k0 k1, fun _ _ _ v0 v1 hc => mergeOf_clean v0 v1 hc⟩

/-- C76: between two tokens that both branches keep, compatible edits are both made, whatever the
branches do elsewhere. -/
theorem C76_between {kind : Kind} {parent b0 b1 : List α} {d0 d1 out : List (DiffItem α)}
    (h0 : diffTokenSequences parent b0 = some d0) (h1 : diffTokenSequences parent b1 = some d1)
    (h : mergeTokenSequence kind parent b0 b1 = .ok out) {lo hi : Nat} (hlo : lo < hi) (hhi : hi < parent.length)
    (klo : deletes (editsOf 0 d0) lo = false ∧ deletes (editsOf 0 d1) lo = false)
    (khi : deletes (editsOf 0 d0) hi = false ∧ deletes (editsOf 0 d1) hi = false)
    (hc : ∀ e0 ∈ editsOf 0 d0, ∀ e1 ∈ editsOf 0 d1, lo < e0.start → e0.stop ≤ hi → lo < e1.start → e1.stop ≤ hi →
      e0.Compatible e1) :
    ∃ before after, spell out = before ++ .inl parent[lo] ::
      (mergedText ((parent.drop (lo + 1)).take (hi - (lo + 1)))
        (editsBefore (hi - (lo + 1)) (editsAfter lo (editsOf 0 d0)))
        (editsBefore (hi - (lo + 1)) (editsAfter lo (editsOf 0 d1)))).map .inl ++
      .inl parent[hi] :: after := by
  have v0 := valid_of_diff h0
  have v1 := valid_of_diff h1
  have ld : (parent.drop (lo + 1)).length = parent.length - (lo + 1) := by simp
  have a0 : ValidEdits (parent.drop (lo + 1)).length (editsAfter lo (editsOf 0 d0)) := by rw [ld]; exact v0.after
  have a1 : ValidEdits (parent.drop (lo + 1)).length (editsAfter lo (editsOf 0 d1)) := by rw [ld]; exact v1.after
  have shifted : ∀ es : List (Edit α), deletes es hi = false → deletes (editsAfter lo es) (hi - (lo + 1)) = false := by
    intro es k
    simp only [deletes, List.any_eq_false, editsAfter] at k ⊢
    intro e he
    obtain ⟨e', he', rfl⟩ := List.mem_map.1 he
    have m := List.mem_filter.1 he'
    have := k e' m.1
    simp at this m ⊢
    omega
  have lt : ((parent.drop (lo + 1)).take (hi - (lo + 1))).length = hi - (lo + 1) := by simp; omega
  have e := mergeOf_merge h0 h1 h
  rw [mergeOf_cut v0 v1 (by omega) klo.1 klo.2,
    mergeOf_cut a0 a1 (g := hi - (lo + 1)) (by rw [ld]; omega) (shifted _ khi.1) (shifted _ khi.2),
    mergeOf_clean (seg := (parent.drop (lo + 1)).take (hi - (lo + 1))) (by rw [lt]; exact a0.before (by rw [ld]; omega)) (by rw [lt]; exact a1.before (by rw [ld]; omega))] at e
  · have hx : (parent.drop (lo + 1))[hi - (lo + 1)]'(by rw [ld]; omega) = parent[hi] := by
      rw [List.getElem_drop]; congr 1; omega
    rw [hx] at e
    refine ⟨mergeOf (parent.take lo) (editsBefore lo (editsOf 0 d0)) (editsBefore lo (editsOf 0 d1)),
      mergeOf ((parent.drop (lo + 1)).drop (hi - (lo + 1) + 1)) (editsAfter (hi - (lo + 1)) (editsAfter lo (editsOf 0 d0)))
        (editsAfter (hi - (lo + 1)) (editsAfter lo (editsOf 0 d1))), ?_⟩
    rw [e]
    simp
  · intro x0 m0 x1 m1
    obtain ⟨m0, s0⟩ := List.mem_filter.1 m0
    obtain ⟨m1, s1⟩ := List.mem_filter.1 m1
    obtain ⟨y0, n0, rfl⟩ := List.mem_map.1 m0
    obtain ⟨y1, n1, rfl⟩ := List.mem_map.1 m1
    obtain ⟨n0, p0⟩ := List.mem_filter.1 n0
    obtain ⟨n1, p1⟩ := List.mem_filter.1 n1
    simp at s0 s1 p0 p1
    have r0 := v0.range y0 n0
    have r1 := v1.range y1 n1
    rcases hc y0 n0 y1 n1 p0 (by omega) p1 (by omega) with rfl | ⟨d, rest⟩
    · exact .inl rfl
    · right
      refine ⟨?_, ?_⟩
      · simp only [Edit.Disjoint] at d ⊢
        omega
      · simp only [Edit.PureInsertion, Edit.PureDeletion] at rest ⊢
        rcases rest with q | ⟨q, q'⟩ | ⟨q, q'⟩
        · left; omega
        · right; left; exact ⟨by omega, q'⟩
        · right; right; exact ⟨q, by omega⟩

/-- C76: the tokens that both branches keep stand outside the conflicts, in their order. -/
theorem C76_kept {kind : Kind} {parent b0 b1 : List α} {d0 d1 out : List (DiffItem α)}
    (h0 : diffTokenSequences parent b0 = some d0) (h1 : diffTokenSequences parent b1 = some d1)
    (h : mergeTokenSequence kind parent b0 b1 = .ok out) :
    (keptByBoth parent (editsOf 0 d0) (editsOf 0 d1)).Sublist (unchanged (spell out)) := by
  rw [mergeOf_merge h0 h1 h]
  exact kept_of_valid _ _ _ _ (Nat.le_refl _) (valid_of_diff h0) (valid_of_diff h1)

/-! Both branches change 2 in different ways, the first changes 5, and the second removes 7. -/

example : diffTokenSequences [1, 2, 3, 4, 5, 6, 7, 8] [1, 20, 3, 4, 50, 6, 7, 8] =
    some [.common [1], .change [20] [2], .common [3, 4], .change [50] [5], .common [6, 7, 8]] := by decide +kernel

example : diffTokenSequences [1, 2, 3, 4, 5, 6, 7, 8] [1, 21, 3, 4, 5, 6, 8] =
    some [.common [1], .change [21] [2], .common [3, 4, 5, 6], .change [] [7], .common [8]] := by decide +kernel

example : mergeTokenSequence .tuple [1, 2, 3, 4, 5, 6, 7, 8] [1, 20, 3, 4, 50, 6, 7, 8] [1, 21, 3, 4, 5, 6, 8] =
    .ok [.common [1], .change [20] [21], .common [3, 4, 50, 6, 8]] := by decide +kernel

example : keptByBoth [1, 2, 3, 4, 5, 6, 7, 8] [⟨1, 2, [20]⟩, ⟨4, 5, [50]⟩] [⟨1, 2, [21]⟩, ⟨6, 7, []⟩] =
    [1, 3, 4, 6, 8] := by decide +kernel

example : mergedText [4, 5, 6, 7] (editsBefore 4 (editsAfter 2 [⟨1, 2, [20]⟩, ⟨4, 5, [50]⟩]))
    (editsBefore 4 (editsAfter 2 [⟨1, 2, [21]⟩, ⟨6, 7, []⟩])) = [4, 50, 6] := by decide +kernel

/-! Without a kept token between them, edits that do not touch each other can end up in one conflict. -/

example : mergeTokenSequence .tuple [1, 2, 3, 4] [1, 20, 30, 4] [1, 2, 40] =
    .ok [.common [1], .change [20, 30, 4] [2, 40]] := by decide +kernel

end Gaspra
