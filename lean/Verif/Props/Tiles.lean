import Verif.Proofs.Tiles

/-!
# The slices stored in a changeset tree

C77.
-/

set_option linter.unusedSectionVars false
set_option linter.unusedSimpArgs false
set_option linter.unusedVariables false

namespace Gaspra

variable {α : Type _} [DecidableEq α]

/-- C77: the slices in the tree of `find_changeset` cut each input into consecutive parts; every
leaf stores the text of its slices, and the two slices of a common part select the same nonempty
text. -/
theorem C77_tiles (original modified : List α) :
    ∃ cs, findChangeset original modified = some cs ∧
      Tiles 0 none (cs.slices.map (·.1)) ∧ Tiles 0 none (cs.slices.map (·.2)) ∧
      (∀ s ∈ cs.slices, s.1.Inside original.length ∧ s.2.Inside modified.length) ∧
      (∀ l ∈ cs.leaves, l.1.1 = l.2.1.get original ∧ l.1.2 = l.2.2.get modified) ∧
      (∀ c ∈ cs.commons, c.1.get original = c.2.get modified ∧ c.1.get original ≠ []) := by
  obtain ⟨cs, h, S⟩ := findChangeset_stored original modified
  exact ⟨cs, h, S.tiles_o, S.tiles_m, S.inside, S.leaves, S.commons⟩

/-- C77: the same when `find_changeset` is called with slices of its own: the tree tiles just these
slices.  The fuel is the depth of the recursion. -/
theorem C77_tiles_part (original modified : List α) (os ms : Slice)
    (ho : os.Inside original.length) (hm : ms.Inside modified.length) (fuel : Nat)
    (hf : (os.get original).length < fuel) :
    ∃ cs, findChangesetAux original modified fuel os ms = some cs ∧
      Tiles os.start os.stop (cs.slices.map (·.1)) ∧ Tiles ms.start ms.stop (cs.slices.map (·.2)) ∧
      (∀ s ∈ cs.slices, s.1.Inside original.length ∧ s.2.Inside modified.length) ∧
      (∀ l ∈ cs.leaves, l.1.1 = l.2.1.get original ∧ l.1.2 = l.2.2.get modified) ∧
      (∀ c ∈ cs.commons, c.1.get original = c.2.get modified ∧ c.1.get original ≠ []) := by
  have sel : ∀ (t : List α) (s : Slice), s.Inside t.length → Selects t s s.start (s.get t) := by
    intro t s hs
    obtain ⟨st, sp⟩ := s
    obtain ⟨h1, h2⟩ := hs
    simp only at h1
    cases sp with
    | none =>
      refine ⟨rfl, ⟨t.take st, [], by simp [Slice.get], by simp; omega⟩, by simp, ?_⟩
      intro _
      simp [Slice.get]; omega
    | some e =>
      obtain ⟨h3, h4⟩ := h2 e rfl
      simp only at h3
      refine ⟨rfl, ⟨t.take st, t.drop e, ?_, by simp; omega⟩, ?_, by simp⟩
      · simp only [Slice.get]
        have : (t.take e).take st = t.take st := by rw [List.take_take, Nat.min_eq_left h3]
        rw [← this, List.take_append_drop, List.take_append_drop]
      · intro e' he'
        cases he'
        simp [Slice.get]; omega
  obtain ⟨cs, h, S⟩ := findChangesetAux_stored original modified fuel os ms _ _ _ _ (sel _ _ ho) (sel _ _ hm) hf
  exact ⟨cs, h, S.tiles_o, S.tiles_m, S.inside, S.leaves, S.commons⟩

example : (findChangeset "xab".toList "aby".toList).map Changeset.leaves =
    some [(("x".toList, []), (⟨0, some 1⟩, ⟨0, some 0⟩)), (([], "y".toList), (⟨3, none⟩, ⟨2, none⟩))] := by
  decide +kernel

example : (findChangeset "xab".toList "aby".toList).map Changeset.slices =
    some [(⟨0, some 1⟩, ⟨0, some 0⟩), (⟨1, some 3⟩, ⟨0, some 2⟩), (⟨3, none⟩, ⟨2, none⟩)] := by
  decide +kernel

example : (findChangesetAux "xxabxx".toList "yyabyy".toList 9 ⟨1, some 5⟩ ⟨2, some 5⟩).map Changeset.slices =
    some [(⟨1, some 2⟩, ⟨2, some 2⟩), (⟨2, some 4⟩, ⟨2, some 4⟩), (⟨4, some 5⟩, ⟨4, some 5⟩)] := by
  decide +kernel

end Gaspra
