import Verif.Model.ChangesetParts
import Verif.Props.DiffExact

set_option linter.unusedSectionVars false

/-!
# C102: changesets of parts of two texts
-/

namespace Gaspra

variable {α : Type _} [DecidableEq α]

theorem Slice.get_from (sl : Slice) (l : List α) (k : Nat) :
    Slice.get ⟨sl.start + k, sl.stop⟩ l = (sl.get l).drop k := by
  obtain ⟨st, sp⟩ := sl
  cases sp <;> simp [Slice.get, List.drop_drop]

theorem Slice.get_upto (sl : Slice) (l : List α) {k : Nat} (hk : k ≤ (sl.get l).length) :
    Slice.get ⟨sl.start, some (sl.start + k)⟩ l = (sl.get l).take k := by
  obtain ⟨st, sp⟩ := sl
  cases sp with
  | none => simp [Slice.get, List.drop_take]
  | some e =>
    simp only [Slice.get, List.drop_take, List.length_take, List.length_drop] at hk ⊢
    rw [List.take_take, Nat.min_eq_left (by omega)]
    congr 1; omega

theorem Slice.get_length_le (sl : Slice) (l : List α) : (sl.get l).length ≤ l.length := by
  obtain ⟨st, sp⟩ := sl
  cases sp <;> simp only [Slice.get, List.length_drop, List.length_take] <;> omega

theorem Slice.get_occurs (sl : Slice) (l : List α) (h : sl.get l ≠ []) :
    OccursAt l (sl.get l) sl.start := by
  obtain ⟨st, sp⟩ := sl
  cases sp with
  | none =>
    simp only [Slice.get, ne_eq, List.drop_eq_nil_iff, Nat.not_le] at h ⊢
    exact ⟨l.take st, [], by simp, by simp; omega⟩
  | some e =>
    have hl : st < l.length := by
      apply Nat.lt_of_not_le; intro hle
      apply h
      simp only [Slice.get, List.drop_eq_nil_iff, List.length_take]; omega
    simp only [Slice.get, List.drop_take] at h ⊢
    exact ⟨l.take st, (l.drop st).drop (e - st), by rw [List.append_assoc, List.take_append_drop, List.take_append_drop],
      by simp; omega⟩

theorem findChangesetAux_part (o m : List α) : ∀ (fuel : Nat) (os ms : Slice),
    (os.get o).length < fuel → ∃ cs, findChangesetAux o m fuel os ms = some cs ∧
      Valid os.start (os.get o) ms.start (ms.get m) cs := by
  intro fuel
  induction fuel with
  | zero => intro os ms hf; omega
  | succ f ih =>
    intro os ms hf
    obtain ⟨a, b, n, w, hl, hwn, hoa, hob, hmax, hfo, hfm⟩ := findLcs_spec (os.get o) (ms.get m)
    simp only [findChangesetAux, hl]
    by_cases hn : n = 0
    · refine ⟨_, by rw [if_pos hn], Valid.leaf ?_⟩
      intro t ht ht'
      have := hmax [t] (common_single ht ht')
      simp [hn] at this
    · rw [if_neg hn]
      obtain ⟨x1, x2, hx, hx1⟩ := hoa
      obtain ⟨y1, y2, hy, hy1⟩ := hob
      have hxlen : (os.get o).length = x1.length + w.length + x2.length := by rw [hx]; simp; omega
      have hylen : (ms.get m).length = y1.length + w.length + y2.length := by rw [hy]; simp; omega
      obtain ⟨p, hp1, hp2⟩ := ih ⟨os.start, some (os.start + a)⟩ ⟨ms.start, some (ms.start + b)⟩
        (by rw [Slice.get_upto _ _ (by omega), List.length_take]; omega)
      obtain ⟨s, hs1, hs2⟩ := ih ⟨os.start + (a + n), os.stop⟩ ⟨ms.start + (b + n), ms.stop⟩
        (by rw [Slice.get_from, List.length_drop]; omega)
      rw [Slice.get_upto _ _ (by omega), Slice.get_upto _ _ (by omega)] at hp2
      rw [Slice.get_from, Slice.get_from] at hs2
      have ex1 : (os.get o).take a = x1 := by
        rw [hx, List.append_assoc, List.take_append_of_le_length (by omega), ← hx1, List.take_length]
      have ey1 : (ms.get m).take b = y1 := by
        rw [hy, List.append_assoc, List.take_append_of_le_length (by omega), ← hy1, List.take_length]
      have ex2 : (os.get o).drop (a + n) = x2 := by
        rw [hx, ← hx1, ← hwn, ← List.length_append, List.drop_left]
      have ey2 : (ms.get m).drop (b + n) = y2 := by
        rw [hy, ← hy1, ← hwn, ← List.length_append, List.drop_left]
      rw [ex1, ey1] at hp2
      rw [ex2, ey2] at hs2
      rw [← Nat.add_assoc, ← Nat.add_assoc] at hs1 hs2
      simp only [hp1, hs1]
      refine ⟨_, rfl, ?_⟩
      have hw : w ≠ [] := by rintro rfl; simp at hwn; omega
      rw [← hx1, ← hy1, ← hwn] at hs2
      rw [hx, hy] at hmax hfm
      rw [hx] at hfo
      have := Valid.node hw (by rw [hwn]; exact hmax) (by rw [hwn, hy1]; exact hfm)
        (by rw [hx1]; exact hfo) hp2 hs2
      rw [hx1, hwn, hy1] at this
      rw [hx, hy]
      exact this

theorem Valid.at_zero {i j : Nat} {x y : List α} {cs : Changeset α} (V : Valid i x j y cs)
    (h : x = [] ∨ y = []) (i' j' : Nat) : Valid i' x j' y cs := by
  cases V with
  | leaf h => exact Valid.leaf h
  | node hw => rcases h with h | h <;> simp [hw] at h

/-- C102.  The changeset of two parts refers to places in the whole texts: applied to the whole
original it gives the part of the modified text, and conversely, with the new and the old
functions; read along the whole original it is the diff of the parts. -/
theorem C102_parts (original modified : List α) (os ms : Slice) :
    ∃ cs, findChangesetIn original modified os ms = some cs ∧
      applyForward cs.asChangeStream original = ms.get modified ∧
      applyReverse cs.asChangeStream modified = os.get original ∧
      oldApplyForward cs original = ms.get modified ∧
      oldApplyReverse cs modified = os.get original ∧
      diffTokenSequences (os.get original) (ms.get modified) = some (cs.asDiffStream original) := by
  obtain ⟨cs, h, V⟩ := findChangesetAux_part original modified (original.length + 1) os ms
    (by have := os.get_length_le original; omega)
  refine ⟨cs, h, ?_⟩
  have key : ∃ i j, Valid i (os.get original) j (ms.get modified) cs ∧
      OccursAt original (os.get original) i ∧ OccursAt modified (ms.get modified) j := by
    by_cases hx : os.get original = [] ∨ ms.get modified = []
    · have occ : ∀ (sl : Slice) (l : List α), ∃ i, OccursAt l (sl.get l) i := by
        intro sl l
        by_cases he : sl.get l = []
        · exact ⟨0, [], l, by simp [he], rfl⟩
        · exact ⟨_, sl.get_occurs l he⟩
      obtain ⟨i, hi⟩ := occ os original
      obtain ⟨j, hj⟩ := occ ms modified
      exact ⟨i, j, V.at_zero hx i j, hi, hj⟩
    · exact ⟨_, _, V, os.get_occurs _ (fun h => hx (Or.inl h)), ms.get_occurs _ (fun h => hx (Or.inr h))⟩
  obtain ⟨i, j, V', hi, hj⟩ := key
  exact ⟨V'.applyF hi, V'.applyR hj, V'.oldF hi, V'.oldR hj, (C62_diff_exact _ _ _).2 (V'.isDiff hi)⟩

/-- C102.  `find_changeset` with the default slices is the changeset of the whole texts. -/
theorem C102_default (original modified : List α) :
    findChangesetIn original modified ⟨0, none⟩ ⟨0, none⟩ = findChangeset original modified := rfl

-- "cde" is common to the parts; the places are those in the whole texts.
example : (findChangesetIn "abcdefg".toList "xxcdeyy".toList ⟨1, some 6⟩ ⟨2, none⟩).map
    (fun cs => cs.asChangeStream) = some [.change [] "b".toList,
      .common ⟨2, some 5⟩ ⟨2, some 5⟩, .change "yy".toList "f".toList] := by decide +kernel
-- A slice behind the end, and one in the wrong order.
example : (findChangesetIn "abc".toList "abc".toList ⟨7, some 9⟩ ⟨0, some 99⟩).map
    (fun cs => cs.asChangeStream) = some [.change "abc".toList []] := by decide +kernel
example : (findChangesetIn "abc".toList "abc".toList ⟨2, some 1⟩ ⟨1, some 9⟩).map
    (fun cs => cs.asChangeStream) = some [.change "bc".toList []] := by decide +kernel

end Gaspra
