import Verif.Proofs.SAFindAll
import Verif.Props.Substring

/-!
# C82: listing all occurrences costs no more than the list is long
-/

namespace Gaspra

variable {α : Type _} [DecidableEq α]

/-- C82.  For a pattern that occurs in the text, the loop of `follow_reverse_links` (one pass per
node it returns) ends after fewer than twice as many passes as there are occurrences, visits no
node twice, and the list that is sorted is at least as long as the result and less than twice as
long.  The length of the text does not enter. -/
theorem C82_find_all_cost (text pattern : List α) (hs : Substring text pattern) :
    ∃ h v nodes ps, build text = some h ∧ matchNode h 0 pattern = some v ∧
      saFindSubstringAll h pattern = some ps ∧ (∀ i, i ∈ ps ↔ OccursAt text pattern i) ∧
      followReverse h (2 * ps.length - 1) [v] [] = some nodes ∧ nodes.Nodup ∧
      ps.length ≤ nodes.length ∧ nodes.length < 2 * ps.length := by
  obtain ⟨h, last, L, hb, B, _⟩ := build_spec text
  cases hm : matchNode h 0 pattern with
  | none =>
    exact absurd (sub_iff_substring.2 hs) ((matchNode_root B.hinv pattern).2 hm)
  | some v =>
    obtain ⟨nodes, ps, h1, h2, h3, h4, h5⟩ := findAll_cost B hm
    obtain ⟨ps', g1, _, g3⟩ := saFindSubstringAll_spec B pattern
    rw [h1] at g1; cases g1
    exact ⟨h, v, nodes, ps, hb, hm, h1, g3, followReverse_fuel h3 (by simp; omega), h2, h4,
      by omega⟩

/-- C82.  For a pattern that does not occur no node is visited beyond the walk along the
pattern. -/
theorem C82_not_found (text pattern : List α) (hs : ¬ Substring text pattern) :
    ∃ h, build text = some h ∧ matchNode h 0 pattern = none := by
  obtain ⟨h, last, L, hb, B, _⟩ := build_spec text
  refine ⟨h, hb, ?_⟩
  cases hm : matchNode h 0 pattern with
  | none => rfl
  | some v =>
    obtain ⟨hv, he⟩ := (matchNode_root B.hinv pattern).1 v hm
    exact absurd (sub_iff_substring.1 (he.sub_iff.2 (B.hinv.inv.sub hv))) hs

/-- The bound is reached: seven nodes for four occurrences; six passes are not enough. -/
example :
    (build "ccaddacdadca".toList).map (fun h =>
      ((matchNode h 0 "a".toList).bind fun v =>
        (followReverse h 7 [v] []).map fun nodes => (nodes.length, followReverse h 6 [v] []),
       saFindSubstringAll h "a".toList)) =
    some (some (7, none), some [2, 5, 8, 11]) := by decide +kernel

end Gaspra
