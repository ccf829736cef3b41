import Verif.Proofs.DiffQuality
import Verif.Props.Changesets

/-!
# C83: how much a diff keeps
-/

namespace Gaspra

/-- C83.  The text kept by a diff is a subsequence of both texts, and no common substring is longer. -/
theorem C83_kept {α : Type _} [DecidableEq α] (original modified : List α) :
    ∃ d, diffTokenSequences original modified = some d ∧
      (commonText d).Sublist original ∧ (commonText d).Sublist modified ∧
      ∀ z, CommonSubstring original modified z → z.length ≤ (commonText d).length := by
  obtain ⟨d, h, h1, h2⟩ := C09_diff_reconstructs original modified
  refine ⟨d, h, h2 ▸ commonText_sublist_from d, h1 ▸ commonText_sublist_into d, fun z hz => ?_⟩
  by_cases hz0 : z = []
  · simp [hz0]
  · obtain ⟨d', p, h', _, _, h3, h4⟩ := C14_lcs_survives original modified z hz0 hz
    rw [h] at h'; cases h'
    exact Nat.le_trans (h3 z hz) h4

/-- C83.  If the modified text is contained in the original one, the diff deletes what is before its
first occurrence and what is after it. -/
theorem C83_contained {α : Type _} [DecidableEq α] (p m q : List α) (hm : m ≠ [])
    (hfirst : ∀ i, OccursAt (p ++ m ++ q) m i → p.length ≤ i) :
    diffTokenSequences (p ++ m ++ q) m = some ((if p = [] then [] else [.change [] p]) ++
      .common m :: (if q = [] then [] else [.change [] q])) :=
  (C62_diff_exact _ _ _).2 (isDiff_contained hm hfirst)

/-- C83.  If the original text is contained in the modified one, the diff inserts what is before its
first occurrence and what is after it. -/
theorem C83_contains {α : Type _} [DecidableEq α] (p o q : List α) (ho : o ≠ [])
    (hfirst : ∀ i, OccursAt (p ++ o ++ q) o i → p.length ≤ i) :
    diffTokenSequences o (p ++ o ++ q) = some ((if p = [] then [] else [.change p []]) ++
      .common o :: (if q = [] then [] else [.change q []])) :=
  (C62_diff_exact _ _ _).2 (isDiff_contains ho hfirst)

/-- C83.  There is no bound on what the diff loses: for every `k` there are texts with a common
subsequence of length `k + 2` whose diff keeps two tokens.  The diff in the other direction keeps
`k + 2` tokens, so the amount also depends on the direction. -/
theorem C83_not_minimal (k : Nat) : ∃ (a b : List Nat) (d e : List (DiffItem Nat)),
    diffTokenSequences a b = some d ∧ (commonText d).length = 2 ∧
    diffTokenSequences b a = some e ∧ (commonText e).length = k + 2 ∧
    ∃ c : List Nat, c.Sublist a ∧ c.Sublist b ∧ c.length = k + 2 := by
  obtain ⟨e, he, hl⟩ := fam_diff_back k
  have he' := (C62_diff_exact _ _ _).2 he
  obtain ⟨e', h', h1, h2, _⟩ := C83_kept (famB k) (famA k)
  rw [he'] at h'; cases h'
  exact ⟨famA k, famB k, _, e, (C62_diff_exact _ _ _).2 (fam_diff k), by simp [commonText], he', hl,
    commonText e, h2, h1, hl⟩

example : diffTokenSequences "xxabyab".toList "ab".toList =
    some [.change [] "xx".toList, .common "ab".toList, .change [] "yab".toList] := by decide +kernel
-- "ab" at the start of one text and "cd" at the end are equally long.
example : diffTokenSequences "ab1x2y3z4cd".toList "cdab5x6y7z8".toList =
    some [.change [] "ab1x2y3z4".toList, .common "cd".toList, .change "ab5x6y7z8".toList []] := by
  decide +kernel
example : (diffTokenSequences "cdab5x6y7z8".toList "ab1x2y3z4cd".toList).map commonText =
    some "abxyz".toList := by decide +kernel

end Gaspra
