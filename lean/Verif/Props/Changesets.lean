import Verif.Proofs.Changesets
import Verif.Proofs.Patch

/-!
# C09 – C14, C50: diffs and patches
-/

namespace Gaspra

variable {α : Type _} [DecidableEq α]

/-- C09.  `diff_token_sequences(original, modified)` terminates, and its items spell both inputs. -/
theorem C09_diff_reconstructs (original modified : List α) :
    ∃ d, diffTokenSequences original modified = some d ∧
      intoText d = modified ∧ fromText d = original := by
  obtain ⟨cs, h, V⟩ := findChangeset_spec original modified
  refine ⟨cs.asDiffStream original, by simp only [diffTokenSequences, h], ?_⟩
  exact V.into (OccursAt.whole _)

example : diffTokenSequences "abcdef".toList "xbcdyf".toList =
    some [.change ['x'] ['a'], .common ['b', 'c', 'd'], .change ['y'] ['e'], .common ['f']] := by
  decide +kernel

/-- C10.  The change stream applies forward and in reverse. -/
theorem C10_apply_both_ways (original modified : List α) :
    ∃ cs, findChangeset original modified = some cs ∧
      applyForward cs.asChangeStream original = modified ∧
      applyReverse cs.asChangeStream modified = original := by
  obtain ⟨cs, h, V⟩ := findChangeset_spec original modified
  exact ⟨cs, h, V.applyF (OccursAt.whole _), V.applyR (OccursAt.whole _)⟩

example : ((findChangeset "abcdef".toList "xbcdyf".toList).map
    fun cs => (stripForward cs.asChangeStream, stripReverse cs.asChangeStream)) =
    some ([.piece ['x'], .slice ⟨1, some 4⟩, .piece ['y'], .slice ⟨5, some 6⟩],
      [.piece ['a'], .slice ⟨1, some 4⟩, .piece ['e'], .slice ⟨5, some 6⟩]) := by
  decide +kernel

/-- C11.  The tree-walking patch functions agree. -/
theorem C11_old_apply (a b : List α) :
    ∃ cs, findChangeset a b = some cs ∧ oldApplyForward cs a = b ∧ oldApplyReverse cs b = a := by
  obtain ⟨cs, h, V⟩ := findChangeset_spec a b
  exact ⟨cs, h, V.oldF (OccursAt.whole _), V.oldR (OccursAt.whole _)⟩

example : (findChangeset "abab".toList "baba".toList).map (oldApplyForward · "abab".toList) =
    some "baba".toList := by decide +kernel

/-- C12.  Diff normal form. -/
theorem C12_diff_normal_form (original modified : List α) :
    ∃ d, diffTokenSequences original modified = some d ∧
      (∀ x ∈ d, x.Normal) ∧ Alternating d := by
  obtain ⟨cs, h, V⟩ := findChangeset_spec original modified
  exact ⟨_, by simp only [diffTokenSequences, h], V.normal (OccursAt.whole _),
    V.alternating (OccursAt.whole _)⟩

example : ¬ Alternating [DiffItem.common ['a'], .common ['b']] := by simp [Alternating, DiffItem.isChange]
example : ¬ (DiffItem.change ['a'] ['a']).Normal := by simp [DiffItem.Normal]

/-- C13.  Equal inputs give the single common piece, or nothing when empty. -/
theorem C13_diff_self (x : List α) :
    diffTokenSequences x x = some (if x = [] then [] else [.common x]) := by
  obtain ⟨cs, h, V⟩ := findChangeset_spec x x
  simp only [diffTokenSequences, h, V.diff_self (OccursAt.whole _) rfl]

/-- C13, converse: a diff without a `Change` means the inputs are equal. -/
theorem C13_no_change_eq (original modified : List α) (d : List (DiffItem α))
    (h : diffTokenSequences original modified = some d) (hn : ∀ x ∈ d, x.isChange = false) :
    original = modified := by
  obtain ⟨d', h', h1, h2⟩ := C09_diff_reconstructs original modified
  rw [h] at h'; cases h'
  rw [← h1, ← h2]
  clear h h1 h2
  induction d with
  | nil => rfl
  | cons a d ih =>
    have := hn a (by simp)
    cases a with
    | change => simp [DiffItem.isChange] at this
    | common p =>
      have := ih (fun x hx => hn x (by simp [hx]))
      simp only [fromText, intoText, List.flatMap_cons] at this ⊢
      rw [this]

example : diffTokenSequences "abab".toList "abab".toList = some [.common "abab".toList] := by
  decide +kernel

/-- C14.  When the inputs share a nonempty substring, some common piece of the diff is a longest
common substring; so the common text is at least that long. -/
theorem C14_lcs_survives (original modified z : List α) (hz : z ≠ [])
    (hc : CommonSubstring original modified z) :
    ∃ d p, diffTokenSequences original modified = some d ∧ .common p ∈ d ∧
      CommonSubstring original modified p ∧
      (∀ z', CommonSubstring original modified z' → z'.length ≤ p.length) ∧
      p.length ≤ (commonText d).length := by
  obtain ⟨cs, h, V⟩ := findChangeset_spec original modified
  obtain ⟨p, h1, h2, h3⟩ := V.lcs_piece (OccursAt.whole _) z hz hc
  refine ⟨_, p, by simp only [diffTokenSequences, h], h1, h2, h3, ?_⟩
  obtain ⟨l, r, hlr⟩ := List.append_of_mem h1
  rw [hlr]
  simp [commonText, List.flatMap_append, List.flatMap_cons]
  omega

example : CommonSubstring "xaby".toList "zabw".toList "ab".toList :=
  ⟨⟨1, "x".toList, "y".toList, by decide, by decide⟩, ⟨1, "z".toList, "w".toList, by decide, by decide⟩⟩

/-- C50.  `common_prefix_length(a, b)` is the largest `n ≤ min(len(a), len(b))` with
`a[:n] == b[:n]`. -/
theorem C50_common_prefix_length (a b : List α) :
    (commonPrefixLength a b ≤ a.length ∧ commonPrefixLength a b ≤ b.length ∧
      a.take (commonPrefixLength a b) = b.take (commonPrefixLength a b)) ∧
    ∀ n, n ≤ a.length → n ≤ b.length → a.take n = b.take n → n ≤ commonPrefixLength a b := by
  unfold commonPrefixLength
  rcases commonPrefixLoop_spec a b 0 with ⟨p, x, y, a', b', h, rfl, rfl, hxy⟩ | ⟨h, hp⟩
  · rw [h]
    simp only [Nat.zero_add]
    refine ⟨⟨by simp, by simp, by simp⟩, fun n _ _ h2 => ?_⟩
    by_cases hn : n ≤ p.length
    · exact hn
    · exfalso
      have e := congrArg (·[p.length]?) h2
      have hlt : p.length < n := by omega
      simp [hlt] at e
      exact hxy e
  · rw [h]
    refine ⟨⟨Nat.min_le_left _ _, Nat.min_le_right _ _, ?_⟩, fun n h1 h2 _ => by
      simp only; omega⟩
    rcases hp with ⟨q, rfl⟩ | ⟨q, rfl⟩ <;> simp

example : commonPrefixLength "abcd".toList "abxd".toList = 2 := by decide +kernel

/-- C55.  The stripped patches contain no useless item: literal pieces are nonempty parts of the
target, slices are nonempty, lie within the source, increase and do not overlap. -/
theorem C55_patch_normal_form (original modified : List α) :
    ∃ cs, findChangeset original modified = some cs ∧
      (∀ c ∈ stripForward cs.asChangeStream, c.WellFormed original modified) ∧
      SlicesWithin 0 original.length (stripForward cs.asChangeStream) ∧
      (∀ c ∈ stripReverse cs.asChangeStream, c.WellFormed modified original) ∧
      SlicesWithin 0 modified.length (stripReverse cs.asChangeStream) := by
  obtain ⟨cs, h, V⟩ := findChangeset_spec original modified
  have f := V.patchForward (OccursAt.whole original) (OccursAt.whole modified)
  have r := V.patchReverse (OccursAt.whole original) (OccursAt.whole modified)
  simp only [Nat.zero_add] at f r
  exact ⟨cs, h, f.1, f.2, r.1, r.2⟩

example : ((findChangeset "abcabc".toList "bcxbc".toList).map
    fun cs => stripForward cs.asChangeStream) =
    some [.slice ⟨1, some 3⟩, .piece ['x'], .slice ⟨4, some 6⟩] := by decide +kernel

end Gaspra
