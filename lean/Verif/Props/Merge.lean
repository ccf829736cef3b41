import Verif.Proofs.Merge

/-!
# C15 – C22: three-way merge
-/

namespace Gaspra

variable {α : Type _} [DecidableEq α]

/-- The edits used in the statements below describe the branch: applying them to the parent gives
exactly the branch. -/
theorem editsOf_describe_branch {parent branch : List α} {d : List (DiffItem α)}
    (h : diffTokenSequences parent branch = some d) : applyEdits parent (editsOf 0 d) = branch :=
  editsOf_apply h

example : (diffTokenSequences "abcd".toList "axcdy".toList).map (editsOf 0) =
    some [⟨1, 2, ['x']⟩, ⟨4, 4, ['y']⟩] := by decide +kernel

/-- C15.  Merging with an unchanged branch gives the other branch, on either side. -/
theorem C15_merge_unchanged (kind : Kind) (parent x : List α) :
    mergeTokenSequence kind parent x parent = .ok [.common x] ∧
      mergeTokenSequence kind parent parent x = .ok [.common x] := by
  obtain ⟨cs0, hc0, hd0, _⟩ := merge_setup parent x
  obtain ⟨cs1, hc1, V⟩ := findChangeset_spec parent parent
  have hself := V.diff_self (OccursAt.whole parent) rfl
  have hd1 : diffTokenSequences parent parent = some (cs1.asDiffStream parent) := by
    simp only [diffTokenSequences, hc1]
  have he : editsOf 0 (cs1.asDiffStream parent) = [] := by
    rw [hself]; split <;> simp [editsOf]
  constructor
  · rw [merge_compatible hd0 hd1 (by rw [he]; simp), he, mergedText_nil_right, editsOf_apply hd0]
  · rw [merge_compatible hd1 hd0 (by rw [he]; simp), he, mergedText_nil_left, editsOf_apply hd0]

example : mergeTokenSequence .bytes "abc".toList "xbcy".toList "abc".toList =
    .ok [.common "xbcy".toList] := by decide +kernel

/-- C16.  Merging identical branches gives that branch. -/
theorem C16_merge_identical (kind : Kind) (parent x : List α) :
    mergeTokenSequence kind parent x x = .ok [.common x] := by
  obtain ⟨cs, hc, hd, _⟩ := merge_setup parent x
  rw [merge_compatible hd hd (diff_self_compatible hd), mergedText_self, editsOf_apply hd]

example : mergeTokenSequence .str "abc".toList "xbcy".toList "xbcy".toList =
    .ok [.common "xbcy".toList] := by decide +kernel

/-- C17.  Normal form of every merge result: never an empty list; unless it is the single empty
piece, pieces are nonempty and not adjacent, and conflicts are not empty on both sides and have no
token in common. -/
theorem C17_merge_normal_form {kind : Kind} {parent b0 b1 : List α} {out : List (DiffItem α)}
    (h : mergeTokenSequence kind parent b0 b1 = .ok out) :
    out = [.common []] ∨ (out ≠ [] ∧ MergeNormal out) := by
  obtain ⟨d0, d1, out', h0, h1, hm, hn, _⟩ := merge_general parent b0 b1
  rw [merge_kind h] at hm
  cases hm
  rcases hn with ⟨h1, h2⟩ | h
  · right; exact ⟨h2, h1⟩
  · left; exact h

example : mergeTokenSequence .str "abcd".toList "xbcy".toList "zbcw".toList =
    .ok [.change ['x'] ['z'], .common ['b', 'c'], .change ['y'] ['w']] := by decide +kernel
example : mergeTokenSequence .str "a".toList [] [] = .ok [.common []] := by decide +kernel
example : ¬ MergeNormal [.common ['a'], DiffItem.common ['b']] := by
  simp [MergeNormal, DiffItem.isChange]

/-- C18.  Compatible edits merge cleanly: the result is the parent with both sets of edits
applied. -/
theorem C18_clean_merge {kind : Kind} {parent b0 b1 : List α} {d0 d1 : List (DiffItem α)}
    (h0 : diffTokenSequences parent b0 = some d0) (h1 : diffTokenSequences parent b1 = some d1)
    (hc : ∀ e0 ∈ editsOf 0 d0, ∀ e1 ∈ editsOf 0 d1, e0.Compatible e1) :
    mergeTokenSequence kind parent b0 b1 =
      .ok [.common (mergedText parent (editsOf 0 d0) (editsOf 0 d1))] :=
  merge_compatible h0 h1 hc

/-- Deciding compatibility, for the examples. -/
instance (e0 e1 : Edit α) : Decidable (e0.Compatible e1) := by
  unfold Edit.Compatible Edit.Disjoint Edit.PureInsertion Edit.PureDeletion; infer_instance

example : ∃ d0 d1, diffTokenSequences "abcdef".toList "xbcdef".toList = some d0 ∧
    diffTokenSequences "abcdef".toList "abcf".toList = some d1 ∧
    editsOf 0 d0 = [⟨0, 1, ['x']⟩] ∧ editsOf 0 d1 = [⟨3, 5, []⟩] ∧
    (∀ e0 ∈ editsOf 0 d0, ∀ e1 ∈ editsOf 0 d1, e0.Compatible e1) ∧
    mergedText "abcdef".toList (editsOf 0 d0) (editsOf 0 d1) = "xbcf".toList :=
  ⟨[.change ['x'] ['a'], .common "bcdef".toList],
    [.common "abc".toList, .change [] "de".toList, .common "f".toList], by decide +kernel⟩

/-- C19.  A merge neither invents nor loses tokens. -/
theorem C19_tokens {kind : Kind} {parent b0 b1 : List α} {out : List (DiffItem α)}
    {d0 d1 : List (DiffItem α)} (h : mergeTokenSequence kind parent b0 b1 = .ok out)
    (h0 : diffTokenSequences parent b0 = some d0) (h1 : diffTokenSequences parent b1 = some d1) :
    (∀ t, (∃ x ∈ out, t ∈ x.tokens) → t ∈ b0 ∨ t ∈ b1) ∧
    (∀ e ∈ editsOf 0 d0, ∀ t ∈ e.insert, ∃ x ∈ out, t ∈ x.tokens) ∧
    (∀ e ∈ editsOf 0 d1, ∀ t ∈ e.insert, ∃ x ∈ out, t ∈ x.tokens) ∧
    (∀ g (hg : g < parent.length), deletes (editsOf 0 d0) g = false →
        deletes (editsOf 0 d1) g = false → ∃ x ∈ out, parent[g] ∈ x.tokens) := by
  obtain ⟨d0', d1', out', h0', h1', hm, hn, g1, g2, g3, _⟩ := merge_general parent b0 b1
  rw [merge_kind h] at hm
  rw [h0] at h0'
  rw [h1] at h1'
  cases hm; cases h0'; cases h1'
  exact ⟨g1, fun e he t ht => g2 t ⟨e, List.mem_append_left _ he, ht⟩,
    fun e he t ht => g2 t ⟨e, List.mem_append_right _ he, ht⟩, g3⟩

example : mergeTokenSequence .str "abc".toList "axc".toList "aybc".toList =
    .ok [.common ['a'], .change ['x'] ['y', 'b'], .common ['c']] := by decide +kernel

/-- C20.  Merging is not symmetric in the branches: a merge without conflict can become one with a
conflict when the branches are exchanged. -/
theorem C20_not_symmetric :
    mergeTokenSequence .str "ab".toList "aa".toList [] = .ok [.common ['a']] ∧
    mergeTokenSequence .str "ab".toList [] "aa".toList = .ok [.change [] ['a', 'a']] := by
  decide +kernel

/-- C20.  Compatible edits merge symmetrically. -/
theorem C20_symmetric_of_compatible {kind : Kind} {parent b0 b1 : List α} {d0 d1 : List (DiffItem α)}
    (h0 : diffTokenSequences parent b0 = some d0) (h1 : diffTokenSequences parent b1 = some d1)
    (hc : ∀ e0 ∈ editsOf 0 d0, ∀ e1 ∈ editsOf 0 d1, e0.Compatible e1) :
    mergeTokenSequence kind parent b1 b0 = mergeTokenSequence kind parent b0 b1 := by
  rw [merge_compatible h0 h1 hc, mergedText_comm h0 h1 hc,
    merge_compatible h1 h0 (fun e1 h e0 h' => Compatible.symm (hc e0 h' e1 h))]

/-- C21.  A conflict side need not be text of its branch: here the first side `xy` occurs in
neither branch and the second side `a` is text of branch 0 only. -/
theorem C21_sides_mixed_up :
    mergeTokenSequence .str "ab".toList "ay".toList "x".toList = .ok [.change ['x', 'y'] ['a']] ∧
    ¬ Substring "ay".toList ['x', 'y'] ∧ ¬ Substring "x".toList ['x', 'y'] ∧
    ¬ Substring "x".toList ['a'] := by
  refine ⟨by decide +kernel, ?_, ?_, ?_⟩ <;> rw [substring_iff_infix] <;> decide

/-- C21.  When overlapping edits of the two branches start at the same parent position, the two
sides of every conflict are contiguous pieces of branch 0 and branch 1. -/
theorem C21_sides_of_aligned {kind : Kind} {parent b0 b1 : List α} {out : List (DiffItem α)}
    {d0 d1 : List (DiffItem α)} (h : mergeTokenSequence kind parent b0 b1 = .ok out)
    (h0 : diffTokenSequences parent b0 = some d0) (h1 : diffTokenSequences parent b1 = some d1)
    (hal : ∀ e0 ∈ editsOf 0 d0, ∀ e1 ∈ editsOf 0 d1, e0.Aligned e1) :
    ∀ x y, .change x y ∈ out → Substring b0 x ∧ Substring b1 y := by
  obtain ⟨d0', d1', out', h0', h1', hm, hn, g1, g2, g3, g4⟩ := merge_general parent b0 b1
  rw [merge_kind h] at hm
  rw [h0] at h0'
  rw [h1] at h1'
  cases hm; cases h0'; cases h1'
  intro x y hxy
  rw [substring_iff_infix, substring_iff_infix]
  exact g4 hal x y hxy

/-- Deciding alignment, for the examples. -/
instance (e0 e1 : Edit α) : Decidable (e0.Aligned e1) := by
  unfold Edit.Aligned Edit.Disjoint; infer_instance

example : ∃ d0 d1, diffTokenSequences "abcd".toList "xcd".toList = some d0 ∧
    diffTokenSequences "abcd".toList "ybcd".toList = some d1 ∧
    editsOf 0 d0 = [⟨0, 2, ['x']⟩] ∧ editsOf 0 d1 = [⟨0, 1, ['y']⟩] ∧
    (∀ e0 ∈ editsOf 0 d0, ∀ e1 ∈ editsOf 0 d1, e0.Aligned e1) ∧
    mergeTokenSequence .str "abcd".toList "xcd".toList "ybcd".toList =
      .ok [.change ['x'] ['y', 'b'], .common ['c', 'd']] :=
  ⟨[.change ['x'] ['a', 'b'], .common ['c', 'd']],
    [.change ['y'] ['a'], .common ['b', 'c', 'd']], by decide +kernel⟩

/-- C22.  For `str` and tuples a merge always terminates without an exception; for `bytes` it
either gives the same items or raises `TypeError`. -/
theorem C22_no_exception (parent b0 b1 : List α) :
    ∃ out, mergeTokenSequence .str parent b0 b1 = .ok out ∧
      mergeTokenSequence .tuple parent b0 b1 = .ok out ∧
      (mergeTokenSequence .bytes parent b0 b1 = .ok out ∨
        mergeTokenSequence .bytes parent b0 b1 = .error .typeError) := by
  obtain ⟨d0, d1, out, _, _, hm, _⟩ := merge_general parent b0 b1
  refine ⟨out, by rw [merge_str, hm], hm, ?_⟩
  rcases merge_bytes parent b0 b1 with h | h
  · right; exact h
  · left; rw [h, hm]

/-- C22.  The `TypeError` does occur. -/
theorem C22_bytes_type_error :
    mergeTokenSequence .bytes "ab".toList "x".toList "ybz".toList = .error .typeError ∧
    mergeTokenSequence .tuple "ab".toList "x".toList "ybz".toList =
      .ok [.change ['x'] ['y', 'b', 'z']] := by
  decide +kernel

end Gaspra
