import Verif.Proofs.SASize

/-!
# C01 – C06: substring search, longest common substring, automaton size
-/

namespace Gaspra

variable {α : Type _} [DecidableEq α]

/-- C01.  `gaspra.find_substring(text, pattern)` terminates with the strictly increasing list of
exactly the positions at which `pattern` occurs in `text`. -/
theorem C01_find_substring_all (text pattern : List α) :
    ∃ ps, findSubstring text pattern = some ps ∧ ps.Pairwise (· < ·) ∧
      ∀ i, i ∈ ps ↔ OccursAt text pattern i := by
  obtain ⟨h, last, L, hb, B, _⟩ := build_spec text
  simp only [findSubstring, hb]
  exact saFindSubstringAll_spec B pattern

/-- C01, empty result: nothing is found exactly when the pattern is not a substring. -/
theorem C01_empty_iff (text pattern : List α) :
    findSubstring text pattern = some [] ↔ ¬ Substring text pattern := by
  obtain ⟨ps, h1, _, h3⟩ := C01_find_substring_all text pattern
  rw [h1]
  constructor
  · rintro h ⟨i, hi⟩
    cases h
    exact absurd ((h3 i).2 hi) (by simp)
  · intro h
    congr 1
    apply List.eq_nil_iff_forall_not_mem.2
    intro i hi
    exact h ⟨i, (h3 i).1 hi⟩

/-- C01, empty pattern: it occurs at every position `0 .. len(text)`. -/
theorem C01_empty_pattern (text : List α) :
    ∃ ps, findSubstring text [] = some ps ∧ ∀ i, i ∈ ps ↔ i ≤ text.length := by
  obtain ⟨ps, h1, _, h3⟩ := C01_find_substring_all text []
  refine ⟨ps, h1, fun i => ?_⟩
  rw [h3, occursAt_iff_occ]; simp [Occ]

example : findSubstring "bananas".toList "ana".toList = some [1, 3] := by decide +kernel
example : OccursAt "bananas".toList "ana".toList 3 := ⟨"ban".toList, "s".toList, by decide, by decide⟩
example : findSubstring "aaaa".toList "aa".toList = some [0, 1, 2] := by decide +kernel

/-- C02.  The query on the built automaton returns the first occurrence. -/
theorem C02_first_occurrence (text pattern : List α) :
    ∃ h, build text = some h ∧
      (∀ i, saFindSubstring h pattern = some i ↔
        (OccursAt text pattern i ∧ ∀ j, OccursAt text pattern j → i ≤ j)) ∧
      (saFindSubstring h pattern = none ↔ ¬ Substring text pattern) := by
  obtain ⟨h, last, L, hb, B, _⟩ := build_spec text
  obtain ⟨h1, h2⟩ := saFindSubstring_spec B pattern
  refine ⟨h, hb, fun i => ⟨h1 i, ?_⟩, h2, ?_⟩
  · rintro ⟨ho, hmin⟩
    cases hr : saFindSubstring h pattern with
    | none => exact absurd ⟨i, ho⟩ (h2 hr)
    | some k =>
      obtain ⟨hk1, hk2⟩ := h1 k hr
      have := hk2 i ho; have := hmin k hk1
      congr 1; omega
  · intro hn
    cases hr : saFindSubstring h pattern with
    | none => rfl
    | some k => exact absurd ⟨k, (h1 k hr).1⟩ hn

example : (build "abcbc".toList).bind (saFindSubstring · "bc".toList) = some 1 := by decide +kernel

/-- C03 and C04 in one statement: the result of `find_lcs` names a common substring `w` of maximal
length, `i` is the first position of `w` in `a`, and `j` is the first position in `b` of any common
substring of that length. -/
theorem C03_C04_find_lcs (a b : List α) :
    ∃ i j n w, findLcs a b = some (i, j, n) ∧ w.length = n ∧
      OccursAt a w i ∧ OccursAt b w j ∧
      (∀ x, CommonSubstring a b x → x.length ≤ n) ∧
      (∀ i', OccursAt a w i' → i ≤ i') ∧
      (∀ x j', CommonSubstring a b x → x.length = n → OccursAt b x j' → j ≤ j') := by
  obtain ⟨h, last, L, hb, B, _⟩ := build_spec a
  obtain ⟨i, j, n, w, h1, h2, h3, h4, h5, h6, h7⟩ := saFindLcs_spec B b
  refine ⟨i, j, n, w, ?_, h2, h3, h4, h5, h6, fun x j' hx => h7 x j' hx.1⟩
  simp only [findLcs, hb, h1]

/-- C03.  In terms of slices: the two slices are equal and no common substring is longer. -/
theorem C03_find_lcs_longest (a b : List α) :
    ∃ i j n, findLcs a b = some (i, j, n) ∧
      (a.drop i).take n = (b.drop j).take n ∧ ((a.drop i).take n).length = n ∧
      (∀ x, CommonSubstring a b x → x.length ≤ n) := by
  obtain ⟨i, j, n, w, h1, h2, h3, h4, h5, _⟩ := C03_C04_find_lcs a b
  have slice : ∀ (s : List α) (k : Nat), OccursAt s w k → (s.drop k).take n = w := by
    rintro s k ⟨pre, post, rfl, rfl⟩
    rw [List.append_assoc, List.drop_left, ← h2, List.take_left]
  exact ⟨i, j, n, h1, by rw [slice a i h3, slice b j h4], by rw [slice a i h3, h2], h5⟩

/-- C04.  First positions, and `(0, 0, 0)` when nothing is shared. -/
theorem C04_find_lcs_first (a b : List α) :
    ∃ i j n, findLcs a b = some (i, j, n) ∧
      (∀ i', OccursAt a ((a.drop i).take n) i' → i ≤ i') ∧
      (∀ x j', CommonSubstring a b x → x.length = n → OccursAt b x j' → j ≤ j') ∧
      (n = 0 ↔ ∀ t, t ∈ a → t ∉ b) ∧ (n = 0 → i = 0 ∧ j = 0) := by
  obtain ⟨i, j, n, w, h1, h2, h3, h4, h5, h6, h7⟩ := C03_C04_find_lcs a b
  have hsl : (a.drop i).take n = w := by
    obtain ⟨pre, post, rfl, rfl⟩ := h3
    rw [List.append_assoc, List.drop_left, ← h2, List.take_left]
  have single : ∀ (s : List α) t, t ∈ s → Substring s [t] := by
    intro s t ht
    obtain ⟨p, q, rfl⟩ := List.append_of_mem ht
    exact ⟨p.length, p, q, by simp, rfl⟩
  refine ⟨i, j, n, h1, by rw [hsl]; exact h6, h7, ⟨?_, ?_⟩, ?_⟩
  · intro hn t ha hb
    have := h5 [t] ⟨single a t ha, single b t hb⟩
    simp [hn] at this
  · intro hno
    cases w with
    | nil => exact h2.symm
    | cons t w =>
      exfalso
      obtain ⟨p, q, e1, _⟩ := h3
      obtain ⟨p', q', e2, _⟩ := h4
      exact hno t (by rw [e1]; simp) (by rw [e2]; simp)
  · intro hn
    have hw : w = [] := List.eq_nil_of_length_eq_zero (by omega)
    subst hw
    have e1 := h6 0 ⟨[], a, by simp, rfl⟩
    have e2 := h7 [] 0 ⟨⟨0, [], a, by simp, rfl⟩, ⟨0, [], b, by simp, rfl⟩⟩ (by simp [hn])
      ⟨[], b, by simp, rfl⟩
    exact ⟨by omega, by omega⟩

example : findLcs "xabcyabcz".toList "qqabcrabc".toList = some (1, 2, 3) := by decide +kernel
example : findLcs "abc".toList "xyz".toList = some (0, 0, 0) := by decide +kernel

/-- C05.  `all_suffixes(build(text))` yields every suffix of the text exactly once. -/
theorem C05_all_suffixes (text : List α) :
    ∃ h out, build text = some h ∧ allSuffixes h = some out ∧ out.Nodup ∧
      ∀ w, w ∈ out ↔ w <:+ text := by
  obtain ⟨h, last, L, hb, B, _⟩ := build_spec text
  have I := B.hinv.inv
  obtain ⟨out, h1, h2, h3⟩ := allSuffixesFrom_spec B (h.length + 1) 0 I.zero_lt
    (by have := B.size; omega)
  refine ⟨h, out, hb, h1, h2, fun w => ?_⟩
  rw [h3, I.rootL]; simp

example : (build "aba".toList).bind allSuffixes =
    some ["".toList, "a".toList, "aba".toList, "ba".toList] := by decide +kernel

/-- C06.  Size of the automaton: at least `n+1` and at most `2n+1` nodes (`2n-1` from two tokens
on), at most `3n` transitions. -/
theorem C06_size (text : List α) :
    ∃ h, build text = some h ∧ text.length + 1 ≤ h.length ∧ h.length ≤ 2 * text.length + 1 ∧
      (2 ≤ text.length → h.length ≤ 2 * text.length - 1) ∧
      (h.map fun nd => nd.transitions.length).sum ≤ 3 * text.length := by
  obtain ⟨h, last, L, hb, B, h1, h2, h3⟩ := build_spec text
  refine ⟨h, hb, h1, h2, h3, ?_⟩
  rw [← edges_length]
  have := edges_length_le B
  omega

/-- The node bound of C06 is attained: `abb` needs `2·3-1` nodes. -/
example : (build "abb".toList).map List.length = some 5 := by decide +kernel

end Gaspra
