import Verif.Proofs.Recursion

/-!
# C61: how deep `find_changeset` recurses
-/

namespace Gaspra

variable {α : Type _} [DecidableEq α]

/-- C61.  If at most `limit` calls of `find_changeset` may be nested, the result is found exactly if
the changeset is at most that deep, and it does not depend on the limit.  The depth is at most one
more than the length of the shorter input, and there is one call for every common piece of the diff
and one for every gap between them. -/
theorem C61_recursion_limit (original modified : List α) :
    ∃ cs, findChangeset original modified = some cs ∧
      (∀ limit, findChangesetAux original modified limit ⟨0, none⟩ ⟨0, none⟩ =
        if cs.depth ≤ limit then some cs else none) ∧
      cs.depth ≤ min original.length modified.length + 1 ∧
      cs.calls = 2 * ((cs.asDiffStream original).filter (!·.isChange)).length + 1 ∧
      cs.calls ≤ 2 * min original.length modified.length + 1 := by
  obtain ⟨cs, h, V⟩ := findChangeset_spec original modified
  refine ⟨cs, h, findChangesetAux_limit _ _ _ _ _ _ h, V.depth_le.1, ?_, V.depth_le.2⟩
  rw [cs.calls_eq original]
  congr 3
  apply List.filter_congr
  intro d _
  cases d <;> rfl

/-- C61.  Unchanged tokens in `n` places with different tokens after each of them need `n + 1` nested
calls: the recursion is as deep as the inputs are long, even over three different tokens.  In Python
the limit is 1000 unless changed, so the diff of `"ax" * 1000` and `"ay" * 1000` raises
RecursionError. -/
theorem C61_recursion_deep (a x y : α) (hxa : x ≠ a) (hya : y ≠ a) (hxy : x ≠ y) (n limit : Nat)
    (hl : limit ≤ n) :
    findChangesetAux (List.replicate n [a, x]).flatten (List.replicate n [a, y]).flatten
      limit ⟨0, none⟩ ⟨0, none⟩ = none := by
  have hc : ∀ z, (List.replicate n [a, z]).flatten = comb a z n := by
    intro z
    clear hl
    induction n with
    | zero => rfl
    | succ n ih => simp [List.replicate_succ, comb, ih]
  obtain ⟨cs, h, V⟩ := findChangeset_spec (comb a x n) (comb a y n)
  have hd := comb_depth hxa hya hxy n _ _ [] [] cs (.inl ⟨rfl, rfl⟩) V
  rw [hc, hc, findChangesetAux_limit _ _ _ _ _ _ h limit, if_neg (by omega)]

example : findChangesetAux "axaxax".toList "ayayay".toList 3 ⟨0, none⟩ ⟨0, none⟩ = none := by
  decide +kernel
example : (findChangesetAux "axaxax".toList "ayayay".toList 4 ⟨0, none⟩ ⟨0, none⟩).map
    (fun cs => (cs.depth, cs.calls)) = some (4, 7) := by decide +kernel
-- Texts that differ in one place need three calls, two of them nested.
example : (findChangesetAux "abcdef".toList "abcdeg".toList 2 ⟨0, none⟩ ⟨0, none⟩).map
    (fun cs => (cs.depth, cs.calls)) = some (2, 3) := by decide +kernel

end Gaspra
