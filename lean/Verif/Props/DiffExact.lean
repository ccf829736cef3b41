import Verif.Proofs.DiffExact

/-!
# C62: what exactly the diff is
-/

namespace Gaspra

variable {α : Type _} [DecidableEq α]

/-- C62.  `diff_token_sequences` yields the diff of the description `IsDiff`, which determines it. -/
theorem C62_diff_exact (original modified : List α) (d : List (DiffItem α)) :
    diffTokenSequences original modified = some d ↔ IsDiff original modified d := by
  obtain ⟨cs, h, V⟩ := findChangeset_spec original modified
  have hd := V.isDiff (OccursAt.whole _)
  simp only [diffTokenSequences, h, Option.some.injEq]
  constructor
  · rintro rfl; exact hd
  · exact fun h' => isDiff_unique _ (Nat.le_refl _) hd h'

-- Both "ab" and "cd" are longest; the first in the modified text is kept, the other one is lost.
example : diffTokenSequences "abcd".toList "cdab".toList =
    some [.change [] "ab".toList, .common "cd".toList, .change "ab".toList []] := by decide +kernel
-- Two places in the original text: the first one is used.
example : diffTokenSequences "abxab".toList "yab".toList =
    some [.change "y".toList [], .common "ab".toList, .change [] "xab".toList] := by decide +kernel

end Gaspra
