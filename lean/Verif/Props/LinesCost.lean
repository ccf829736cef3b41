import Verif.Proofs.LinesCost
import Verif.Props.Lines

/-!
# C108: line diffs take linear time

The time is linear in the number of items of the diff and the characters of its common fragments.
The text of the changes does not matter, it is neither read nor copied.
-/

namespace Gaspra

/-- C108.  Leaving out the count gives the line diff, with its exceptions. -/
theorem C108_same_result (sp : Nat → Bool) (stream : List (DiffItem Nat)) :
    (toLineDiffC sp stream).1 = toLineDiff sp stream ∧
    (consolidatedLineDiffC sp stream).map Prod.fst = consolidatedLineDiff sp stream := by
  refine ⟨toLineDiffC_fst sp stream, ?_⟩
  unfold consolidatedLineDiffC consolidatedLineDiff
  rw [← toLineDiffC_fst]
  generalize toLineDiffC sp stream = r
  obtain ⟨⟨items, e⟩, n⟩ := r
  cases e with
  | none => simp only [Except.map, consolidateLoopC_fst, consolidateLines]
  | some e => rfl

/-- C108.  `to_line_diff` takes linearly many steps. -/
theorem C108_line_diff (sp : Nat → Bool) (stream : List (DiffItem Nat)) :
    (toLineDiffC sp stream).2 ≤ 51 * diffSize stream + 10 := by
  have := (toLineDiffC_bound sp stream).1
  unfold diffSize
  omega

/-- C108.  So does `consolidated_line_diff`, however many changes are put together. -/
theorem C108_consolidated {sp : Nat → Bool} {stream : List (DiffItem Nat)} {out : List LineItem}
    {t : Nat} (h : consolidatedLineDiffC sp stream = .ok (out, t)) :
    t ≤ 87 * diffSize stream + 26 := by
  have hb := toLineDiffC_bound sp stream
  unfold consolidatedLineDiffC at h
  unfold diffSize
  generalize toLineDiffC sp stream = r at h hb
  obtain ⟨⟨items, e⟩, n⟩ := r
  cases e with
  | none =>
    simp only [Except.ok.injEq, Prod.mk.injEq] at h
    have := consolidateLoopC_bound items [] []
    simp only [List.length_nil] at this
    simp only at hb
    omega
  | some e => simp at h

/-- C108.  No fewer steps than that up to the factor: every item and every character of the common
fragments is looked at. -/
theorem C108_reads (sp : Nat → Bool) (stream : List (DiffItem Nat)) :
    diffSize stream ≤ (toLineDiffC sp stream).2 := (toLineDiffC_bound sp stream).2.2

/-- C108.  The output is not larger: no more items, and no more elements in the changes. -/
theorem C108_output (sp : Nat → Bool) (stream : List (DiffItem Nat)) :
    ((toLineDiff sp stream).1.map fun
      | .text _ => 1
      | .change a b => 1 + a.length + b.length).sum ≤ 12 * diffSize stream + 5 := by
  have h := (toLineDiffC_bound sp stream).2.1
  rw [toLineDiffC_fst] at h
  have e : (fun x : LineItem => match x with
      | .text _ => 1
      | .change a b => 1 + a.length + b.length) = lineItemSize := by
    funext x; cases x <;> rfl
  unfold diffSize
  rw [e]
  omega

/-- Two changes in one line, which are collected, a change over white space, and whole lines. -/
def linesSample : List (DiffItem Nat) :=
  [.common (cps "one\ntwo "), .change (cps "x") (cps "yyyyyyyyyyyyyyyyy"), .common (cps " and "),
    .change (cps "u") [], .common (cps "\n \n"), .change [] (cps "w\n"), .common (cps "end\nof\ntext")]

example : (toLineDiffC pyIsSpace linesSample).2 = 127 := by decide +kernel
example : diffSize linesSample = 34 := by decide +kernel
example : (consolidatedLineDiffC pyIsSpace linesSample).map Prod.snd = .ok 171 := by decide +kernel
/-- The text of changes is not read. -/
example : (toLineDiffC pyIsSpace [.change (cps "a\nb\nc\nd\n") (cps "e")]).2 =
    (toLineDiffC pyIsSpace [.change (cps "a") (cps "e")]).2 := by decide +kernel

end Gaspra
