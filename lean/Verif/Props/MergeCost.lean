import Verif.Props.Cost
import Verif.Proofs.MergeCost

/-!
# C93: the size and the cost of a merge
-/

namespace Gaspra

variable {α : Type _} [DecidableEq α]

/-- C93.  Leaving out the count of `mergeTokenSequenceC` gives the merge. -/
theorem C93_same_result (kind : Kind) (parent branch0 branch1 : List α) :
    (mergeTokenSequenceC kind parent branch0 branch1).map Prod.fst =
      mergeTokenSequence kind parent branch0 branch1 :=
  mergeTokenSequenceC_fst kind parent branch0 branch1

theorem mergeC_of_ok {kind : Kind} {p b0 b1 : List α} {out : List (DiffItem α)}
    (h : mergeTokenSequence kind p b0 b1 = .ok out) :
    ∃ t, mergeTokenSequenceC kind p b0 b1 = .ok (out, t) := by
  rw [← mergeTokenSequenceC_fst] at h
  cases hc : mergeTokenSequenceC kind p b0 b1 with
  | error e => rw [hc] at h; cases h
  | ok x =>
    rw [hc] at h
    obtain ⟨o, t⟩ := x
    simp only [Except.map, Except.ok.injEq] at h
    exact ⟨t, by rw [h]⟩

/-- C93.  A merge, with both sides of its conflicts, has every token at most as often as the two
branches together.  In particular it is not longer than they are. -/
theorem C93_size {kind : Kind} {parent branch0 branch1 : List α} {out : List (DiffItem α)}
    (h : mergeTokenSequence kind parent branch0 branch1 = .ok out) :
    (∀ t, (out.flatMap (·.tokens)).count t ≤ branch0.count t + branch1.count t) ∧
    (out.flatMap (·.tokens)).length ≤ branch0.length + branch1.length := by
  obtain ⟨n, hn⟩ := mergeC_of_ok h
  exact ⟨fun t => (mergeC_spec (Additive.count t) hn).1, (mergeC_spec Additive.length hn).1⟩

/-- C93.  A merge takes a number of steps at most quadratic in the lengths of the inputs, with the
diffs it makes of the groups of conflicts. -/
theorem C93_quadratic {kind : Kind} {parent branch0 branch1 : List α} {out : List (DiffItem α)}
    {t : Nat} (h : mergeTokenSequenceC kind parent branch0 branch1 = .ok (out, t)) :
    t ≤ 28 * (2 * parent.length + branch0.length + branch1.length + 2) ^ 2 := by
  rw [Nat.pow_two]
  exact (mergeC_spec Additive.length h).2

/-- C93.  There are merges of any size that take quadratically many steps. -/
theorem C93_quadratic_reached (a x y : α) (hxa : x ≠ a) (hya : y ≠ a) (hxy : x ≠ y) (n : Nat)
    (branch1 : List α) :
    ∃ out t, mergeTokenSequenceC .tuple (List.replicate n [a, x]).flatten
      (List.replicate n [a, y]).flatten branch1 = .ok (out, t) ∧ n * (n + 1) ≤ 2 * t := by
  obtain ⟨cs, t0, hc, ht⟩ := C65_diff_quadratic_reached a x y hxa hya hxy n
  obtain ⟨_, _, out, _, _, hm, _⟩ := merge_general (List.replicate n [a, x]).flatten
    (List.replicate n [a, y]).flatten branch1
  obtain ⟨t, hC⟩ := mergeC_of_ok hm
  refine ⟨out, t, hC, ?_⟩
  suffices t0 ≤ t by omega
  simp only [mergeTokenSequenceC, hc] at hC
  cases h1 : findChangesetC (List.replicate n [a, x]).flatten branch1 with
  | none => rw [h1] at hC; cases hC
  | some z =>
    obtain ⟨cs1, n1⟩ := z
    rw [h1] at hC
    dsimp only at hC
    split at hC
    · cases hC
    · rename_i L m _
      cases hq : consolidateC .tuple L with
      | error e => rw [hq] at hC; cases hC
      | ok q =>
        rw [hq] at hC
        simp only [bind, Except.bind, pure, Except.pure, Except.ok.injEq, Prod.mk.injEq] at hC
        omega

/-! ### Examples -/

/-- A merge with a conflict, which is two tokens shorter than it may be at most. -/
example : mergeTokenSequenceC .str "abcdef".toList "aXcdeef".toList "aYcdf".toList =
    .ok ([.common ['a'], .change ['X'] ['Y'], .common ['c', 'd', 'e', 'f']], 255) := by
  decide +kernel

/-- The bound of the size is reached. -/
example : mergeTokenSequenceC .str "ab".toList "x".toList "yz".toList =
    .ok ([.change ['x'] ['y', 'z']], 56) := by decide +kernel

/-- A conflict with a common part: it is diffed again, and the part is counted once. -/
example : mergeTokenSequenceC .str "".toList "xyz".toList "uvxyw".toList =
    .ok ([.change [] ['u', 'v'], .common ['x', 'y'], .change ['z'] ['w']], 90) := by
  decide +kernel

end Gaspra
