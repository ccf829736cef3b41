import Verif.Proofs.DiffCost

/-!
# C64, C65: the running time of the suffix automaton and of the diff
-/

namespace Gaspra

variable {α : Type _} [DecidableEq α]

/-- C64.  Counting the steps changes no result. -/
theorem C64_same_result (original modified : List α) :
    (buildC original).map Prod.fst = build original ∧
    (findLcsC original modified).map Prod.fst = findLcs original modified ∧
    (findChangesetC original modified).map Prod.fst = findChangeset original modified :=
  ⟨buildC_fst original, findLcsC_fst original modified,
    findChangesetAuxC_fst original modified _ _ _⟩

/-- C64.  `build` takes at most `10 n + 3` steps for `n` tokens, however many different tokens there
are, and at least `n`. -/
theorem C64_build_linear (tokens : List α) : ∃ h t, buildC tokens = some (h, t) ∧
    tokens.length ≤ t ∧ t ≤ 10 * tokens.length + 3 := by
  obtain ⟨h, t, hb, h1⟩ := buildC_cost tokens
  exact ⟨h, t, hb, buildC_ge hb, h1.2⟩

/-- C64.  Finding a longest common substring takes a number of steps linear in the lengths of the
inputs. -/
theorem C64_lcs_linear (a b : List α) : ∃ r t, findLcsC a b = some (r, t) ∧
    t ≤ 10 * a.length + 2 * b.length + 3 := by
  obtain ⟨r, t, h, _, ht⟩ := findLcsC_cost a b
  exact ⟨r, t, h, ht⟩

/-- C65.  The diff takes at most as many linear passes as the recursion is deep, and at least about
half the square of the depth. -/
theorem C65_diff_cost (original modified : List α) : ∃ cs t,
    findChangesetC original modified = some (cs, t) ∧
    t ≤ cs.depth * (10 * original.length + 2 * modified.length) + 3 * cs.calls ∧
    cs.depth * (cs.depth - 1) ≤ 2 * t := by
  obtain ⟨cs, t, h, _, V, h1, h2⟩ := findChangesetC_cost original modified
  have := V.depth_work
  exact ⟨cs, t, h, h1, by omega⟩

/-- C65.  The number of steps of the diff is at most quadratic. -/
theorem C65_diff_quadratic (original modified : List α) : ∃ cs t,
    findChangesetC original modified = some (cs, t) ∧
    t ≤ (min original.length modified.length + 1) *
        (10 * original.length + 2 * modified.length + 6) := by
  obtain ⟨cs, t, h, _, V, h1, h2⟩ := findChangesetC_cost original modified
  refine ⟨cs, t, h, ?_⟩
  obtain ⟨hd, hc⟩ := V.depth_le
  have e1 : cs.depth * (10 * original.length + 2 * modified.length) ≤
      (min original.length modified.length + 1) * (10 * original.length + 2 * modified.length) :=
    Nat.mul_le_mul_right _ hd
  rw [Nat.mul_add _ (10 * original.length + 2 * modified.length) 6]
  omega

/-- C65.  The bound is reached up to a constant factor: tokens that agree in `n` isolated places take
at least `n (n + 1) / 2` steps. -/
theorem C65_diff_quadratic_reached (a x y : α) (hxa : x ≠ a) (hya : y ≠ a) (hxy : x ≠ y) (n : Nat) :
    ∃ cs t, findChangesetC (List.replicate n [a, x]).flatten (List.replicate n [a, y]).flatten =
      some (cs, t) ∧ n * (n + 1) ≤ 2 * t := by
  have hc : ∀ z, (List.replicate n [a, z]).flatten = comb a z n := by
    intro z
    induction n with
    | zero => rfl
    | succ n ih => simp [List.replicate_succ, comb, ih]
  rw [hc, hc]
  obtain ⟨cs, t, h, _, V, _, h2⟩ := findChangesetC_cost (comb a x n) (comb a y n)
  have hd := comb_depth hxa hya hxy n _ _ [] [] cs (.inl ⟨rfl, rfl⟩) V
  have hw := V.depth_work
  rw [hd, Nat.add_sub_cancel, Nat.mul_comm] at hw
  exact ⟨cs, t, h, by omega⟩

example : (buildC "abracadabra".toList).map Prod.snd = some 45 := by decide +kernel
example : (findLcsC "abracadabra".toList "cadillac".toList).map Prod.snd = some 54 := by
  decide +kernel
example : (findChangesetC "axaxaxax".toList "ayayayay".toList).map Prod.snd = some 166 := by
  decide +kernel
example : (findChangesetC "abcdefgh".toList "abcdxfgh".toList).map Prod.snd = some 81 := by
  decide +kernel

end Gaspra
