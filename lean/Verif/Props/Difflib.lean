import Verif.Proofs.Difflib
import Verif.Proofs.Anchor
import Verif.Props.Substring
import Verif.Model.Cost

/-!
# C123: the benchmark compares two ways to find one result
-/

set_option linter.unusedSectionVars false

namespace Gaspra

variable {α : Type _} [DecidableEq α]

theorem Block.occurs {a b : List α} {i j n : Nat} (h : Block a b i j n) :
    ∃ w : List α, w.length = n ∧ OccursAt a w i ∧ OccursAt b w j := by
  obtain ⟨h1, h2, h3⟩ := h
  refine ⟨(a.drop i).take n, by simp; omega, occursAt_of_getElem (by simp; omega) ?_,
    occursAt_of_getElem (by simp; omega) ?_⟩
  · intro k hk
    simp only [List.length_take, List.length_drop] at hk
    rw [List.getElem?_take, if_pos (by omega), List.getElem?_drop]
  · intro k hk
    simp only [List.length_take, List.length_drop] at hk
    rw [List.getElem?_take, if_pos (by omega), List.getElem?_drop]
    exact (h3 k (by omega)).symm

theorem block_of_occurs {a b w : List α} {i j : Nat} (h1 : OccursAt a w i) (h2 : OccursAt b w j) :
    Block a b i j w.length :=
  ⟨h1.bound, h2.bound, fun t ht => by rw [occursAt_getElem h1 ht, occursAt_getElem h2 ht]⟩

/-- C123.  `difflib_lcs` returns a longest common substring, the one that starts first in its first argument, and
there the first place in the second argument; without a common element it returns three zeros. -/
theorem C123_difflib (a b : List α) : ∃ i j n w, difflibLcs a b = (i, j, n) ∧ w.length = n ∧
    OccursAt a w i ∧ OccursAt b w j ∧
    (∀ x, CommonSubstring a b x → x.length ≤ n) ∧
    (∀ x i', CommonSubstring a b x → x.length = n → OccursAt a x i' → i ≤ i') ∧
    (∀ j', OccursAt b w j' → j ≤ j') ∧ (n = 0 → i = 0 ∧ j = 0) := by
  have B := (findLongestMatch_spec a b).1
  have hdef : difflibLcs a b = ((findLongestMatch a b).besti, (findLongestMatch a b).bestj,
    (findLongestMatch a b).bestsize) := rfl
  generalize findLongestMatch a b = st at B hdef
  obtain ⟨w, hw, ha, hb⟩ := B.block.occurs
  have hlong : ∀ x i' j', OccursAt a x i' → OccursAt b x j' → x.length ≤ st.bestsize := fun x i' j' h1 h2 =>
    Nat.le_trans (block_of_occurs h1 h2).le_endLen (B.longest _ _ ⟨h1.bound, h2.bound⟩)
  have hfirst : ∀ x i' j', OccursAt a x i' → OccursAt b x j' → x.length = st.bestsize → 0 < st.bestsize →
      st.besti < i' ∨ st.besti = i' ∧ st.bestj ≤ j' := by
    intro x i' j' h1 h2 hn h0
    have h3 := (block_of_occurs h1 h2).le_endLen
    have h4 := B.longest (i' + x.length) (j' + x.length) ⟨h1.bound, h2.bound⟩
    have := B.first _ _ ⟨h1.bound, h2.bound⟩ (by omega : endLen a b (i' + x.length) (j' + x.length) = _) h0
    omega
  refine ⟨_, _, _, w, hdef, hw, ha, hb, fun x ⟨⟨i', h1⟩, j', h2⟩ => hlong x i' j' h1 h2, ?_, ?_, B.zero⟩
  · rintro x i' ⟨_, j', h2⟩ hn h1
    by_cases h0 : st.bestsize = 0
    · have := (B.zero h0).1; omega
    · have := hfirst x i' j' h1 h2 hn (by omega); omega
  · intro j' h
    by_cases h0 : st.bestsize = 0
    · have := (B.zero h0).2; omega
    · have := hfirst w _ j' ha h hw (by omega); omega

/-- C123.  `difflib_lcs(s1, s2)` is `string_matching_lcs(s2, s1)` with the two positions exchanged. -/
theorem C123_swapped (s1 s2 : List α) (i j n : Nat) :
    difflibLcs s1 s2 = (i, j, n) ↔ stringMatchingLcs s2 s1 = some (j, i, n) := by
  have hsm : stringMatchingLcs s2 s1 = findLcs s2 s1 := rfl
  obtain ⟨i1, j1, n1, w1, h1, l1, a1, b1, m1, f1, g1, z1⟩ := C123_difflib s1 s2
  obtain ⟨j2, i2, n2, w2, h2, l2, b2, a2, m2, g2, f2⟩ := C03_C04_find_lcs s2 s1
  have hn : n1 = n2 := Nat.le_antisymm (l1 ▸ m2 w1 ⟨⟨_, b1⟩, _, a1⟩) (l2 ▸ m1 w2 ⟨⟨_, a2⟩, _, b2⟩)
  subst hn
  have hi : i1 = i2 := Nat.le_antisymm (f1 w2 i2 ⟨⟨_, a2⟩, _, b2⟩ l2 a2) (f2 w1 i1 ⟨⟨_, b1⟩, _, a1⟩ l1 a1)
  subst hi
  have hw : w1 = w2 := by
    apply List.ext_getElem?
    intro k
    by_cases hk : k < n1
    · rw [← occursAt_getElem a1 (by omega), ← occursAt_getElem a2 (by omega)]
    · rw [List.getElem?_eq_none (by omega), List.getElem?_eq_none (by omega)]
  subst hw
  have hj : j1 = j2 := Nat.le_antisymm (g1 j2 b2) (g2 j1 b1)
  subst hj
  rw [hsm, h1, h2]
  simp only [Prod.mk.injEq, Option.some.injEq]
  exact ⟨fun ⟨p, q, r⟩ => ⟨q, p, r⟩, fun ⟨q, p, r⟩ => ⟨p, q, r⟩⟩

/-- C123.  On the same two inputs both find the same length, so the column `Match Length` of the benchmark does not
depend on the method. -/
theorem C123_same_length (s1 s2 : List α) : ∃ i j i' j' n, difflibLcs s1 s2 = (i, j, n) ∧
    stringMatchingLcs s1 s2 = some (i', j', n) := by
  have hsm : stringMatchingLcs s1 s2 = findLcs s1 s2 := rfl
  obtain ⟨i1, j1, n1, w1, h1, l1, a1, b1, m1, _⟩ := C123_difflib s1 s2
  obtain ⟨i2, j2, n2, w2, h2, l2, a2, b2, m2, _⟩ := C03_C04_find_lcs s1 s2
  have hn : n1 = n2 := Nat.le_antisymm (l1 ▸ m2 w1 ⟨⟨_, a1⟩, _, b1⟩) (l2 ▸ m1 w2 ⟨⟨_, a2⟩, _, b2⟩)
  subst hn
  exact ⟨i1, j1, i2, j2, n1, h1, hsm.trans h2⟩

/-- C123.  But the positions may differ: of `ab` and `ba` one takes `a`, the other `b`. -/
theorem C123_positions_differ : difflibLcs "ab".toList "ba".toList = (0, 1, 1) ∧
    stringMatchingLcs "ab".toList "ba".toList = some (1, 0, 1) := by decide +kernel

/-- C123.  The inner loop of `difflib` runs once for every pair of equal elements. -/
theorem C123_rounds (a b : List α) : (findLongestMatch a b).rounds =
    (a.map (fun x => (b.filter (· = x)).length)).sum := (findLongestMatch_spec a b).2

/-- C123.  So at most `|a| * |b|` times, and exactly so often when all elements are equal, where `find_lcs` with the
building of its automaton takes a linear number of steps. -/
theorem C123_quadratic (x : α) (n m : Nat) :
    (findLongestMatch (List.replicate n x) (List.replicate m x)).rounds = n * m ∧
    (∀ a b : List α, (findLongestMatch a b).rounds ≤ a.length * b.length) := by
  constructor
  · rw [C123_rounds]
    induction n with
    | zero => simp
    | succ n ih =>
      rw [List.replicate_succ, List.map_cons, List.sum_cons, ih]
      simp [Nat.succ_mul, Nat.add_comm]
  · intro a b
    rw [C123_rounds]
    induction a with
    | nil => simp
    | cons y a ih =>
      have := List.length_filter_le (fun z => decide (z = y)) b
      rw [List.map_cons, List.sum_cons, List.length_cons, Nat.succ_mul]
      omega

-- A block that is neither first in `b` nor at a border.
example : difflibLcs "xxabcdxx".toList "cdyabcdz".toList = (2, 3, 4) ∧
    stringMatchingLcs "cdyabcdz".toList "xxabcdxx".toList = some (3, 2, 4) := by decide +kernel

example : difflibLcs "abc".toList "xyz".toList = (0, 0, 0) := by decide +kernel

example : (findLongestMatch "aab".toList "aba".toList).rounds = 5 := by decide +kernel

end Gaspra
