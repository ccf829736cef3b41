import Verif.Proofs.TwoWay
import Verif.Props.CliDiff
import Verif.Props.DiffExact

/-!
# C130: merging without a common ancestor
-/

set_option linter.unusedSectionVars false

namespace Gaspra

variable {α : Type _} [DecidableEq α]

/-- C130.  If neither branch has a token of the parent, and an empty parent does not meet an empty
branch, the merge is the diff from branch 1 to branch 0. -/
theorem C130_two_way (kind : Kind) {parent b0 b1 : List α} (h0 : ∀ t ∈ parent, t ∉ b0)
    (h1 : ∀ t ∈ parent, t ∉ b1) (hne : parent ≠ [] ∨ (b0 ≠ [] ∧ b1 ≠ [])) :
    ∃ d, diffTokenSequences b1 b0 = some d ∧
      mergeTokenSequence kind parent b0 b1 = .ok (if d.isEmpty then [.common []] else d) := by
  by_cases e : b0 = b1
  · subst e
    refine ⟨_, C13_diff_self b0, ?_⟩
    rw [C16_merge_identical]
    by_cases hb : b0 = [] <;> simp [hb]
  · have n0 : parent ≠ [] ∨ b0 ≠ [] := hne.imp id And.left
    have n1 : parent ≠ [] ∨ b1 ≠ [] := hne.imp id And.right
    have d0 : diffTokenSequences parent b0 = some [.change b0 parent] := by
      rw [C62_diff_exact]; exact .change n0 h0
    have d1 : diffTokenSequences parent b1 = some [.change b1 parent] := by
      rw [C62_diff_exact]; exact .change n1 h1
    obtain ⟨cs0, c0, k0, ⟨_, _, F0⟩, s0, _⟩ := merge_setup parent b0
    obtain ⟨cs1, c1, k1, ⟨_, _, F1⟩, s1, _⟩ := merge_setup parent b1
    rw [d0] at k0
    rw [d1] at k1
    injection k0 with k0
    injection k1 with k1
    rw [← k0] at F0 s0
    rw [← k1] at F1 s1
    simp only [List.map_cons, List.map_nil, toFrag] at F0 F1 s0 s1
    have hp := first_conflict F0 F1
      (by
        rintro (⟨rfl, rfl⟩ | ⟨rfl, rfl⟩)
        · rcases n1 with h | h <;> exact h rfl
        · rcases n0 with h | h <;> exact h rfl)
      (fun h => e h.1)
    have g0 : parent.length > 0 ∨ b0.length > 0 := by
      rcases n0 with h | h
      · exact .inl (List.length_pos_iff.2 h)
      · exact .inr (List.length_pos_iff.2 h)
    have g1 : parent.length > 0 ∨ b1.length > 0 := by
      rcases n1 with h | h
      · exact .inl (List.length_pos_iff.2 h)
      · exact .inr (List.length_pos_iff.2 h)
    have hl : mergeLoop (1 + 1) [.change b0 parent parent.length] [.change b1 parent parent.length] false =
        some [.conflict (.seq b0) (.seq b1)] := by
      have hq : processFragments (.change b0 parent parent.length) (.change b1 parent parent.length) true =
          (some (.conflict (.seq b0) (.seq b1)), none, none, true) := by
        simp only [processFragments, pendingConflict, splitFragment, splitChange, Fragment.length,
          Nat.min_self, g0, g1, if_true, insertOrLit, Fragment.insert, List.take_length, Nat.lt_irrefl,
          or_self, if_false]
      rw [hq] at hp
      simp only [mergeLoop, hp, Option.toList_none, Option.toList_some, List.nil_append, List.append_nil]
    have hm : mergeTokenSequence kind parent b0 b1 = consolidate kind [.conflict (.seq b0) (.seq b1)] := by
      simp only [mergeTokenSequence, c0, c1, s0, s1, List.length_cons, List.length_nil, Nat.zero_add, hl]
    obtain ⟨d, r1, r2⟩ := consolidate_conflicts (kind := kind) (L := [.conflict (.seq b0) (.seq b1)])
      (by simp) (by simp [MFragment.isConflict]) (.inr (by simp [MFragment.noLit]))
    simp only [List.flatMap_cons, List.flatMap_nil, MFragment.version1, MFragment.version2, Side.toList,
      List.append_nil] at r1
    exact ⟨d, r1, hm.trans r2⟩

/-- C130.  Without a parent: an empty branch gives the other one, other branches their diff. -/
theorem C130_no_parent (kind : Kind) (b0 b1 : List α) :
    (b0 = [] → mergeTokenSequence kind [] b0 b1 = .ok [.common b1]) ∧
    (b1 = [] → mergeTokenSequence kind [] b0 b1 = .ok [.common b0]) ∧
    (b0 ≠ [] → b1 ≠ [] → ∃ d, diffTokenSequences b1 b0 = some d ∧ mergeTokenSequence kind [] b0 b1 = .ok d) := by
  refine ⟨?_, ?_, fun e0 e1 => ?_⟩
  · rintro rfl; exact (C15_merge_unchanged kind [] b1).2
  · rintro rfl; exact (C15_merge_unchanged kind [] b0).1
  · obtain ⟨d, h1, h2⟩ := C130_two_way kind (parent := []) (b0 := b0) (b1 := b1) (by simp) (by simp) (.inr ⟨e0, e1⟩)
    refine ⟨d, h1, ?_⟩
    rw [h2]
    obtain ⟨d', h', k1, k2⟩ := C09_diff_reconstructs b1 b0
    rw [h1] at h'
    cases h'
    cases d with
    | nil => exact absurd k1.symm e0
    | cons => rfl

/-- C130.  The same happens whenever nothing of the parent is in both branches and both begin with a
change, unless these first changes are the same or one only inserts and the other only deletes. -/
theorem C130_all_in_conflict {kind : Kind} (hk : kind ≠ .bytes) {parent b0 b1 i0 x0 i1 x1 : List α}
    {d0 d1 : List (DiffItem α)} (h0 : diffTokenSequences parent b0 = some (.change i0 x0 :: d0))
    (h1 : diffTokenSequences parent b1 = some (.change i1 x1 :: d1))
    (hno : ∀ t ∈ parent, t ∈ b0 → t ∉ b1) (hsame : ¬ (i0 = i1 ∧ x0 = x1))
    (hpure : ¬ ((x0 = [] ∧ i1 = []) ∨ (i0 = [] ∧ x1 = []))) :
    ∃ d, diffTokenSequences b1 b0 = some d ∧ mergeTokenSequence kind parent b0 b1 = .ok d := by
  obtain ⟨cs0, c0, k0, F0, s0, a0⟩ := merge_setup parent b0
  obtain ⟨cs1, c1, k1, F1, s1, a1⟩ := merge_setup parent b1
  rw [h0] at k0
  rw [h1] at k1
  injection k0 with k0
  injection k1 with k1
  rw [← k0] at F0 s0 a0
  rw [← k1] at F1 s1 a1
  obtain ⟨merged, m1, _⟩ := mergeLoop_general _ 0 parent _ _ false F0 F1 (Nat.le_refl _)
  have hm : mergeTokenSequence kind parent b0 b1 = consolidate kind merged := by
    simp only [mergeTokenSequence, c0, c1, s0, s1, m1]
  obtain ⟨_, _, F0'⟩ := F0
  obtain ⟨_, _, F1'⟩ := F1
  have hp := first_conflict F0' F1' hpure hsame
  simp only [List.map_cons, toFrag, List.length_cons] at m1 a0 a1 F0' F1'
  rw [show (d0.map toFrag).length + 1 + ((d1.map toFrag).length + 1) =
    ((d0.map toFrag).length + 1 + (d1.map toFrag).length) + 1 by omega] at m1
  have m2 : mergeLoop (((d0.map toFrag).length + 1 + (d1.map toFrag).length) + 1)
      (.change i0 x0 x0.length :: d0.map toFrag) (.change i1 x1 x1.length :: d1.map toFrag) true =
      some merged := by
    rw [← m1]
    simp only [mergeLoop, hp]
  obtain ⟨r1, r2, r3⟩ := within_spec _ parent _ _ merged ⟨_, _, F0'⟩ ⟨_, _, F1'⟩
    (by rw [a0, a1]; exact hno) m2
  rw [a0] at r2
  rw [a1] at r3
  have hb : ¬ (b0 = [] ∧ b1 = []) := by
    rintro ⟨rfl, rfl⟩
    rw [h0] at h1
    injection h1 with h1
    injection h1 with h1 _
    injection h1 with e1 e2
    exact hsame ⟨e1, e2⟩
  have hne : merged ≠ [] := by
    rintro rfl
    exact hb ⟨r2.symm, r3.symm⟩
  obtain ⟨d, q1, q2⟩ := consolidate_conflicts hne r1 (.inl hk)
  rw [r2, r3] at q1
  refine ⟨d, q1, ?_⟩
  rw [hm, q2]
  cases d with
  | cons => rfl
  | nil =>
    obtain ⟨d', h', z1, z2⟩ := C09_diff_reconstructs b1 b0
    rw [q1] at h'
    cases h'
    exact absurd ⟨z1.symm, z2.symm⟩ hb

/-- C130.  `gaspra-merge` with a parent file that has no piece (character, word or line) in common
with the two others writes what `gaspra-diff other current` writes. -/
theorem C130_commands (cls sp : Nat → Bool) {args : Args} (hd : args.diff = false)
    (hs : args.strikeout = false) (hf : args.output ≠ none) (t : Tables) (pn cn on : PyStr) {p c o : PyStr}
    {qp qc qo : List PyStr} (hp : CliPieces cls args p qp) (hc : CliPieces cls args c qc)
    (ho : CliPieces cls args o qo) (h0 : ∀ x ∈ qp, x ∉ qc) (h1 : ∀ x ∈ qp, x ∉ qo)
    (hne : (qp ≠ [] ∧ (qc ≠ [] ∨ qo ≠ [])) ∨ (qc ≠ [] ∧ qo ≠ [])) :
    mergeCli cls sp args t pn cn on p c o = diffCli cls sp args t on cn o c := by
  obtain ⟨S, tk, e, T, _⟩ := mergeCli_eq' cls sp args t pn cn on hp hc ho
  obtain ⟨d, m1, _, m3⟩ := mergeRun_display sp hd t pn cn on T
  obtain ⟨d', k1, _, k3⟩ := diffCli_display cls sp args t on cn ho hc
  obtain ⟨d2, q1, q2⟩ := C130_two_way .tuple h0 h1 (hne.imp And.left id)
  rw [k1] at q1
  cases q1
  have hdd : d = d' := by
    rw [m1] at q2
    obtain ⟨d3, z0, z1, z2⟩ := C09_diff_reconstructs qo qc
    rw [k1] at z0
    cases z0
    cases d' with
    | cons => injection q2
    | nil =>
      rcases hne with ⟨_, h | h⟩ | ⟨h, _⟩
      · exact absurd z1.symm h
      · exact absurd z2.symm h
      · exact absurd z1.symm h
  subst hdd
  have he : ∀ s, getEscape args s = s := by
    intro s
    unfold getEscape
    cases h : args.output with
    | none => exact absurd h hf
    | some _ => rfl
  have hst : getMarkupStyle args false t = getMarkupStyle args true t := by
    simp [getMarkupStyle, hs]
  rw [e, m3, k3, he, he, hst]

-- Nothing of the parent is left: the merge shows the diff of the branches.
example : mergeTokenSequence .str "zz".toList "one two".toList "one 2".toList =
      .ok [.common "one ".toList, .change "two".toList "2".toList] ∧
    diffTokenSequences "one 2".toList "one two".toList =
      some [.common "one ".toList, .change "two".toList "2".toList] := by
  decide +kernel
-- Without a parent.
example : mergeTokenSequence .bytes [] [1, 2, 3] [1, 4, 3] =
      .ok [.common [1], .change [2] [4], .common [3]] ∧
    mergeTokenSequence .bytes [] [] [1, 4, 3] = .ok [.common [1, 4, 3]] := by decide +kernel
-- The branches keep different parts of the parent `abcd`.
example : diffTokenSequences "abcd".toList "xcd".toList = some [.change ['x'] ['a', 'b'], .common ['c', 'd']] ∧
    diffTokenSequences "abcd".toList "yb".toList = some [.change ['y'] ['a'], .common ['b'], .change [] ['c', 'd']] ∧
    mergeTokenSequence .str "abcd".toList "xcd".toList "yb".toList =
      .ok [.change ['x', 'c', 'd'] ['y', 'b']] := by decide +kernel
-- The two commands.
example : (mergeCli asciiWord pyIsSpace { lines := true, gitCompatible := true, output := some (cps "f") } {}
      (cps "p") (cps "c") (cps "o") (cps "z\n") (cps "a\nb\n") (cps "a\nc\n")).2 =
    (["a\n", "<<<<<<< c\nb\n", "=======\n", "c\n>>>>>>> o\n"].map cps, none) ∧
    (diffCli asciiWord pyIsSpace { lines := true, gitCompatible := true, output := some (cps "f") } {}
      (cps "o") (cps "c") (cps "a\nc\n") (cps "a\nb\n")).2 =
    (["a\n", "<<<<<<< c\nb\n", "=======\n", "c\n>>>>>>> o\n"].map cps, none) := by decide +kernel
-- If they begin with parts of the parent, this fails: text `z` of branch 1 is on both sides.
example : mergeTokenSequence .str "ab".toList "q".toList "azb".toList =
    .ok [.change ['q'] ['a'], .common ['z']] := by decide +kernel

end Gaspra
