import Verif.Proofs.TwoWay
import Verif.Props.DiffExact
import Verif.Props.Merge
import Verif.Props.Changesets
import Verif.Proofs.Anchor

/-!
# C133: one branch rewrites the text, the other one inserts something
-/

set_option linter.unusedSectionVars false
set_option linter.unusedSimpArgs false

namespace Gaspra

variable {α : Type _} [DecidableEq α]

/-- The merge in terms of the two diffs. -/
theorem merge_of_diffs (kind : Kind) {parent b0 b1 : List α} {d0 d1 : List (DiffItem α)}
    (h0 : diffTokenSequences parent b0 = some d0) (h1 : diffTokenSequences parent b1 = some d1)
    {out : List (MFragment α)}
    (h : mergeLoop (d0.length + d1.length) (d0.map toFrag) (d1.map toFrag) false = some out) :
    mergeTokenSequence kind parent b0 b1 = consolidate kind out := by
  obtain ⟨cs0, c0, k0, _, s0, _⟩ := merge_setup parent b0
  obtain ⟨cs1, c1, k1, _, s1, _⟩ := merge_setup parent b1
  rw [h0] at k0
  rw [h1] at k1
  injection k0 with k0
  injection k1 with k1
  rw [← k0] at s0
  rw [← k1] at s1
  simp only [mergeTokenSequence, c0, c1, s0, s1, List.length_map, h]

/-- A conflict between texts without a common token, followed by an insertion. -/
theorem consolidate_conflict_then (kind : Kind) {w x z d : List α} {n : Nat} (hx : w ≠ [] ∨ x ≠ [])
    (hw : ∀ t ∈ x, t ∉ w) (hz : z ≠ []) :
    consolidate kind [.conflict (.seq w) (.seq x), .input (.change z d n)] =
      .ok [.change w x, .common z] := by
  have js : ∀ l : List α, joinSides kind [.seq l] = .ok l := by
    intro l; rw [joinSides_ok (.inr (by simp))]; simp [Side.toList]
  obtain ⟨e, e1, e2, _⟩ := reSplit_diff w x
  have e3 : diffTokenSequences x w = some [.change w x] := by
    rw [C62_diff_exact]; exact .change (hx.symm) hw
  rw [e3] at e1
  cases e1
  have e4 : reSplit w x = .ok [.conflict (.seq w) (.seq x)] := e2
  have hb : bothEmpty w x = false := by
    cases hw' : w with
    | nil =>
      cases hx' : x with
      | nil => simp [hw', hx'] at hx
      | cons => rfl
    | cons => rfl
  have hz' : z.isEmpty = false := by cases z with
    | nil => exact absurd rfl hz
    | cons => rfl
  simp [consolidate, consolidateConflicts, consolidateAll, consolidateAllLoop, js, e4, hb, hz',
    List.takeWhile, List.dropWhile, MFragment.isConflict, MFragment.version1, MFragment.version2,
    MFragment.insert, Fragment.insert, bind, Except.bind, pure, Except.pure]

/-- Something appended is found as such. -/
theorem diff_append (p : List α) {z : List α} (hp : p ≠ []) (hz : z ≠ []) :
    diffTokenSequences p (p ++ z) = some [.common p, .change z []] := by
  rw [C62_diff_exact]
  have h := IsDiff.split (o1 := []) (o2 := []) (m1 := []) (m2 := z) (w := p) (d1 := [])
    (d2 := [.change z []]) hp
    (by
      rintro u ⟨⟨i, hi⟩, _⟩
      have := hi.bound
      simp at this
      omega)
    (by simp) (by simp) .empty (.change (.inr hz) (by simp))
  simpa using h

/-- Something put in front is found as such, if the text itself does not begin earlier in the new one. -/
theorem diff_prepend (p : List α) {z : List α} (hp : p ≠ []) (hz : z ≠ [])
    (hf : ∀ j, OccursAt (z ++ p) p j → z.length ≤ j) :
    diffTokenSequences p (z ++ p) = some [.change z [], .common p] := by
  rw [C62_diff_exact]
  have h := IsDiff.split (o1 := []) (o2 := []) (m1 := z) (m2 := []) (w := p) (d1 := [.change z []])
    (d2 := []) hp
    (by
      rintro u ⟨⟨i, hi⟩, _⟩
      have := hi.bound
      simp at this
      omega)
    (by
      rintro u j ⟨⟨i, pre, post, e, hi⟩, _⟩ hl hj
      have : pre = [] ∧ post = [] := by
        have := congrArg List.length e
        simp at this
        exact ⟨List.length_eq_zero_iff.1 (by omega), List.length_eq_zero_iff.1 (by omega)⟩
      simp [this.1, this.2] at e
      subst e
      exact hf j (by simpa using hj))
    (by simp) (.change (.inr hz) (by simp)) .empty
  simpa using h

/-- Where a substring of `x z y` can lie that has no token of `z` in it. -/
theorem occurs_around {x y z u : List α} {j : Nat} (hz : z ≠ []) (hd : ∀ t ∈ z, t ∉ u) (hu : u ≠ [])
    (h : OccursAt (x ++ z ++ y) u j) :
    (j + u.length ≤ x.length) ∨ (x.length + z.length ≤ j ∧ j + u.length ≤ x.length + z.length + y.length) := by
  have lz : 0 < z.length := List.length_pos_iff.2 hz
  have lu : 0 < u.length := List.length_pos_iff.2 hu
  have hb := h.bound
  simp only [List.length_append] at hb
  by_cases h1 : j + u.length ≤ x.length
  · exact .inl h1
  by_cases h2 : x.length + z.length ≤ j
  · exact .inr ⟨h2, hb⟩
  exfalso
  -- the position of a token of `z` inside `u`
  have key : ∀ k, k < u.length → x.length ≤ j + k → j + k < x.length + z.length → False := by
    intro k hk a b
    have g := occursAt_getElem h hk
    rw [List.append_assoc, List.getElem?_append_right a, List.getElem?_append_left (by omega)] at g
    have hm : z[j + k - x.length] ∈ u := by
      rw [List.getElem?_eq_getElem (by omega : j + k - x.length < z.length)] at g
      exact List.mem_of_getElem? g.symm
    exact hd _ (List.getElem_mem _) hm
  by_cases h3 : j < x.length
  · exact key (x.length - j) (by omega) (by omega) (by omega)
  · exact key 0 lu (by omega) (by omega)

/-- C133.  Something new in the middle is found as such. -/
theorem C133_found {x y z : List α} (hx : x ≠ []) (hy : y ≠ []) (hz : z ≠ [])
    (hn : ∀ t ∈ z, t ∉ x ++ y) (hf : ∀ i, OccursAt (x ++ y) y i → x.length ≤ i) :
    diffTokenSequences (x ++ y) (x ++ z ++ y) = some [.common x, .change z [], .common y] := by
  have around : ∀ {u j}, CommonSubstring (x ++ y) (x ++ z ++ y) u → u ≠ [] → OccursAt (x ++ z ++ y) u j →
      (j + u.length ≤ x.length) ∨
        (x.length + z.length ≤ j ∧ j + u.length ≤ x.length + z.length + y.length) := by
    rintro u j ⟨⟨i, hi⟩, _⟩ hu hj
    exact occurs_around hz (fun t ht hu' => hn t ht (hi.infix.subset hu')) hu hj
  have longest : ∀ u, CommonSubstring (x ++ y) (x ++ z ++ y) u → u.length ≤ max x.length y.length := by
    intro u h
    by_cases hu : u = []
    · simp [hu]
    obtain ⟨j, hj⟩ := h.2
    rcases around h hu hj with h | h <;> omega
  rw [C62_diff_exact]
  by_cases hl : y.length ≤ x.length
  · have a := diff_prepend y (z := z) hy hz (by
      intro j hj
      have g := occursAt_getElem hj (List.length_pos_iff.2 hy)
      by_cases hlt : z.length ≤ j
      · exact hlt
      · exfalso
        rw [Nat.add_zero, List.getElem?_append_left (by omega),
          List.getElem?_eq_getElem (by omega : j < z.length)] at g
        exact hn _ (List.getElem_mem _) (List.mem_append_right _ (List.mem_of_getElem? g.symm)))
    rw [C62_diff_exact] at a
    have h := IsDiff.split (o1 := []) (o2 := y) (m1 := []) (m2 := z ++ y) (w := x) (d1 := []) hx
      (by
        intro u h
        have := longest u (by simpa using h)
        omega)
      (by simp) (by simp) .empty a
    simpa using h
  · have a := diff_append x (z := z) hx hz
    rw [C62_diff_exact] at a
    have h := IsDiff.split (o1 := x) (o2 := []) (m1 := x ++ z) (m2 := []) (w := y) (d2 := []) hy
      (by
        intro u h
        have := longest u (by simpa using h)
        omega)
      (by
        intro u j h hlen hj
        have hu : u ≠ [] := by
          rintro rfl
          exact hy (List.length_eq_zero_iff.1 hlen.symm)
        rcases around (by simpa using h) hu (by simpa using hj) with h | h <;> simp <;> omega)
      (by
        intro i hi
        exact hf i (by simpa using hi)) a .empty
    simpa using h

/-- C133.  One branch rewrites all of the text `x y` and the other one inserts `z` between `x` and `y`:
the conflict has only `x` in it, `y` is dropped and `z` inserted, in both orders of the
branches; so if the rewriting branch comes second, the sides are exchanged. -/
theorem C133_inner (kind : Kind) {w x y z : List α} (hx : x ≠ []) (hy : y ≠ []) (hz : z ≠ [])
    (hw : ∀ t ∈ x ++ y, t ∉ w)
    (h : diffTokenSequences (x ++ y) (x ++ z ++ y) = some [.common x, .change z [], .common y]) :
    mergeTokenSequence kind (x ++ y) w (x ++ z ++ y) = .ok [.change w x, .common z] ∧
    mergeTokenSequence kind (x ++ y) (x ++ z ++ y) w = .ok [.change w x, .common z] := by
  have d0 : diffTokenSequences (x ++ y) w = some [.change w (x ++ y)] := by
    rw [C62_diff_exact]; exact .change (.inl (by simp [hx])) hw
  have lx : 0 < x.length := List.length_pos_iff.2 hx
  have ly : 0 < y.length := List.length_pos_iff.2 hy
  have lz : 0 < z.length := List.length_pos_iff.2 hz
  have hc := consolidate_conflict_then kind (w := w) (x := x) (z := z) (d := y) (n := y.length) (.inr hx)
    (fun t ht => hw t (by simp [ht])) hz
  have hs : splitChange w (x ++ y) (x ++ y).length w.length x.length =
      (some (.change w x x.length), some (.change [] y y.length)) := by
    have e1 : x.length > 0 ∨ w.length > 0 := .inl lx
    have e2 : x.length < x.length + y.length ∨ w.length < w.length := .inl (by omega)
    simp only [splitChange, e1, e2, if_true, List.take_length, List.drop_length, List.take_left',
      List.drop_left', List.length_append, Nat.add_sub_cancel_left]
  have c1 : copyChange x x.length w (x ++ y) (x ++ y).length =
      (some (.conflict (.seq w) (.seq x)), none, some (.change [] y y.length)) := by
    have e : min x.length (x ++ y).length = x.length := by simp
    have n : ¬ (x ++ y).length = x.length := by simp; exact hy
    simp only [copyChange, e, if_neg n, hs, Fragment.insert]
  have c3 : copyChange y y.length z y y.length = (some (.input (.change z y y.length)), none, none) := by
    simp [copyChange]
  have g : ¬ (y.length == 0) = true := by simp [hy]
  have p1 : processFragments (.change w (x ++ y) (x ++ y).length) (.copy x x.length) false =
      (some (.conflict (.seq w) (.seq x)), some (.change [] y y.length), none, false) := by
    simp only [processFragments, c1]; rfl
  have p2 : processFragments (.change [] y y.length) (.change z [] 0) false =
      (none, some (.change z y y.length), none, false) := by
    simp [processFragments, changeChange, hasComposable, hy]
  have p3 : processFragments (.change z y y.length) (.copy y y.length) false =
      (some (.input (.change z y y.length)), none, none, false) := by
    simp only [processFragments, c3]; rfl
  have q1 : processFragments (.copy x x.length) (.change w (x ++ y) (x ++ y).length) false =
      (some (.conflict (.seq w) (.seq x)), none, some (.change [] y y.length), false) := by
    simp only [processFragments, c1]; rfl
  have q2 : processFragments (.change z [] 0) (.change [] y y.length) false =
      (none, none, some (.change z y y.length), false) := by
    simp [processFragments, changeChange, hasComposable]
  have q3 : processFragments (.copy y y.length) (.change z y y.length) false =
      (some (.input (.change z y y.length)), none, none, false) := by
    simp only [processFragments, c3]; rfl
  refine ⟨(merge_of_diffs kind d0 h ?_).trans hc, (merge_of_diffs kind h d0 ?_).trans hc⟩
  · simp only [List.map_cons, List.map_nil, toFrag, List.length_cons, List.length_nil, Nat.zero_add,
      Nat.reduceAdd, mergeLoop, p1, p2, p3, Option.toList_none, Option.toList_some, List.nil_append,
      List.cons_append]
  · simp only [List.map_cons, List.map_nil, toFrag, List.length_cons, List.length_nil, Nat.zero_add,
      Nat.reduceAdd, mergeLoop, q1, q2, q3, Option.toList_none, Option.toList_some, List.nil_append,
      List.cons_append]

/-- C133.  At the end of the text the insertion is no conflict: the merge is the rewritten text followed
by what was appended. -/
theorem C133_end (kind : Kind) {w p z : List α} (hp : p ≠ []) (hz : z ≠ []) (hw : ∀ t ∈ p, t ∉ w) :
    mergeTokenSequence kind p w (p ++ z) = .ok [.common (w ++ z)] ∧
    mergeTokenSequence kind p (p ++ z) w = .ok [.common (w ++ z)] := by
  have h := diff_append p hp hz
  have d0 : diffTokenSequences p w = some [.change w p] := by
    rw [C62_diff_exact]; exact .change (.inl hp) hw
  have c3 : copyChange p p.length w p p.length = (some (.input (.change w p p.length)), none, none) := by
    simp [copyChange]
  have p1 : processFragments (.change w p p.length) (.copy p p.length) false =
      (some (.input (.change w p p.length)), none, none, false) := by
    simp only [processFragments, c3]; rfl
  have q1 : processFragments (.copy p p.length) (.change w p p.length) false =
      (some (.input (.change w p p.length)), none, none, false) := by
    simp only [processFragments, c3]; rfl
  have j0 : joinSides kind ([] : List (Side α)) = .ok [] := by
    rw [joinSides_ok (.inr (by simp))]; rfl
  have js : joinSides kind [.seq w, .seq z] = .ok (w ++ z) := by
    rw [joinSides_ok (.inr (by simp))]; simp [Side.toList]
  have e4 : reSplit ([] : List α) [] = .ok [] := by
    obtain ⟨e, e1, e2, _⟩ := reSplit_diff ([] : List α) []
    rw [show diffTokenSequences ([] : List α) [] = some [] by rw [C62_diff_exact]; exact .empty] at e1
    cases e1
    exact e2
  have hne : (w ++ z).isEmpty = false := by
    cases e : w ++ z with
    | nil => exact absurd (List.append_eq_nil_iff.1 e).2 hz
    | cons => rfl
  have hc : consolidate kind [.input (.change w p p.length), .input (.change z [] 0)] =
      .ok [.common (w ++ z)] := by
    simp [consolidate, consolidateConflicts, consolidateAll, consolidateAllLoop, j0, js, e4, hne, bothEmpty,
      List.takeWhile, List.dropWhile, MFragment.isConflict, MFragment.version1, MFragment.version2,
      MFragment.insert, Fragment.insert, bind, Except.bind, pure, Except.pure]
  refine ⟨(merge_of_diffs kind d0 h ?_).trans hc, (merge_of_diffs kind h d0 ?_).trans hc⟩
  · simp [toFrag, mergeLoop, p1, flushRemaining]
  · simp [toFrag, mergeLoop, q1, flushRemaining]

/-- C133.  At the start of the text everything is in conflict: the merge is the diff between the branches.
Only if the other branch deletes the text, what was inserted is the merge. -/
theorem C133_start (kind : Kind) {w p z : List α} (hp : p ≠ []) (hz : z ≠ [])
    (hw : ∀ t ∈ p, t ∉ w)
    (hf : ∀ j, OccursAt (z ++ p) p j → z.length ≤ j) :
    (w ≠ [] →
      (∃ d, diffTokenSequences (z ++ p) w = some d ∧ mergeTokenSequence kind p w (z ++ p) = .ok d) ∧
      ∃ d, diffTokenSequences w (z ++ p) = some d ∧ mergeTokenSequence kind p (z ++ p) w = .ok d) ∧
    (w = [] → mergeTokenSequence kind p w (z ++ p) = .ok [.common z] ∧
      mergeTokenSequence kind p (z ++ p) w = .ok [.common z]) := by
  have h := diff_prepend p hp hz hf
  have d0 : diffTokenSequences p w = some [.change w p] := by
    rw [C62_diff_exact]; exact .change (.inl hp) hw
  have lp : 0 < p.length := List.length_pos_iff.2 hp
  have lz : 0 < z.length := List.length_pos_iff.2 hz
  refine ⟨fun hne => ?_, fun he => ?_⟩
  · have lw : 0 < w.length := List.length_pos_iff.2 hne
    have p1 : processFragments (.change w p p.length) (.change z [] 0) false =
        (some (.conflict (.seq w) (.seq z)), some (.change [] p p.length), none, true) := by
      have a : hasComposable w p.length z 0 = false := by
        simp [hasComposable, hp, hne]
      have b : areIdentical w p p.length z [] 0 = false := by
        simp [areIdentical, hp]
      simp [processFragments, changeChange, a, b, ordinaryConflict, splitChange, lp, lw, lz, Fragment.insert]
    have p2 : processFragments (.change [] p p.length) (.copy p p.length) true =
        (some (.conflict (.seq []) (.seq p)), none, none, true) := by
      simp [processFragments, pendingConflict, splitFragment, splitChange, splitCopy, insertOrLit, lp,
        Fragment.insert, Fragment.length]
    have q1 : processFragments (.change z [] 0) (.change w p p.length) false =
        (some (.conflict (.seq z) (.seq w)), none, some (.change [] p p.length), true) := by
      have a : hasComposable z 0 w p.length = false := by
        simp [hasComposable, hp, hne]
      have b : areIdentical z [] 0 w p p.length = false := by
        simp [areIdentical]
        intros
        omega
      simp [processFragments, changeChange, a, b, ordinaryConflict, splitChange, lp, lw, lz, Fragment.insert]
    have q2 : processFragments (.copy p p.length) (.change [] p p.length) true =
        (some (.conflict (.seq p) (.seq [])), none, none, true) := by
      simp [processFragments, pendingConflict, splitFragment, splitChange, splitCopy, insertOrLit, lp,
        Fragment.insert, Fragment.length]
    refine ⟨?_, ?_⟩
    rotate_left
    · obtain ⟨d, r1, r2⟩ := consolidate_conflicts (kind := kind)
        (L := [.conflict (.seq z) (.seq w), .conflict (.seq p) (.seq [])])
        (by simp) (by simp [MFragment.isConflict]) (.inr (by simp [MFragment.noLit]))
      simp only [List.flatMap_cons, List.flatMap_nil, MFragment.version1, MFragment.version2, Side.toList,
        List.append_nil] at r1
      refine ⟨d, r1, (merge_of_diffs kind h d0 ?_).trans (r2.trans ?_)⟩
      · simp [toFrag, mergeLoop, q1, q2]
      · cases d with
        | cons => rfl
        | nil =>
          obtain ⟨d', h1, h2, _⟩ := C09_diff_reconstructs w (z ++ p)
          rw [r1] at h1
          cases h1
          simp [intoText] at h2
          exact absurd h2.1 hz
    obtain ⟨d, r1, r2⟩ := consolidate_conflicts (kind := kind)
      (L := [.conflict (.seq w) (.seq z), .conflict (.seq []) (.seq p)])
      (by simp) (by simp [MFragment.isConflict]) (.inr (by simp [MFragment.noLit]))
    simp only [List.flatMap_cons, List.flatMap_nil, MFragment.version1, MFragment.version2, Side.toList,
      List.append_nil] at r1
    refine ⟨d, r1, (merge_of_diffs kind d0 h ?_).trans (r2.trans ?_)⟩
    · simp [toFrag, mergeLoop, p1, p2]
    · cases d with
      | cons => rfl
      | nil =>
        obtain ⟨d', h1, h2, _⟩ := C09_diff_reconstructs (z ++ p) w
        rw [r1] at h1
        cases h1
        simp [intoText] at h2
        exact absurd h2 hne
  · subst he
    have p1 : processFragments (.change [] p p.length) (.change z [] 0) false =
        (none, some (.change z p p.length), none, false) := by
      simp [processFragments, changeChange, hasComposable, hp]
    have c3 : copyChange p p.length z p p.length = (some (.input (.change z p p.length)), none, none) := by
      simp [copyChange]
    have p3 : processFragments (.change z p p.length) (.copy p p.length) false =
        (some (.input (.change z p p.length)), none, none, false) := by
      simp only [processFragments, c3]; rfl
    have j0 : joinSides kind ([] : List (Side α)) = .ok [] := by
      rw [joinSides_ok (.inr (by simp))]; rfl
    have js : joinSides kind [.seq z] = .ok z := by
      rw [joinSides_ok (.inr (by simp))]; simp [Side.toList]
    have e4 : reSplit ([] : List α) [] = .ok [] := by
      obtain ⟨e, e1, e2, _⟩ := reSplit_diff ([] : List α) []
      rw [show diffTokenSequences ([] : List α) [] = some [] by rw [C62_diff_exact]; exact .empty] at e1
      cases e1
      exact e2
    have hne : z.isEmpty = false := by
      cases z with
      | nil => exact absurd rfl hz
      | cons => rfl
    have hc : consolidate kind [.input (.change z p p.length)] = .ok [.common z] := by
      simp [consolidate, consolidateConflicts, consolidateAll, consolidateAllLoop, j0, js, e4, hne, bothEmpty,
        List.takeWhile, List.dropWhile, MFragment.isConflict, MFragment.version1, MFragment.version2,
        MFragment.insert, Fragment.insert, bind, Except.bind, pure, Except.pure]
    have q1 : processFragments (.change z [] 0) (.change [] p p.length) false =
        (none, none, some (.change z p p.length), false) := by
      simp [processFragments, changeChange, hasComposable]
    have q3 : processFragments (.copy p p.length) (.change z p p.length) false =
        (some (.input (.change z p p.length)), none, none, false) := by
      simp only [processFragments, c3]; rfl
    refine ⟨(merge_of_diffs kind d0 h ?_).trans hc, (merge_of_diffs kind h d0 ?_).trans hc⟩
    · simp [toFrag, mergeLoop, p1, p3]
    · simp [toFrag, mergeLoop, q1, q3]

-- One branch writes "q", the other one "abzcd": "cd" is dropped, and the second order says that
-- "abzcd" was the branch with "q".
example : mergeTokenSequence .str "abcd".toList "q".toList "abzcd".toList =
    .ok [.change "q".toList "ab".toList, .common "z".toList] := by decide +kernel
example : mergeTokenSequence .str "abcd".toList "abzcd".toList "q".toList =
    .ok [.change "q".toList "ab".toList, .common "z".toList] := by decide +kernel
example : diffTokenSequences "abcd".toList "abzcd".toList =
    some [.common "ab".toList, .change "z".toList [], .common "cd".toList] := by decide +kernel
-- One branch empties the text, the other one inserts in the middle: half of the text is in conflict.
example : mergeTokenSequence .str "abcd".toList [] "abzcd".toList =
    .ok [.change [] "ab".toList, .common "z".toList] := by decide +kernel
-- At the end the same edits do not conflict at all, at the start all of the text does.
example : mergeTokenSequence .str "abcd".toList "q".toList "abcdz".toList =
    .ok [.common "qz".toList] := by decide +kernel
example : mergeTokenSequence .str "abcd".toList "q".toList "zabcd".toList =
    .ok [.change "q".toList "zabcd".toList] := by decide +kernel
example : mergeTokenSequence .str "abcd".toList [] "zabcd".toList =
    .ok [.common "z".toList] := by decide +kernel
-- Without the condition on `y` another diff is found: "aa" begins earlier in "aaa".
example : diffTokenSequences "aaa".toList "azaa".toList =
    some [.change "az".toList [], .common "aa".toList, .change [] "a".toList] := by decide +kernel
-- The conditions of `C133_found` and `C133_inner` are met by these texts.
example : mergeTokenSequence .bytes [1, 2, 3, 4] [7] [1, 2, 9, 3, 4] = .ok [.change [7] [1, 2], .common [9]] :=
  (C133_inner (x := [1, 2]) (y := [3, 4]) (z := [9]) .bytes (by decide) (by decide) (by decide) (by decide)
    (by decide +kernel)).1

/-- Insertions between the pieces of a text, as items of a diff. -/
def insertionItems (l : List (List α × List α)) : List (DiffItem α) :=
  l.flatMap fun zc => [.change zc.1 [], .common zc.2]

theorem copyChange_longer {c i q : List α} (hc : c ≠ []) (hq : q ≠ []) :
    copyChange c c.length i (c ++ q) (c ++ q).length =
      (some (.conflict (.seq i) (.seq c)), none, some (.change [] q q.length)) := by
  have lc : 0 < c.length := List.length_pos_iff.2 hc
  have lq : 0 < q.length := List.length_pos_iff.2 hq
  have hs : splitChange i (c ++ q) (c ++ q).length i.length c.length =
      (some (.change i c c.length), some (.change [] q q.length)) := by
    have e1 : c.length > 0 ∨ i.length > 0 := .inl lc
    have e2 : c.length < c.length + q.length ∨ i.length < i.length := .inl (by omega)
    simp only [splitChange, e1, e2, if_true, List.take_length, List.drop_length, List.take_left',
      List.drop_left', List.length_append, Nat.add_sub_cancel_left]
  have e : min c.length (c ++ q).length = c.length := by simp
  have n : ¬ (c ++ q).length = c.length := by simp; exact hq
  simp only [copyChange, e, if_neg n, hs, Fragment.insert]

/-- What the loop of the merge makes of a rewritten text and insertions. -/
def insertionConflicts (i c : List α) : List (List α × List α) → List (MFragment α)
  | [] => [.conflict (.seq i) (.seq c)]
  | zc :: l => .conflict (.seq i) (.seq c) :: insertionConflicts zc.1 zc.2 l

theorem mergeLoop_insertions {y e : List α} {T : List (DiffItem α)} (he : e ≠ []) :
    ∀ (l : List (List α × List α)) (i c : List α) (f : Nat), c ≠ [] → (∀ zc ∈ l, zc.2 ≠ []) →
      2 * l.length + 3 ≤ f →
      mergeLoop f [.change i (c ++ (l.flatMap (·.2) ++ e)) (c ++ (l.flatMap (·.2) ++ e)).length]
        ((DiffItem.common c :: (insertionItems l ++ .change y [] :: .common e :: T)).map toFrag) false =
        some (insertionConflicts i c l ++ .input (.change y e e.length) :: T.map (fun x => .input (toFrag x))) ∧
      mergeLoop f ((DiffItem.common c :: (insertionItems l ++ .change y [] :: .common e :: T)).map toFrag)
        [.change i (c ++ (l.flatMap (·.2) ++ e)) (c ++ (l.flatMap (·.2) ++ e)).length] false =
        some (insertionConflicts i c l ++ .input (.change y e e.length) :: T.map (fun x => .input (toFrag x)))
  | [], i, c, f, hc, _, hf => by
    obtain ⟨f, rfl⟩ : ∃ g, f = g + 3 := ⟨f - 3, by simp at hf; omega⟩
    have c1 := copyChange_longer (i := i) hc he
    have c3 : copyChange e e.length y e e.length = (some (.input (.change y e e.length)), none, none) := by
      simp [copyChange]
    have p1 : processFragments (.change i (c ++ e) (c ++ e).length) (.copy c c.length) false =
        (some (.conflict (.seq i) (.seq c)), some (.change [] e e.length), none, false) := by
      simp only [processFragments, c1]; rfl
    have p2 : processFragments (.change [] e e.length) (.change y [] 0) false =
        (none, some (.change y e e.length), none, false) := by
      simp [processFragments, changeChange, hasComposable, he]
    have p3 : processFragments (.change y e e.length) (.copy e e.length) false =
        (some (.input (.change y e e.length)), none, none, false) := by
      simp only [processFragments, c3]; rfl
    have q1 : processFragments (.copy c c.length) (.change i (c ++ e) (c ++ e).length) false =
        (some (.conflict (.seq i) (.seq c)), none, some (.change [] e e.length), false) := by
      simp only [processFragments, c1]; rfl
    have q2 : processFragments (.change y [] 0) (.change [] e e.length) false =
        (none, none, some (.change y e e.length), false) := by
      simp [processFragments, changeChange, hasComposable]
    have q3 : processFragments (.copy e e.length) (.change y e e.length) false =
        (some (.input (.change y e e.length)), none, none, false) := by
      simp only [processFragments, c3]; rfl
    have fl : mergeLoop f [] (T.map toFrag) false = some (T.map fun x => .input (toFrag x)) := by
      cases T with
      | nil => cases f <;> rfl
      | cons x T => cases f <;> simp [mergeLoop, flushRemaining]
    have fr : mergeLoop f (T.map toFrag) [] false = some (T.map fun x => .input (toFrag x)) := by
      cases T with
      | nil => cases f <;> rfl
      | cons x T => cases f <;> simp [mergeLoop, flushRemaining]
    simp only [List.flatMap_nil, List.nil_append, insertionItems, List.map_cons, toFrag, mergeLoop, p1, p2, p3,
      q1, q2, q3, fl, fr, List.length_nil, Option.toList_none, Option.toList_some, List.cons_append,
      insertionConflicts, and_self]
  | (z, c') :: l, i, c, f, hc, hl, hf => by
    simp only [List.length_cons] at hf
    obtain ⟨f, rfl⟩ : ∃ g, f = g + 2 := ⟨f - 2, by omega⟩
    have hc' : c' ≠ [] := hl (z, c') (by simp)
    have ih := mergeLoop_insertions (y := y) (T := T) he l z c' f hc' (fun zc h => hl zc (by simp [h]))
      (by omega)
    generalize hq : c' ++ (l.flatMap (·.2) ++ e) = q at ih
    have hqn : q ≠ [] := by rw [← hq]; simp [hc']
    have c1 := copyChange_longer (i := i) hc hqn
    have p1 : processFragments (.change i (c ++ q) (c ++ q).length) (.copy c c.length) false =
        (some (.conflict (.seq i) (.seq c)), some (.change [] q q.length), none, false) := by
      simp only [processFragments, c1]; rfl
    have p2 : processFragments (.change [] q q.length) (.change z [] 0) false =
        (none, some (.change z q q.length), none, false) := by
      simp [processFragments, changeChange, hasComposable, hqn]
    have q1 : processFragments (.copy c c.length) (.change i (c ++ q) (c ++ q).length) false =
        (some (.conflict (.seq i) (.seq c)), none, some (.change [] q q.length), false) := by
      simp only [processFragments, c1]; rfl
    have q2 : processFragments (.change z [] 0) (.change [] q q.length) false =
        (none, none, some (.change z q q.length), false) := by
      simp [processFragments, changeChange, hasComposable]
    have ii : insertionItems ((z, c') :: l) = .change z [] :: .common c' :: insertionItems l := by
      simp [insertionItems]
    have ef : ((z, c') :: l).flatMap (·.2) ++ e = q := by
      rw [List.flatMap_cons, List.append_assoc]; exact hq
    simp only [List.map_cons, toFrag, List.map_append, List.length_nil] at ih
    simp only [ef, ii, List.cons_append, List.map_cons, List.map_append, toFrag, mergeLoop, p1, p2, q1, q2,
      List.length_nil, Option.toList_none, Option.toList_some, List.nil_append, insertionConflicts, ih.1, ih.2,
      and_self]

theorem insertionConflicts_sides : ∀ (l : List (List α × List α)) (i c : List α),
    (insertionConflicts i c l).flatMap (·.version1.toList) = i ++ l.flatMap (·.1) ∧
    (insertionConflicts i c l).flatMap (·.version2.toList) = c ++ l.flatMap (·.2) ∧
    (∀ x ∈ insertionConflicts i c l, x.isConflict = true) ∧
    Side.strLit ∉ (insertionConflicts i c l).map (·.version1) ∧
    Side.strLit ∉ (insertionConflicts i c l).map (·.version2)
  | [], i, c => by simp [insertionConflicts, MFragment.version1, MFragment.version2, Side.toList,
      MFragment.isConflict]
  | zc :: l, i, c => by
    obtain ⟨h1, h2, h3, h4, h5⟩ := insertionConflicts_sides l zc.1 zc.2
    simp only [insertionConflicts, List.flatMap_cons, h1, h2, List.map_cons, List.mem_cons, not_or,
      forall_eq_or_imp, h4, h5]
    refine ⟨rfl, rfl, ⟨rfl, h3⟩, ⟨?_, fun h => h⟩, ?_, fun h => h⟩ <;> simp [MFragment.version1, MFragment.version2]

/-- Conflicts between texts without a common token, followed by insertions. -/
theorem consolidate_conflicts_then (kind : Kind) {L R : List (MFragment α)} {w x z : List α}
    (hx : w ≠ [] ∨ x ≠ []) (hw : ∀ t ∈ x, t ∉ w) (hz : z ≠ []) (hL : L ≠ [])
    (h1 : L.flatMap (·.version1.toList) = w) (h2 : L.flatMap (·.version2.toList) = x)
    (h3 : ∀ x ∈ L, x.isConflict = true) (h4 : Side.strLit ∉ L.map (·.version1))
    (h5 : Side.strLit ∉ L.map (·.version2)) (hR : ∀ x ∈ R, x.isConflict = false)
    (hj : joinSides kind (R.map (·.insert)) = .ok z) :
    consolidate kind (L ++ R) = .ok [.change w x, .common z] := by
  have j1 : joinSides kind (L.map (·.version1)) = .ok w := by
    rw [joinSides_ok (.inr h4), List.flatMap_map, h1]
  have j2 : joinSides kind (L.map (·.version2)) = .ok x := by
    rw [joinSides_ok (.inr h5), List.flatMap_map, h2]
  have js : ∀ l : List α, joinSides kind [.seq l] = .ok l := by
    intro l; rw [joinSides_ok (.inr (by simp))]; simp [Side.toList]
  obtain ⟨e, e1, e2, _⟩ := reSplit_diff w x
  have e3 : diffTokenSequences x w = some [.change w x] := by
    rw [C62_diff_exact]; exact .change (hx.symm) hw
  rw [e3] at e1
  cases e1
  have e4 : reSplit w x = .ok [.conflict (.seq w) (.seq x)] := e2
  have hb : bothEmpty w x = false := by
    cases hw' : w with
    | nil =>
      cases hx' : x with
      | nil => simp [hw', hx'] at hx
      | cons => rfl
    | cons => rfl
  have hz' : z.isEmpty = false := by cases z with
    | nil => exact absurd rfl hz
    | cons => rfl
  have tR : ∀ R : List (MFragment α), (∀ x ∈ R, x.isConflict = false) →
      R.takeWhile (fun f => !f.isConflict) = R ∧ R.dropWhile (fun f => !f.isConflict) = [] ∧
      R.takeWhile (·.isConflict) = [] ∧ R.dropWhile (·.isConflict) = R := by
    intro R hR
    induction R with
    | nil => simp
    | cons r R ih =>
      have hr := hR r (by simp)
      obtain ⟨a, b, _, _⟩ := ih fun y hy => hR y (by simp [hy])
      simp [List.takeWhile_cons, List.dropWhile_cons, hr, a, b]
  obtain ⟨r1, r2, r3, r4⟩ := tR R hR
  have tL : (L ++ R).takeWhile (·.isConflict) = L ∧ (L ++ R).dropWhile (·.isConflict) = R := by
    clear hL h1 h2 h4 h5 j1 j2
    induction L with
    | nil => exact ⟨r3, r4⟩
    | cons a L ih =>
      have ha := h3 a (by simp)
      obtain ⟨p, q⟩ := ih fun y hy => h3 y (by simp [hy])
      simp [List.takeWhile_cons, List.dropWhile_cons, ha, p, q]
  have cc : consolidateConflicts kind (L ++ R).length (L ++ R) =
      .ok (.conflict (.seq w) (.seq x) :: R) := by
    cases L with
    | nil => exact absurd rfl hL
    | cons a L =>
      simp only [List.cons_append] at tL
      simp only [List.cons_append, List.length_cons, consolidateConflicts, tL.1, tL.2, j1, j2, e4, r1, r2,
        bind, Except.bind, pure, Except.pure]
      cases (L ++ R).length <;> simp [consolidateConflicts]
  have hc : (MFragment.conflict (.seq w) (.seq x)).isConflict = true := rfl
  have ca : consolidateAllLoop kind (MFragment.conflict (.seq w) (.seq x) :: R).length
      (.conflict (.seq w) (.seq x) :: R) = .ok [.change w x, .common z] := by
    simp only [List.length_cons, consolidateAllLoop, List.takeWhile_cons, List.dropWhile_cons, hc, if_true, r3,
      r4, r1, r2, List.map_cons, List.map_nil, MFragment.version1, MFragment.version2, js, hj, hb, hz',
      bind, Except.bind, pure, Except.pure]
    cases R.length <;> simp [consolidateAllLoop]
  simp only [consolidate, consolidateAll, cc, ca, bind, Except.bind, pure, Except.pure]
  rfl

/-- C133.  The same for any number of insertions of something new behind the start of the text. -/
theorem C133_insertions (kind : Kind) {w b c y e t : List α} (l : List (List α × List α))
    (hw : ∀ u ∈ c ++ (l.flatMap (·.2) ++ e), u ∉ w)
    (hn : ∀ zc ∈ l, ∀ u ∈ c ++ (l.flatMap (·.2) ++ e), u ∉ zc.1)
    (h : diffTokenSequences (c ++ (l.flatMap (·.2) ++ e)) b =
      some (.common c :: (insertionItems l ++ .change y [] :: .common e ::
        (if t = [] then [] else [.change t []])))) :
    mergeTokenSequence kind (c ++ (l.flatMap (·.2) ++ e)) w b =
      .ok [.change (w ++ l.flatMap (·.1)) (c ++ l.flatMap (·.2)), .common (y ++ t)] ∧
    mergeTokenSequence kind (c ++ (l.flatMap (·.2) ++ e)) b w =
      .ok [.change (w ++ l.flatMap (·.1)) (c ++ l.flatMap (·.2)), .common (y ++ t)] := by
  have hnorm : ∀ x ∈ (.common c :: (insertionItems l ++ .change y [] :: .common e ::
      (if t = [] then [] else [.change t []])) : List (DiffItem α)), x.Normal := by
    obtain ⟨d, h1, h2, _⟩ := C12_diff_normal_form (c ++ (l.flatMap (·.2) ++ e)) b
    rw [h] at h1
    cases h1
    exact h2
  have hc : c ≠ [] := hnorm (.common c) (by simp)
  have he : e ≠ [] := hnorm (.common e) (by simp)
  have hy : y ≠ [] := by
    have := (hnorm (.change y []) (by simp)).1
    simpa using this
  have hl : ∀ zc ∈ l, zc.2 ≠ [] := by
    intro zc hz
    refine hnorm (.common zc.2) ?_
    simp only [List.mem_cons, List.mem_append, insertionItems, List.mem_flatMap]
    exact .inr (.inl ⟨zc, hz, by simp⟩)
  have lc : 0 < c.length := List.length_pos_iff.2 hc
  have d0 : diffTokenSequences (c ++ (l.flatMap (·.2) ++ e)) w =
      some [.change w (c ++ (l.flatMap (·.2) ++ e))] := by
    rw [C62_diff_exact]; exact .change (.inl (by simp [hc])) hw
  have hlen : (insertionItems l).length = 2 * l.length := by
    clear hw hn h hnorm hl d0
    induction l with
    | nil => rfl
    | cons zc l ih => simp [insertionItems] at ih ⊢; omega
  obtain ⟨s1, s2, s3, s4, s5⟩ := insertionConflicts_sides l w c
  have hL : insertionConflicts w c l ≠ [] := by cases l <;> simp [insertionConflicts]
  have hco := consolidate_conflicts_then kind (L := insertionConflicts w c l)
    (R := .input (.change y e e.length) ::
      (if t = [] then [] else [DiffItem.change t []]).map (fun x => .input (toFrag x)))
    (w := w ++ l.flatMap (·.1)) (x := c ++ l.flatMap (·.2)) (z := y ++ t)
    (.inr (by simp [hc]))
    (by
      intro u hu hm
      have hu' : u ∈ c ++ (l.flatMap (·.2) ++ e) := by
        rw [← List.append_assoc]
        exact List.mem_append_left _ hu
      rcases List.mem_append.1 hm with hm | hm
      · exact hw u hu' hm
      · obtain ⟨zc, hz, hm⟩ := List.mem_flatMap.1 hm
        exact hn zc hz u hu' hm)
    (by simp [hy]) hL s1 s2 s3 s4 s5
    (by
      by_cases ht : t = [] <;> simp [ht, MFragment.isConflict])
    (by
      rw [joinSides_ok (.inr (by by_cases ht : t = [] <;> simp [ht, MFragment.insert]))]
      by_cases ht : t = [] <;> simp [ht, MFragment.insert, Fragment.insert, toFrag, Side.toList])
  constructor
  · refine (merge_of_diffs kind d0 h ?_).trans hco
    exact (mergeLoop_insertions he l w c _ hc hl (by simp [hlen] <;> omega)).1
  · refine (merge_of_diffs kind h d0 ?_).trans hco
    exact (mergeLoop_insertions he l w c _ hc hl (by simp [hlen] <;> omega)).2

-- The first branch empties the text and the second one inserts "x" and "y": the text "x" of the second
-- branch is on the side of the first one, against text that the second one did not change.
example : mergeTokenSequence .str "abcdef".toList [] "abxcdyef".toList =
    .ok [.change "x".toList "abcd".toList, .common "y".toList] := by decide +kernel
example : mergeTokenSequence .str "abcdef".toList "q".toList "abxcdyefz".toList =
    .ok [.change "qx".toList "abcd".toList, .common "yz".toList] := by decide +kernel
example : mergeTokenSequence .bytes [1, 2, 3] [9] [1, 7, 2, 8, 3, 6] =
    .ok [.change [9, 7] [1, 2], .common [8, 6]] :=
  (C133_insertions (c := [1]) (e := [3]) (y := [8]) (t := [6]) .bytes [([7], [2])] (by decide) (by decide)
    (by decide +kernel)).1

end Gaspra
