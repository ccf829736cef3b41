import Verif.Props.MixedStretch
import Verif.Proofs.AnchorMerge

/-!
# C137: resolving the conflicts of a merge to one side
-/

set_option linter.unusedSectionVars false
set_option linter.unusedSimpArgs false

namespace Gaspra

variable {α : Type _} [DecidableEq α]

/-- The parent with the edits of both branches at their positions, where those of `es` count if both change
something at the same place. -/
def resolvedText (parent : List α) (es es' : List (Edit α)) : List α :=
  weave (fun g => if es.any (fun e => e.start == g) then insertedAt es g else insertedAt es' g)
    (fun g => !deletes es g && !deletes es' g) 0 parent

/-- The text of `resolvedText` from a position on. -/
def resolvedFrom (pos : Nat) (parent : List α) (es es' : List (Edit α)) : List α :=
  weave (fun g => if es.any (fun e => e.start == g) then insertedAt es g else insertedAt es' g)
    (fun g => !deletes es g && !deletes es' g) pos parent

theorem editsOf_LB : ∀ (d : List (DiffItem α)) (k : Nat), LB k (editsOf k d) := by
  intro d
  induction d with
  | nil => intro k e he; simp [editsOf] at he
  | cons x d ih =>
    intro k
    match x with
    | .common c => exact (ih (k + c.length)).mono (by omega)
    | .change z o =>
      intro e he
      simp only [editsOf, List.mem_cons] at he
      rcases he with rfl | he
      · exact ⟨Nat.le_refl _, by simp⟩
      · exact (ih (k + o.length)).mono (by omega) e he

theorem any_start_lt {k g : Nat} {es : List (Edit α)} (h : LB k es) (hg : g < k) :
    (es.any fun e => e.start == g) = false := by
  rw [List.any_eq_false]
  intro e he
  have := (h e he).1
  simp
  omega

theorem not_any_start {g : Nat} {es : List (Edit α)} (h : ¬ (es.any fun e => e.start == g) = true) :
    insertedAt es g = [] := by
  refine insertedAt_none fun e he hs => h ?_
  rw [List.any_eq_true]
  exact ⟨e, he, by simp [hs]⟩

theorem resolvedFrom_common {pos : Nat} {c parent : List α} {es es' : List (Edit α)}
    (h : LB (pos + c.length) es) (h' : LB (pos + c.length) es') :
    resolvedFrom pos (c ++ parent) es es' = c ++ resolvedFrom (pos + c.length) parent es es' := by
  refine weave_keep parent c pos fun g _ hg => ?_
  simp only [any_start_lt h hg, deletes_lt h hg, deletes_lt h' hg, insertedAt_lt h' hg]
  simp

theorem resolvedFrom_first {pos : Nat} {z o parent : List α} {es es' : List (Edit α)}
    (h : LB (pos + o.length) es) (h' : LB (pos + o.length) es') (hs : o = [] → LB (pos + 1) es') :
    resolvedFrom pos (o ++ parent) (⟨pos, pos + o.length, z⟩ :: es) es' =
      z ++ resolvedFrom (pos + o.length) parent es es' := by
  refine weave_edit parent pos ?_ ?_ ?_ ?_ ?_
  · by_cases ho : o = []
    · have := insertedAt_lt (hs ho) (Nat.lt_succ_self pos)
      simp only [List.any_cons, BEq.rfl, Bool.true_or, if_true, insertedAt_cons, ho, this]
      by_cases ha : (es.any fun e => e.start == pos) = true
      · simp [ha]
      · simp [ha, not_any_start ha]
    · have : 0 < o.length := List.length_pos_iff.2 ho
      simp [insertedAt_cons, ho, insertedAt_lt h (show pos < pos + o.length by omega)]
  · intro g h1 h2
    have e : (pos == g) = false := by simp; omega
    simp only [List.any_cons, e, any_start_lt h h2, insertedAt_lt h' h2]
    simp
  · intro g h1 h2
    simp [deletes_head h1 h2]
  · intro g h1 h2
    have e : (pos == g) = false := by simp; omega
    have e' : ¬ pos = g := by omega
    simp [e, e', insertedAt_cons]
  · intro g hg
    simp only [deletes_le_start z o.length hg]

theorem resolvedFrom_second {pos : Nat} {z o parent : List α} {es es' : List (Edit α)}
    (h : LB (pos + o.length) es) (h' : LB (pos + o.length) es') (hs : LB (pos + 1) es) :
    resolvedFrom pos (o ++ parent) es (⟨pos, pos + o.length, z⟩ :: es') =
      z ++ resolvedFrom (pos + o.length) parent es es' := by
  refine weave_edit parent pos ?_ ?_ ?_ ?_ ?_
  · have a := any_start_lt hs (Nat.lt_succ_self pos)
    by_cases ho : o = []
    · simp [a, insertedAt_cons, ho]
    · have : 0 < o.length := List.length_pos_iff.2 ho
      simp [a, insertedAt_cons, ho, insertedAt_lt h' (show pos < pos + o.length by omega)]
  · intro g h1 h2
    have e' : ¬ pos = g := by omega
    simp [any_start_lt h h2, insertedAt_cons, insertedAt_lt h' h2, e']
  · intro g h1 h2
    simp [deletes_head h1 h2]
  · intro g h1 h2
    have e' : ¬ pos = g := by omega
    simp [e', insertedAt_cons]
  · intro g hg
    simp only [deletes_le_start z o.length hg]

theorem resolvedFrom_both {pos : Nat} {z z' o parent : List α} {es es' : List (Edit α)}
    (h : LB (pos + o.length) es) (h' : LB (pos + o.length) es') (hs : o = [] → LB (pos + 1) es') :
    resolvedFrom pos (o ++ parent) (⟨pos, pos + o.length, z⟩ :: es) (⟨pos, pos + o.length, z'⟩ :: es') =
      z ++ resolvedFrom (pos + o.length) parent es es' := by
  refine weave_edit parent pos ?_ ?_ ?_ ?_ ?_
  · by_cases ho : o = []
    · have := insertedAt_lt (hs ho) (Nat.lt_succ_self pos)
      simp only [List.any_cons, BEq.rfl, Bool.true_or, if_true, insertedAt_cons, ho, this]
      by_cases ha : (es.any fun e => e.start == pos) = true
      · simp [ha]
      · simp [ha, not_any_start ha]
    · have : 0 < o.length := List.length_pos_iff.2 ho
      simp [insertedAt_cons, ho, insertedAt_lt h (show pos < pos + o.length by omega)]
  · intro g h1 h2
    have e' : ¬ pos = g := by omega
    simp [e', insertedAt_cons, any_start_lt h h2, insertedAt_lt h' h2]
  · intro g h1 h2
    simp [deletes_head h1 h2]
  · intro g h1 h2
    have e' : ¬ pos = g := by omega
    simp [e', insertedAt_cons]
  · intro g hg
    simp only [deletes_le_start z o.length hg, deletes_le_start z' o.length hg]

theorem Aligned.same {d0 d1 e : List (DiffItem α)} (h : Aligned d0 d1 e) : fromText d0 = fromText d1 := by
  induction h <;> simp_all [fromText]

theorem after_change_LB {z : List α} {d : List (DiffItem α)} (n : ∀ x ∈ d, x.Normal)
    (a : Alternating (.change z [] :: d)) (pos : Nat) : LB (pos + 1) (editsOf pos d) := by
  match d, n, a with
  | [], _, _ => intro e he; simp [editsOf] at he
  | .common c :: d, n, _ =>
    have : 0 < c.length := List.length_pos_iff.2 (n (.common c) (by simp))
    exact (editsOf_LB d (pos + c.length)).mono (by omega)
  | .change _ _ :: _, _, a => exact absurd rfl a.1

theorem Aligned.resolved {d0 d1 e : List (DiffItem α)} (h : Aligned d0 d1 e) :
    ∀ pos, (∀ x ∈ d0, x.Normal) → (∀ x ∈ d1, x.Normal) → Alternating d0 → Alternating d1 →
      intoText e = resolvedFrom pos (fromText d0) (editsOf pos d0) (editsOf pos d1) ∧
      fromText e = resolvedFrom pos (fromText d0) (editsOf pos d1) (editsOf pos d0) := by
  have fc : ∀ (c : List α) d, fromText (.common c :: d) = c ++ fromText d := fun c d => by simp [fromText]
  have fx : ∀ (a b : List α) d, fromText (.change a b :: d) = b ++ fromText d := fun a b d => by simp [fromText]
  have ic : ∀ (c : List α) d, intoText (.common c :: d) = c ++ intoText d := fun c d => by simp [intoText]
  have lb : ∀ (r : List α) (d : List (DiffItem α)) (k : Nat), r ≠ [] → LB (k + 1) (editsOf k (.common r :: d)) := by
    intro r d k hr
    have : 0 < r.length := List.length_pos_iff.2 hr
    exact (editsOf_LB d (k + r.length)).mono (by omega)
  have ed : ∀ (o r : List α) (d : List (DiffItem α)) (pos : Nat),
      editsOf pos (.common (o ++ r) :: d) = editsOf (pos + o.length) (.common r :: d) := by
    intro o r d pos
    simp [editsOf, Nat.add_assoc]
  have ed' : ∀ (o : List α) (d : List (DiffItem α)) (pos : Nat),
      editsOf pos (.common o :: d) = editsOf (pos + o.length) d := fun _ _ _ => rfl
  have ex : ∀ (z o : List α) (d : List (DiffItem α)) (pos : Nat),
      editsOf pos (.change z o :: d) = ⟨pos, pos + o.length, z⟩ :: editsOf (pos + o.length) d :=
    fun _ _ _ _ => rfl
  have tl : ∀ {x : DiffItem α} {d : List (DiffItem α)}, (∀ y ∈ x :: d, y.Normal) → ∀ y ∈ d, y.Normal :=
    fun h y hy => h y (by simp [hy])
  have nr : ∀ {r : List α} {x : DiffItem α} {d : List (DiffItem α)}, r ≠ [] → (∀ y ∈ x :: d, y.Normal) →
      ∀ y ∈ DiffItem.common r :: d, y.Normal := by
    intro r x d hr h y hy
    rcases List.mem_cons.1 hy with rfl | hy
    · exact hr
    · exact h y (by simp [hy])
  induction h with
  | nil => intro pos _ _ _ _; simp [intoText, fromText, editsOf, resolvedFrom, weave, insertedAt]
  | common c h ih =>
    intro pos n0 n1 a0 a1
    obtain ⟨i0, i1⟩ := ih (pos + c.length) (tl n0) (tl n1) a0.rest a1.rest
    rw [ic, fc, fc, ed', ed', resolvedFrom_common (editsOf_LB _ _) (editsOf_LB _ _),
      resolvedFrom_common (editsOf_LB _ _) (editsOf_LB _ _), ← i0, ← i1]
    exact ⟨rfl, rfl⟩
  | shorter0 c hr h ih =>
    intro pos n0 n1 a0 a1
    obtain ⟨i0, i1⟩ := ih (pos + c.length) (tl n0) (nr hr n1) a0.rest (a1.swapHead rfl)
    rw [ic, fc, fc, ed', ed, resolvedFrom_common (editsOf_LB _ _) (editsOf_LB _ _),
      resolvedFrom_common (editsOf_LB _ _) (editsOf_LB _ _), ← i0, ← i1]
    exact ⟨rfl, rfl⟩
  | shorter1 c hr h ih =>
    intro pos n0 n1 a0 a1
    obtain ⟨i0, i1⟩ := ih (pos + c.length) (nr hr n0) (tl n1) (a0.swapHead rfl) a1.rest
    rw [ic, fc, fc, ed c _ _ pos, ed' c _ pos, List.append_assoc, ← fc, resolvedFrom_common (editsOf_LB _ _) (editsOf_LB _ _),
      resolvedFrom_common (editsOf_LB _ _) (editsOf_LB _ _), ← i0, ← i1]
    exact ⟨rfl, rfl⟩
  | first z o hr h ih =>
    intro pos n0 n1 a0 a1
    obtain ⟨i0, i1⟩ := ih (pos + o.length) (tl n0) (nr hr n1) a0.rest (a1.swapHead rfl)
    have l := fun d => (lb _ d (pos + o.length) hr).mono (show pos + 1 ≤ pos + o.length + 1 by omega)
    rw [ic, fc, fx, ex, ed, resolvedFrom_first (editsOf_LB _ _) (editsOf_LB _ _) (fun _ => l _),
      resolvedFrom_second (editsOf_LB _ _) (editsOf_LB _ _) (l _), ← i0, ← i1]
    exact ⟨rfl, rfl⟩
  | first' z o h ih =>
    intro pos n0 n1 a0 a1
    obtain ⟨i0, i1⟩ := ih (pos + o.length) (tl n0) (tl n1) a0.rest a1.rest
    have : 0 < o.length := List.length_pos_iff.2 (n1 (.common o) (by simp))
    have l := fun d : List (DiffItem α) => (editsOf_LB d (pos + o.length)).mono (show pos + 1 ≤ pos + o.length by omega)
    rw [ic, fc, fx, ex, ed', resolvedFrom_first (editsOf_LB _ _) (editsOf_LB _ _) (fun _ => l _),
      resolvedFrom_second (editsOf_LB _ _) (editsOf_LB _ _) (l _), ← i0, ← i1]
    exact ⟨rfl, rfl⟩
  | firstEnd z =>
    intro pos _ _ _ _
    simp [intoText, fromText, editsOf, resolvedFrom, weave, insertedAt]
  | second z o hr h ih =>
    intro pos n0 n1 a0 a1
    obtain ⟨i0, i1⟩ := ih (pos + o.length) (nr hr n0) (tl n1) (a0.swapHead rfl) a1.rest
    have l := fun d => (lb _ d (pos + o.length) hr).mono (show pos + 1 ≤ pos + o.length + 1 by omega)
    rw [ic, fc, fc, ex, ed, List.append_assoc, ← fc,
      resolvedFrom_first (editsOf_LB _ _) (editsOf_LB _ _) (fun _ => l _),
      resolvedFrom_second (editsOf_LB _ _) (editsOf_LB _ _) (l _), ← i0, ← i1]
    exact ⟨rfl, rfl⟩
  | second' z o h ih =>
    intro pos n0 n1 a0 a1
    obtain ⟨i0, i1⟩ := ih (pos + o.length) (tl n0) (tl n1) a0.rest a1.rest
    have : 0 < o.length := List.length_pos_iff.2 (n0 (.common o) (by simp))
    have l := fun d : List (DiffItem α) => (editsOf_LB d (pos + o.length)).mono (show pos + 1 ≤ pos + o.length by omega)
    rw [ic, fc, fc, ex, ed', resolvedFrom_first (editsOf_LB _ _) (editsOf_LB _ _) (fun _ => l _),
      resolvedFrom_second (editsOf_LB _ _) (editsOf_LB _ _) (l _), ← i0, ← i1]
    exact ⟨rfl, rfl⟩
  | secondEnd z =>
    intro pos _ _ _ _
    simp [intoText, fromText, editsOf, resolvedFrom, weave, insertedAt]
  | both z0 z1 o hk h ih =>
    intro pos n0 n1 a0 a1
    obtain ⟨i0, i1⟩ := ih (pos + o.length) (tl n0) (tl n1) a0.rest a1.rest
    obtain ⟨_, k1, k2, k3⟩ := C09_diff_reconstructs z1 z0
    rw [hk] at k1
    cases k1
    have e1 : ∀ k e : List (DiffItem α), intoText (k ++ e) = intoText k ++ intoText e := by simp [intoText]
    have e2 : ∀ k e : List (DiffItem α), fromText (k ++ e) = fromText k ++ fromText e := by simp [fromText]
    rw [e1, e2, k2, k3, fx, ex, ex, resolvedFrom_both (editsOf_LB _ _) (editsOf_LB _ _)
        (by rintro rfl; exact after_change_LB (tl n1) a1 pos),
      resolvedFrom_both (editsOf_LB _ _) (editsOf_LB _ _)
        (by rintro rfl; exact after_change_LB (tl n0) a0 pos), ← i0, ← i1]
    exact ⟨rfl, rfl⟩

/-- C137.  If any two changes of different branches are of the same stretch, or apart and not at the same place:
taking the first side of every conflict gives the parent with all changes of both branches, where
those of the first branch count if both change the same stretch; the second sides do so for the second
branch. -/
theorem C137_sides (kind : Kind) {parent b0 b1 : List α} {d0 d1 : List (DiffItem α)}
    (h0 : diffTokenSequences parent b0 = some d0) (h1 : diffTokenSequences parent b1 = some d1)
    (h : ∀ e0 ∈ editsOf 0 d0, ∀ e1 ∈ editsOf 0 d1, e0.SameOrApart e1) :
    ∃ d, mergeTokenSequence kind parent b0 b1 = .ok d ∧
      intoText d = resolvedText parent (editsOf 0 d0) (editsOf 0 d1) ∧
      fromText d = resolvedText parent (editsOf 0 d1) (editsOf 0 d0) := by
  obtain ⟨e, he, hm⟩ := C136_positions kind h0 h1 h
  refine ⟨_, hm, ?_⟩
  obtain ⟨_, k0, n0, a0⟩ := C12_diff_normal_form parent b0
  obtain ⟨_, k1, n1, a1⟩ := C12_diff_normal_form parent b1
  obtain ⟨_, j0, _, t0⟩ := C09_diff_reconstructs parent b0
  rw [h0] at k0 j0
  cases k0
  cases j0
  rw [h1] at k1
  cases k1
  obtain ⟨r0, r1⟩ := he.resolved 0 n0 n1 a0 a1
  obtain ⟨j0, j1⟩ := joinCommon_texts e
  rw [t0] at r0 r1
  by_cases hj : joinCommon e = []
  · rw [if_pos hj]
    rw [hj] at j0 j1
    exact ⟨j0.trans r0, j1.trans r1⟩
  · rw [if_neg hj]
    exact ⟨j0.trans r0, j1.trans r1⟩

/-- C137.  The same of the file that `gaspra-merge -g` writes, by characters, words or lines. -/
theorem C137_file (cls sp : Nat → Bool) {args : Args} (h : args.GitFile) (hd : args.diff = false)
    (pn cn on : PyStr) {p c o : PyStr} {qp qc qo : List PyStr} (hp : CliPieces cls args p qp)
    (hc : CliPieces cls args c qc) (ho : CliPieces cls args o qo) {d0 d1 : List (DiffItem PyStr)}
    (h0 : diffTokenSequences qp qc = some d0) (h1 : diffTokenSequences qp qo = some d1)
    (hs : ∀ e0 ∈ editsOf 0 d0, ∀ e1 ∈ editsOf 0 d1, e0.SameOrApart e1) :
    ∃ out n, mergeCli cls sp args {} pn cn on p c o = ({}, out, none) ∧ (n = [] ∨ n = [nl]) ∧
      GitOutput (basename cn) (basename on) out
        ((resolvedText qp (editsOf 0 d0) (editsOf 0 d1)).flatten ++ n)
        ((resolvedText qp (editsOf 0 d1) (editsOf 0 d0)).flatten ++ n) := by
  obtain ⟨d, out, n, m1, m2, m3, _, m5⟩ := C67_merge_file cls sp h hd pn cn on hp hc ho
  obtain ⟨d', k1, k2, k3⟩ := C137_sides .tuple h0 h1 hs
  rw [m1] at k1
  cases k1
  refine ⟨out, n, m3, m2, ?_⟩
  rw [into_joined, from_joined, k2, k3] at m5
  exact m5

-- Both change "f"; the other changes are in both texts.
example : resolvedText "abcdefg".toList [⟨1, 2, "1".toList⟩, ⟨5, 6, "F2".toList⟩]
      [⟨3, 4, "3".toList⟩, ⟨5, 6, "F4".toList⟩, ⟨7, 7, "h".toList⟩] = "a1c3eF2gh".toList ∧
    resolvedText "abcdefg".toList [⟨3, 4, "3".toList⟩, ⟨5, 6, "F4".toList⟩, ⟨7, 7, "h".toList⟩]
      [⟨1, 2, "1".toList⟩, ⟨5, 6, "F2".toList⟩] = "a1c3eF4gh".toList := by decide
example : ∃ d, mergeTokenSequence .str "abcdefg".toList "a1cdeF2g".toList "abc3eF4gh".toList = .ok d ∧
    intoText d = "a1c3eF2gh".toList ∧ fromText d = "a1c3eF4gh".toList :=
  C137_sides .str
    (d0 := [.common "a".toList, .change "1".toList "b".toList, .common "cde".toList,
      .change "F2".toList "f".toList, .common "g".toList])
    (d1 := [.common "abc".toList, .change "3".toList "d".toList, .common "e".toList,
      .change "F4".toList "f".toList, .common "g".toList, .change "h".toList []])
    (by decide +kernel) (by decide +kernel) (by simp [editsOf, Edit.SameOrApart, Edit.Disjoint])
-- For changes that overlap without being of the same stretch it is false: the second branch's insertion is in
-- no conflict although the first branch replaces the text around it.
example : mergeTokenSequence .str "abcd".toList "axd".toList "abycd".toList =
    .ok [.common "a".toList, .change "x".toList "b".toList, .common "yd".toList] ∧
    fromText [.common "a".toList, .change "x".toList "b".toList, .common "yd".toList] ≠ "abycd".toList := by
  decide +kernel

end Gaspra
