import Verif.Proofs.MergeAligned

/-!
# `merge_token_sequence` as a whole
-/

set_option linter.unusedSectionVars false
set_option linter.unusedSimpArgs false
set_option linter.unusedVariables false

namespace Gaspra

variable {α : Type _} [DecidableEq α]

theorem allTokens_map (d : List (DiffItem α)) : allTokens (d.map toFrag) = intoText d := by
  induction d with
  | nil => rfl
  | cons x d ih =>
    cases x <;> simp [toFrag, intoText, ih] <;> simpa [intoText] using ih

theorem mem_changeTokens_map (d : List (DiffItem α)) (t : α) : ∀ k,
    t ∈ changeTokens (d.map toFrag) ↔ ∃ e ∈ editsOf k d, t ∈ e.insert := by
  induction d with
  | nil => intro k; simp [changeTokens, editsOf]
  | cons x d ih =>
    intro k
    cases x with
    | common p => simpa [toFrag, changeTokens, editsOf] using ih (k + p.length)
    | change a b => simp [toFrag, changeTokens, editsOf, ih (k + b.length)]

/-- What `merge_token_sequence` computes in terms of the two diffs. -/
theorem merge_setup (parent branch : List α) :
    ∃ cs, findChangeset parent branch = some cs ∧
      diffTokenSequences parent branch = some (cs.asDiffStream parent) ∧
      (∃ c h, FS c h parent ((cs.asDiffStream parent).map toFrag)) ∧
      cs.stream parent = (cs.asDiffStream parent).map toFrag ∧
      allTokens ((cs.asDiffStream parent).map toFrag) = branch := by
  obtain ⟨cs, h, V⟩ := findChangeset_spec parent branch
  have hi := V.into (OccursAt.whole parent)
  have hF := FS_of_diff (cs.asDiffStream parent) (V.normal (OccursAt.whole _))
    (V.alternating (OccursAt.whole _))
  rw [hi.2] at hF
  exact ⟨cs, h, by simp only [diffTokenSequences, h], ⟨_, _, hF⟩, stream_eq _ _,
    by rw [allTokens_map, hi.1]⟩

theorem merge_eq {kind : Kind} {parent b0 b1 : List α} {cs0 cs1 : Changeset α}
    {merged : List (MFragment α)} (h0 : findChangeset parent b0 = some cs0)
    (h1 : findChangeset parent b1 = some cs1)
    (hs0 : cs0.stream parent = (cs0.asDiffStream parent).map toFrag)
    (hs1 : cs1.stream parent = (cs1.asDiffStream parent).map toFrag)
    (hm : mergeLoop (((cs0.asDiffStream parent).map toFrag).length +
      ((cs1.asDiffStream parent).map toFrag).length) ((cs0.asDiffStream parent).map toFrag)
      ((cs1.asDiffStream parent).map toFrag) false = some merged) :
    mergeTokenSequence kind parent b0 b1 = consolidate kind merged := by
  simp only [mergeTokenSequence, h0, h1, hs0, hs1, hm]

/-! ## The kind of the sequences -/

theorem joinSides_str (s : List (Side α)) : joinSides .str s = joinSides .tuple s := by
  simp [joinSides]

theorem joinSides_bytes (s : List (Side α)) :
    joinSides .bytes s = .error .typeError ∨ joinSides .bytes s = joinSides .tuple s := by
  unfold joinSides
  by_cases h : Side.strLit ∈ s
  · left; simp [h]
  · right; simp [h]

theorem consolidateConflicts_str : ∀ (fuel : Nat) (L : List (MFragment α)),
    consolidateConflicts .str fuel L = consolidateConflicts .tuple fuel L := by
  intro fuel
  induction fuel with
  | zero => intro L; cases L <;> rfl
  | succ fuel ih =>
    intro L
    cases L with
    | nil => rfl
    | cons x L => simp only [consolidateConflicts, joinSides_str, ih]

theorem consolidateAllLoop_str : ∀ (fuel : Nat) (L : List (MFragment α)),
    consolidateAllLoop .str fuel L = consolidateAllLoop .tuple fuel L := by
  intro fuel
  induction fuel with
  | zero => intro L; cases L <;> rfl
  | succ fuel ih =>
    intro L
    cases L with
    | nil => rfl
    | cons x L => simp only [consolidateAllLoop, joinSides_str, ih]

theorem merge_str (parent b0 b1 : List α) :
    mergeTokenSequence .str parent b0 b1 = mergeTokenSequence .tuple parent b0 b1 := by
  simp only [mergeTokenSequence, consolidate, consolidateAll, consolidateConflicts_str,
    consolidateAllLoop_str]

/-- Either the computation stops with `TypeError` or it is not affected. -/
theorem bind_bytes {ε β γ : Type _} {e : ε} {x y : Except ε β} {f g : β → Except ε γ}
    (h : x = .error e ∨ x = y) (hf : ∀ v, f v = .error e ∨ f v = g v) :
    (x >>= f) = .error e ∨ (x >>= f) = (y >>= g) := by
  rcases h with rfl | rfl
  · left; rfl
  · cases x with
    | error e' => right; rfl
    | ok v => exact hf v

theorem consolidateConflicts_bytes : ∀ (fuel : Nat) (L : List (MFragment α)),
    consolidateConflicts .bytes fuel L = .error .typeError ∨
      consolidateConflicts .bytes fuel L = consolidateConflicts .tuple fuel L := by
  intro fuel
  induction fuel with
  | zero => intro L; right; cases L <;> rfl
  | succ fuel ih =>
    intro L
    cases L with
    | nil => right; rfl
    | cons x L =>
      simp only [consolidateConflicts]
      refine bind_bytes (joinSides_bytes _) fun v1 => ?_
      refine bind_bytes (joinSides_bytes _) fun v2 => ?_
      refine bind_bytes (Or.inr rfl) fun o => ?_
      exact bind_bytes (ih _) fun r => Or.inr rfl

theorem consolidateAllLoop_bytes : ∀ (fuel : Nat) (L : List (MFragment α)),
    consolidateAllLoop .bytes fuel L = .error .typeError ∨
      consolidateAllLoop .bytes fuel L = consolidateAllLoop .tuple fuel L := by
  intro fuel
  induction fuel with
  | zero => intro L; right; cases L <;> rfl
  | succ fuel ih =>
    intro L
    cases L with
    | nil => right; rfl
    | cons x L =>
      simp only [consolidateAllLoop]
      refine bind_bytes (joinSides_bytes _) fun v1 => ?_
      refine bind_bytes (joinSides_bytes _) fun v2 => ?_
      refine bind_bytes (joinSides_bytes _) fun o => ?_
      exact bind_bytes (ih _) fun r => Or.inr rfl

theorem merge_bytes (parent b0 b1 : List α) :
    mergeTokenSequence .bytes parent b0 b1 = .error .typeError ∨
      mergeTokenSequence .bytes parent b0 b1 = mergeTokenSequence .tuple parent b0 b1 := by
  unfold mergeTokenSequence
  split
  · dsimp only
    split
    · right; rfl
    · refine bind_bytes (consolidateConflicts_bytes _ _) fun s => ?_
      exact bind_bytes (consolidateAllLoop_bytes _ _) fun r => Or.inr rfl
  · right; rfl

/-- A successful merge gives the same items whatever the kind. -/
theorem merge_kind {kind : Kind} {parent b0 b1 : List α} {out : List (DiffItem α)}
    (h : mergeTokenSequence kind parent b0 b1 = .ok out) :
    mergeTokenSequence .tuple parent b0 b1 = .ok out := by
  cases kind with
  | tuple => exact h
  | str => rw [← merge_str]; exact h
  | bytes =>
    rcases merge_bytes parent b0 b1 with h' | h'
    · rw [h'] at h; cases h
    · rw [← h']; exact h

/-! ## All facts about the tuple merge -/

theorem merge_general (parent b0 b1 : List α) :
    ∃ d0 d1 out, diffTokenSequences parent b0 = some d0 ∧ diffTokenSequences parent b1 = some d1 ∧
      mergeTokenSequence .tuple parent b0 b1 = .ok out ∧
      (MergeNormal out ∧ out ≠ [] ∨ out = [.common []]) ∧
      (∀ t, (∃ x ∈ out, t ∈ x.tokens) → t ∈ b0 ∨ t ∈ b1) ∧
      (∀ t, (∃ e ∈ editsOf 0 d0 ++ editsOf 0 d1, t ∈ e.insert) → ∃ x ∈ out, t ∈ x.tokens) ∧
      (∀ g (hg : g < parent.length), deletes (editsOf 0 d0) g = false →
        deletes (editsOf 0 d1) g = false → ∃ x ∈ out, parent[g] ∈ x.tokens) ∧
      ((∀ e0 ∈ editsOf 0 d0, ∀ e1 ∈ editsOf 0 d1, e0.Aligned e1) →
        ∀ x y, .change x y ∈ out → x <:+: b0 ∧ y <:+: b1) := by
  obtain ⟨cs0, h0, hd0, hF0, hs0, ha0⟩ := merge_setup parent b0
  obtain ⟨cs1, h1, hd1, hF1, hs1, ha1⟩ := merge_setup parent b1
  obtain ⟨merged, m1, m2, m3, m4⟩ := mergeLoop_general _ 0 parent _ _ false hF0 hF1 (Nat.le_refl _)
  obtain ⟨out, o1, o2, o3, o4, o5⟩ := consolidate_spec .tuple merged (Or.inl (by simp))
  refine ⟨_, _, out, hd0, hd1, (merge_eq h0 h1 hs0 hs1 m1).trans o1, o3, ?_, ?_, ?_, ?_⟩
  · intro t ht
    have := m2 t ((o2 t).1 ht)
    rwa [ha0, ha1] at this
  · rintro t ⟨e, he, ht⟩
    rw [o2]
    apply m3
    rcases List.mem_append.1 he with he | he
    · left; exact (mem_changeTokens_map _ t 0).2 ⟨e, he, ht⟩
    · right; exact (mem_changeTokens_map _ t 0).2 ⟨e, he, ht⟩
  · intro g hg hd0 hd1
    rw [o2]
    apply m4 g hg
    · rw [fedits_map, Nat.zero_add]; exact hd0
    · rw [fedits_map, Nat.zero_add]; exact hd1
  · intro hal
    apply o5
    refine aligned_spec b0 b1 _ 0 parent _ _ false [] [] merged hF0 hF1
      (fun _ => ⟨rfl, rfl, ?_⟩) ?_ ?_ ?_ m1
    · rw [fedits_map, fedits_map]; exact hal
    · intro e0 he0 e1 he1
      have x0 := exEdits_sub _ _ e0 he0
      have x1 := exEdits_sub _ _ e1 he1
      rw [fedits_map] at x0 x1
      exact hal e0 x0 e1 x1
    · rw [List.nil_append, ha0]; exact List.suffix_refl _
    · rw [List.nil_append, ha1]; exact List.suffix_refl _

theorem merge_compatible {kind : Kind} {parent b0 b1 : List α} {d0 d1 : List (DiffItem α)}
    (h0 : diffTokenSequences parent b0 = some d0) (h1 : diffTokenSequences parent b1 = some d1)
    (hc : ∀ e0 ∈ editsOf 0 d0, ∀ e1 ∈ editsOf 0 d1, e0.Compatible e1) :
    mergeTokenSequence kind parent b0 b1 =
      .ok [.common (mergedText parent (editsOf 0 d0) (editsOf 0 d1))] := by
  obtain ⟨cs0, hc0, hd0, ⟨_, _, hF0⟩, hs0, ha0⟩ := merge_setup parent b0
  obtain ⟨cs1, hc1, hd1, ⟨_, _, hF1⟩, hs1, ha1⟩ := merge_setup parent b1
  have e0 : cs0.asDiffStream parent = d0 := by rw [h0] at hd0; simpa using hd0.symm
  have e1 : cs1.asDiffStream parent = d1 := by rw [h1] at hd1; simpa using hd1.symm
  subst e0 e1
  obtain ⟨frs, m1, m2⟩ := clean_spec _ 0 parent _ _ _ _ _ _ hF0 hF1
    (by rw [fedits_map, fedits_map]; exact hc) (Nat.le_refl _)
  have hin : ∀ x ∈ frs.map MFragment.input, x.isConflict = false := by
    intro x hx
    obtain ⟨f, _, rfl⟩ := List.mem_map.1 hx
    rfl
  obtain ⟨out, o1, o2, o3, o4, o5⟩ := consolidate_spec kind (frs.map .input) (Or.inr (by
    intro x hx
    obtain ⟨f, _, rfl⟩ := List.mem_map.1 hx
    trivial))
  rw [merge_eq hc0 hc1 hs0 hs1 m1, o1, o4 hin]
  congr 3
  rw [fedits_map, fedits_map] at m2
  rw [show mergedText parent (editsOf 0 (cs0.asDiffStream parent))
    (editsOf 0 (cs1.asDiffStream parent)) = MT 0 parent _ _ from rfl, ← m2]
  induction frs with
  | nil => rfl
  | cons f frs ih => simp [MFragment.insert, Side.toList, List.flatMap_map]

/-! ## The edits of a diff -/

theorem editsOf_apply {parent b : List α} {d : List (DiffItem α)}
    (h : diffTokenSequences parent b = some d) : applyEdits parent (editsOf 0 d) = b := by
  obtain ⟨cs, hc, hd, ⟨_, _, hF⟩, hs, ha⟩ := merge_setup parent b
  have e : cs.asDiffStream parent = d := by rw [h] at hd; simpa using hd.symm
  subst e
  have := applyEdits_stream _ _ _ parent 0 hF
  rw [fedits_map] at this
  exact this.trans ha

/-- Edits of one stream are pairwise compatible with themselves. -/
theorem FS.self_compatible : ∀ {F : List (Fragment α)} {c h : Bool} {p : List α} {k : Nat},
    FS c h p F → ∀ e0 ∈ fedits k F, ∀ e1 ∈ fedits k F, e0.Compatible e1 := by
  intro F
  induction F with
  | nil => intro c h p k _ e0 he; simp [fedits] at he
  | cons f F ih =>
    intro c h p k H
    cases H with
    | copy hw hF => exact ih hF
    | @change _ i d p _ hne hF =>
      have hlb := hF.LB_succ (k + d.length)
      intro e0 he0 e1 he1
      simp only [fedits, List.mem_cons] at he0 he1
      rcases he0 with rfl | he0
      · rcases he1 with rfl | he1
        · left; rfl
        · right
          have := hlb e1 he1
          exact ⟨Or.inl (by simp only; omega), Or.inl (by simp only; omega)⟩
      · rcases he1 with rfl | he1
        · right
          have := hlb e0 he0
          exact ⟨Or.inr (by simp only; omega), Or.inl (by simp only; omega)⟩
        · exact ih hF e0 he0 e1 he1

theorem diff_self_compatible {parent b : List α} {d : List (DiffItem α)}
    (h : diffTokenSequences parent b = some d) :
    ∀ e0 ∈ editsOf 0 d, ∀ e1 ∈ editsOf 0 d, e0.Compatible e1 := by
  obtain ⟨cs, hc, hd, ⟨_, _, hF⟩, hs, ha⟩ := merge_setup parent b
  have e : cs.asDiffStream parent = d := by rw [h] at hd; simpa using hd.symm
  subst e
  have := hF.self_compatible (k := 0)
  rwa [fedits_map] at this

theorem mergedText_self (parent : List α) (es : List (Edit α)) :
    mergedText parent es es = applyEdits parent es := by
  unfold mergedText applyEdits
  simp [bothInserts_self]

theorem mergedText_nil_left (parent : List α) (es : List (Edit α)) :
    mergedText parent [] es = applyEdits parent es := by
  unfold mergedText applyEdits
  congr
  · funext g; simp [insertedAt, bothInserts_nil_left]

theorem mergedText_nil_right (parent : List α) (es : List (Edit α)) :
    mergedText parent es [] = applyEdits parent es := by
  unfold mergedText applyEdits
  congr
  · funext g; simp [insertedAt, bothInserts_nil_right]
  · funext g; simp [deletes]

/-- At most one edit of a stream starts at a given position. -/
theorem FS.insertedAt_cases : ∀ {F : List (Fragment α)} {c h : Bool} {p : List α} {k : Nat},
    FS c h p F → ∀ g, insertedAt (fedits k F) g = [] ∨
      ∃ e ∈ fedits k F, e.start = g ∧ insertedAt (fedits k F) g = e.insert := by
  intro F
  induction F with
  | nil => intro c h p k _ g; left; rfl
  | cons f F ih =>
    intro c h p k H g
    cases H with
    | copy hw hF => exact ih hF g
    | @change _ i d p _ hne hF =>
      have hlb := hF.LB_succ (k + d.length)
      simp only [fedits]
      rw [insertedAt_cons]
      by_cases hg : k = g
      · subst hg
        right
        refine ⟨⟨k, k + d.length, i⟩, by simp, rfl, ?_⟩
        rw [insertedAt_lt hlb (by omega)]
        simp
      · simp only [hg, if_false, List.nil_append]
        rcases ih (k := k + d.length) hF g with h | ⟨e, he, h1, h2⟩
        · left; exact h
        · right; exact ⟨e, by simp [he], h1, h2⟩

theorem mergedText_comm {parent b0 b1 : List α} {d0 d1 : List (DiffItem α)}
    (h0 : diffTokenSequences parent b0 = some d0) (h1 : diffTokenSequences parent b1 = some d1)
    (hc : ∀ e0 ∈ editsOf 0 d0, ∀ e1 ∈ editsOf 0 d1, e0.Compatible e1) :
    mergedText parent (editsOf 0 d0) (editsOf 0 d1) =
      mergedText parent (editsOf 0 d1) (editsOf 0 d0) := by
  obtain ⟨cs0, hc0, hd0, ⟨_, _, hF0⟩, hs0, ha0⟩ := merge_setup parent b0
  obtain ⟨cs1, hc1, hd1, ⟨_, _, hF1⟩, hs1, ha1⟩ := merge_setup parent b1
  have e0 : cs0.asDiffStream parent = d0 := by rw [h0] at hd0; simpa using hd0.symm
  have e1 : cs1.asDiffStream parent = d1 := by rw [h1] at hd1; simpa using hd1.symm
  subst e0 e1
  unfold mergedText
  apply weave_congr
  · intro g _
    apply bothInserts_swap_of
    have c0 := hF0.insertedAt_cases (k := 0) g
    have c1 := hF1.insertedAt_cases (k := 0) g
    rw [fedits_map] at c0 c1
    rcases c0 with h | ⟨e0, he0, hg0, hi0⟩
    · right; left; exact h
    rcases c1 with h | ⟨e1, he1, hg1, hi1⟩
    · right; right; exact h
    rcases hc e0 he0 e1 he1 with h | ⟨_, h | ⟨_, h⟩ | ⟨h, _⟩⟩
    · left; rw [hi0, hi1, h]
    · exact absurd (hg0.trans hg1.symm) h
    · right; right; rw [hi1]; exact h
    · right; left; rw [hi0]; exact h
  · intro g _
    simp [Bool.and_comm]

theorem Compatible.symm {e0 e1 : Edit α} (h : e0.Compatible e1) : e1.Compatible e0 := by
  rcases h with rfl | ⟨h1, h2⟩
  · left; rfl
  · right
    refine ⟨h1.symm, ?_⟩
    rcases h2 with h | ⟨a, b⟩ | ⟨a, b⟩
    · left; exact h.symm
    · right; right; exact ⟨b, a⟩
    · right; left; exact ⟨b, a⟩

end Gaspra
