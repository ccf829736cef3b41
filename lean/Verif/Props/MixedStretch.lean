import Verif.Props.BothAppend

/-!
# C136: changes that are apart or of the same stretch
-/

set_option linter.unusedSectionVars false
set_option linter.unusedSimpArgs false

namespace Gaspra

variable {α : Type _} [DecidableEq α]

/-- Going through two diffs of one parent, where every change of one branch falls into text that the other one
keeps, or meets a change of the same stretch; the last list has the changes of one branch as common
text, and the diff of both versions where both change something. -/
inductive Aligned : List (DiffItem α) → List (DiffItem α) → List (DiffItem α) → Prop
  | nil : Aligned [] [] []
  /-- Both keep `c`. -/
  | common (c : List α) {d0 d1 e : List (DiffItem α)} : Aligned d0 d1 e →
      Aligned (.common c :: d0) (.common c :: d1) (.common c :: e)
  | shorter0 (c : List α) {r : List α} {d0 d1 e : List (DiffItem α)} : r ≠ [] →
      Aligned d0 (.common r :: d1) e →
      Aligned (.common c :: d0) (.common (c ++ r) :: d1) (.common c :: e)
  | shorter1 (c : List α) {r : List α} {d0 d1 e : List (DiffItem α)} : r ≠ [] →
      Aligned (.common r :: d0) d1 e →
      Aligned (.common (c ++ r) :: d0) (.common c :: d1) (.common c :: e)
  /-- Only the first branch changes `o`. -/
  | first (z o : List α) {r : List α} {d0 d1 e : List (DiffItem α)} : r ≠ [] →
      Aligned d0 (.common r :: d1) e →
      Aligned (.change z o :: d0) (.common (o ++ r) :: d1) (.common z :: e)
  | first' (z o : List α) {d0 d1 e : List (DiffItem α)} : Aligned d0 d1 e →
      Aligned (.change z o :: d0) (.common o :: d1) (.common z :: e)
  | firstEnd (z : List α) : Aligned [.change z []] [] [.common z]
  /-- Only the second branch changes `o`. -/
  | second (z o : List α) {r : List α} {d0 d1 e : List (DiffItem α)} : r ≠ [] →
      Aligned (.common r :: d0) d1 e →
      Aligned (.common (o ++ r) :: d0) (.change z o :: d1) (.common z :: e)
  | second' (z o : List α) {d0 d1 e : List (DiffItem α)} : Aligned d0 d1 e →
      Aligned (.common o :: d0) (.change z o :: d1) (.common z :: e)
  | secondEnd (z : List α) : Aligned [] [.change z []] [.common z]
  /-- Both change `o`. -/
  | both (z0 z1 o : List α) {k d0 d1 e : List (DiffItem α)} : diffTokenSequences z1 z0 = some k →
      Aligned d0 d1 e → Aligned (.change z0 o :: d0) (.change z1 o :: d1) (k ++ e)

theorem Alternating.swapHead {x y : DiffItem α} {d : List (DiffItem α)} (h : Alternating (x :: d))
    (e : y.isChange = x.isChange) : Alternating (y :: d) := by
  cases d with
  | nil => trivial
  | cons w d => exact ⟨by rw [e]; exact h.1, h.2⟩

theorem Alternating.next {x : DiffItem α} {d : List (DiffItem α)} (h : Alternating (x :: d))
    (e : x.isChange = true) : ∀ y ∈ d.head?, y.isChange = false := by
  intro y hy
  cases d with
  | nil => simp at hy
  | cons w d =>
    simp at hy
    subst hy
    have := h.1
    rw [e] at this
    cases hw : w.isChange <;> simp_all

/-- What is known of the output of the loop. -/
def RawOf (d0 d1 e : List (DiffItem α)) (raw : List (MFragment α)) : Prop :=
  NoAdj raw ∧ (∀ x ∈ raw, x.noLit) ∧
    joinCommon ((raw.flatMap splitRaw).map rawItem) = joinCommon e ∧
    ∀ y ∈ raw.head?, y.isConflict = true →
      (∃ x ∈ d0.head?, x.isChange = true) ∧ ∃ x ∈ d1.head?, x.isChange = true

theorem RawOf.input {d0 d1 e : List (DiffItem α)} {raw : List (MFragment α)} (h : RawOf d0 d1 e raw)
    (f : Fragment α) (d0' d1' : List (DiffItem α)) :
    RawOf d0' d1' (.common f.insert :: e) (.input f :: raw) := by
  obtain ⟨h1, h2, h3, _⟩ := h
  refine ⟨?_, by simpa [MFragment.noLit] using h2, ?_, by simp [MFragment.isConflict]⟩
  · cases raw with
    | nil => trivial
    | cons => exact ⟨.inl rfl, h1⟩
  · simp only [List.flatMap_cons, splitRaw, List.map_append, List.map_cons, List.map_nil, rawItem,
      List.cons_append, List.nil_append]
    exact joinCommon_cons h3

theorem mergeLoop_aligned {d0 d1 e : List (DiffItem α)} (h : Aligned d0 d1 e) :
    ∀ (f : Nat) (within : Bool), (∀ x ∈ d0, x.Normal) → (∀ x ∈ d1, x.Normal) → Alternating d0 →
      Alternating d1 → d0.length + d1.length ≤ f →
      (within = true → (∀ x ∈ d0.head?, x.isChange = false) ∧ ∀ x ∈ d1.head?, x.isChange = false) →
      ∃ raw, mergeLoop f (d0.map toFrag) (d1.map toFrag) within = some raw ∧ RawOf d0 d1 e raw := by
  have step : ∀ {f : Nat} {f0 f1 : Fragment α} {F0 F1 : List (Fragment α)} {w w' : Bool}
      {o : Option (MFragment α)} {t0 t1 : Option (Fragment α)} {raw : List (MFragment α)},
      processFragments f0 f1 w = (o, t0, t1, w') →
      mergeLoop f (t0.toList ++ F0) (t1.toList ++ F1) w' = some raw →
      mergeLoop (f + 1) (f0 :: F0) (f1 :: F1) w = some (o.toList ++ raw) := by
    intro f f0 f1 F0 F1 w w' o t0 t1 raw hp hm
    simp only [mergeLoop, hp, hm]
  have nofalse : ∀ {w : Bool} {x : DiffItem α}, x.isChange = true →
      (w = true → x.isChange = false) → w = false := by
    intro w x hx h
    cases w with
    | false => rfl
    | true => rw [hx] at h; simp at h
  induction h with
  | nil =>
    intro f w _ _ _ _ _ _
    exact ⟨[], by cases f <;> rfl, trivial, by simp, rfl, by simp⟩
  | @common c d0 d1 e _ ih =>
    intro f w n0 n1 a0 a1 hf _
    obtain ⟨f, rfl⟩ : ∃ g, f = g + 1 := ⟨f - 1, by simp at hf; omega⟩
    obtain ⟨raw, r1, r2⟩ := ih f false (fun x hx => n0 x (by simp [hx])) (fun x hx => n1 x (by simp [hx]))
      a0.rest a1.rest (by simp at hf; omega) (by simp)
    have p : processFragments (.copy c c.length) (.copy c c.length) w =
        (some (.input (.copy c c.length)), none, none, false) := by
      simp [processFragments, copyCopy]
    exact ⟨_, step p r1, r2.input _ _ _⟩
  | @shorter0 c r d0 d1 e hr _ ih =>
    intro f w n0 n1 a0 a1 hf _
    have lr : 0 < r.length := List.length_pos_iff.2 hr
    obtain ⟨f, rfl⟩ : ∃ g, f = g + 1 := ⟨f - 1, by simp at hf; omega⟩
    obtain ⟨raw, r1, r2⟩ := ih f false (fun x hx => n0 x (by simp [hx]))
      (fun x hx => by
        rcases List.mem_cons.1 hx with rfl | hx
        · exact hr
        · exact n1 x (by simp [hx]))
      a0.rest (a1.swapHead rfl) (by simp at hf ⊢; omega) (by simp)
    have p : processFragments (.copy c c.length) (.copy (c ++ r) (c ++ r).length) w =
        (some (.input (.copy c c.length)), none, some (.copy r r.length), false) := by
      simp [processFragments, copyCopy, splitCopy, lr]
    exact ⟨_, step p r1, r2.input _ _ _⟩
  | @shorter1 c r d0 d1 e hr _ ih =>
    intro f w n0 n1 a0 a1 hf _
    have lr : 0 < r.length := List.length_pos_iff.2 hr
    obtain ⟨f, rfl⟩ : ∃ g, f = g + 1 := ⟨f - 1, by simp at hf; omega⟩
    obtain ⟨raw, r1, r2⟩ := ih f false (fun x hx => by
        rcases List.mem_cons.1 hx with rfl | hx
        · exact hr
        · exact n0 x (by simp [hx])) (fun x hx => n1 x (by simp [hx]))
      (a0.swapHead rfl) a1.rest (by simp at hf ⊢; omega) (by simp)
    have p : processFragments (.copy (c ++ r) (c ++ r).length) (.copy c c.length) w =
        (some (.input (.copy c c.length)), some (.copy r r.length), none, false) := by
      have hlt : ¬ c.length + r.length < c.length := by omega
      simp [processFragments, copyCopy, splitCopy, lr, Ne.symm hr, hr, hlt]
    exact ⟨_, step p r1, r2.input _ _ _⟩
  | @first z o r d0 d1 e hr _ ih =>
    intro f w n0 n1 a0 a1 hf hw
    have lr : 0 < r.length := List.length_pos_iff.2 hr
    have hw' : w = false := nofalse (x := .change z o) rfl fun h => (hw h).1 _ (by simp)
    subst hw'
    obtain ⟨f, rfl⟩ : ∃ g, f = g + 1 := ⟨f - 1, by simp at hf; omega⟩
    obtain ⟨raw, r1, r2⟩ := ih f false (fun x hx => n0 x (by simp [hx]))
      (fun x hx => by
        rcases List.mem_cons.1 hx with rfl | hx
        · exact hr
        · exact n1 x (by simp [hx]))
      a0.rest (a1.swapHead rfl) (by simp at hf ⊢; omega) (by simp)
    have p : processFragments (.change z o o.length) (.copy (o ++ r) (o ++ r).length) false =
        (some (.input (.change z o o.length)), none, some (.copy r r.length), false) := by
      simp [processFragments, copyChange, splitCopy, lr]
    exact ⟨_, step p r1, r2.input _ _ _⟩
  | @first' z o d0 d1 e _ ih =>
    intro f w n0 n1 a0 a1 hf hw
    have hw' : w = false := nofalse (x := .change z o) rfl fun h => (hw h).1 _ (by simp)
    subst hw'
    obtain ⟨f, rfl⟩ : ∃ g, f = g + 1 := ⟨f - 1, by simp at hf; omega⟩
    obtain ⟨raw, r1, r2⟩ := ih f false (fun x hx => n0 x (by simp [hx])) (fun x hx => n1 x (by simp [hx]))
      a0.rest a1.rest (by simp at hf ⊢; omega) (by simp)
    have p : processFragments (.change z o o.length) (.copy o o.length) false =
        (some (.input (.change z o o.length)), none, none, false) := by
      simp [processFragments, copyChange]
    exact ⟨_, step p r1, r2.input _ _ _⟩
  | firstEnd z =>
    intro f w n0 n1 a0 a1 hf hw
    have hw' : w = false := nofalse (x := .change z []) rfl fun h => (hw h).1 _ (by simp)
    subst hw'
    refine ⟨[.input (toFrag (.change z []))], by cases f <;> simp [mergeLoop, flushRemaining], ?_⟩
    exact RawOf.input (d0 := []) (d1 := []) (e := []) (raw := []) ⟨trivial, by simp, rfl, by simp⟩ _ _ _
  | @second z o r d0 d1 e hr _ ih =>
    intro f w n0 n1 a0 a1 hf hw
    have lr : 0 < r.length := List.length_pos_iff.2 hr
    have hw' : w = false := nofalse (x := .change z o) rfl fun h => (hw h).2 _ (by simp)
    subst hw'
    obtain ⟨f, rfl⟩ : ∃ g, f = g + 1 := ⟨f - 1, by simp at hf; omega⟩
    obtain ⟨raw, r1, r2⟩ := ih f false (fun x hx => by
        rcases List.mem_cons.1 hx with rfl | hx
        · exact hr
        · exact n0 x (by simp [hx])) (fun x hx => n1 x (by simp [hx]))
      (a0.swapHead rfl) a1.rest (by simp at hf ⊢; omega) (by simp)
    have p : processFragments (.copy (o ++ r) (o ++ r).length) (.change z o o.length) false =
        (some (.input (.change z o o.length)), some (.copy r r.length), none, false) := by
      simp [processFragments, copyChange, splitCopy, lr]
    exact ⟨_, step p r1, r2.input _ _ _⟩
  | @second' z o d0 d1 e _ ih =>
    intro f w n0 n1 a0 a1 hf hw
    have hw' : w = false := nofalse (x := .change z o) rfl fun h => (hw h).2 _ (by simp)
    subst hw'
    obtain ⟨f, rfl⟩ : ∃ g, f = g + 1 := ⟨f - 1, by simp at hf; omega⟩
    obtain ⟨raw, r1, r2⟩ := ih f false (fun x hx => n0 x (by simp [hx])) (fun x hx => n1 x (by simp [hx]))
      a0.rest a1.rest (by simp at hf ⊢; omega) (by simp)
    have p : processFragments (.copy o o.length) (.change z o o.length) false =
        (some (.input (.change z o o.length)), none, none, false) := by
      simp [processFragments, copyChange]
    exact ⟨_, step p r1, r2.input _ _ _⟩
  | secondEnd z =>
    intro f w n0 n1 a0 a1 hf hw
    have hw' : w = false := nofalse (x := .change z []) rfl fun h => (hw h).2 _ (by simp)
    subst hw'
    refine ⟨[.input (toFrag (.change z []))], by cases f <;> simp [mergeLoop, flushRemaining], ?_⟩
    exact RawOf.input (d0 := []) (d1 := []) (e := []) (raw := []) ⟨trivial, by simp, rfl, by simp⟩ _ _ _
  | @both z0 z1 o k d0 d1 e hk _ ih =>
    intro f w n0 n1 a0 a1 hf hw
    have hw' : w = false := nofalse (x := .change z0 o) rfl fun h => (hw h).1 _ (by simp)
    subst hw'
    obtain ⟨f, rfl⟩ : ∃ g, f = g + 1 := ⟨f - 1, by simp at hf; omega⟩
    have p := change_same_stretch (n0 (.change z0 o) (by simp)).1 (n1 (.change z1 o) (by simp)).1
    have hh := fun w => ih f w (fun x hx => n0 x (by simp [hx])) (fun x hx => n1 x (by simp [hx]))
      a0.rest a1.rest (by simp at hf ⊢; omega) (fun _ => ⟨a0.next rfl, a1.next rfl⟩)
    by_cases hz : z0 = z1
    · subst hz
      rw [if_pos rfl] at p
      obtain ⟨raw, r1, r2⟩ := hh false
      refine ⟨_, step p r1, ?_⟩
      obtain ⟨q1, q2, q3, q4⟩ := r2.input (.change z0 o o.length) (.change z0 o :: d0) (.change z0 o :: d1)
      refine ⟨q1, q2, ?_, q4⟩
      refine q3.trans ?_
      rw [C13_diff_self] at hk
      injection hk with hk
      subst hk
      by_cases hz : z0 = []
      · simp only [Fragment.insert, hz, if_true, List.nil_append, joinCommon]
        cases joinCommon e with
        | nil => rfl
        | cons y r => cases y <;> simp
      · simp only [hz, if_false, List.cons_append, List.nil_append, Fragment.insert]
    · rw [if_neg hz] at p
      obtain ⟨raw, r1, q1, q2, q3, q4⟩ := hh true
      refine ⟨_, step p r1, ?_, ?_, ?_, ?_⟩
      · show NoAdj (_ :: raw)
        cases raw with
        | nil => trivial
        | cons y raw =>
          refine ⟨.inr ?_, q1⟩
          cases hy : y.isConflict with
          | false => rfl
          | true =>
            obtain ⟨⟨x, hx, hc⟩, _⟩ := q4 y (by simp) hy
            rw [a0.next rfl x hx] at hc
            simp at hc
      · intro x hx
        simp only [Option.toList_some, List.cons_append, List.nil_append, List.mem_cons] at hx
        rcases hx with rfl | hx
        · simp [MFragment.noLit]
        · exact q2 x hx
      · simp only [Option.toList_some, List.cons_append, List.nil_append, List.flatMap_cons, splitRaw, hk,
          Option.getD_some, List.map_append, List.map_map]
        have : k.map (rawItem ∘ toM) = k := by
          rw [List.map_congr_left (g := id) (fun x _ => by cases x <;> rfl)]
          simp
        rw [this]
        exact joinCommon_append k q3
      · intro y _ _
        exact ⟨⟨_, rfl, rfl⟩, _, rfl, rfl⟩

/-- C136.  If every change of one branch falls into text that the other one keeps, or meets a change of the
same stretch, the merge is exactly: all changes of one branch, and the diff of the two versions
where both change something. -/
theorem C136_aligned (kind : Kind) {parent b0 b1 : List α} {d0 d1 e : List (DiffItem α)}
    (h0 : diffTokenSequences parent b0 = some d0) (h1 : diffTokenSequences parent b1 = some d1)
    (h : Aligned d0 d1 e) :
    mergeTokenSequence kind parent b0 b1 =
      .ok (if joinCommon e = [] then [.common []] else joinCommon e) := by
  obtain ⟨_, k0, n0, a0⟩ := C12_diff_normal_form parent b0
  obtain ⟨_, k1, n1, a1⟩ := C12_diff_normal_form parent b1
  rw [h0] at k0
  cases k0
  rw [h1] at k1
  cases k1
  obtain ⟨raw, hloop, r1, r2, r3, _⟩ :=
    mergeLoop_aligned h (d0.length + d1.length) false n0 n1 a0 a1 (by omega) (by simp)
  rw [merge_of_diffs kind h0 h1 hloop]
  have p1 := consolidateConflicts_apart kind _ _ (Nat.le_refl _) r1 r2
  obtain ⟨R, q1, _, q2, q3, _⟩ := pass1_spec kind _ _ (Nat.le_refl _) (.inr r2)
  rw [p1] at q1
  cases q1
  have p2 := consolidateAllLoop_join kind _ _ (Nat.le_refl _) q3 q2
  rw [r3] at p2
  simp only [consolidate, consolidateAll, p1, p2, bind, Except.bind, pure, Except.pure]
  cases joinCommon e <;> simp

-- The first branch changes "b", the second one "d", both change "f", and the second one appends.
example : mergeTokenSequence .str "abcdefg".toList "a1cdeF2g".toList "abc3eF4gh".toList =
    .ok [.common "a1c3eF".toList, .change "2".toList "4".toList, .common "gh".toList] := by decide +kernel
example : mergeTokenSequence .str "abcdefg".toList "a1cdeF2g".toList "abc3eF4gh".toList =
    .ok [.common "a1c3eF".toList, .change "2".toList "4".toList, .common "gh".toList] :=
  C136_aligned .str
    (d0 := [.common "a".toList, .change "1".toList "b".toList, .common "cde".toList,
      .change "F2".toList "f".toList, .common "g".toList])
    (d1 := [.common "abc".toList, .change "3".toList "d".toList, .common "e".toList,
      .change "F4".toList "f".toList, .common "g".toList, .change "h".toList []])
    (by decide +kernel) (by decide +kernel)
    (.shorter0 "a".toList (r := "bc".toList) (by decide)
      (.first "1".toList "b".toList (r := "c".toList) (by decide)
        (.shorter1 "c".toList (r := "de".toList) (by decide)
          (.second "3".toList "d".toList (r := "e".toList) (by decide)
            (.common "e".toList
              (.both "F2".toList "F4".toList "f".toList
                (k := [.common "F".toList, .change "2".toList "4".toList]) (by decide +kernel)
                (.common "g".toList (.secondEnd "h".toList))))))))
-- Edits that touch without overlapping are aligned, too.
example : mergeTokenSequence .str "abcd".toList "axcd".toList "abyd".toList =
    .ok [.common "axyd".toList] :=
  C136_aligned .str (d0 := [.common "a".toList, .change "x".toList "b".toList, .common "cd".toList])
    (d1 := [.common "ab".toList, .change "y".toList "c".toList, .common "d".toList])
    (by decide +kernel) (by decide +kernel)
    (.shorter0 "a".toList (r := "b".toList) (by decide)
      (.first' "x".toList "b".toList
        (.second "y".toList "c".toList (r := "d".toList) (by decide) (.common "d".toList .nil))))
-- Changes of different stretches that overlap are not aligned; in the second merge "c" is dropped without
-- being in the conflict.
example : mergeTokenSequence .str "abcd".toList "axd".toList "aybcd".toList =
    .ok [.common "a".toList, .change "x".toList "ybc".toList, .common "d".toList] ∧
    mergeTokenSequence .str "abcd".toList "axd".toList "abycd".toList =
    .ok [.common "a".toList, .change "x".toList "b".toList, .common "yd".toList] := by decide +kernel

/-- The edits are of the same stretch, or apart and not at the same place. -/
def Edit.SameOrApart (e0 e1 : Edit α) : Prop :=
  (e0.start = e1.start ∧ e0.stop = e1.stop) ∨ (e0.Disjoint e1 ∧ e0.start ≠ e1.start)

theorem aligned_of_edits : ∀ (n : Nat) (pos : Nat) (d0 d1 : List (DiffItem α)), d0.length + d1.length ≤ n →
    fromText d0 = fromText d1 → (∀ x ∈ d0, x.Normal) → (∀ x ∈ d1, x.Normal) → Alternating d0 →
    Alternating d1 → (∀ e0 ∈ editsOf pos d0, ∀ e1 ∈ editsOf pos d1, e0.SameOrApart e1) →
    ∃ e, Aligned d0 d1 e := by
  have fc : ∀ (c : List α) d, fromText (.common c :: d) = c ++ fromText d := fun c d => by simp [fromText]
  have fx : ∀ (a b : List α) d, fromText (.change a b :: d) = b ++ fromText d := fun a b d => by simp [fromText]
  have f0 : fromText ([] : List (DiffItem α)) = [] := rfl
  -- a diff of the empty text
  have empty : ∀ {d : List (DiffItem α)}, fromText d = [] → (∀ x ∈ d, x.Normal) → Alternating d →
      d = [] ∨ ∃ z, d = [.change z []] := by
    intro d h n a
    match d, h, n, a with
    | [], _, _, _ => exact .inl rfl
    | .common c :: _, h, n, _ =>
      rw [fc] at h
      exact absurd (List.append_eq_nil_iff.1 h).1 (n (.common c) (by simp))
    | [.change z o], h, _, _ =>
      rw [fx] at h
      exact .inr ⟨z, by rw [(List.append_eq_nil_iff.1 h).1]⟩
    | .change z o :: .common c :: _, h, n, _ =>
      rw [fx, fc] at h
      exact absurd (List.append_eq_nil_iff.1 (List.append_eq_nil_iff.1 h).2).1 (n (.common c) (by simp))
    | .change _ _ :: .change _ _ :: _, _, _, a => exact absurd rfl a.1
  -- the beginnings of one text
  have pre : ∀ {a b u v : List α}, a ++ u = b ++ v → a.length ≤ b.length → ∃ r, b = a ++ r ∧ u = r ++ v := by
    intro a b u v h hl
    rcases List.append_eq_append_iff.1 h with ⟨r, h1, h2⟩ | ⟨r, h1, h2⟩
    · exact ⟨r, h1, h2⟩
    · have : r = [] := by
        have := congrArg List.length h1
        simp at this
        exact List.length_eq_zero_iff.1 (by omega)
      subst this
      exact ⟨[], by simpa using h1.symm, by simpa using h2.symm⟩
  intro n
  induction n with
  | zero =>
    intro pos d0 d1 hl _ _ _ _ _ _
    have e0 : d0 = [] := List.length_eq_zero_iff.1 (by omega)
    have e1 : d1 = [] := List.length_eq_zero_iff.1 (by omega)
    subst e0 e1
    exact ⟨[], .nil⟩
  | succ n ih =>
    intro pos d0 d1 hl ht n0 n1 a0 a1 he
    match d0, d1, hl, ht, n0, n1, a0, a1, he with
    | [], d1, _, ht, _, n1, _, a1, _ =>
      rcases empty ht.symm n1 a1 with rfl | ⟨z, rfl⟩
      · exact ⟨[], .nil⟩
      · exact ⟨_, .secondEnd z⟩
    | x :: d0, [], _, ht, n0, _, a0, _, _ =>
      rcases empty ht n0 a0 with h | ⟨z, h⟩
      · simp at h
      · rw [h]; exact ⟨_, .firstEnd z⟩
    | .common c0 :: d0, .common c1 :: d1, hl, ht, n0, n1, a0, a1, he =>
      rw [fc, fc] at ht
      simp only [List.length_cons] at hl
      simp only [editsOf] at he
      have t0 : ∀ x ∈ d0, x.Normal := fun x hx => n0 x (by simp [hx])
      have t1 : ∀ x ∈ d1, x.Normal := fun x hx => n1 x (by simp [hx])
      by_cases h1 : c0.length ≤ c1.length
      · obtain ⟨r, rfl, hr⟩ := pre ht h1
        by_cases hre : r = []
        · subst hre
          simp only [List.append_nil, List.nil_append] at hr he ⊢
          obtain ⟨e, h⟩ := ih (pos + c0.length) d0 d1 (by omega) hr t0 t1 a0.rest a1.rest he
          exact ⟨_, .common c0 h⟩
        · obtain ⟨e, h⟩ := ih (pos + c0.length) d0 (.common r :: d1) (by simp; omega) (by rw [fc]; exact hr) t0
            (fun x hx => by
              rcases List.mem_cons.1 hx with rfl | hx
              · exact hre
              · exact t1 x hx) a0.rest (a1.swapHead rfl)
            (by simp only [editsOf]; rw [Nat.add_assoc, ← List.length_append]; exact he)
          exact ⟨_, .shorter0 c0 hre h⟩
      · obtain ⟨r, rfl, hr⟩ := pre ht.symm (by omega)
        have hre : r ≠ [] := by rintro rfl; simp at h1
        obtain ⟨e, h⟩ := ih (pos + c1.length) (.common r :: d0) d1 (by simp; omega) (by rw [fc]; exact hr.symm)
          (fun x hx => by
            rcases List.mem_cons.1 hx with rfl | hx
            · exact hre
            · exact t0 x hx) t1 (a0.swapHead rfl) a1.rest
          (by simp only [editsOf]; rw [Nat.add_assoc, ← List.length_append]; exact he)
        exact ⟨_, .shorter1 c1 hre h⟩
    | .change z o :: d0, .common c :: d1, hl, ht, n0, n1, a0, a1, he =>
      rw [fx, fc] at ht
      simp only [List.length_cons] at hl
      simp only [editsOf, List.mem_cons, forall_eq_or_imp] at he
      have t0 : ∀ x ∈ d0, x.Normal := fun x hx => n0 x (by simp [hx])
      have t1 : ∀ x ∈ d1, x.Normal := fun x hx => n1 x (by simp [hx])
      have lc : 0 < c.length := List.length_pos_iff.2 (n1 (.common c) (by simp))
      by_cases h1 : o.length ≤ c.length
      · obtain ⟨r, rfl, hr⟩ := pre ht h1
        by_cases hre : r = []
        · subst hre
          simp only [List.append_nil, List.nil_append] at hr he ⊢
          obtain ⟨e, h⟩ := ih (pos + o.length) d0 d1 (by omega) hr t0 t1 a0.rest a1.rest he.2
          exact ⟨_, .first' z o h⟩
        · obtain ⟨e, h⟩ := ih (pos + o.length) d0 (.common r :: d1) (by simp; omega) (by rw [fc]; exact hr) t0
            (fun x hx => by
              rcases List.mem_cons.1 hx with rfl | hx
              · exact hre
              · exact t1 x hx) a0.rest (a1.swapHead rfl)
            (by
              simp only [editsOf]
              rw [Nat.add_assoc, ← List.length_append]
              exact he.2)
          exact ⟨_, .first z o hre h⟩
      · exfalso
        match d1, a1, t1 with
        | [], _, _ =>
          have := congrArg List.length ht
          simp [f0] at this
          omega
        | .common _ :: _, a1, _ => exact a1.1 rfl
        | .change z1 o1 :: d1, _, _ =>
          have := he.1 ⟨pos + c.length, pos + c.length + o1.length, z1⟩ (by simp [editsOf])
          simp only [Edit.SameOrApart, Edit.Disjoint] at this
          omega
    | .common c :: d0, .change z o :: d1, hl, ht, n0, n1, a0, a1, he =>
      rw [fx, fc] at ht
      simp only [List.length_cons] at hl
      simp only [editsOf, List.mem_cons, forall_eq_or_imp] at he
      have t0 : ∀ x ∈ d0, x.Normal := fun x hx => n0 x (by simp [hx])
      have t1 : ∀ x ∈ d1, x.Normal := fun x hx => n1 x (by simp [hx])
      have lc : 0 < c.length := List.length_pos_iff.2 (n0 (.common c) (by simp))
      by_cases h1 : o.length ≤ c.length
      · obtain ⟨r, rfl, hr⟩ := pre ht.symm h1
        by_cases hre : r = []
        · subst hre
          simp only [List.append_nil, List.nil_append] at hr he ⊢
          obtain ⟨e, h⟩ := ih (pos + o.length) d0 d1 (by omega) hr.symm t0 t1 a0.rest a1.rest
            (fun e0 h0 e1 h1 => (he e0 h0).2 e1 h1)
          exact ⟨_, .second' z o h⟩
        · obtain ⟨e, h⟩ := ih (pos + o.length) (.common r :: d0) d1 (by simp; omega) (by rw [fc]; exact hr.symm)
            (fun x hx => by
              rcases List.mem_cons.1 hx with rfl | hx
              · exact hre
              · exact t0 x hx) t1 (a0.swapHead rfl) a1.rest
            (by
              simp only [editsOf]
              rw [Nat.add_assoc, ← List.length_append]
              exact fun e0 h0 e1 h1 => (he e0 h0).2 e1 h1)
          exact ⟨_, .second z o hre h⟩
      · exfalso
        match d0, a0, t0 with
        | [], _, _ =>
          have := congrArg List.length ht
          simp [f0] at this
          omega
        | .common _ :: _, a0, _ => exact a0.1 rfl
        | .change z1 o1 :: d0, _, _ =>
          have := (he ⟨pos + c.length, pos + c.length + o1.length, z1⟩ (by simp [editsOf])).1
          simp only [Edit.SameOrApart, Edit.Disjoint] at this
          omega
    | .change z0 o0 :: d0, .change z1 o1 :: d1, hl, ht, n0, n1, a0, a1, he =>
      rw [fx, fx] at ht
      simp only [List.length_cons] at hl
      simp only [editsOf, List.mem_cons, forall_eq_or_imp] at he
      have := he.1.1
      simp only [Edit.SameOrApart, Edit.Disjoint] at this
      obtain ⟨rfl, hr⟩ := List.append_inj ht (by omega)
      obtain ⟨k, hk, _⟩ := C09_diff_reconstructs z1 z0
      obtain ⟨e, h⟩ := ih (pos + o0.length) d0 d1 (by omega) hr (fun x hx => n0 x (by simp [hx]))
        (fun x hx => n1 x (by simp [hx])) a0.rest a1.rest
        (fun e0 h0 e1 h1 => (he.2 e0 h0).2 e1 h1)
      exact ⟨_, .both z0 z1 o0 hk h⟩

/-- C136.  The condition in terms of positions in the parent: any two changes of different branches are of the
same stretch, or do not overlap and do not start at the same place. -/
theorem C136_positions (kind : Kind) {parent b0 b1 : List α} {d0 d1 : List (DiffItem α)}
    (h0 : diffTokenSequences parent b0 = some d0) (h1 : diffTokenSequences parent b1 = some d1)
    (h : ∀ e0 ∈ editsOf 0 d0, ∀ e1 ∈ editsOf 0 d1, e0.SameOrApart e1) :
    ∃ e, Aligned d0 d1 e ∧ mergeTokenSequence kind parent b0 b1 =
      .ok (if joinCommon e = [] then [.common []] else joinCommon e) := by
  obtain ⟨_, k0, n0, a0⟩ := C12_diff_normal_form parent b0
  obtain ⟨_, k1, n1, a1⟩ := C12_diff_normal_form parent b1
  obtain ⟨_, j0, _, t0⟩ := C09_diff_reconstructs parent b0
  obtain ⟨_, j1, _, t1⟩ := C09_diff_reconstructs parent b1
  rw [h0] at k0 j0
  cases k0
  cases j0
  rw [h1] at k1 j1
  cases k1
  cases j1
  obtain ⟨e, he⟩ := aligned_of_edits _ 0 d0 d1 (Nat.le_refl _) (t0.trans t1.symm) n0 n1 a0 a1 h
  exact ⟨e, he, C136_aligned kind h0 h1 he⟩

-- The edits of the first example are of the same stretch or apart.
example : ∀ e0 ∈ editsOf 0 [.common "a".toList, .change "1".toList "b".toList, .common "cde".toList,
      .change "F2".toList "f".toList, .common "g".toList],
    ∀ e1 ∈ editsOf 0 [.common "abc".toList, .change "3".toList "d".toList, .common "e".toList,
      .change "F4".toList "f".toList, .common "g".toList, .change "h".toList []],
    e0.SameOrApart e1 := by
  simp [editsOf, Edit.SameOrApart, Edit.Disjoint]
-- An insertion in the middle of what the other branch replaces is neither.
example : ¬ (⟨1, 3, "x".toList⟩ : Edit Char).SameOrApart ⟨2, 2, "y".toList⟩ := by
  simp [Edit.SameOrApart, Edit.Disjoint]

end Gaspra
