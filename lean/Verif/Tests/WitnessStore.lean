/-
The theorems about version stores applied to concrete histories: their hypotheses can be met.
-/
import Verif.Props.DB
import Verif.Props.DBTags
import Verif.Props.Database
import Verif.Props.DeltaSize
import Verif.Props.Depth
import Verif.Props.Interrupt
import Verif.Props.Isolate
import Verif.Props.Manifest
import Verif.Props.RevisionTree
import Verif.Props.Tokenizers
import Verif.Props.VersionsCost

namespace Gaspra.Witness

theorem small_ints : ∀ k : Nat, ∀ e, k ≤ 5 → vserializeInt k = .ok e → e.length ≤ 1 := by
  intro k e hk he
  have h : ∀ k < 6, (vserializeInt (k : Nat)).toOption.map List.length = some 1 := by decide
  have := h k (by omega)
  rw [he] at this
  simp [Except.toOption] at this
  omega

theorem line_of_four : BaseLine sampleHistory 4 [4, 3, 2, 1, 0] :=
  .step (a := ⟨4, [7, 1, 9, 9, 4], some 3⟩) (by simp [sampleHistory]) rfl
    (.step (a := ⟨3, [1, 9, 9, 4], some 2⟩) (by simp [sampleHistory]) rfl
      (.step (a := ⟨2, [1, 9, 3, 4], some 1⟩) (by simp [sampleHistory]) rfl
        (.step (a := ⟨1, [1, 2, 3, 4], some 0⟩) (by simp [sampleHistory]) rfl
          (.root (a := ⟨0, [1, 2, 3], none⟩) (by simp [sampleHistory]) rfl))))

theorem four_is_head : IsHead sampleHistory 4 := by simp [IsHead, addedTags, sampleHistory]

/-- `sampleHistory` and one more version. -/
theorem longer_good : GoodHistory (sampleHistory ++ [⟨5, [7, 7, 1, 9], some 4⟩]) :=
  .snoc sampleHistory_good (by simp [addedTags, sampleHistory])
    (by rintro b hb; cases hb; exact four_is_head)

theorem longer_short : ∀ o ∈ sampleHistory ++ [⟨5, [7, 7, 1, 9], some 4⟩], o.content.length ≤ 5 := by
  decide

/-- `sampleHistory` and a call with an unknown base. -/
theorem longer_fresh : FreshHistory (sampleHistory ++ [⟨5, [7], some 77⟩]) :=
  .snoc sampleHistory_good.fresh (by simp [addedTags, sampleHistory]) (by simp)

theorem longer_fit : ContentsFit (sampleHistory ++ [⟨5, [7], some 77⟩]) := by
  unfold ContentsFit; decide

example := C31_failing_add longer_fresh longer_fit
example := C36_same_errors nullTok longer_fresh
example := C36_same_answers nullTok longer_fresh
example := (C36_same_tree nullTok longer_fresh 5).1 (by simp [addedTags, sampleHistory])
example := (C36_same_tree nullTok longer_fresh 77).2 (by simp [addedTags, sampleHistory])
example := C36_same_rows nullTok longer_fresh
example := C57_readd_db nullTok sampleHistory_good.fresh (a := ⟨2, [8, 8], some 4⟩)
  (by simp [addedTags, sampleHistory])
example := C57_readd_memory (h := sampleHistory) (a := ⟨2, [8, 8], none⟩) rfl
example := C51_lines sampleHistory_good sampleHistory_fit (y := 1) (by simp [addedTags, sampleHistory])
example := C78_delta_size sampleHistory_good (N := 5) (w := 1) (by decide) (by decide) small_ints
  (a := ⟨2, [1, 9, 3, 4], some 1⟩) (by simp [sampleHistory])
  (d := (dget (storeAfter sampleHistory).diffs 2).getD []) (by decide +kernel)
example := C78_delta_size_bounds sampleHistory_good sampleHistory_fit
  (a := ⟨2, [1, 9, 3, 4], some 1⟩) (by simp [sampleHistory])
  (d := (dget (storeAfter sampleHistory).diffs 2).getD []) (by decide +kernel)
example := C95_get_cost sampleHistory_good (L := 5) (w := 1) (by decide) (by decide) small_ints
  four_is_head line_of_four
example := C95_add_cost longer_good (L := 5) (w := 1) (by decide) longer_short small_ints rfl line_of_four

/-! Tags that are numbers, in a table -/

theorem intHistory_good : GoodHistory intHistory := by
  have d : ∀ {h : List (AddOp DBTag)} {a : AddOp DBTag}, GoodHistory h → a.tag ∉ addedTags h →
      (∀ b, a.base = some b → IsHead h b) → GoodHistory (h ++ [a]) := fun h1 h2 h3 => .snoc h1 h2 h3
  refine d (h := [_, _]) (d (h := [_]) (d (h := []) .nil ?_ ?_) ?_ ?_) ?_ ?_
  · decide +kernel
  · rintro b hb; cases hb
  · decide +kernel
  · rintro b hb; cases hb; unfold IsHead; decide +kernel
  · decide +kernel
  · rintro b hb; cases hb; unfold IsHead; decide +kernel

theorem intHistory_converted : GoodHistory (intHistory.map (convertOp DBTag.column)) := by
  have d : ∀ {h : List (AddOp DBTag)} {a : AddOp DBTag}, GoodHistory h → a.tag ∉ addedTags h →
      (∀ b, a.base = some b → IsHead h b) → GoodHistory (h ++ [a]) := fun h1 h2 h3 => .snoc h1 h2 h3
  refine d (h := [_, _]) (d (h := [_]) (d (h := []) .nil ?_ ?_) ?_ ?_) ?_ ?_
  · decide +kernel
  · rintro b hb; cases hb
  · decide +kernel
  · rintro b hb; cases hb; unfold IsHead; decide +kernel
  · decide +kernel
  · rintro b hb; cases hb; unfold IsHead; decide +kernel

theorem intHistory_fit : ContentsFit intHistory := by unfold ContentsFit; decide

theorem intHistory_ints : ∀ a ∈ intHistory, ∃ n, a.tag = .int n := by
  intro a ha
  simp only [intHistory, List.mem_cons, List.not_mem_nil, or_false] at ha
  rcases ha with rfl | rfl | rfl <;> exact ⟨_, rfl⟩

example := C90_converted nullTok DBTag.column_column intHistory_converted.fresh
example := C90_db_exact DBTag.column_column intHistory_converted intHistory_fit
example := C90_plain nullTok (col := DBTag.column) intHistory_converted.fresh (by
  intro a ha
  obtain ⟨b, _, rfl⟩ := List.mem_map.1 ha
  cases b with | mk t c base => cases base <;> simp [convertOp, DBTag.column_column])
example := C90_lost nullTok (col := DBTag.column) (h := intHistory) ⟨by decide +kernel, by decide +kernel⟩
example := C90_wrong_text (col := DBTag.column) (t := .int 7) rfl (by decide) [1] [2, 3]
example := C90_integers nullTok intHistory_ints (by decide +kernel)
example := C90_integers_db intHistory_good intHistory_ints intHistory_fit

/-! Two stores in one database -/

theorem twoStores_fresh : FreshHistory (twoStores.map Prod.snd) :=
  (((((FreshHistory.nil.snoc (a := ⟨0, [1, 2, 3, 4], none⟩) (by decide) (by decide)).snoc
    (a := ⟨10, [5, 6, 7], none⟩) (by decide) (by decide)).snoc
    (a := ⟨1, [1, 2, 4], some 0⟩) (by decide) (by decide)).snoc
    (a := ⟨11, [5, 7], some 10⟩) (by decide) (by decide)).snoc
    (a := ⟨12, [5], some 10⟩) (by decide) (by decide)).snoc
    (a := ⟨2, [1, 2], some 1⟩) (by decide) (by decide)

theorem twoStores_own : OwnTags twoStores := by
  simp only [OwnTags, OnlyUsedBy, twoStores]; decide

/-- The calls of `twoStores` that succeed. -/
def goodCalls : List (StoreCall Nat) :=
  [(storeAB, ⟨0, [1, 2, 3, 4], none⟩), (storeCD, ⟨10, [5, 6, 7], none⟩),
   (storeAB, ⟨1, [1, 2, 4], some 0⟩), (storeCD, ⟨11, [5, 7], some 10⟩)]

theorem goodCalls_fresh : FreshHistory (goodCalls.map Prod.snd) :=
  (((FreshHistory.nil.snoc (a := ⟨0, [1, 2, 3, 4], none⟩) (by decide) (by decide)).snoc
    (a := ⟨10, [5, 6, 7], none⟩) (by decide) (by decide)).snoc
    (a := ⟨1, [1, 2, 4], some 0⟩) (by decide) (by decide)).snoc
    (a := ⟨11, [5, 7], some 10⟩) (by decide) (by decide)

theorem goodCalls_own : OwnTags goodCalls := by
  simp only [OwnTags, OnlyUsedBy, goodCalls]; decide

theorem goodCalls_good : ∀ n ∈ [storeAB, storeCD], GoodHistory (callsTo n goodCalls) := by
  intro n hn
  simp only [List.mem_cons, List.not_mem_nil, or_false] at hn
  rcases hn with rfl | rfl
  · exact .snoc (h := [⟨0, [1, 2, 3, 4], none⟩]) (a := ⟨1, [1, 2, 4], some 0⟩)
      (.snoc .nil (by simp [addedTags]) (by simp)) (by simp [addedTags])
      (by rintro b hb; cases hb; simp [IsHead, addedTags])
  · exact .snoc (h := [⟨10, [5, 6, 7], none⟩]) (a := ⟨11, [5, 7], some 10⟩)
      (.snoc .nil (by simp [addedTags]) (by simp)) (by simp [addedTags])
      (by rintro b hb; cases hb; simp [IsHead, addedTags])

example := C92_apart nullTok usedDatabase (stores := [storeAB, storeCD]) (by decide) (by decide)
  twoStores_fresh twoStores_own (n := storeCD) (by decide)
example := C92_exact usedDatabase (stores := [storeAB, storeCD]) (by decide) (by decide)
  goodCalls_fresh goodCalls_own goodCalls_good (by unfold ContentsFit; decide)
example := C92_foreign nullTok usedDatabase (stores := [storeAB, storeCD]) (by decide) (by decide)
  twoStores_fresh twoStores_own (n := storeAB) (by decide) (c := (storeCD, ⟨10, [5, 6, 7], none⟩))
  (by simp [twoStores]) (by decide)
example := (C92_lost nullTok usedDatabase storeAB storeCD 1).2.2.2 (by decide)
example := C92_restart nullTok usedDatabase (n := storeAB) (by decide) sampleHistory
example := C92_taken nullTok usedDatabase (n := storeAB) storeCD (a := ⟨1, [4], none⟩) (by decide +kernel)

/-! Interrupted calls -/

theorem tornContent_fit : ∀ x, (tornContent x).length < 2 ^ 64
  | 0 => by decide
  | 1 => by decide
  | _ + 2 => by simp [tornContent]

theorem no_parent {t : MTree Nat} {x : Nat} (h : ((dget t x).bind fun nd => nd.parent) = none) :
    ∀ q, ¬ ParentOf t x q := by
  rintro q ⟨nc, h1, h2⟩
  simp [h1, h2] at h

theorem tornBefore_survived : Survived nullTok tornContent tornBefore :=
  .done (tag := 1) (base := some 0)
    (.done (tag := 0) (base := none) .empty (no_parent rfl) (by simp)) (no_parent (by decide +kernel)) (by simp)

/-- An interrupted call, and the same call again. -/
example : Survived nullTok tornContent (versionsAdd (memoryTree Nat) nullTok (tornAt 1) 2 (tornContent 2) (some 1)).1 :=
  .done (.interrupted (pt := .nodeAdded) tornBefore_survived (tag := 2) (base := some 1)
    (no_parent (by decide +kernel)) (by simp)
    (List.mem_of_getElem? (tornAt_get (i := 1) (by decide +kernel)))
    (by rintro c ⟨h | h, _⟩ <;> simp at h)) (no_parent (by decide +kernel)) (by simp)

example := C80_survives tornContent_fit tornBefore_survived 0
example := C80_no_tag_lost tornContent_fit tornBefore_survived (tag := 2) (base := some 1)
  (no_parent (by decide +kernel)) (by simp)
  (List.mem_of_getElem? (tornAt_get (i := 2) (pt := .deltaWritten 0) (by decide +kernel)))
example := C80_torn tornContent_fit tornBefore_survived (tag := 2) (base := some 1)
  (no_parent (by decide +kernel)) (by simp)
  (List.mem_of_getElem? (tornAt_get (i := 2) (pt := .deltaWritten 0) (by decide +kernel)))
  (c := 0) ⟨.inl rfl, 1, ⟨(dget (tornAt 2).tree 0).getD ⟨0, none, [], 0, 0, none⟩, by decide +kernel, by decide +kernel⟩, by decide⟩
  (x := 0) (by decide +kernel)

/-- Two versions of a text. -/
def words : Nat → Bytes
  | 0 => [97, 32, 195, 169]
  | _ => [98, 32, 195, 169, 10]

theorem words_utf8 : ∀ x, Utf8Bytes (words x) ∧ (words x).length < 2 ^ 64
  | 0 => ⟨⟨[97, 32, 233], by decide⟩, by decide⟩
  | _ + 1 => ⟨⟨[98, 32, 233, 10], by simp only [words]; decide⟩, by simp [words]⟩

example := C80_survives_chars words_utf8
  (.done (tag := 1) (base := some 0) (.done (tag := 0) (base := none) .empty (no_parent rfl) (by simp))
    (no_parent (by decide +kernel)) (by simp)) 0
example := C80_survives_symbols asciiWord words_utf8
  (.done (tag := 1) (base := some 0) (.done (tag := 0) (base := none) .empty (no_parent rfl) (by simp))
    (no_parent (by decide +kernel)) (by simp)) 0

theorem words_good : GoodHistory [⟨0, words 0, none⟩, ⟨1, words 1, some 0⟩] :=
  .snoc (h := [⟨0, words 0, none⟩]) (.snoc .nil (by simp [addedTags]) (by simp)) (by simp [addedTags])
    (by rintro b hb; cases hb; simp [IsHead, addedTags])

theorem words_contents : Utf8Contents [⟨0, words 0, none⟩, ⟨1, words 1, some 0⟩] := by
  intro a ha
  simp only [List.mem_cons, List.not_mem_nil, or_false] at ha
  rcases ha with rfl | rfl
  · exact words_utf8 0
  · exact words_utf8 1

example := C42_char_versions words_good words_contents

/-! Two lines of versions in one store -/

theorem fresh_of {h : List (AddOp Nat)} : ∀ (pre : List (AddOp Nat)), FreshHistory pre →
    ((List.range h.length).all fun i => decide (((pre ++ h.take i).map AddOp.tag).contains
      ((h[i]?.map AddOp.tag).getD 0) = false ∧ (h[i]?.bind AddOp.base) ≠ h[i]?.map AddOp.tag)) = true →
    FreshHistory (pre ++ h) := by
  induction h with
  | nil => intro pre hp _; simpa using hp
  | cons a h ih =>
    intro pre hp hall
    rw [List.all_eq_true] at hall
    have h0 := hall 0 (by simp)
    simp at h0
    have hs : FreshHistory (pre ++ [a]) := .snoc hp (by simpa [addedTags] using h0.1) h0.2
    have := ih (pre ++ [a]) hs (by
      rw [List.all_eq_true]
      intro i hi
      have := hall (i + 1) (by simp at hi ⊢; omega)
      simpa [List.take_succ_cons] using this)
    simpa using this

theorem twoLines_fresh : FreshHistory twoLines := fresh_of [] .nil (by decide)
theorem inTurn_fresh : FreshHistory twoLinesInTurn := fresh_of [] .nil (by decide)
theorem twoLines_separate : Separate (fun n => n % 2 == 1) twoLines := by simp [Separate, twoLines]
theorem inTurn_separate : Separate (fun n => n % 2 == 1) twoLinesInTurn := by
  simp [Separate, twoLinesInTurn, callsIn, twoLines]

example := C89_alone nullTok twoLines_fresh twoLines_separate
example := C89_interleaving nullTok twoLines_fresh inTurn_fresh twoLines_separate inTurn_separate rfl

/-! Manifests -/

example := C44_manifests sampleOps_good (dget sampleContents) (by
  intro op hop t c h
  simp only [sampleOps, List.mem_cons, List.not_mem_nil, or_false] at hop
  rcases hop with rfl | rfl <;> exact h)

/-- A store with a manifest of one file. -/
def manifestCalls : List (AddOp PyStr) :=
  [⟨[100], [97], none⟩, ⟨[109], [123, 34, 92, 117, 48, 48, 48, 49, 34, 58, 34, 100, 34, 125], none⟩]

theorem manifestCalls_fresh : FreshHistory manifestCalls :=
  .snoc (h := [⟨[100], [97], none⟩]) (.snoc .nil (by simp [addedTags]) (by simp)) (by simp [addedTags]) (by simp)

theorem manifestCalls_base : BaseIs manifestCalls (some [109]) (some [([1], [100])]) :=
  .known (a := ⟨[109], [123, 34, 92, 117, 48, 48, 48, 49, 34, 58, 34, 100, 34, 125], none⟩)
    (by simp [manifestCalls]) ⟨by decide, by decide⟩ (by decide +kernel) (by decide) (by decide)

example := C44_new_name_fails manifestCalls_fresh (by unfold ContentsFit; decide) manifestCalls_base
  (tag := [110]) (manifest := [([1], [100]), ([2], [102])]) (contents := sampleContents)
  ⟨by decide, by decide⟩ (by decide) (by decide) (by decide) (by rintro b hb; cases hb; decide) (by decide)
  (by rintro doc hd; cases hd; decide) (e := ([2], [102])) (by decide) (by decide)
example := C44_add_manifest manifestCalls_fresh (by unfold ContentsFit; decide) manifestCalls_base
  (tag := [110]) (manifest := [([1], [101])]) (contents := sampleContents)
  ⟨by decide, by decide⟩ (by decide) (by decide) (by decide) (by rintro b hb; cases hb; decide) (by decide)
  (by rintro doc hd; cases hd; decide)

/-! The linear revision tree -/

theorem nine : ∃ t, rInsertAll ⟨none, []⟩ (List.range 9) = some t ∧ ∃ es, rEdges t = some es := by
  obtain ⟨t, h, _⟩ := C79_insert_all (List.range 9) List.nodup_range
  obtain ⟨es, he, _⟩ := C79_edges _ t List.nodup_range h
  exact ⟨t, h, es, he⟩

example : True := by
  obtain ⟨t, h, es, he⟩ := nine
  have n9 : (List.range 9).Nodup := List.nodup_range
  have := C79_path _ t es 4 n9 h he (by decide)
  have := C79_path_missing _ t 44 n9 h (by decide)
  have := C79_previous [0, 1, 2, 3, 4, 5, 6] 8 7 t (by decide) h
  obtain ⟨r, es, es', hr, _⟩ := C79_report _ 9 t (by decide) h
  have := C79_depth _ t n9 (by decide) h
  have := (C79_branch _ 9 t r _ (by decide) h hr he).2 (by decide)
  have := C79_states _ t 4 n9 (by decide) h
  have := C79_reevaluate _ t n9 h
  trivial

/-! A node that is its own parent -/

example := C32_self_parent_never_ends (tag := 0) 1000
  (t := [(0, { orderId := 0, parent := some 0, children := [0], height := 1, size := 1, baseVersion := some 0 })])
  rfl rfl (by simp [dget])

end Gaspra.Witness
