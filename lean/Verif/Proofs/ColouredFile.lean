import Verif.Spec.ColouredFile
import Verif.Proofs.Rich

/-!
# Lemmas about coloured output in a file
-/

namespace Gaspra

theorem Args.ColouredFile.file {args : Args} (h : args.ColouredFile) : args.toFile = true := by
  rw [args.toFile_eq, h.named]; rfl

theorem Args.ColouredFile.escape {args : Args} (h : args.ColouredFile) : getEscape args = id := by
  have := h.file
  unfold Args.toFile at this
  unfold getEscape
  split at this
  · cases this
  · rfl

theorem Args.ColouredFile.style {args : Args} (h : args.ColouredFile) (b : Bool)
    (hs : args.strikeout = false ∨ b = false) :
    getMarkupStyle args b {} = ({}, coloredLevel0, plainLevel1) := by
  rcases hs with hs | rfl <;> simp [getMarkupStyle, h.git, h.file, *]

/-! ## The display -/

/-- The parts of an item of a line diff: both sides are there. -/
def LineItem.chunks : LineItem → List Chunk
  | .text s => [.both s]
  | .change a b => [.first (intoText a), .second (fromText b)]

theorem markupStream_colouredPlain (n1 n2 : PyStr) : ∀ d : List (DiffItem Nat),
    ∃ out, markupStream coloredLevel0 plainLevel1 n1 n2 id (d.map DiffItem.toM) = (out, none) ∧
      out.flatten = (d.flatMap DiffItem.chunks).flatMap Chunk.written
  | [] => ⟨[], rfl, rfl⟩
  | .common s :: d => by
    obtain ⟨out, h1, h2⟩ := markupStream_colouredPlain n1 n2 d
    refine ⟨s :: out, ?_, ?_⟩
    · simp only [List.map_cons, DiffItem.toM, markupStream, h1, id]
    · simp [DiffItem.chunks, Chunk.written, h2]
  | .change a b :: d => by
    obtain ⟨out, h1, h2⟩ := markupStream_colouredPlain n1 n2 d
    have p1 : printSide (.str a) coloredLevel0.into (some n1) plainLevel1 id =
        (if a = [] then [] else [lit "[green4]" ++ a ++ lit "[/]"], none) := by
      by_cases ha : a = []
      · subst ha; rfl
      · simp [printSide, MSide.truthy, ha, markupChangeItem, surround, coloredLevel0, always]
    have p2 : printSide (.str b) coloredLevel0.frm (some n2) plainLevel1 id =
        (if b = [] then [] else [lit "[dark_red]" ++ b ++ lit "[/]"], none) := by
      by_cases hb : b = []
      · subst hb; rfl
      · simp [printSide, MSide.truthy, hb, markupChangeItem, surround, coloredLevel0, always]
    refine ⟨_, by simp only [List.map_cons, DiffItem.toM, markupStream, p1, p2, h1]; rfl, ?_⟩
    have hsep : coloredLevel0.separator = [] := rfl
    by_cases ha : a = [] <;> by_cases hb : b = [] <;>
      simp [DiffItem.chunks, Chunk.written, h2, hsep, ha, hb]

theorem markupStream_colouredLines (n1 n2 : PyStr) : ∀ d : List LineItem, (∀ i ∈ d, i.WholeLines) →
    ∃ out, markupStream coloredLevel0 plainLevel1 n1 n2 id (d.map LineItem.toM) = (out, none) ∧
      out.flatten = (d.flatMap LineItem.chunks).flatMap Chunk.written
  | [], _ => ⟨[], rfl, rfl⟩
  | .text s :: d, h => by
    obtain ⟨out, h1, h2⟩ := markupStream_colouredLines n1 n2 d fun i hi => h i (by simp [hi])
    refine ⟨s :: out, ?_, ?_⟩
    · simp only [List.map_cons, LineItem.toM, markupStream, h1, id]
    · simp [LineItem.chunks, Chunk.written, h2]
  | .change a b :: d, h => by
    obtain ⟨out, h1, h2⟩ := markupStream_colouredLines n1 n2 d fun i hi => h i (by simp [hi])
    obtain ⟨_, ⟨⟨x, hx, _⟩, ⟨y, hy, _⟩⟩, s1, s2⟩ := h (.change a b) (by simp)
    have ha : a ≠ [] := List.ne_nil_of_mem hx
    have hb : b ≠ [] := List.ne_nil_of_mem hy
    have p1 : printSide (.seq a) coloredLevel0.into (some n1) plainLevel1 id =
        ([lit "[green4]" ++ intoText a ++ lit "[/]"], none) := by
      simp only [printSide, MSide.truthy, List.isEmpty_eq_false_iff.2 ha, Bool.not_false, if_true,
        markupChangeItem, markupInner_plain_into a s1, surround, coloredLevel0, always]
    have p2 : printSide (.seq b) coloredLevel0.frm (some n2) plainLevel1 id =
        ([lit "[dark_red]" ++ fromText b ++ lit "[/]"], none) := by
      simp only [printSide, MSide.truthy, List.isEmpty_eq_false_iff.2 hb, Bool.not_false, if_true,
        markupChangeItem, markupInner_plain_from b s2, surround, coloredLevel0, always]
    refine ⟨_, by simp only [List.map_cons, LineItem.toM, markupStream, p1, p2, h1]; rfl, ?_⟩
    have hsep : coloredLevel0.separator = [] := rfl
    simp [LineItem.chunks, Chunk.written, h2, hsep]

theorem plainChunks_texts (d : List (DiffItem Nat)) :
    (d.flatMap DiffItem.chunks).flatMap Chunk.inFirst = intoText d ∧
    (d.flatMap DiffItem.chunks).flatMap Chunk.inSecond = fromText d := by
  induction d with
  | nil => exact ⟨rfl, rfl⟩
  | cons x d ih =>
    have e1 : intoText (x :: d) = intoText [x] ++ intoText d := by rw [← intoText_append']; rfl
    have e2 : fromText (x :: d) = fromText [x] ++ fromText d := by rw [← fromText_append']; rfl
    rw [e1, e2, List.flatMap_cons, List.flatMap_append, List.flatMap_append, ih.1, ih.2]
    cases x with
    | common s => simp [DiffItem.chunks, Chunk.inFirst, Chunk.inSecond, intoText, fromText]
    | change a b =>
      by_cases ha : a = [] <;> by_cases hb : b = [] <;>
        simp [DiffItem.chunks, Chunk.inFirst, Chunk.inSecond, intoText, fromText, ha, hb]

theorem lineChunks_texts (d : List LineItem) :
    (d.flatMap LineItem.chunks).flatMap Chunk.inFirst = lineInto d ∧
    (d.flatMap LineItem.chunks).flatMap Chunk.inSecond = lineFrom d := by
  induction d with
  | nil => exact ⟨rfl, rfl⟩
  | cons x d ih =>
    rw [List.flatMap_cons, List.flatMap_append, List.flatMap_append, ih.1, ih.2]
    cases x <;> simp [LineItem.chunks, Chunk.inFirst, Chunk.inSecond, lineInto, lineFrom]

/-- The parts of the file, in terms of the two texts. -/
structure FileParts (showLines : Bool) (cs : List Chunk) (d : List (DiffItem Nat)) : Prop where
  texts : ∃ e, (e = [] ∨ showLines = true ∧ e = [nl]) ∧
    (showLines = true → e = [] → Whole (intoText d) ∧ Whole (fromText d)) ∧
    cs.flatMap Chunk.inFirst = intoText d ++ e ∧ cs.flatMap Chunk.inSecond = fromText d ++ e
  whole : showLines = true → ∀ k ∈ cs, Whole k.text
  plain : showLines = false → cs = d.flatMap DiffItem.chunks

theorem display_coloured (sp : Nat → Bool) {args : Args} (h : args.ColouredFile) {d : List (DiffItem Nat)}
    (ha : TextsApart d) (b0 b1 : PyStr) :
    ∃ out cs, displayChanges sp (coloredLevel0, plainLevel1) args (d.map (DiffItem.toItem Text.str), none)
        b0 b1 [] = (out, none) ∧ out.flatten = cs.flatMap Chunk.written ∧
      FileParts args.showLines cs d := by
  have hesc := h.escape
  by_cases hs : args.showLines = true
  · obtain ⟨items, h1, _, h2⟩ := C46_consolidated sp d
    obtain ⟨items', j1, j2, j3⟩ := C45_consolidated_texts sp d
    rw [h1] at j1
    cases j1
    obtain ⟨e, e1, e2, e3, e4⟩ := (C45_line_diff_texts sp d).2 ha.fragments
    rw [e2] at j2
    rw [e3] at j3
    have key : ∃ out, markupStream coloredLevel0 plainLevel1 (basename b0) (basename b1) id
        (items.map LineItem.toM) = (out, none) ∧
        out.flatten = (items.flatMap LineItem.chunks).flatMap Chunk.written ∧
        ∀ k ∈ items.flatMap LineItem.chunks, Whole k.text := by
      rcases h2 with rfl | h2
      · refine ⟨[[]], rfl, rfl, ?_⟩
        intro k hk
        have : k = .both [] := by simpa [LineItem.chunks] using hk
        subst this
        exact .inl rfl
      · obtain ⟨out, o1, o2⟩ := markupStream_colouredLines (basename b0) (basename b1) items h2
        refine ⟨out, o1, o2, ?_⟩
        intro k hk
        obtain ⟨i, hi, hk⟩ := List.mem_flatMap.1 hk
        have w := h2 i hi
        cases i with
        | text s =>
          have : k = .both s := by simpa [LineItem.chunks] using hk
          subst this
          exact w.2
        | change a b =>
          have : k = .first (intoText a) ∨ k = .second (fromText b) := by
            simpa [LineItem.chunks] using hk
          rcases this with rfl | rfl
          · exact w.1.1
          · exact w.1.2
    obtain ⟨out, o1, o2, o3⟩ := key
    refine ⟨out, _, ?_, o2, ⟨e, ?_, fun _ => e4, ?_, ?_⟩, fun _ => o3, fun hf => ?_⟩
    · simp only [displayChanges, filterMap_strItem, toDisplay, hs, Bool.true_or, if_true, h1, display,
        markupChanges, hesc, o1, basename_nil, List.isEmpty_nil, List.nil_append]
    · rcases e1 with e1 | e1
      · exact .inl e1
      · exact .inr ⟨hs, e1⟩
    · rw [(lineChunks_texts items).1, j2]
    · rw [(lineChunks_texts items).2, j3]
    · rw [hs] at hf; cases hf
  · have hs' : args.showLines = false := by simpa using hs
    obtain ⟨out, o1, o2⟩ := markupStream_colouredPlain (basename b0) (basename b1) d
    refine ⟨out, _, ?_, o2, ⟨[], .inl rfl, fun h => absurd h hs, ?_, ?_⟩, fun h => absurd h hs, fun _ => rfl⟩
    · simp only [displayChanges, filterMap_strItem, toDisplay, hs', h.git, Bool.or_self,
        Bool.false_eq_true, if_false, display, markupChanges, hesc, o1, basename_nil,
        List.isEmpty_nil, if_true, List.nil_append]
    · rw [(plainChunks_texts d).1, List.append_nil]
    · rw [(plainChunks_texts d).2, List.append_nil]

/-! ## Reading -/

theorem readTags_text (want k : Nat) (s rest : PyStr) (h : 91 ∉ s) :
    readTags want (.text k) (s ++ rest) =
      (if k = 0 ∨ k = want then s else []) ++ readTags want (.text k) rest := by
  induction s with
  | nil => split <;> rfl
  | cons c s ih =>
    have hc : c ≠ 91 := fun e => h (by simp [e])
    have ih := ih fun e => h (by simp [e])
    rw [List.cons_append, readTags, if_neg hc, ih]
    split <;> simp

theorem readTags_chunk (want : Nat) (hw : want = 1 ∨ want = 2) (k : Chunk) (rest : PyStr)
    (h : 91 ∉ k.text) :
    readTags want (.text 0) (k.written ++ rest) =
      (if want = 1 then k.inFirst else k.inSecond) ++ readTags want (.text 0) rest := by
  cases k with
  | both s =>
    rw [Chunk.written, readTags_text want 0 s rest h]
    rcases hw with rfl | rfl <;> simp [Chunk.inFirst, Chunk.inSecond]
  | first s =>
    have e : (Chunk.first s).written ++ rest =
        [91, 103, 114, 101, 101, 110, 52, 93] ++ (s ++ (91 :: 47 :: 93 :: rest)) := by
      simp [Chunk.written, lit]
    have e2 : ∀ t, readTags want (.text 0) ([91, 103, 114, 101, 101, 110, 52, 93] ++ t) =
        readTags want (.text 1) t := fun t => by simp [readTags]
    rw [e, e2, readTags_text want 1 s _ h]
    rcases hw with rfl | rfl <;> simp [Chunk.inFirst, Chunk.inSecond, readTags]
  | second s =>
    have e : (Chunk.second s).written ++ rest =
        [91, 100, 97, 114, 107, 95, 114, 101, 100, 93] ++ (s ++ (91 :: 47 :: 93 :: rest)) := by
      simp [Chunk.written, lit]
    have e2 : ∀ t, readTags want (.text 0) ([91, 100, 97, 114, 107, 95, 114, 101, 100, 93] ++ t) =
        readTags want (.text 2) t := fun t => by simp [readTags]
    rw [e, e2, readTags_text want 2 s _ h]
    rcases hw with rfl | rfl <;> simp [Chunk.inFirst, Chunk.inSecond, readTags]

theorem readTags_chunks (want : Nat) (hw : want = 1 ∨ want = 2) (cs : List Chunk)
    (h : ∀ k ∈ cs, 91 ∉ k.text) :
    readTags want (.text 0) (cs.flatMap Chunk.written) =
      if want = 1 then cs.flatMap Chunk.inFirst else cs.flatMap Chunk.inSecond := by
  induction cs with
  | nil => split <;> rfl
  | cons k cs ih =>
    rw [List.flatMap_cons, readTags_chunk want hw k _ (h k (by simp)), ih fun j hj => h j (by simp [hj])]
    split <;> simp

theorem chunk_mem {cs : List Chunk} {k : Chunk} (hk : k ∈ cs) {c : Nat} (hc : c ∈ k.text) :
    c ∈ cs.flatMap Chunk.inFirst ∨ c ∈ cs.flatMap Chunk.inSecond := by
  cases k with
  | both s => exact .inl (List.mem_flatMap.2 ⟨_, hk, hc⟩)
  | first s => exact .inl (List.mem_flatMap.2 ⟨_, hk, hc⟩)
  | second s => exact .inr (List.mem_flatMap.2 ⟨_, hk, hc⟩)

theorem FileParts.read {sl : Bool} {cs : List Chunk} {d : List (DiffItem Nat)} (h : FileParts sl cs d)
    (hi : 91 ∉ intoText d) (hf : 91 ∉ fromText d) :
    ∃ e, (e = [] ∨ sl = true ∧ e = [nl]) ∧
      readTags 1 (.text 0) (cs.flatMap Chunk.written) = intoText d ++ e ∧
      readTags 2 (.text 0) (cs.flatMap Chunk.written) = fromText d ++ e := by
  obtain ⟨e, e1, _, e3, e4⟩ := h.texts
  have hne : 91 ∉ e := by
    rcases e1 with rfl | ⟨_, rfl⟩
    · simp
    · simp [nl]
  have hk : ∀ k ∈ cs, 91 ∉ k.text := by
    intro k hk hc
    rcases chunk_mem hk hc with h | h
    · rw [e3, List.mem_append] at h
      exact h.elim hi hne
    · rw [e4, List.mem_append] at h
      exact h.elim hf hne
  refine ⟨e, e1, ?_, ?_⟩
  · rw [readTags_chunks 1 (.inl rfl) cs hk, if_pos rfl, e3]
  · rw [readTags_chunks 2 (.inr rfl) cs hk, if_neg (by omega), e4]

end Gaspra
