import Verif.Proofs.LineGroups
import Verif.Proofs.CliDiff
import Verif.Props.Files

set_option linter.unusedSectionVars false
set_option linter.unusedVariables false

/-!
# C81: what the git-compatible output marks as conflicts

That both texts can be read off the markers (C59, C67, C73) would also hold for a program that
writes one conflict with the two whole texts in it.
-/

namespace Gaspra

/-- C81.  The consolidated line diff groups the pieces of the stream: no more conflicts than changes,
with unchanged text between them, and unchanged lines outside of them. -/
theorem C81_groups (sp : Nat → Bool) {s : List (DiffItem Nat)} (h : TextsApart (fragments s)) :
    ∃ items, consolidatedLineDiff sp s = .ok items ∧ Grouped sp s items :=
  consolidated_grouped sp h

/-- C81.  `gaspra-diff` by words, lines or characters with git-compatible markers into a file writes a
grouping of the diff of the two sequences of pieces. -/
theorem C81_diff_file (cls sp : Nat → Bool) {args : Args} (h : args.GitFile) (on mn : PyStr)
    {o m : PyStr} {qo qm : List PyStr} (ho : CliPieces cls args o qo) (hm : CliPieces cls args m qm) :
    ∃ d items out, diffTokenSequences qo qm = some d ∧
      diffCli cls sp args {} on mn o m = ({}, out, none) ∧
      out.flatten = gitText (basename mn) (basename on) items ∧
      Grouped sp (d.map DiffItem.joined) items := by
  obtain ⟨d, h1, h2, h3⟩ := diffCli_display cls sp args {} on mn ho hm
  obtain ⟨items, out, i1, _, i3, i4⟩ := display_git sp h (d.map DiffItem.joined) mn on
  obtain ⟨items', j1, j2⟩ := C81_groups sp h2.textsApart.fragments
  rw [i1] at j1; cases j1
  refine ⟨d, items, out, h1, ?_, i4, j2⟩
  simp only [h3, h.style, h.escape, id, i3]

/-- C81.  `gaspra-merge` in the same way writes a grouping of the merge of the three sequences of
pieces. -/
theorem C81_merge_file (cls sp : Nat → Bool) {args : Args} (h : args.GitFile) (hd : args.diff = false)
    (pn cn on : PyStr) {p c o : PyStr} {qp qc qo : List PyStr} (hp : CliPieces cls args p qp)
    (hc : CliPieces cls args c qc) (ho : CliPieces cls args o qo) :
    ∃ d items out, mergeTokenSequence .tuple qp qc qo = .ok d ∧
      mergeCli cls sp args {} pn cn on p c o = ({}, out, none) ∧
      out.flatten = gitText (basename cn) (basename on) items ∧
      Grouped sp (d.map DiffItem.joined) items := by
  obtain ⟨S, tk, e, T⟩ := mergeCli_eq cls sp args pn cn on hp hc ho
  obtain ⟨d, out, items, h1, h2, h3, h4, h5, h6⟩ := mergeRun_pieces sp h hd pn cn on T
  obtain ⟨items', j1, j2⟩ := C81_groups sp h2.fragments
  rw [h4] at j1; cases j1
  exact ⟨d, items, out, h1, by rw [e, h3], h6, j2⟩

/-- C81.  The same from file contents to file contents. -/
theorem C81_diff_bytes (cls sp : Nat → Bool) {args : Args} (h : args.GitFile) {on mn : PyStr}
    (hon : ∀ c ∈ basename on, isScalar c = true) (hmn : ∀ c ∈ basename mn, isScalar c = true)
    {original modified : Bytes} {qo qm : List PyStr} (ho : CliPieces cls args (readText original) qo)
    (hm : CliPieces cls args (readText modified) qm) :
    ∃ d items w, diffTokenSequences qo qm = some d ∧
      diffFiles cls sp args on mn original modified = (w, none) ∧
      utf8Encode (gitText (basename mn) (basename on) items) = some w ∧
      Grouped sp (d.map DiffItem.joined) items := by
  have valid : ∀ data, ValidStr (readText data) := fun data c hc =>
    isScalar_lt ((C72_read_valid data).1 c hc)
  obtain ⟨d, items, out, h1, h2, h3, h4⟩ := C81_diff_file cls sp h on mn ho hm
  obtain ⟨out', e, e1, e2, _, e4⟩ := C59_diff_file cls sp h on mn (valid original) (valid modified)
  rw [h2] at e2; cases e2
  have sc : ∀ data, ∀ c ∈ readText data ++ e, isScalar c = true := by
    intro data c hc
    rcases List.mem_append.1 hc with hc | hc
    · exact (C72_read_valid data).1 c hc
    · exact nl_scalar e1 c hc
  obtain ⟨w, w1, w2⟩ := writeStrings_ok (out := out) fun c hc => by
    rcases e4.chars c hc with h | h | h | h | h
    · exact sc _ c h
    · exact sc _ c h
    · exact hmn c h
    · exact hon c h
    · exact (by decide : ∀ c ∈ lit "<=> \n", isScalar c = true) c h
  exact ⟨d, items, w, h1, by simp only [diffFiles, h2, writeRun, w1], by rw [← h3]; exact w2, h4⟩

/-- C81.  `gaspra-merge` from file contents to file contents. -/
theorem C81_merge_bytes (cls sp : Nat → Bool) {args : Args} (h : args.GitFile) (hd : args.diff = false)
    (pn : PyStr) {cn on : PyStr}
    (hcn : ∀ c ∈ basename cn, isScalar c = true) (hon : ∀ c ∈ basename on, isScalar c = true)
    {parent current other : Bytes} {qp qc qo : List PyStr}
    (hp : CliPieces cls args (readText parent) qp) (hc : CliPieces cls args (readText current) qc)
    (ho : CliPieces cls args (readText other) qo) :
    ∃ d items w, mergeTokenSequence .tuple qp qc qo = .ok d ∧
      mergeFiles cls sp args pn cn on parent current other = (w, none) ∧
      utf8Encode (gitText (basename cn) (basename on) items) = some w ∧
      Grouped sp (d.map DiffItem.joined) items := by
  obtain ⟨d, items, out, h1, h2, h3, h4⟩ := C81_merge_file cls sp h hd pn cn on hp hc ho
  obtain ⟨d', out', e, e0, e1, e2, _, e4⟩ := C67_merge_file cls sp h hd pn cn on hp hc ho
  rw [h2] at e2; cases e2
  rw [h1] at e0; cases e0
  have sc : ∀ x, x ∈ intoText (d.map DiffItem.joined) ∨ x ∈ fromText (d.map DiffItem.joined) →
      isScalar x = true := by
    intro x hx
    rcases merge_joined_mem (p := readText parent) hc ho h1 x hx with h | h
    · exact (C72_read_valid _).1 x h
    · exact (C72_read_valid _).1 x h
  obtain ⟨w, w1, w2⟩ := writeStrings_ok (out := out) fun c hc => by
    rcases e4.chars c hc with h | h | h | h | h
    · rcases List.mem_append.1 h with h | h
      · exact sc c (.inl h)
      · exact nl_scalar e1 c h
    · rcases List.mem_append.1 h with h | h
      · exact sc c (.inr h)
      · exact nl_scalar e1 c h
    · exact hcn c h
    · exact hon c h
    · exact (by decide : ∀ c ∈ lit "<=> \n", isScalar c = true) c h
  exact ⟨d, items, w, h1, by simp only [mergeFiles, h2, writeRun, w1], by rw [← h3]; exact w2, h4⟩

/-! ### Examples -/

-- Two changed words three lines apart: two conflicts, and the lines between them are outside.
example : ((diffCli asciiWord pyIsSpace { output := some (cps "f"), gitCompatible := true, words := true } {}
    (cps "o") (cps "m") (cps "one two\nb\nc\nthree four\n") (cps "one 2\nb\nc\nthree 4\n")).2.1).flatten =
    cps "<<<<<<< m\none 2\n=======\none two\n>>>>>>> o\nb\nc\n<<<<<<< m\nthree 4\n=======\nthree four\n>>>>>>> o\n" := by
  decide +kernel
-- The same two changes with only blank lines between them: one conflict.
example : ((diffCli asciiWord pyIsSpace { output := some (cps "f"), gitCompatible := true, words := true } {}
    (cps "o") (cps "m") (cps "one\n\n\nfour\n") (cps "1\n\n\n4\n")).2.1).flatten =
    cps "<<<<<<< m\n1\n\n\n4\n=======\none\n\n\nfour\n>>>>>>> o\n" := by
  decide +kernel
-- The hypothesis of `C81_groups` and the counts on a stream with two changes and one conflict.
example : TextsApart (fragments [.change [97] [98], .common [nl], .change [99] [100], .common [nl]]) ∧
    (consolidatedLineDiff pyIsSpace [.change [97] [98], .common [nl], .change [99] [100], .common [nl]]).toOption.map
      conflictCount = some 1 ∧
    changeCount [.change [97] [98], .common [nl], .change [99] [100], .common ([nl] : List Nat)] = 2 := by
  decide +kernel

end Gaspra
