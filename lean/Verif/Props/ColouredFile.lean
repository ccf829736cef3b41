import Verif.Proofs.ColouredFile
import Verif.Props.Files

/-!
# C127: coloured output in a file

With `--output` and without `--git-compatible` the file gets the tags of the console, but nothing in
the texts is escaped.
-/

namespace Gaspra

/-- C127.  `gaspra-diff` writes the parts of the two texts, the new ones between `[green4]` and `[/]`,
the old ones between `[dark_red]` and `[/]`.  If lines are shown the parts are whole lines, with one
newline added at most; otherwise they are the parts of the diff of the pieces. -/
theorem C127_diff (cls sp : Nat → Bool) {args : Args} (h : args.ColouredFile) (hs : args.strikeout = false)
    (on mn : PyStr) {o m : PyStr} {qo qm : List PyStr} (ho : CliPieces cls args o qo)
    (hm : CliPieces cls args m qm) :
    ∃ d out cs, diffTokenSequences qo qm = some d ∧ diffCli cls sp args {} on mn o m = ({}, out, none) ∧
      out.flatten = cs.flatMap Chunk.written ∧ FileParts args.showLines cs (d.map DiffItem.joined) ∧
      intoText (d.map DiffItem.joined) = m ∧ fromText (d.map DiffItem.joined) = o := by
  obtain ⟨d, h1, h2, h3⟩ := diffCli_display cls sp args {} on mn ho hm
  obtain ⟨out, cs, o1, o2, o3⟩ := display_coloured sp h h2.textsApart (getEscape args mn) (getEscape args on)
  refine ⟨d, out, cs, h1, ?_, o2, o3, diff_joined ho hm h1⟩
  rw [h3, h.style true (.inl hs), o1]

/-- C127.  The same for `gaspra-merge`, with or without strikeout: the conflicts are written that
way. -/
theorem C127_merge (cls sp : Nat → Bool) {args : Args} (h : args.ColouredFile) (hd : args.diff = false)
    (pn cn on : PyStr) {p c o : PyStr} {qp qc qo : List PyStr} (hp : CliPieces cls args p qp)
    (hc : CliPieces cls args c qc) (ho : CliPieces cls args o qo) :
    ∃ d out cs, mergeTokenSequence .tuple qp qc qo = .ok d ∧
      mergeCli cls sp args {} pn cn on p c o = ({}, out, none) ∧
      out.flatten = cs.flatMap Chunk.written ∧ FileParts args.showLines cs (d.map DiffItem.joined) := by
  obtain ⟨S, tk, e, T⟩ := mergeCli_eq cls sp args pn cn on hp hc ho
  obtain ⟨d, h1, h2, h3⟩ := mergeRun_display sp hd {} pn cn on T
  obtain ⟨out, cs, o1, o2, o3⟩ := display_coloured sp h h2 cn on
  refine ⟨d, out, cs, h1, ?_, o2, o3⟩
  rw [e, h3, h.style false (.inr rfl), o1]

/-- C127.  If there is no bracket in the texts, they can be read back from the file: for
`gaspra-diff` the modified and the original text. -/
theorem C127_diff_readable (cls sp : Nat → Bool) {args : Args} (h : args.ColouredFile)
    (hs : args.strikeout = false) (on mn : PyStr) {o m : PyStr} {qo qm : List PyStr}
    (ho : CliPieces cls args o qo) (hm : CliPieces cls args m qm) (bo : 91 ∉ o) (bm : 91 ∉ m) :
    ∃ out e, diffCli cls sp args {} on mn o m = ({}, out, none) ∧
      (e = [] ∨ args.showLines = true ∧ e = [nl]) ∧
      readTags 1 (.text 0) out.flatten = m ++ e ∧ readTags 2 (.text 0) out.flatten = o ++ e := by
  obtain ⟨d, out, cs, _, h2, h3, h4, rfl, rfl⟩ := C127_diff cls sp h hs on mn ho hm
  obtain ⟨e, e1, e2, e3⟩ := h4.read bm bo
  exact ⟨out, e, h2, e1, by rw [h3, e2], by rw [h3, e3]⟩

/-- C127.  For `gaspra-merge` the merge with the conflicts resolved one way and the other. -/
theorem C127_merge_readable (cls sp : Nat → Bool) {args : Args} (h : args.ColouredFile)
    (hd : args.diff = false) (pn cn on : PyStr) {p c o : PyStr} {qp qc qo : List PyStr}
    (hp : CliPieces cls args p qp) (hc : CliPieces cls args c qc) (ho : CliPieces cls args o qo)
    (bc : 91 ∉ c) (bo : 91 ∉ o) :
    ∃ d out e, mergeTokenSequence .tuple qp qc qo = .ok d ∧
      mergeCli cls sp args {} pn cn on p c o = ({}, out, none) ∧
      (e = [] ∨ args.showLines = true ∧ e = [nl]) ∧
      readTags 1 (.text 0) out.flatten = (intoText d).flatten ++ e ∧
      readTags 2 (.text 0) out.flatten = (fromText d).flatten ++ e := by
  obtain ⟨d, out, cs, h1, h2, h3, h4⟩ := C127_merge cls sp h hd pn cn on hp hc ho
  have hm := merge_joined_mem (p := p) hc ho h1
  obtain ⟨e, e1, e2, e3⟩ := h4.read (fun hx => (hm _ (.inl hx)).elim bc bo)
    fun hx => (hm _ (.inr hx)).elim bc bo
  rw [into_joined] at e2
  rw [from_joined] at e3
  exact ⟨d, out, e, h1, h2, e1, by rw [h3, e2], by rw [h3, e3]⟩

/-- C127.  A merge without conflicts writes the merged text as it is, whatever is in it (if lines are
not shown). -/
theorem C127_clean (cls sp : Nat → Bool) {args : Args} (h : args.ColouredFile) (hd : args.diff = false)
    (hl : args.showLines = false) (pn cn on : PyStr) {p c o : PyStr} {qp qc qo r : List PyStr}
    (hp : CliPieces cls args p qp) (hc : CliPieces cls args c qc) (ho : CliPieces cls args o qo)
    (hm : mergeTokenSequence .tuple qp qc qo = .ok [.common r]) :
    ∃ out, mergeCli cls sp args {} pn cn on p c o = ({}, out, none) ∧ out.flatten = r.flatten := by
  obtain ⟨d, out, cs, h1, h2, h3, h4⟩ := C127_merge cls sp h hd pn cn on hp hc ho
  rw [hm] at h1
  cases h1
  refine ⟨out, h2, ?_⟩
  rw [h3, h4.plain hl]
  simp [DiffItem.joined, DiffItem.chunks, Chunk.written]

/-- C127.  So the file does not tell whether there were conflicts: whatever a merge has written, with
conflicts or not, is also what is written for three files with just that in them. -/
theorem C127_ambiguous (cls sp : Nat → Bool) {args : Args} (h : args.ColouredFile) (hd : args.diff = false)
    (hl : args.showLines = false) (pn cn on : PyStr) {p c o : PyStr} (hp : ValidStr p) (hc : ValidStr c)
    (ho : ValidStr o) :
    ∃ out out', mergeCli cls sp args {} pn cn on p c o = ({}, out, none) ∧
      mergeCli cls sp args {} pn cn on out.flatten out.flatten out.flatten = ({}, out', none) ∧
      out'.flatten = out.flatten := by
  have pieces : ∀ x, ValidStr x → ∃ qs, CliPieces cls args x qs := by
    intro x hx
    unfold CliPieces
    split
    · exact ⟨_, symbols_spec cls _⟩
    · split
      · exact ⟨_, isLinesOf nl _⟩
      · exact ⟨_, rfl, hx⟩
  obtain ⟨qp, hqp⟩ := pieces p hp
  obtain ⟨qc, hqc⟩ := pieces c hc
  obtain ⟨qo, hqo⟩ := pieces o ho
  obtain ⟨d, out, cs, h1, h2, h3, h4⟩ := C127_merge cls sp h hd pn cn on hqp hqc hqo
  have hv : ValidStr out.flatten := by
    have hm := merge_joined_mem (p := p) hqc hqo h1
    obtain ⟨e, e1, _, e3, e4⟩ := h4.texts
    have he : e = [] := by
      rcases e1 with e1 | ⟨e1, _⟩
      · exact e1
      · rw [hl] at e1; cases e1
    subst he
    have hk : ∀ k ∈ cs, ∀ x ∈ k.text, x < 1114112 := by
      intro k hk x hx
      have : x ∈ c ∨ x ∈ o := by
        rcases chunk_mem hk hx with h | h
        · rw [e3, List.append_nil] at h; exact hm x (.inl h)
        · rw [e4, List.append_nil] at h; exact hm x (.inr h)
      rcases this with h | h
      · exact hc x h
      · exact ho x h
    intro x hx
    rw [h3] at hx
    obtain ⟨k, hk', hx⟩ := List.mem_flatMap.1 hx
    have g1 : ∀ y ∈ lit "[green4]", y < 1114112 := by decide +kernel
    have g2 : ∀ y ∈ lit "[dark_red]", y < 1114112 := by decide +kernel
    have g3 : ∀ y ∈ lit "[/]", y < 1114112 := by decide +kernel
    cases k with
    | both s => exact hk _ hk' x hx
    | first s =>
      rcases List.mem_append.1 hx with hx | hx
      · rcases List.mem_append.1 hx with hx | hx
        · exact g1 x hx
        · exact hk _ hk' x hx
      · exact g3 x hx
    | second s =>
      rcases List.mem_append.1 hx with hx | hx
      · rcases List.mem_append.1 hx with hx | hx
        · exact g2 x hx
        · exact hk _ hk' x hx
      · exact g3 x hx
  obtain ⟨qt, hqt⟩ := pieces _ hv
  obtain ⟨out', k1, k2⟩ := C127_clean cls sp h hd hl pn cn on hqt hqt hqt (C16_merge_identical .tuple qt qt)
  exact ⟨out, out', h2, k1, by rw [k2, hqt.flatten]⟩

-- A conflict, and three equal files that say the same.
example : (mergeCli asciiWord pyIsSpace { output := some (cps "f") } {} (cps "p") (cps "c") (cps "o")
    (cps "a y") (cps "a x") (cps "a z")).2 = ([cps "a ", cps "[green4]x[/]", [], cps "[dark_red]z[/]"], none) := by
  decide +kernel
example : (mergeCli asciiWord pyIsSpace { output := some (cps "f") } {} (cps "p") (cps "c") (cps "o")
    (cps "a [green4]x[/][dark_red]z[/]") (cps "a [green4]x[/][dark_red]z[/]")
    (cps "a [green4]x[/][dark_red]z[/]")).2 = ([cps "a [green4]x[/][dark_red]z[/]"], none) := by
  decide +kernel
example : readTags 1 (.text 0) (cps "a [green4]x[/][dark_red]z[/]!") = cps "a x!" ∧
    readTags 2 (.text 0) (cps "a [green4]x[/][dark_red]z[/]!") = cps "a z!" := by decide +kernel
-- With whole lines; a newline is added, inside the tags.
example : (diffCli asciiWord pyIsSpace { output := some (cps "f"), showLines := true } {} (cps "o") (cps "m")
    (cps "a\nb") (cps "a\nc")).2 =
    ([cps "a\n", cps "[green4]c\n[/]", [], cps "[dark_red]b\n[/]"], none) := by
  decide +kernel
-- With a bracket in a text it is misread.
example : (diffCli asciiWord pyIsSpace { output := some (cps "f") } {} (cps "o") (cps "m")
    (cps "[x]") (cps "[x]y")).2.1.flatten = cps "[x][green4]y[/]" ∧
    readTags 2 (.text 0) (cps "[x][green4]y[/]") = [] := by
  decide +kernel

end Gaspra
