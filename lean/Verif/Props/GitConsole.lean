import Verif.Props.CliDiff

set_option linter.unusedSectionVars false
set_option linter.unusedSimpArgs false
set_option linter.unusedVariables false

/-!
# C74: git markers on the console
-/

namespace Gaspra

/-- Git markers on the console. -/
structure Args.GitConsole (args : Args) : Prop where
  output : args.output = none
  git : args.gitCompatible = true

/-- The characters that are shown, in whatever style. -/
def shownText (out : List PyStr) : PyStr := (renderAll out).map Prod.fst

theorem shownText_append (a b : List PyStr) : shownText (a ++ b) = shownText a ++ shownText b := by
  simp [shownText, renderAll]

theorem fst_styled (st : List PyStr) (s : PyStr) : (styled st s).map Prod.fst = s := by
  simp [styled, Function.comp_def]

theorem fst_inner (f : DiffItem Nat → Shown) (h1 : ∀ s, (f (.common s)).map Prod.fst = s)
    (h2 : ∀ a b, (f (.change a b)).map Prod.fst = a ++ b) (l : List (DiffItem Nat)) :
    (l.flatMap f).map Prod.fst = l.flatMap DiffItem.tokens := by
  induction l with
  | nil => rfl
  | cons x l ih =>
    simp only [List.flatMap_cons, List.map_append, ih]
    cases x <;> simp [h1, h2, DiffItem.tokens]

theorem startLine_plain {n : PyStr} (h1 : 91 ∉ n) (h2 : 92 ∉ n) : 91 ∉ startLine n ∧ 92 ∉ startLine n := by
  constructor
  · intro h
    rcases mem_marker h (by decide) with h | h
    · exact h1 h
    · revert h; decide
  · intro h
    rcases mem_marker h (by decide) with h | h
    · exact h2 h
    · revert h; decide

theorem stopLine_plain {n : PyStr} (h1 : 91 ∉ n) (h2 : 92 ∉ n) : 91 ∉ stopLine n ∧ 92 ∉ stopLine n := by
  constructor
  · intro h
    rcases mem_marker h (by decide) with h | h
    · exact h1 h
    · revert h; decide
  · intro h
    rcases mem_marker h (by decide) with h | h
    · exact h2 h
    · revert h; decide

theorem markupStream_gitConsole {n1 n2 : PyStr} (b1 : 91 ∉ n1 ∧ 92 ∉ n1) (b2 : 91 ∉ n2 ∧ 92 ∉ n2) :
    ∀ (d : List LineItem), (∀ i ∈ d, i.WholeLines) ∨ d = [.text []] →
    (∀ i ∈ d.map LineItem.toM, i.NoBackslash) →
    ∃ out, markupStream gitLevel0 coloredLevel1 n1 n2 richEscape (d.map LineItem.toM) = (out, none) ∧
      shownText out = gitText n1 n2 d := by
  intro d hd
  rcases hd with hd | rfl
  · induction d with
    | nil => intro _; exact ⟨[], rfl, rfl⟩
    | cons i d ih =>
      intro nb
      obtain ⟨out, h1, h2⟩ := ih (fun j hj => hd j (by simp [hj])) fun j hj => nb j (by
        rw [List.map_cons]; exact List.mem_cons_of_mem _ hj)
      have w := hd i (by simp)
      have nbi := nb i.toM (by simp)
      cases i with
      | text s =>
        refine ⟨richEscape s :: out, ?_, ?_⟩
        · simp only [List.map_cons, LineItem.toM, markupStream, h1]
        · have := render_escaped [] [] s nbi
          rw [gitText_cons, ← h2]
          simp only [shownText, renderAll, List.flatMap_cons] at *
          rw [List.append_nil] at this
          rw [this]
          simp [gitText, fst_styled, render]
      | change a b =>
        obtain ⟨_, ⟨⟨x, hx, _⟩, ⟨y, hy, _⟩⟩, s1, s2⟩ := w
        have ha : a ≠ [] := List.ne_nil_of_mem hx
        have hb : b ≠ [] := List.ne_nil_of_mem hy
        obtain ⟨ia, ia1, ia2⟩ := markupInner_colored [] [] a nbi.1
        obtain ⟨ib, ib1, ib2⟩ := markupInner_colored [] (stopLine n2) b nbi.2
        have p1 : printSide (.seq a) gitLevel0.into (some n1) coloredLevel1 richEscape =
            ([startLine n1 ++ ia], none) := by
          simp only [printSide, MSide.truthy, List.isEmpty_eq_false_iff.2 ha, Bool.not_false, if_true,
            markupChangeItem, ia1, surround, gitLevel0, showName, always,
            startLine, lit_nl, lit_empty, List.append_nil]
        have p2 : printSide (.seq b) gitLevel0.frm (some n2) coloredLevel1 richEscape =
            ([ib ++ stopLine n2], none) := by
          simp only [printSide, MSide.truthy, List.isEmpty_eq_false_iff.2 hb, Bool.not_false, if_true,
            markupChangeItem, ib1, surround, gitLevel0, showName, always,
            stopLine, lit_nl, lit_empty, List.append_nil, List.nil_append]
        refine ⟨[startLine n1 ++ ia] ++ [middleLine] ++ [ib ++ stopLine n2] ++ out, ?_, ?_⟩
        · simp only [List.map_cons, LineItem.toM, markupStream, p1, p2, h1]
          have : gitLevel0.separator = middleLine := lit_middle
          rw [this]
        · rw [gitText_cons, ← h2, shownText_append, shownText_append, shownText_append]
          have q1 : shownText [startLine n1 ++ ia] = startLine n1 ++ intoText a := by
            have sp := startLine_plain b1.1 b1.2
            rw [List.append_nil] at ia2
            simp only [shownText, renderAll, List.flatMap_cons, List.flatMap_nil, List.append_nil]
            rw [render_plain _ _ _ sp.1 sp.2, ia2, List.map_append, List.map_append, fst_styled,
              fst_inner _ (fun s => fst_styled _ s) (fun a b => by simp [fst_styled]),
              chars_into s1]
            simp [render]
          have q2 : shownText [ib ++ stopLine n2] = fromText b ++ stopLine n2 := by
            have sp := stopLine_plain b2.1 b2.2
            have := render_plain [] [] (stopLine n2) sp.1 sp.2
            rw [List.append_nil] at this
            simp only [shownText, renderAll, List.flatMap_cons, List.flatMap_nil, List.append_nil]
            rw [ib2, this, List.map_append, List.map_append, fst_styled,
              fst_inner _ (fun s => fst_styled _ s) (fun a b => by simp [fst_styled]), chars_from s2]
            simp [render]
          have q3 : shownText [middleLine] = middleLine := by decide
          rw [q1, q2, q3]
          simp [gitText]
  · intro _
    exact ⟨[[]], rfl, rfl⟩

theorem gitConsole_style {args : Args} (h : args.GitConsole) (b : Bool) (hs : args.strikeout = false ∨ b = false) :
    getMarkupStyle args b {} = ({}, gitLevel0, coloredLevel1) := by
  have ht : args.toFile = false := by unfold Args.toFile; rw [h.output]
  rcases hs with hs | rfl <;> simp [getMarkupStyle, h.git, ht, *]

theorem display_gitConsole (sp : Nat → Bool) {args : Args} (h : args.GitConsole) {d : List (DiffItem Nat)}
    (ha : TextsApart d) (hi : 92 ∉ intoText d) (hf : 92 ∉ fromText d) {b0 b1 : PyStr}
    (n0 : 91 ∉ basename b0 ∧ 92 ∉ basename b0) (n1 : 91 ∉ basename b1 ∧ 92 ∉ basename b1) :
    ∃ out e, displayChanges sp (gitLevel0, coloredLevel1) args (d.map (DiffItem.toItem Text.str), none)
        b0 b1 [] = (out, none) ∧ (e = [] ∨ e = [nl]) ∧
      (e = [] → Whole (intoText d) ∧ Whole (fromText d)) ∧
      GitOutput (basename b0) (basename b1) [shownText out] (intoText d ++ e) (fromText d ++ e) := by
  have hesc : getEscape args = richEscape := by unfold getEscape; rw [h.output]
  obtain ⟨items, h1, _, h2⟩ := C46_consolidated sp d
  obtain ⟨items', j1, j2, j3⟩ := C45_consolidated_texts sp d
  rw [h1] at j1
  cases j1
  obtain ⟨e, e1, e2, e3, e4⟩ := (C45_line_diff_texts sp d).2 ha.fragments
  rw [e2] at j2
  rw [e3] at j3
  have nb : ∀ i ∈ items.map LineItem.toM, i.NoBackslash := by
    rcases h2 with rfl | h2
    · intro i hi
      simp only [List.map_cons, List.map_nil, List.mem_singleton] at hi
      subst hi
      exact List.not_mem_nil
    · refine lines_noBackslash h2 ?_ ?_
      · rw [j2, List.mem_append]
        rintro (h | h)
        · exact hi h
        · rcases e1 with rfl | rfl
          · simp at h
          · simp [nl] at h
      · rw [j3, List.mem_append]
        rintro (h | h)
        · exact hf h
        · rcases e1 with rfl | rfl
          · simp at h
          · simp [nl] at h
  obtain ⟨out, o1, o2⟩ := markupStream_gitConsole n0 n1 items h2.symm nb
  refine ⟨out, e, ?_, e1, e4, ?_⟩
  · simp only [displayChanges, filterMap_strItem, toDisplay, h.git, Bool.or_true, if_true, h1, display,
      markupChanges, hesc, o1, basename_nil, List.isEmpty_nil, List.nil_append]
  · rw [← j2, ← j3]
    exact gitOutput_of h2.symm (by simpa using o2)

theorem richEscape_plain : ∀ (s : PyStr), 91 ∉ s → richEscape s = s
  | [], _ => rfl
  | c :: s, h => by
    rw [richEscape_cons, if_neg (fun e => h (by simp [e])), richEscape_plain s fun e => h (by simp [e])]
    rfl

/-- C74.  `gaspra-diff` with git markers on the console, for texts without backslashes and file
names without brackets and backslashes: it never raises, and in the text that is shown, choosing the
first (second) side of every conflict gives the modified (original) text, followed by one newline at
most. -/
theorem C74_diff_git_console (cls sp : Nat → Bool) {args : Args} (h : args.GitConsole)
    (hs : args.strikeout = false) {on mn : PyStr} (hon : 91 ∉ on ∧ 92 ∉ on) (hmn : 91 ∉ mn ∧ 92 ∉ mn)
    {o m : PyStr} (ho : ValidStr o) (hm : ValidStr m) (bo : 92 ∉ o) (bm : 92 ∉ m) :
    ∃ out e, diffCli cls sp args {} on mn o m = ({}, out, none) ∧ (e = [] ∨ e = [nl]) ∧
      (e = [] → Whole m ∧ Whole o) ∧
      GitOutput (basename mn) (basename on) [shownText out] (m ++ e) (o ++ e) := by
  have pieces : ∀ x, ValidStr x → ∃ q, CliPieces cls args x q := by
    intro x hx
    unfold CliPieces
    split
    · exact ⟨_, symbols_spec cls x⟩
    · split
      · exact ⟨_, isLinesOf nl x⟩
      · exact ⟨_, rfl, hx⟩
  obtain ⟨qo, ho⟩ := pieces o ho
  obtain ⟨qm, hm⟩ := pieces m hm
  obtain ⟨d, h1, h2, h3⟩ := diffCli_display cls sp args {} on mn ho hm
  obtain ⟨hi, hf⟩ := diff_joined ho hm h1
  have base : ∀ x : PyStr, 91 ∉ x ∧ 92 ∉ x → 91 ∉ basename x ∧ 92 ∉ basename x := by
    intro x hx
    have hsub : ∀ c ∈ basename x, c ∈ x := by
      intro c hc
      rcases (C59_marker_names x).2 with e | ⟨dir, e⟩
      · rw [e]; exact hc
      · rw [e]; simp [hc]
    exact ⟨fun h => hx.1 (hsub _ h), fun h => hx.2 (hsub _ h)⟩
  have hesc : getEscape args = richEscape := by unfold getEscape; rw [h.output]
  obtain ⟨out, e, o1, o2, o3, o4⟩ := display_gitConsole sp h h2.textsApart (by rw [hi]; exact bm)
    (by rw [hf]; exact bo) (b0 := getEscape args mn) (b1 := getEscape args on)
    (by rw [hesc, richEscape_plain _ hmn.1]; exact base _ hmn)
    (by rw [hesc, richEscape_plain _ hon.1]; exact base _ hon)
  refine ⟨out, e, ?_, o2, ?_, ?_⟩
  · rw [h3, gitConsole_style h true (.inl hs), o1]
  · rw [← hi, ← hf]; exact o3
  · rw [hi, hf, hesc, richEscape_plain _ hmn.1, richEscape_plain _ hon.1] at o4
    exact o4

/-- C74.  The same for `gaspra-merge`, with or without strikeout, and the texts of the merge of the
pieces. -/
theorem C74_merge_git_console (cls sp : Nat → Bool) {args : Args} (h : args.GitConsole)
    (hd : args.diff = false) (pn : PyStr) {cn on : PyStr} (hcn : 91 ∉ basename cn ∧ 92 ∉ basename cn)
    (hon : 91 ∉ basename on ∧ 92 ∉ basename on) {p c o : PyStr} {qp qc qo : List PyStr}
    (hp : CliPieces cls args p qp) (hc : CliPieces cls args c qc) (ho : CliPieces cls args o qo)
    (bc : 92 ∉ c) (bo : 92 ∉ o) :
    ∃ d out e, mergeTokenSequence .tuple qp qc qo = .ok d ∧
      mergeCli cls sp args {} pn cn on p c o = ({}, out, none) ∧ (e = [] ∨ e = [nl]) ∧
      GitOutput (basename cn) (basename on) [shownText out] (intoText (d.map DiffItem.joined) ++ e)
        (fromText (d.map DiffItem.joined) ++ e) := by
  obtain ⟨S, tk, e, T⟩ := mergeCli_eq cls sp args pn cn on hp hc ho
  obtain ⟨d, h1, h2, h3⟩ := mergeRun_display sp hd {} pn cn on T
  obtain ⟨hi, hf⟩ := merge_joined_noBackslash (p := p) hc ho bc bo h1
  obtain ⟨out, e', o1, o2, o3, o4⟩ := display_gitConsole sp h h2 hi hf hcn hon
  refine ⟨d, out, e', h1, ?_, o2, o4⟩
  rw [e, h3, gitConsole_style h false (.inr rfl), o1]

example : (diffCli asciiWord pyIsSpace { gitCompatible := true } {} (cps "d/old") (cps "new") (cps "x\na[0]\n")
    (cps "x\na[1]\n")).2 =
    ([cps "x\n", cps "<<<<<<< new\na\\[[light_green]1[/]]\n", cps "=======\n",
      cps "a\\[[pink1]0[/]]\n>>>>>>> old\n"], none) := by decide +kernel
example : shownText [cps "x\n", cps "<<<<<<< new\na\\[[light_green]1[/]]\n", cps "=======\n",
      cps "a\\[[pink1]0[/]]\n>>>>>>> old\n"] =
    cps "x\n<<<<<<< new\na[1]\n=======\na[0]\n>>>>>>> old\n" := by decide +kernel

/-- C74.  `gaspra-merge` does not escape the names in the markers: part of a name in brackets is not
shown. -/
theorem C74_name_not_escaped :
    shownText (mergeCli asciiWord pyIsSpace { gitCompatible := true, lines := true } {} (cps "p") (cps "c[1]")
      (cps "o") (cps "a\n") (cps "b\n") (cps "c\n")).2.1 =
      cps "<<<<<<< c\nb\n=======\nc\n>>>>>>> o\n" := by decide +kernel

/-! ### Colours in files -/

/-- C74.  Without git markers, the console markup is written to files too, and brackets are not
escaped there: two diffs of different files look the same. -/
theorem C74_colours_in_files :
    (diffCli asciiWord pyIsSpace { output := some (cps "f") } {} (cps "old") (cps "new") (cps "a") (cps "b")).2.1.flatten =
      cps "[green4]b[/][dark_red]a[/]" ∧
    (diffCli asciiWord pyIsSpace { output := some (cps "f") } {} (cps "old") (cps "new")
      (cps "[green4]b[/][dark_red]a[/]") (cps "[green4]b[/][dark_red]a[/]")).2.1.flatten =
      cps "[green4]b[/][dark_red]a[/]" := by decide +kernel

end Gaspra
