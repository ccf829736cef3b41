import Verif.Proofs.MergeTool

set_option linter.unusedSectionVars false
set_option linter.unusedSimpArgs false
set_option linter.unusedVariables false

/-!
# Properties of the display and of the command line tools
-/

namespace Gaspra

/-! ### C47 -/

/-- C47.  With git markers and plain inner markup, the line diff of any stream is printed without
exception as the marked text: every conflict has all three marker lines. -/
theorem C47_git_markup (sp : Nat → Bool) (n1 n2 : PyStr) (s : List (DiffItem Nat)) :
    ∃ d out, consolidatedLineDiff sp s = .ok d ∧
      markupStream gitLevel0 plainLevel1 n1 n2 id (d.map LineItem.toM) = (out, none) ∧
      out.flatten = gitText n1 n2 d := by
  obtain ⟨d, h1, _, h2⟩ := C46_consolidated sp s
  obtain ⟨out, h3, h4⟩ := markupStream_git n1 n2 d h2.symm
  exact ⟨d, out, h1, h3, h4⟩

/-- C47.  The markers can be read back: choosing the first (second) side of every conflict gives
the first (second) text of the line diff, if no line of the texts looks like a marker. -/
theorem C47_resolve {n1 n2 : PyStr} (h1 : nl ∉ n1) (h2 : nl ∉ n2) {d : List LineItem}
    (hw : ∀ i ∈ d, i.WholeLines) (hi : NoMarkers n1 n2 (lineInto d)) (hf : NoMarkers n1 n2 (lineFrom d)) :
    resolveText true n1 n2 (gitText n1 n2 d) = lineInto d ∧
    resolveText false n1 n2 (gitText n1 n2 d) = lineFrom d := by
  unfold resolveText
  rw [resolve_gitText true h1 h2 d hw hi hf, resolve_gitText false h1 h2 d hw hi hf]
  simp only [if_true, Bool.false_eq_true, if_false, linesOf_flatten, and_self]

/-- C47.  Without lines as the unit the start marker can be missing: a plain deletion. -/
theorem C47_plain_stream_incomplete (n1 n2 : PyStr) :
    markupStream gitLevel0 plainLevel1 n1 n2 id [.change (.str []) (.str (cps "x\n"))] =
      ([middleLine, cps "x\n" ++ stopLine n2], none) := by
  rw [← lit_middle]
  simp [markupStream, printSide, MSide.truthy, markupChangeItem, surround, gitLevel0, always, showName,
    stopLine, cps, lit, nl]

example : (consolidatedLineDiff pyIsSpace [.common (cps "a\nb"), .change (cps "x") (cps "y"), .common (cps "c\n")]).toOption.map
    (gitText (cps "one") (cps "two")) =
    some (cps "a\n<<<<<<< one\nbxc\n=======\nbyc\n>>>>>>> two\n") := by decide +kernel
example : resolveText true (cps "one") (cps "two") (cps "a\n<<<<<<< one\nbxc\n=======\nbyc\n>>>>>>> two\n") =
    cps "a\nbxc\n" := by decide +kernel
-- Without the hypothesis on markers reading back fails.
example : ¬ NoMarkers (cps "one") (cps "two") (cps "a\n=======\n") := by decide +kernel

/-! ### C48 -/

/-- The number of backslashes at the end of a text. -/
def trailingBackslashes (s : PyStr) : Nat := (s.reverse.takeWhile (· = 92)).length

theorem richEscape_cons (c : Nat) (s : PyStr) :
    richEscape (c :: s) = (if c = 91 then [92, 91] else [c]) ++ richEscape s := by
  simp [richEscape]

theorem richEscape_head : ∀ (s : PyStr), (richEscape s).head? ≠ some 91
  | [] => by simp [richEscape]
  | c :: s => by
    rw [richEscape_cons]
    split
    · simp
    · next h => simpa using h

/-- C48.  `rich_escape` is injective. -/
theorem C48_rich_escape_injective : ∀ {s t : PyStr}, richEscape s = richEscape t → s = t := by
  intro s
  induction s with
  | nil =>
    intro t h
    cases t with
    | nil => rfl
    | cons d t =>
      rw [richEscape_cons] at h
      split at h <;> simp [richEscape] at h
  | cons c s ih =>
    intro t h
    cases t with
    | nil =>
      rw [richEscape_cons] at h
      split at h <;> simp [richEscape] at h
    | cons d t =>
      rw [richEscape_cons, richEscape_cons] at h
      by_cases hc : c = 91
      · by_cases hd : d = 91
        · rw [if_pos hc, if_pos hd] at h
          simp only [List.cons_append, List.nil_append, List.cons.injEq, true_and] at h
          rw [hc, hd, ih h]
        · rw [if_pos hc, if_neg hd] at h
          simp only [List.cons_append, List.nil_append, List.cons.injEq] at h
          have := richEscape_head t
          rw [← h.2] at this
          simp at this
      · by_cases hd : d = 91
        · rw [if_neg hc, if_pos hd] at h
          simp only [List.cons_append, List.nil_append, List.cons.injEq] at h
          have := richEscape_head s
          rw [h.2] at this
          simp at this
        · rw [if_neg hc, if_neg hd] at h
          simp only [List.cons_append, List.nil_append, List.cons.injEq] at h
          rw [h.1, ih h.2]

/-- C48.  Every `[` in the result is preceded by a backslash. -/
theorem C48_brackets_escaped (s : PyStr) : ∀ (i : Nat), (richEscape s)[i]? = some 91 →
    ∃ j, i = j + 1 ∧ (richEscape s)[j]? = some 92 := by
  induction s with
  | nil => intro i h; simp [richEscape] at h
  | cons c s ih =>
    intro i h
    rw [richEscape_cons] at h ⊢
    by_cases hc : c = 91
    · rw [if_pos hc] at h ⊢
      match i with
      | 0 => simp at h
      | 1 => exact ⟨0, rfl, rfl⟩
      | i + 2 =>
        have h' : (richEscape s)[i]? = some 91 := by simpa using h
        obtain ⟨j, rfl, hj⟩ := ih i h'
        exact ⟨j + 2, rfl, by simpa using hj⟩
    · rw [if_neg hc] at h ⊢
      match i with
      | 0 => simp at h; exact absurd h hc
      | i + 1 =>
        have h' : (richEscape s)[i]? = some 91 := by simpa using h
        obtain ⟨j, rfl, hj⟩ := ih i h'
        exact ⟨j + 1, rfl, by simpa using hj⟩

/-- C48.  A `[` that follows `n` backslashes in the text follows `n + 1` in the result, so after
an odd number of backslashes in the text it follows an even number in the result, which `rich`
reads as escaped backslashes and an unescaped bracket. -/
theorem C48_backslash_count (before after : PyStr) :
    richEscape (before ++ [91] ++ after) = (richEscape before ++ [92]) ++ [91] ++ richEscape after ∧
    trailingBackslashes (richEscape before ++ [92]) = trailingBackslashes before + 1 := by
  constructor
  · simp [richEscape]
  · have key : ∀ s : PyStr, trailingBackslashes (richEscape s.reverse) = trailingBackslashes s.reverse := by
      intro s
      induction s with
      | nil => rfl
      | cons c s ih =>
        have e : richEscape (c :: s).reverse = richEscape s.reverse ++ (if c = 91 then [92, 91] else [c]) := by
          simp [richEscape]
        rw [e]
        unfold trailingBackslashes at ih ⊢
        simp only [List.reverse_append, List.reverse_reverse] at ih ⊢
        by_cases hc : c = 91
        · rw [if_pos hc, hc]
          simp
        · rw [if_neg hc]
          by_cases h2 : c = 92
          · subst h2
            simp only [List.reverse_cons, List.reverse_nil, List.nil_append, List.cons_append,
              List.takeWhile_cons, decide_true, if_true, List.length_cons]
            rw [ih]
          · simp [List.takeWhile_cons, h2]
    have := key before.reverse
    rw [List.reverse_reverse] at this
    rw [← this]
    unfold trailingBackslashes
    simp

example : richEscape (cps "a[b]") = cps "a\\[b]" := by decide +kernel
example : richEscape (cps "\\[bold]x") = cps "\\\\[bold]x" ∧
    trailingBackslashes (cps "\\\\") = 2 := by decide +kernel

/-! ### C49 -/

theorem surround_error {bm : BranchMarkup} {n : Option PyStr} {c : Except PyErr PyStr} {e : PyErr}
    (hc : ∀ e, c = .error e → e = .typeError) (h : surround bm n c = .error e) : e = .typeError := by
  unfold surround at h
  split at h
  · cases h; rfl
  · split at h
    · cases h
    · cases h; exact hc _ rfl

theorem markupInner_error {m : Style} {esc : PyStr → PyStr} : ∀ {l : List (DiffItem Nat)} {e : PyErr},
    markupInner m esc l = .error e → e = .typeError
  | [], e, h => by cases h
  | x :: l, e, h => by
    have item : ∀ {e}, markupInnerItem m esc x = .error e → e = .typeError := by
      intro e h
      unfold markupInnerItem at h
      have ok : ∀ (s : PyStr) (e : PyErr), (Except.ok s : Except PyErr PyStr) = .error e → e = .typeError := by
        intro s e h; cases h
      split at h
      · cases h
      · split at h
        · next e' he =>
          cases h
          split at he
          · cases he
          · exact surround_error (ok _) he
        · split at h
          · next e' he =>
            cases h
            split at he
            · cases he
            · exact surround_error (ok _) he
          · cases h
    simp only [markupInner] at h
    split at h
    · next e' he => cases h; exact item he
    · split at h
      · next e' he => cases h; exact markupInner_error he
      · cases h

theorem printSide_error {side : MSide} {bm : BranchMarkup} {n : Option PyStr} {m : Style}
    {esc : PyStr → PyStr} {e : PyErr} (h : (printSide side bm n m esc).2 = some e) : e = .typeError := by
  unfold printSide at h
  split at h
  · split at h
    · cases h
    · next e' he =>
      cases h
      unfold markupChangeItem at he
      split at he
      · exact surround_error (by intro e h; cases h) he
      · exact surround_error (by intro e h; exact markupInner_error h) he
  · cases h

theorem printSide_function {side : MSide} {n : Option PyStr} {m : Style} {esc : PyStr → PyStr}
    (h : side.truthy = true) : printSide side .function n m esc = ([], some .typeError) := by
  unfold printSide
  rw [if_pos h]
  cases side <;> rfl

/-- C49.  With `strikeout` the entry for deletions is a function, so displaying any stream with a
deletion ends with a `TypeError`. -/
theorem C49_deletion_raises {m0 m1 : Style} (hm : m0.frm = .function) (n1 n2 : PyStr)
    (esc : PyStr → PyStr) : ∀ (stream : List MItem),
    (∃ a b, MItem.change a b ∈ stream ∧ b.truthy = true) →
    (markupStream m0 m1 n1 n2 esc stream).2 = some .typeError
  | [], h => by obtain ⟨a, b, h, _⟩ := h; cases h
  | .text s :: rest, h => by
    obtain ⟨a, b, hm', hb⟩ := h
    have := C49_deletion_raises (m1 := m1) hm n1 n2 esc rest
      ⟨a, b, by simpa using hm', hb⟩
    simpa [markupStream] using this
  | .change a b :: rest, h => by
    simp only [markupStream, hm]
    cases ha : printSide a m0.into (some n1) m1 esc with
    | mk out1 e1 =>
      cases e1 with
      | some e =>
        have := printSide_error (by rw [ha])
        subst this; rfl
      | none =>
        dsimp only
        by_cases hb : b.truthy = true
        · rw [printSide_function hb]
        · have hp : printSide b .function (some n2) m1 esc = ([], none) := by
            unfold printSide; rw [if_neg hb]
          rw [hp]
          dsimp only
          obtain ⟨a', b', hm', hb'⟩ := h
          apply C49_deletion_raises hm n1 n2 esc rest
          rcases List.mem_cons.1 hm' with h' | h'
          · cases h'; exact absurd hb' hb
          · exact ⟨a', b', h', hb'⟩

/-- C49.  Without deletions the entry does not matter. -/
theorem C49_no_deletion (m0 m1 : Style) (bm : BranchMarkup) (n1 n2 : PyStr) (esc : PyStr → PyStr) :
    ∀ (stream : List MItem), (∀ a b, MItem.change a b ∈ stream → b.truthy = false) →
    markupStream { m0 with frm := bm } m1 n1 n2 esc stream = markupStream m0 m1 n1 n2 esc stream
  | [], _ => rfl
  | .text s :: rest, h => by
    have := C49_no_deletion m0 m1 bm n1 n2 esc rest fun a b hab => h a b (by simp [hab])
    simp only [markupStream, this]
  | .change a b :: rest, h => by
    have ih := C49_no_deletion m0 m1 bm n1 n2 esc rest fun a b hab => h a b (by simp [hab])
    have hb := h a b (by simp)
    have hp : ∀ bm, printSide b bm (some n2) m1 esc = ([], none) := by
      intro bm; unfold printSide; rw [hb]; rfl
    simp only [markupStream, ih, hp]

/-- C49.  Asking for strikeout changes the module-level tables: every later style for the same
kind of display has a function for deletions, also when strikeout is not allowed (as for the
display of merges). -/
theorem C49_tables_changed (args : Args) (hs : args.strikeout = true) (t : Tables) (args' : Args)
    (h : args'.gitCompatible = args.gitCompatible) (allow : Bool) :
    (getMarkupStyle args true t).2.1.frm = .function ∧
    (getMarkupStyle args' allow (getMarkupStyle args true t).1).2.1.frm = .function := by
  constructor
  · cases hg : args.gitCompatible <;> cases hf : args.toFile <;>
      simp [getMarkupStyle, hs, hg, hf]
  · cases hg : args.gitCompatible <;> cases hf : args.toFile <;> cases hs' : args'.strikeout <;>
      cases allow <;> cases hf' : args'.toFile <;>
      simp [getMarkupStyle, hs, hg, hf, h, hs', hf']

/-- C49.  The table for the pieces within lines is changed as well, for as long as the program
runs, and the tables not in use stay as they are. -/
theorem C49_inner_changed (args : Args) (hs : args.strikeout = true) (t : Tables) (args' : Args)
    (allow : Bool) :
    (getMarkupStyle args true t).2.2.frm = .function ∧
    ((args'.output.getD []).isEmpty = (args.output.getD []).isEmpty →
      (getMarkupStyle args' allow (getMarkupStyle args true t).1).2.2.frm = .function) ∧
    ((args'.output.getD []).isEmpty ≠ (args.output.getD []).isEmpty →
      (getMarkupStyle args' false (getMarkupStyle args true t).1).2.2 = (getMarkupStyle args' false t).2.2) ∧
    (args'.gitCompatible ≠ args.gitCompatible →
      (getMarkupStyle args' false (getMarkupStyle args true t).1).2.1 = (getMarkupStyle args' false t).2.1) := by
  have e1 : (args'.output.getD []).isEmpty = !args'.toFile := by rw [args'.toFile_eq, Bool.not_not]
  have e2 : (args.output.getD []).isEmpty = !args.toFile := by rw [args.toFile_eq, Bool.not_not]
  rw [e1, e2]
  refine ⟨?_, ?_, ?_, ?_⟩ <;> cases hg : args.gitCompatible <;> cases hf : args.toFile <;>
    cases hs' : args'.strikeout <;> cases allow <;> cases hf' : args'.toFile <;>
    cases hg' : args'.gitCompatible <;> simp [getMarkupStyle, hs, hg, hf, hs', hf', hg']

-- `--strikeout` with lines shown: a deletion within a line raises, and a later merge still does.
example : (diffCli asciiWord pyIsSpace { strikeout := true, showLines := true } {} (cps "p") (cps "c")
      (cps "ab\n") (cps "b\n")).2.2 = some .typeError ∧
    (mergeCli asciiWord pyIsSpace { showLines := true }
      (getMarkupStyle { strikeout := true } true {}).1 (cps "p") (cps "c") (cps "o") (cps "a\n")
      (cps "ax\n") (cps "ay\n")).2.2 = some .typeError := by decide +kernel

/-- C49.  `gaspra-diff` with strikeout, shown by pieces: exactly the diffs without deletions are
displayed. -/
theorem C49_diff_pieces {S : Type _} {tk : Tokenizer (List Nat) S} {Good : PyStr → Prop}
    (H : DiffAlternates tk Good) (sp : Nat → Bool) {args : Args} (hs : args.strikeout = true)
    (hl : args.showLines = false) (hg : args.gitCompatible = false) (t : Tables) (on mn : PyStr)
    {o m : PyStr} (ho : Good o) (hm : Good m) :
    ∃ d : List (DiffItem Nat),
      (tokDiff tk tk.init (.str o) (.str m)).2 = .ok (d.map (DiffItem.toItem .str), none) ∧
      ((∃ a b, .change a b ∈ d ∧ b ≠ []) → (diffRun tk sp args t on mn o m).2.2 = some .typeError) := by
  obtain ⟨d, h1, h2, h3, h4⟩ := H [] o m ho hm (by intro y hy; simp at hy)
  have h1' : (tokDiff tk tk.init (.str o) (.str m)).2 = .ok (d.map (DiffItem.toItem .str), none) := h1
  refine ⟨d, h1', ?_⟩
  rintro ⟨a, b, hab, hb⟩
  have hf := (C49_tables_changed args hs t args rfl true).1
  simp only [diffRun, h1', displayChanges, filterMap_strItem, toDisplay, hl, hg, Bool.or_self,
    Bool.false_eq_true, if_false, display, markupChanges]
  apply C49_deletion_raises hf
  refine ⟨.str a, .str b, List.mem_map.2 ⟨_, hab, rfl⟩, ?_⟩
  simpa [MSide.truthy] using hb

/-- C49.  `gaspra-diff` with strikeout, shown by lines: any difference raises `TypeError`. -/
theorem C49_diff_lines {S : Type _} {tk : Tokenizer (List Nat) S} {Good : PyStr → Prop}
    (H : DiffAlternates tk Good) (sp : Nat → Bool) {args : Args} (hs : args.strikeout = true)
    (hl : (args.showLines || args.gitCompatible) = true) (t : Tables) (on mn : PyStr)
    {o m : PyStr} (ho : Good o) (hm : Good m) (hne : o ≠ m) :
    (diffRun tk sp args t on mn o m).2.2 = some .typeError := by
  obtain ⟨d, h1, h2, h3, h4⟩ := H [] o m ho hm (by intro y hy; simp at hy)
  have h1' : (tokDiff tk tk.init (.str o) (.str m)).2 = .ok (d.map (DiffItem.toItem .str), none) := h1
  obtain ⟨items, i1, _, i2⟩ := C46_consolidated sp d
  obtain ⟨items', j1, j2, j3⟩ := C45_consolidated_texts sp d
  rw [i1] at j1
  cases j1
  obtain ⟨e, e1, e2, e3, e4⟩ := (C45_line_diff_texts sp d).2 h2.textsApart.fragments
  rw [h3] at e2
  rw [h4] at e3
  have hdiff : lineInto items ≠ lineFrom items := by
    rw [j2, j3, e2, e3]
    intro h
    exact hne (List.append_cancel_right h).symm
  have hex : ∃ a b, LineItem.change a b ∈ items := by
    refine Classical.byContradiction fun hno => hdiff ?_
    have hno' : ∀ i ∈ items, ∃ s, i = .text s := by
      intro i hi
      cases i with
      | text s => exact ⟨s, rfl⟩
      | change a b => exact absurd ⟨a, b, hi⟩ hno
    clear i1 i2 j2 j3 hdiff hno
    rename_i happ
    clear happ
    induction items with
    | nil => rfl
    | cons i d ih =>
      obtain ⟨s, rfl⟩ := hno' i (by simp)
      rw [lineInto_cons, lineFrom_cons, ih fun j hj => hno' j (by simp [hj])]
      simp [lineInto, lineFrom]
  obtain ⟨a, b, hab⟩ := hex
  have hw : (LineItem.change a b).WholeLines := by
    rcases i2 with rfl | i2
    · simp at hab
    · exact i2 _ hab
  have hb : b ≠ [] := by
    obtain ⟨_, ⟨_, ⟨y, hy, _⟩⟩, _⟩ := hw
    exact List.ne_nil_of_mem hy
  have hf := (C49_tables_changed args hs t args rfl true).1
  simp only [diffRun, h1', displayChanges, filterMap_strItem, toDisplay, hl, if_true, i1, display,
    markupChanges]
  apply C49_deletion_raises hf
  refine ⟨.seq a, .seq b, List.mem_map.2 ⟨_, hab, rfl⟩, ?_⟩
  simpa [MSide.truthy] using hb

/-- C49.  The merge display is affected: two insertions in the same place are displayed as diffs,
then the conflict in the merge raises `TypeError`. -/
theorem C49_merge_display_raises :
    (mergeCli asciiWord pyIsSpace { diff := true, strikeout := true } {} (cps "p") (cps "c") (cps "o")
      (cps "a") (cps "ax") (cps "ay")).2 =
      ([cps "\n<<<[bright_blue]c[/]>>>\n", cps "a", cps "[green4]x[/]", [],
        cps "\n<<<[bright_blue]o[/]>>>\n", cps "a", cps "[green4]y[/]", [],
        cps "\n<<<[bright_blue]Merged[/]>>>\n", cps "a", cps "[green4]x[/]", []], some .typeError) := by
  decide +kernel

/-- The same without strikeout. -/
example : (mergeCli asciiWord pyIsSpace { diff := true } {} (cps "p") (cps "c") (cps "o")
      (cps "a") (cps "ax") (cps "ay")).2 =
      ([cps "\n<<<[bright_blue]c[/]>>>\n", cps "a", cps "[green4]x[/]", [],
        cps "\n<<<[bright_blue]o[/]>>>\n", cps "a", cps "[green4]y[/]", [],
        cps "\n<<<[bright_blue]Merged[/]>>>\n", cps "a", cps "[green4]x[/]", [], cps "[dark_red]y[/]"], none) := by
  decide +kernel
example : (diffCli asciiWord pyIsSpace { strikeout := true } {} (cps "p") (cps "c") (cps "ab")
      (cps "b")).2 = ([[]], some .typeError) := by decide +kernel

/-! ### C59 -/

/-- What the command line tools read: code points of `str`. -/
def ValidStr (s : PyStr) : Prop := ∀ c ∈ s, c < 0x110000

/-- C59.  `gaspra-diff` with git-compatible markers into a file, with any tokenization, never
raises and writes whole lines; choosing the first side of every conflict gives the modified text,
choosing the second side gives the original text, both followed by one newline at most, which is
absent only if both texts end in one (or are empty). -/
theorem C59_diff_file (cls sp : Nat → Bool) {args : Args} (h : args.GitFile) (on mn : PyStr)
    {o m : PyStr} (ho : ValidStr o) (hm : ValidStr m) :
    ∃ out e, (e = [] ∨ e = [nl]) ∧ diffCli cls sp args {} on mn o m = ({}, out, none) ∧
      (e = [] → Whole m ∧ Whole o) ∧ GitOutput (basename mn) (basename on) out (m ++ e) (o ++ e) := by
  obtain ⟨_, hc, hl, hs⟩ := C58_diff_alternates cls
  unfold diffCli
  split
  · exact diffRun_git hs sp h on mn trivial trivial
  · split
    · exact diffRun_git hl sp h on mn trivial trivial
    · exact diffRun_git hc sp h on mn ho hm

example : (diffCli asciiWord pyIsSpace { output := some (cps "f"), gitCompatible := true, lines := true } {}
    (cps "d/old") (cps "d/new") (cps "a\nb\nc\n") (cps "a\nX\nc")).2 =
    ([cps "a\n", cps "<<<<<<< new\nX\nc\n", cps "=======\n", cps "b\nc\n\n>>>>>>> old\n"], none) := by
  decide +kernel
example : (⟨some (cps "f"), true, false, false, true, false, false⟩ : Args).GitFile :=
  ⟨rfl, rfl, rfl⟩

/-! ### C60 -/

theorem threeStrs_line (p c o : PyStr) : ThreeStrs lineTokenizer p c o :=
  lineLike.three rfl rfl rfl trivial trivial trivial

theorem threeStrs_symbol (cls : Nat → Bool) (p c o : PyStr) : ThreeStrs (symbolTokenizer cls) p c o :=
  (symbolLike cls).three rfl rfl rfl trivial trivial trivial

/-- C60.  `gaspra-merge` by characters with git-compatible markers into a file never raises and
writes whole lines; choosing the first (second) side of every conflict gives the first (second)
text of the merge, followed by one newline at most. -/
theorem C60_merge_file (cls sp : Nat → Bool) {args : Args} (h : args.GitFile) (hd : args.diff = false)
    (hw : args.words = false) (hl : args.lines = false) (pn cn on : PyStr)
    {p c o : PyStr} (hp : ValidStr p) (hc : ValidStr c) (ho : ValidStr o) :
    ∃ d out e, mergeTokenSequence .tuple p c o = .ok d ∧ (e = [] ∨ e = [nl]) ∧
      mergeCli cls sp args {} pn cn on p c o = ({}, out, none) ∧
      (e = [] → Whole (intoText d) ∧ Whole (fromText d)) ∧
      GitOutput (basename cn) (basename on) out (intoText d ++ e) (fromText d ++ e) := by
  obtain ⟨d, out, items, h1, h2, h3, h4, h5, h6⟩ := mergeRun_git sp h hd pn cn on
    (charTokenizer_str hp (src := none) rfl) (charTokenizer_str hc (src := some .str) rfl)
    (charTokenizer_str ho (src := some .str) rfl) char_hom_str hc ho
  have hsp : d.map (DiffItem.spell fun c => [c]) = d := by
    have : ∀ x : DiffItem Nat, x.spell (fun c => [c]) = x := by
      intro x; cases x <;> simp [DiffItem.spell]
    rw [List.map_congr_left (fun x _ => this x)]
    simp
  rw [hsp] at h2 h4
  obtain ⟨items', j1, j2, j3⟩ := C45_consolidated_texts sp d
  rw [h4] at j1
  cases j1
  obtain ⟨e, e1, e2, e3, e4⟩ := (C45_line_diff_texts sp d).2 h2.fragments
  refine ⟨d, out, e, h1, e1, ?_, e4, ?_⟩
  · simp only [mergeCli, hw, hl, Bool.false_eq_true, if_false, h3]
  · rw [← e2, ← e3, ← j2, ← j3]
    exact gitOutput_of h5 h6

/-- A merge run whose result is a single text. -/
theorem mergeRun_single {S : Type _} {tk : Tokenizer (List Nat) S} (sp : Nat → Bool) {args : Args}
    (h : args.GitFile) (hd : args.diff = false) (pn cn on : PyStr) {p c o r : PyStr}
    (T : ThreeStrs tk p c o) (hr : (c = r ∧ p = o) ∨ (o = r ∧ p = c) ∨ (c = r ∧ c = o)) :
    ∃ out, mergeRun tk sp args {} pn cn on p c o = ({}, out, none) ∧
      out.flatten = r ++ (if Whole r then [] else [nl]) := by
  obtain ⟨ep, ec, eo, s1, s2, s3, g, Dom, t1, t2, t3, H, ⟨d1, d2, d3⟩, ⟨g1, g2, g3⟩, q1, q2, q3⟩ := T
  obtain ⟨d, out, items, h1, h2, h3, h4, h5, h6⟩ := mergeRun_git sp h hd pn cn on t1 t2 t3 H d2 d3
  refine ⟨out, h3, ?_⟩
  have hd' : d.map (DiffItem.spell g) = [.common r] := by
    rcases hr with ⟨rfl, hp⟩ | ⟨rfl, hp⟩ | ⟨rfl, hp⟩
    · have := q2 hp
      subst this
      rw [(C15_merge_unchanged .tuple ep ec).1] at h1
      cases h1
      simp [DiffItem.spell, g2]
    · have := q1 hp
      subst this
      rw [(C15_merge_unchanged .tuple ep eo).2] at h1
      cases h1
      simp [DiffItem.spell, g3]
    · have := q3 hp
      subst this
      rw [C16_merge_identical .tuple ep ec] at h1
      cases h1
      simp [DiffItem.spell, g2]
  obtain ⟨items', i1, i2⟩ := consolidated_single sp (basename cn) (basename on) r
  rw [hd', i1] at h4
  cases h4
  rw [h6, i2]

/-- C60.  With any tokenization: if one branch is the parent, or the branches are equal, the file
contains exactly the changed text, with a newline at the end, and no conflict marker is added. -/
theorem C60_merge_unchanged (cls sp : Nat → Bool) {args : Args} (h : args.GitFile) (hd : args.diff = false)
    (pn cn on : PyStr) {p c o r : PyStr} (hp : ValidStr p) (hc : ValidStr c) (ho : ValidStr o)
    (hr : (c = r ∧ p = o) ∨ (o = r ∧ p = c) ∨ (c = r ∧ c = o)) :
    ∃ out, mergeCli cls sp args {} pn cn on p c o = ({}, out, none) ∧
      out.flatten = r ++ (if Whole r then [] else [nl]) := by
  unfold mergeCli
  split
  · exact mergeRun_single sp h hd pn cn on (threeStrs_symbol cls p c o) hr
  · split
    · exact mergeRun_single sp h hd pn cn on (threeStrs_line p c o) hr
    · exact mergeRun_single sp h hd pn cn on (char_three hp hc ho) hr

/-- C60.  By characters: compatible edits are written merged, without conflict markers. -/
theorem C60_merge_clean (cls sp : Nat → Bool) {args : Args} (h : args.GitFile) (hd : args.diff = false)
    (hw : args.words = false) (hl : args.lines = false) (pn cn on : PyStr)
    {p c o : PyStr} (hp : ValidStr p) (hc : ValidStr c) (ho : ValidStr o) {d0 d1 : List (DiffItem Nat)}
    (h0 : diffTokenSequences p c = some d0) (h1 : diffTokenSequences p o = some d1)
    (hcomp : ∀ e0 ∈ editsOf 0 d0, ∀ e1 ∈ editsOf 0 d1, e0.Compatible e1) :
    ∃ out, mergeCli cls sp args {} pn cn on p c o = ({}, out, none) ∧
      out.flatten = mergedText p (editsOf 0 d0) (editsOf 0 d1) ++
        (if Whole (mergedText p (editsOf 0 d0) (editsOf 0 d1)) then [] else [nl]) := by
  obtain ⟨d, out, items, k1, k2, k3, k4, k5, k6⟩ := mergeRun_git sp h hd pn cn on
    (charTokenizer_str hp (src := none) rfl) (charTokenizer_str hc (src := some .str) rfl)
    (charTokenizer_str ho (src := some .str) rfl) char_hom_str hc ho
  rw [C18_clean_merge h0 h1 hcomp] at k1
  cases k1
  refine ⟨out, by simp only [mergeCli, hw, hl, Bool.false_eq_true, if_false, k3], ?_⟩
  obtain ⟨items', i1, i2⟩ := consolidated_single sp (basename cn) (basename on)
    (mergedText p (editsOf 0 d0) (editsOf 0 d1))
  have e : [DiffItem.common (mergedText p (editsOf 0 d0) (editsOf 0 d1))].map
      (DiffItem.spell fun c => [c]) = [.common (mergedText p (editsOf 0 d0) (editsOf 0 d1))] := by
    simp [DiffItem.spell]
  rw [e, i1] at k4
  cases k4
  rw [k6, i2]

example : (mergeCli asciiWord pyIsSpace { output := some (cps "f"), gitCompatible := true } {}
    (cps "p") (cps "d/c") (cps "o") (cps "a\nb\nc\n") (cps "X\nb\nc\n") (cps "a\nb\nY\n")).2 =
    ([cps "X\nb\nY\n"], none) := by decide +kernel
example : (mergeCli asciiWord pyIsSpace { output := some (cps "f"), gitCompatible := true, words := true } {}
    (cps "p") (cps "d/c") (cps "o") (cps "a b\n") (cps "a x\n") (cps "a y\n")).2 =
    ([cps "<<<<<<< c\na x\n", cps "=======\n", cps "a y\n>>>>>>> o\n"], none) := by decide +kernel

end Gaspra
