import Verif.Proofs.CliDiff
import Verif.Props.Rich

set_option linter.unusedSectionVars false
set_option linter.unusedSimpArgs false
set_option linter.unusedVariables false

/-!
# C67, C71: diffs and merges shown by the command line tools
-/

namespace Gaspra

theorem shownDiff_eq (d : List (DiffItem PyStr)) :
    ((d.map DiffItem.joined).map DiffItem.toM).flatMap shownItem = shownDiff d := by
  induction d with
  | nil => rfl
  | cons x d ih =>
    simp only [List.map_cons, List.flatMap_cons, ih, shownDiff]
    cases x <;> simp [DiffItem.joined, DiffItem.toM, shownItem, shownSide]

theorem into_joined (d : List (DiffItem PyStr)) :
    intoText (d.map DiffItem.joined) = (intoText d).flatten := by
  induction d with
  | nil => rfl
  | cons x d ih => simp only [intoText, List.map_cons, List.flatMap_cons, List.flatten_append] at ih ⊢
                   rw [ih]; cases x <;> rfl

theorem from_joined (d : List (DiffItem PyStr)) :
    fromText (d.map DiffItem.joined) = (fromText d).flatten := by
  induction d with
  | nil => rfl
  | cons x d ih => simp only [fromText, List.map_cons, List.flatMap_cons, List.flatten_append] at ih ⊢
                   rw [ih]; cases x <;> rfl

/-- The texts of a diff of pieces. -/
theorem diff_joined {cls : Nat → Bool} {args : Args} {o m : PyStr} {qo qm : List PyStr}
    (ho : CliPieces cls args o qo) (hm : CliPieces cls args m qm) {d : List (DiffItem PyStr)}
    (h : diffTokenSequences qo qm = some d) :
    intoText (d.map DiffItem.joined) = m ∧ fromText (d.map DiffItem.joined) = o := by
  obtain ⟨d', h', hi, hf⟩ := C09_diff_reconstructs qo qm
  rw [h] at h'
  cases h'
  rw [into_joined, from_joined, hi, hf]
  exact ⟨hm.flatten, ho.flatten⟩

theorem display_shown (sp : Nat → Bool) {args : Args} (h : args.Console) (hl : args.showLines = false)
    (d : List (DiffItem PyStr)) (hi : 92 ∉ intoText (d.map DiffItem.joined))
    (hf : 92 ∉ fromText (d.map DiffItem.joined)) (b0 b1 : PyStr) :
    ∃ out, displayChanges sp (coloredLevel0, coloredLevel1) args
        ((d.map DiffItem.joined).map (DiffItem.toItem Text.str), none) b0 b1 [] = (out, none) ∧
      renderAll out = shownDiff d := by
  have hesc : getEscape args = richEscape := by unfold getEscape; rw [h.output]
  obtain ⟨out, o1, o2⟩ := markupStream_colored (basename b0) (basename b1) _ (plain_noBackslash hi hf)
  refine ⟨out, ?_, ?_⟩
  · simp only [displayChanges, filterMap_strItem, toDisplay, hl, h.git, Bool.or_self,
      Bool.false_eq_true, if_false, display, markupChanges, hesc, o1, basename_nil,
      List.isEmpty_nil, if_true, List.nil_append]
  · rw [o2, shownDiff_eq]

theorem merge_joined_noBackslash {cls : Nat → Bool} {args : Args} {p c o : PyStr} {qp qc qo : List PyStr}
    (hc : CliPieces cls args c qc) (ho : CliPieces cls args o qo) (bc : 92 ∉ c) (bo : 92 ∉ o)
    {d : List (DiffItem PyStr)} (h : mergeTokenSequence .tuple qp qc qo = .ok d) :
    92 ∉ intoText (d.map DiffItem.joined) ∧ 92 ∉ fromText (d.map DiffItem.joined) := by
  obtain ⟨d0, d0h, _⟩ := C12_diff_normal_form qp qc
  obtain ⟨d1, d1h, _⟩ := C12_diff_normal_form qp qo
  have ht := (C19_tokens h d0h d1h).1
  have hq : ∀ x ∈ d, ∀ q ∈ x.tokens, 92 ∉ q := by
    intro x hx q hqx hb
    rcases ht q ⟨x, hx, hqx⟩ with h | h
    · exact bc (by rw [← hc.flatten]; exact List.mem_flatten.2 ⟨q, h, hb⟩)
    · exact bo (by rw [← ho.flatten]; exact List.mem_flatten.2 ⟨q, h, hb⟩)
  constructor
  · intro hb
    obtain ⟨y, hy, hb⟩ := List.mem_flatMap.1 hb
    obtain ⟨x, hx, rfl⟩ := List.mem_map.1 hy
    cases x <;>
    · obtain ⟨q, hq1, hq2⟩ := List.mem_flatten.1 hb
      exact hq _ hx q (by simp [DiffItem.tokens, hq1]) hq2
  · intro hb
    obtain ⟨y, hy, hb⟩ := List.mem_flatMap.1 hb
    obtain ⟨x, hx, rfl⟩ := List.mem_map.1 hy
    cases x <;>
    · obtain ⟨q, hq1, hq2⟩ := List.mem_flatten.1 hb
      exact hq _ hx q (by simp [DiffItem.tokens, hq1]) hq2

/-- C67.  What `gaspra-diff` shows on the console, for texts without backslashes, is the diff of the
two sequences of words, lines or characters. -/
theorem C67_diff_console (cls sp : Nat → Bool) {args : Args} (h : args.Console)
    (hs : args.strikeout = false) (hl : args.showLines = false) (on mn : PyStr) {o m : PyStr}
    {qo qm : List PyStr} (ho : CliPieces cls args o qo) (hm : CliPieces cls args m qm)
    (bo : 92 ∉ o) (bm : 92 ∉ m) :
    ∃ d out, diffTokenSequences qo qm = some d ∧ diffCli cls sp args {} on mn o m = ({}, out, none) ∧
      renderAll out = shownDiff d := by
  obtain ⟨d, h1, h2, h3⟩ := diffCli_display cls sp args {} on mn ho hm
  obtain ⟨hi, hf⟩ := diff_joined ho hm h1
  obtain ⟨out, o1, o2⟩ := display_shown sp h hl d (by rw [hi]; exact bm) (by rw [hf]; exact bo)
    (getEscape args mn) (getEscape args on)
  refine ⟨d, out, h1, ?_, o2⟩
  rw [h3, console_style h true (.inl hs), o1]

/-- C67.  The same for `gaspra-merge`, with or without strikeout. -/
theorem C67_merge_console (cls sp : Nat → Bool) {args : Args} (h : args.Console) (hd : args.diff = false)
    (hl : args.showLines = false) (pn cn on : PyStr) {p c o : PyStr} {qp qc qo : List PyStr}
    (hp : CliPieces cls args p qp) (hc : CliPieces cls args c qc) (ho : CliPieces cls args o qo)
    (bc : 92 ∉ c) (bo : 92 ∉ o) :
    ∃ d out, mergeTokenSequence .tuple qp qc qo = .ok d ∧
      mergeCli cls sp args {} pn cn on p c o = ({}, out, none) ∧ renderAll out = shownDiff d := by
  obtain ⟨S, tk, e, T⟩ := mergeCli_eq cls sp args pn cn on hp hc ho
  obtain ⟨d, h1, h2, h3⟩ := mergeRun_display sp hd {} pn cn on T
  obtain ⟨hi, hf⟩ := merge_joined_noBackslash (p := p) hc ho bc bo h1
  obtain ⟨out, o1, o2⟩ := display_shown sp h hl d hi hf cn on
  refine ⟨d, out, h1, ?_, o2⟩
  rw [e, h3, console_style h false (.inr rfl), o1]

-- By words: the whole words `two` and `2` are exchanged.
example : (diffCli asciiWord pyIsSpace { words := true } {} (cps "old") (cps "new") (cps "one two")
    (cps "one too")).2 = ([cps "one ", cps "[green4]too[/]", [], cps "[dark_red]two[/]"], none) := by
  decide +kernel
-- By characters, one letter is deleted and one inserted.
example : (diffCli asciiWord pyIsSpace {} {} (cps "old") (cps "new") (cps "one two")
    (cps "one too")).2 = ([cps "one t", [], cps "[dark_red]w[/]", cps "o", cps "[green4]o[/]", []], none) := by
  decide +kernel
example : diffTokenSequences [cps "one", cps " ", cps "two"] [cps "one", cps " ", cps "too"] =
    some [.common [cps "one", cps " "], .change [cps "too"] [cps "two"]] := by decide +kernel
example : shownDiff [.common [cps "one", cps " "], .change [cps "too"] [cps "two"]] =
    renderAll [cps "one ", cps "[green4]too[/]", [], cps "[dark_red]two[/]"] := by decide +kernel

/-! ### C71 -/

theorem render_plain (st : List PyStr) (r : PyStr) : ∀ (s : PyStr), 91 ∉ s → 92 ∉ s →
    render st none (s ++ r) = styled st s ++ render st none r
  | [], _, _ => rfl
  | c :: s, h1, h2 => by
    have ih := render_plain st r s (fun h => h1 (by simp [h])) (fun h => h2 (by simp [h]))
    have c1 : c ≠ 91 := fun h => h1 (by simp [h])
    have c2 : c ≠ 92 := fun h => h2 (by simp [h])
    rw [List.cons_append, render.eq_4 _ _ _ (by intro rest' e; exact absurd e c2), if_neg c1, ih]
    rfl

theorem render_header {name : PyStr} (h1 : 91 ∉ name) (h2 : 92 ∉ name) :
    renderAll [showHeader coloredLevel0 name] = shownHeader name := by
  simp only [renderAll, List.flatMap_cons, List.flatMap_nil, List.append_nil, showHeader, shownHeader]
  show render [] none (lit "\n" ++ lit "<<<[bright_blue]" ++ name ++ lit "[/]>>>\n") = _
  have e : lit "\n" ++ lit "<<<[bright_blue]" ++ name ++ lit "[/]>>>\n" =
      lit "\n<<<" ++ (lit "[bright_blue]" ++ (name ++ (lit "[/]" ++ lit ">>>\n"))) := by
    simp [lit]
  rw [e, render_plain _ _ _ (by decide) (by decide)]
  rw [show ∀ r, render [] none (lit "[bright_blue]" ++ r) = render [lit "bright_blue"] none r from
    fun r => rfl, render_plain _ _ _ h1 h2, render_close]
  rw [show render [] none (lit ">>>\n") = styled [] (lit ">>>\n") by decide, List.append_assoc]

/-- One part of the output with a header. -/
structure Section (args : Args) (header : PyStr) (d : List (DiffItem PyStr)) (out : List PyStr)
    (first second : PyStr) : Prop where
  /-- After the header, the two texts are shown. -/
  texts : ∃ rest, out = showHeader coloredLevel0 header :: rest ∧
    renderAll [showHeader coloredLevel0 header] = shownHeader header ∧
    ConsoleOutput args.showLines rest first second
  /-- If no lines are shown, it is the diff of the pieces. -/
  diff : args.showLines = false → renderAll out = shownHeader header ++ shownDiff d

theorem section_of (sp : Nat → Bool) {args : Args} (h : args.Console) {header name : PyStr}
    (hn : name ≠ [] ∧ 91 ∉ name ∧ 92 ∉ name) (hb : basename header = name)
    {d : List (DiffItem PyStr)} (ha : TextsApart (d.map DiffItem.joined)) {first second : PyStr}
    (e1 : intoText (d.map DiffItem.joined) = first) (e2 : fromText (d.map DiffItem.joined) = second)
    (hi : 92 ∉ first) (hf : 92 ∉ second) (b0 b1 : PyStr) :
    ∃ out, displayChanges sp (coloredLevel0, coloredLevel1) args
        ((d.map DiffItem.joined).map (DiffItem.toItem Text.str), none) b0 b1 header = (out, none) ∧
      Section args name d out first second := by
  subst e1 e2
  obtain ⟨out, o1, o2⟩ := display_console sp h ha hi hf b0 b1
  have hh := displayChanges_header o1 header
  rw [hb, if_neg (by simpa using hn.1)] at hh
  have hr := render_header hn.2.1 hn.2.2
  refine ⟨_, hh, ⟨⟨out, rfl, hr, o2⟩, fun hl => ?_⟩⟩
  obtain ⟨out', p1, p2⟩ := display_shown sp h hl d hi hf b0 b1
  rw [o1] at p1
  cases p1
  show renderAll ([showHeader coloredLevel0 name] ++ out) = _
  unfold renderAll at hr p2 ⊢
  rw [List.flatMap_append, hr, p2]

/-- C71.  `gaspra-merge --diff` on the console without strikeout, for texts without backslashes and
file names without brackets and backslashes: three parts, each with a header: the diff from the
parent to either branch and the merge.  Nothing is raised. -/
theorem C71_merge_diff_console (cls sp : Nat → Bool) {args : Args} (h : args.Console)
    (hs : args.strikeout = false) (hd : args.diff = true) (pn cn on : PyStr) {p c o : PyStr}
    {qp qc qo : List PyStr}
    (hcn : basename cn ≠ [] ∧ 91 ∉ basename cn ∧ 92 ∉ basename cn)
    (hon : basename on ≠ [] ∧ 91 ∉ basename on ∧ 92 ∉ basename on)
    (hp : CliPieces cls args p qp) (hc : CliPieces cls args c qc) (ho : CliPieces cls args o qo)
    (bp : 92 ∉ p) (bc : 92 ∉ c) (bo : 92 ∉ o) :
    ∃ d0 d1 d out0 out1 out, diffTokenSequences qp qc = some d0 ∧ diffTokenSequences qp qo = some d1 ∧
      mergeTokenSequence .tuple qp qc qo = .ok d ∧
      mergeCli cls sp args {} pn cn on p c o = ({}, out0 ++ out1 ++ out, none) ∧
      Section args (basename cn) d0 out0 c p ∧ Section args (basename on) d1 out1 o p ∧
      Section args (lit "Merged") d out (intoText (d.map DiffItem.joined))
        (fromText (d.map DiffItem.joined)) := by
  obtain ⟨d0, d1, d, h1, h2, h3, h4, h5⟩ := mergeCli_diff cls sp hd {} pn cn on hp hc ho
  obtain ⟨i0, f0⟩ := diff_joined hp hc h1
  obtain ⟨i1, f1⟩ := diff_joined hp ho h2
  obtain ⟨i2, f2⟩ := merge_joined_noBackslash (p := p) hc ho bc bo h3
  obtain ⟨d0', g1, _, a0⟩ := C12_diff_normal_form qp qc
  rw [h1] at g1; cases g1
  obtain ⟨d1', g1, _, a1⟩ := C12_diff_normal_form qp qo
  rw [h2] at g1; cases g1
  obtain ⟨o0, p0, q0⟩ := section_of sp h hcn rfl (alternating_joined a0).textsApart i0 f0 bc bp cn pn
  obtain ⟨o1, p1, q1⟩ := section_of sp h hon rfl (alternating_joined a1).textsApart i1 f1 bo bp on pn
  obtain ⟨o2, p2, q2⟩ := section_of (header := lit "Merged") (name := lit "Merged") sp h (by decide) (by decide) h4 rfl rfl i2 f2 cn on
  refine ⟨d0, d1, d, o0, o1, o2, h1, h2, h3, ?_, q0, q1, q2⟩
  simp only [console_style h true (.inl hs), console_style h false (.inr rfl), p0, p1, p2, andThen] at h5
  exact h5

example : (mergeCli asciiWord pyIsSpace { diff := true } {} (cps "p") (cps "d/c") (cps "o") (cps "ab") (cps "xab")
    (cps "ay")).2 =
    ([cps "\n<<<[bright_blue]c[/]>>>\n", cps "[green4]x[/]", [], cps "ab",
      cps "\n<<<[bright_blue]o[/]>>>\n", cps "a", cps "[green4]y[/]", [], cps "[dark_red]b[/]",
      cps "\n<<<[bright_blue]Merged[/]>>>\n", cps "xay"], none) := by decide +kernel

/-- C71.  Headers are not escaped: part of a file name in brackets is not shown. -/
theorem C71_header_not_escaped :
    (renderAll [showHeader coloredLevel0 (basename (cps "d/a[old].txt"))]).map Prod.fst =
      cps "\n<<<a.txt>>>\n" := by decide +kernel

/-- C71.  `gaspra-merge --diff` with git markers into a file: each of the three parts starts with
the name in the header, on a new line but without an end of line, so that the name and the first
line of the part are one line. -/
theorem C71_merge_diff_file (cls sp : Nat → Bool) {args : Args} (h : args.GitFile) (hd : args.diff = true)
    (pn cn on : PyStr) {p c o : PyStr} {qp qc qo : List PyStr} (hp : CliPieces cls args p qp)
    (hc : CliPieces cls args c qc) (ho : CliPieces cls args o qo) (hcn : basename cn ≠ [])
    (hon : basename on ≠ []) :
    ∃ d out out0 out1 out2 e0 e1 e2, mergeTokenSequence .tuple qp qc qo = .ok d ∧
      mergeCli cls sp args {} pn cn on p c o = ({}, out, none) ∧
      out.flatten = nl :: basename cn ++ out0.flatten ++ nl :: basename on ++ out1.flatten ++
        nl :: lit "Merged" ++ out2.flatten ∧
      (∀ e ∈ [e0, e1, e2], e = [] ∨ e = [nl]) ∧
      GitOutput (basename cn) (basename pn) out0 (c ++ e0) (p ++ e0) ∧
      GitOutput (basename on) (basename pn) out1 (o ++ e1) (p ++ e1) ∧
      GitOutput (basename cn) (basename on) out2 (intoText (d.map DiffItem.joined) ++ e2)
        (fromText (d.map DiffItem.joined) ++ e2) := by
  obtain ⟨d0, d1, d, h1, h2, h3, h4, h5⟩ := mergeCli_diff cls sp hd {} pn cn on hp hc ho
  obtain ⟨i0, f0⟩ := diff_joined hp hc h1
  obtain ⟨i1, f1⟩ := diff_joined hp ho h2
  obtain ⟨d0', g1, _, a0⟩ := C12_diff_normal_form qp qc
  rw [h1] at g1; cases g1
  obtain ⟨d1', g1, _, a1⟩ := C12_diff_normal_form qp qo
  rw [h2] at g1; cases g1
  have key : ∀ (d : List (DiffItem Nat)), TextsApart d → ∀ b0 b1 header, basename header ≠ [] →
      ∃ out e, displayChanges sp (gitLevel0, plainLevel1) args (d.map (DiffItem.toItem Text.str), none) b0 b1
          header = ((nl :: basename header) :: out, none) ∧ (e = [] ∨ e = [nl]) ∧
        GitOutput (basename b0) (basename b1) out (intoText d ++ e) (fromText d ++ e) := by
    intro d ha b0 b1 header hh
    obtain ⟨items, out, i1, i2, i3, i4⟩ := display_git sp h d b0 b1
    obtain ⟨items', j1, j2, j3⟩ := C45_consolidated_texts sp d
    rw [i1] at j1
    cases j1
    obtain ⟨e, e1, e2, e3, e4⟩ := (C45_line_diff_texts sp d).2 ha.fragments
    have hx := displayChanges_header i3 header
    rw [if_neg (by simpa using hh)] at hx
    refine ⟨out, e, ?_, e1, ?_⟩
    · rw [hx]
      simp only [showHeader, gitLevel0, List.append_nil]
      rfl
    · rw [← e2, ← e3, ← j2, ← j3]
      exact gitOutput_of i2 i4
  obtain ⟨o0, e0, p0, q0, r0⟩ := key _ (alternating_joined a0).textsApart cn pn cn hcn
  obtain ⟨o1, e1, p1, q1, r1⟩ := key _ (alternating_joined a1).textsApart on pn on hon
  obtain ⟨o2, e2, p2, q2, r2⟩ := key _ h4 cn on (lit "Merged") (by decide)
  rw [i0, f0] at r0
  rw [i1, f1] at r1
  refine ⟨d, ((nl :: basename cn) :: o0) ++ ((nl :: basename on) :: o1) ++
    ((nl :: basename (lit "Merged")) :: o2), o0, o1, o2, e0, e1, e2, h3, ?_, ?_, ?_, r0, r1, r2⟩
  · simp only [h.style, p0, p1, p2, andThen] at h5
    exact h5
  · have : basename (lit "Merged") = lit "Merged" := by decide
    simp [this]
  · intro e he
    simp only [List.mem_cons, List.not_mem_nil, or_false] at he
    rcases he with rfl | rfl | rfl <;> assumption

example : (mergeCli asciiWord pyIsSpace
    { output := some (cps "f"), gitCompatible := true, diff := true, lines := true } {} (cps "p") (cps "d/c") (cps "o") (cps "a\nb\n") (cps "X\nb\n") (cps "a\nb\n")).2 =
    ([cps "\nc", cps "<<<<<<< c\nX\n", cps "=======\n", cps "a\n>>>>>>> p\n", cps "b\n",
      cps "\no", cps "a\nb\n", cps "\nMerged", cps "X\nb\n"], none) := by decide +kernel

end Gaspra
