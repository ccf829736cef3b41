import Verif.Proofs.PieceMerge
import Verif.Props.Display

/-!
# C66, C67: only the equality of tokens matters
-/

namespace Gaspra

section
variable {α β : Type _} [DecidableEq α] [DecidableEq β]

/-- C66.  Renaming the tokens, without giving two of them the same name, renames the diff. -/
theorem C66_diff_rename {f : α → β} {original modified : List α}
    (h : KeepsApart f (original ++ modified)) :
    diffTokenSequences (original.map f) (modified.map f) =
      (diffTokenSequences original modified).map (List.map (DiffItem.rename f)) :=
  diff_renameOn h

/-- C66.  The same for the stream of slices and changes that patches are made of: the slices stay as
they are. -/
theorem C66_changeset_rename {f : α → β} {original modified : List α}
    (h : KeepsApart f (original ++ modified)) :
    (findChangeset (original.map f) (modified.map f)).map Changeset.asChangeStream =
      (findChangeset original modified).map
        fun cs => cs.asChangeStream.map (ChangeItem.rename f) := by
  rw [findChangeset_renameOn h]
  cases findChangeset original modified with
  | none => rfl
  | some cs => simp only [Option.map_some, Changeset.asChangeStream_rename]

/-- C66.  The same for merges, whatever the result is. -/
theorem C66_merge_rename {f : α → β} (kind : Kind) {parent branch0 branch1 : List α}
    (h : KeepsApart f (parent ++ branch0 ++ branch1)) :
    mergeTokenSequence kind (parent.map f) (branch0.map f) (branch1.map f) =
      (mergeTokenSequence kind parent branch0 branch1).map (List.map (DiffItem.rename f)) :=
  merge_renameOn kind h

example : KeepsApart (fun c : Char => c.toNat % 7) "abc".toList := by
  unfold KeepsApart; decide
example : diffTokenSequences "abca".toList "xbc".toList =
    some [.change ['x'] ['a'], .common ['b', 'c'], .change [] ['a']] := by decide +kernel
example : diffTokenSequences [1, 2, 3, 1] [9, 2, 3] =
    some [.change [9] [1], .common [2, 3], .change [] [1]] := by decide +kernel
-- If two tokens get the same name, the diff is another one.
example : ¬ KeepsApart (fun _ : Char => 0) "ab".toList := by
  unfold KeepsApart; decide
example : diffTokenSequences ("ab".toList.map fun _ => 0) ("ba".toList.map fun _ => 0) =
    some [.common [0, 0]] ∧
    diffTokenSequences "ab".toList "ba".toList =
      some [.change [] ['a'], .common ['b'], .change ['a'] []] := by decide +kernel

end

/-! ### C67 -/

theorem lineTokens_of {x : PyStr} {qs : List PyStr} (h : IsLinesOf nl x qs) :
    lineTokens (.str x) = qs.map .str := by
  rw [C39_lines_unique h (isLinesOf nl x)]; rfl

theorem symbolTokens_of {cls : Nat → Bool} {x : PyStr} {qs : List PyStr} (h : IsSymbolsOf cls x qs) :
    symbolTokens cls (.str x) = qs.map .str := by
  rw [C39_symbols_unique h (symbols_spec cls x)]; rfl

/-- C67.  The diff by lines is the diff of the sequences of lines, written out: numbering the lines
plays no role, nor does what was tokenized before. -/
theorem C67_line_diff {before : List Text} {o m : PyStr} {qo qm : List PyStr}
    (hf : FirstCallLike (.str o) before) (ho : IsLinesOf nl o qo) (hm : IsLinesOf nl m qm) :
    ∃ d, diffTokenSequences qo qm = some d ∧
      (tokDiff lineTokenizer (tokAfter lineTokenizer before) (.str o) (.str m)).2 =
        .ok ((d.map DiffItem.joined).map (DiffItem.toItem Text.str), none) :=
  lineLike.diffPieces (tk := lineTokenizer) rfl rfl rfl (lineLike.steps before .new).inv trivial trivial
    (wrongType_after lineLike hf) (lineTokens_of ho) (lineTokens_of hm)

/-- C67.  The diff by words is the diff of the sequences of words and other characters, written
out. -/
theorem C67_symbol_diff {cls : Nat → Bool} {before : List Text} {o m : PyStr} {qo qm : List PyStr}
    (hf : FirstCallLike (.str o) before) (ho : IsSymbolsOf cls o qo) (hm : IsSymbolsOf cls m qm) :
    ∃ d, diffTokenSequences qo qm = some d ∧
      (tokDiff (symbolTokenizer cls) (tokAfter (symbolTokenizer cls) before) (.str o) (.str m)).2 =
        .ok ((d.map DiffItem.joined).map (DiffItem.toItem Text.str), none) :=
  (symbolLike cls).diffPieces (tk := symbolTokenizer cls) rfl rfl rfl
    ((symbolLike cls).steps before .new).inv trivial trivial
    (wrongType_after (symbolLike cls) hf) (symbolTokens_of ho) (symbolTokens_of hm)

/-- The pieces that the command line tools work with: words and other characters, lines, or single
characters. -/
def CliPieces (cls : Nat → Bool) (args : Args) (x : PyStr) (qs : List PyStr) : Prop :=
  if args.words then IsSymbolsOf cls x qs
  else if args.lines then IsLinesOf nl x qs
  else qs = x.map ([·]) ∧ ValidStr x

theorem mergeCli_eq (cls sp : Nat → Bool) (args : Args) (pn cn on : PyStr) {p c o : PyStr}
    {qp qc qo : List PyStr} (hp : CliPieces cls args p qp) (hc : CliPieces cls args c qc)
    (ho : CliPieces cls args o qo) : ∃ (S : Type) (tk : Tokenizer (List Nat) S),
      mergeCli cls sp args {} pn cn on p c o = mergeRun tk sp args {} pn cn on p c o ∧
      ThreePieces tk p c o qp qc qo := by
  unfold CliPieces at hp hc ho
  unfold mergeCli
  by_cases hw : args.words = true
  · rw [if_pos hw] at hp hc ho ⊢
    exact ⟨_, _, rfl, (symbolLike cls).threePieces rfl rfl rfl trivial trivial trivial
      (symbolTokens_of hp) (symbolTokens_of hc) (symbolTokens_of ho)⟩
  · rw [if_neg hw] at hp hc ho ⊢
    by_cases hl : args.lines = true
    · rw [if_pos hl] at hp hc ho ⊢
      exact ⟨_, _, rfl, lineLike.threePieces rfl rfl rfl trivial trivial trivial
        (lineTokens_of hp) (lineTokens_of hc) (lineTokens_of ho)⟩
    · rw [if_neg hl] at hp hc ho ⊢
      obtain ⟨rfl, hp⟩ := hp
      obtain ⟨rfl, hc⟩ := hc
      obtain ⟨rfl, ho⟩ := ho
      exact ⟨_, _, rfl, charThreePieces hp hc ho⟩

/-- C67.  `gaspra-merge` by characters, words or lines, with git-compatible markers into a file: it
never raises, and choosing the first (second) side of every conflict gives the first (second) text
of the merge of the three sequences of pieces, followed by one newline at most. -/
theorem C67_merge_file (cls sp : Nat → Bool) {args : Args} (h : args.GitFile) (hd : args.diff = false)
    (pn cn on : PyStr) {p c o : PyStr} {qp qc qo : List PyStr} (hp : CliPieces cls args p qp)
    (hc : CliPieces cls args c qc) (ho : CliPieces cls args o qo) :
    ∃ d out e, mergeTokenSequence .tuple qp qc qo = .ok d ∧ (e = [] ∨ e = [nl]) ∧
      mergeCli cls sp args {} pn cn on p c o = ({}, out, none) ∧
      (e = [] → Whole (intoText (d.map DiffItem.joined)) ∧ Whole (fromText (d.map DiffItem.joined))) ∧
      GitOutput (basename cn) (basename on) out (intoText (d.map DiffItem.joined) ++ e)
        (fromText (d.map DiffItem.joined) ++ e) := by
  obtain ⟨S, tk, e, T⟩ := mergeCli_eq cls sp args pn cn on hp hc ho
  rw [e]
  exact mergeRun_pieces_resolved sp h hd pn cn on T

/-- C67.  If the edits of the two branches, in terms of pieces, are compatible, the file contains the
parent with both sets of edits applied and no conflict marker. -/
theorem C67_merge_clean (cls sp : Nat → Bool) {args : Args} (h : args.GitFile) (hd : args.diff = false)
    (pn cn on : PyStr) {p c o : PyStr} {qp qc qo : List PyStr} (hp : CliPieces cls args p qp)
    (hc : CliPieces cls args c qc) (ho : CliPieces cls args o qo) {d0 d1 : List (DiffItem PyStr)}
    (h0 : diffTokenSequences qp qc = some d0) (h1 : diffTokenSequences qp qo = some d1)
    (hcomp : ∀ e0 ∈ editsOf 0 d0, ∀ e1 ∈ editsOf 0 d1, e0.Compatible e1) :
    ∃ out r, mergeCli cls sp args {} pn cn on p c o = ({}, out, none) ∧
      r = (mergedText qp (editsOf 0 d0) (editsOf 0 d1)).flatten ∧
      out.flatten = r ++ (if Whole r then [] else [nl]) := by
  obtain ⟨S, tk, e, T⟩ := mergeCli_eq cls sp args pn cn on hp hc ho
  rw [e]
  obtain ⟨out, h1, h2⟩ := mergeRun_pieces_clean sp h hd pn cn on T (C18_clean_merge h0 h1 hcomp)
  exact ⟨out, _, h1, rfl, h2⟩

-- By lines, a change and an insertion in different places.
example : (mergeCli asciiWord pyIsSpace { output := some (cps "f"), gitCompatible := true, lines := true } {}
    (cps "p") (cps "d/c") (cps "o") (cps "a\nb\nc\n") (cps "X\nb\nc\n") (cps "a\nb\nY\nc\n")).2 =
    ([cps "X\nb\nY\nc\n"], none) := by decide +kernel
-- By words, a conflict.
example : (mergeCli asciiWord pyIsSpace { output := some (cps "f"), gitCompatible := true, words := true } {}
    (cps "p") (cps "c") (cps "o") (cps "one two\n") (cps "one 2\n") (cps "one deux\n")).2 =
    ([cps "<<<<<<< c\none 2\n", cps "=======\n", cps "one deux\n>>>>>>> o\n"], none) := by
  decide +kernel
example : CliPieces asciiWord { lines := true } (cps "a\nb") [cps "a\n", cps "b"] := by
  refine ⟨by decide, [cps "a\n"], cps "b", rfl, by decide, ?_⟩
  intro p hp
  rw [List.mem_singleton.1 hp]
  exact ⟨cps "a", by decide, by decide⟩
example : (mergeTokenSequence .tuple [cps "one", cps " ", cps "two", cps "\n"]
    [cps "one", cps " ", cps "2", cps "\n"] [cps "one", cps " ", cps "deux", cps "\n"]) =
    .ok [.common [cps "one", cps " "], .change [cps "2"] [cps "deux"], .common [cps "\n"]] := by
  decide +kernel

end Gaspra
