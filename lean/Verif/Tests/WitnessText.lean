/-
The theorems about diffs, merges and the command line tools applied to concrete texts: their
hypotheses can be met.
-/
import Verif.Props.Again
import Verif.Props.CliDiff
import Verif.Props.DiffQuality
import Verif.Props.Files
import Verif.Props.GitConsole
import Verif.Props.Landmark
import Verif.Props.LineGroups
import Verif.Props.LineTight
import Verif.Props.LinesAny
import Verif.Props.MergeCost
import Verif.Props.MergeLocal
import Verif.Props.Serialize
import Verif.Props.Stretch

namespace Gaspra.Witness

/-! Merges of token sequences -/

theorem divided : Divided sampleStretches [9] := by
  constructor <;> simp [sampleStretches, Apart, Stretch.all]

theorem spaced : Spaced sampleSpots "h".toList := by
  constructor <;> simp [sampleSpots, Apart, Spot.all] <;> constructor <;> rintro t ((rfl | rfl) | rfl | rfl | rfl) <;>
    decide

example := C88_stretches (kind := .tuple) divided (out := [.change [2] [3], .common [4, 6, 6, 7, 9]])
  (by decide +kernel)
example := C88_lost .str (o := 'o') (X := "xy".toList) (Z := "zw".toList) (by decide) (by decide) (by decide)
example := C91_settled .tuple (ss := [⟨[], [1], [2], [1]⟩, ⟨[4], [5], [5], [6, 6]⟩, ⟨[7], [8], [10], [10]⟩])
  (last := [9]) (by constructor <;> simp [Apart, Stretch.all]) (by simp [Apart])
example := C91_choices .str spaced (fun i => i == 0) (fun _ => false) (fun i => i != 2)
example := C91_many .str spaced [fun i => i == 0, fun i => i != 1]
example := C91_order .str spaced (Ss := [fun i => i == 0, fun i => i != 1])
  (Ts := [fun i => i != 1, fun i => i == 0, fun i => i != 1]) (by
    intro S; simp; exact .inr)
example := C91_grows .str (o := 'o') (X := "xy".toList) (Z := "zw".toList) (by decide) (by decide) (by decide) 3
example := C86_landmark (u := [1, 2, 3]) (c := [0]) (v := [4, 5]) (u' := [2, 9]) (v' := [5, 5, 4])
  (by constructor <;> simp [Apart])
example := C86_same_order [1, 2, 3, 4, 5, 6] [7, 1, 3, 8, 5, 9] (by decide) (by decide) (by decide)
example := C87_merge .tuple (rs := sampleRegions) (last := [8])
  (by constructor <;> simp [sampleRegions, Apart, Region.all])
example := C87_two_changes .str (a := "ab".toList) (a' := "c".toList) (k := " ".toList) (b := "d".toList)
  (b' := "ef".toList) (by decide) (by unfold Apart; decide) (by unfold Apart; decide) (by unfold Apart; decide)
example := C20_symmetric_of_compatible (kind := .str) (parent := "abcdef".toList) (b0 := "xbcdef".toList)
  (b1 := "abcf".toList) (d0 := [.change ['x'] ['a'], .common "bcdef".toList])
  (d1 := [.common "abc".toList, .change [] "de".toList, .common "f".toList]) (by decide +kernel)
  (by decide +kernel) (by
    intro e0 h0 e1 h1
    simp only [editsOf, List.mem_cons, List.not_mem_nil, or_false] at h0 h1
    subst h0 h1
    exact .inr ⟨by unfold Edit.Disjoint; decide, .inl (by decide)⟩)
example := C76_between (kind := .tuple) (parent := [1, 2, 3, 4, 5, 6, 7, 8]) (b0 := [1, 20, 3, 4, 50, 6, 7, 8])
  (b1 := [1, 21, 3, 4, 5, 6, 8])
  (d0 := [.common [1], .change [20] [2], .common [3, 4], .change [50] [5], .common [6, 7, 8]])
  (d1 := [.common [1], .change [21] [2], .common [3, 4, 5, 6], .change [] [7], .common [8]])
  (out := [.common [1], .change [20] [21], .common [3, 4, 50, 6, 8]]) (by decide +kernel) (by decide +kernel)
  (by decide +kernel) (lo := 2) (hi := 7) (by decide) (by decide) (by decide +kernel) (by decide +kernel) (by
    intro e0 h0 e1 h1 l0 u0 l1 u1
    simp only [editsOf, List.mem_cons, List.not_mem_nil, or_false] at h0 h1
    rcases h0 with rfl | rfl <;> rcases h1 with rfl | rfl <;> simp at l0 l1
    exact .inr ⟨by unfold Edit.Disjoint; decide, .inl (by decide)⟩)
example := C93_size (kind := .tuple) (parent := [1, 2, 3]) (branch0 := [4, 2, 3]) (branch1 := [5, 2])
  (out := [.change [4] [5], .common [2]]) (by decide +kernel)
example : ∃ t, mergeTokenSequenceC .tuple [1, 2, 3] [4, 2, 3] [5, 2] = .ok ([.change [4] [5], .common [2]], t) ∧
    t ≤ 28 * (2 * 3 + 3 + 2 + 2) ^ 2 := by
  have h := C93_same_result .tuple [1, 2, 3] [4, 2, 3] [5, 2]
  rw [show mergeTokenSequence .tuple [1, 2, 3] [4, 2, 3] [5, 2] = .ok [.change [4] [5], .common [2]] by
    decide +kernel] at h
  cases hc : mergeTokenSequenceC .tuple [1, 2, 3] [4, 2, 3] [5, 2] with
  | error e => rw [hc] at h; cases h
  | ok r =>
    rw [hc] at h
    obtain ⟨out, t⟩ := r
    cases h
    exact ⟨t, rfl, C93_quadratic hc⟩
theorem first_ab : ∀ i, OccursAt ("xx".toList ++ "ab".toList ++ "yab".toList) "ab".toList i →
    "xx".toList.length ≤ i := by
  rintro i ⟨pre, post, h, rfl⟩
  match pre, h with
  | [], h => exact absurd h (by simp)
  | [a], h => exact absurd h (by simp)
  | _ :: _ :: _, _ => simp

example := C83_contained "xx".toList "ab".toList "yab".toList (by decide) first_ab
example := C83_contains "xx".toList "ab".toList "yab".toList (by decide) first_ab

/-! Numbers and deltas -/

example := C23_vint_roundtrip 70000 (by decide) [1, 2]
example := C24_vint_order 240 241 (by decide) (by decide)
example := C25_changeset_roundtrip [.slice ⟨0, some 300⟩, .piece [1, 2], .piece [], .slice ⟨5, some 5⟩] (by
  intro c hc
  simp only [List.mem_cons, List.not_mem_nil, or_false] at hc
  rcases hc with rfl | rfl | rfl | rfl <;> simp [PatchItem.Fits])

/-! Lines -/

example := C75_together pyIsSpace (s := [.change (cps "x\n") (cps "y\n"), .common (cps "\n"),
    .change (cps "p\n") (cps "q\n"), .common (cps "a\nb\n")])
  (L := [.change (cps "x\n") (cps "y\n"), .common (cps "\n"), .change (cps "p\n") (cps "q\n")])
  (by intro f hf; simp at hf; subst hf; decide) ⟨[], fragments [.common (cps "a\nb\n")], by decide +kernel⟩
example := C75_order pyIsSpace (s := [.change (cps "x\n") (cps "y\n"), .common (cps "a\nb"),
    .change (cps "p\n") (cps "q\n")]) (by decide +kernel)
example := C75_stops pyIsSpace (s := [.change (cps "x\n") (cps "y\n"), .common (cps "a\n"),
    .change (cps "p\n") (cps "q\n")]) ⟨by decide +kernel, by decide +kernel, trivial⟩
example := C45_newline_exact pyIsSpace (s := [.change (cps "x\n") (cps "y\n"), .common (cps "a\n"),
    .change (cps "p") (cps "q\n")]) ⟨by decide +kernel, by decide +kernel, trivial⟩
example := C47_resolve (n1 := cps "one") (n2 := cps "two") (by decide) (by decide)
  (d := [.text (cps "a\n"), conflictOf [.change (cps "x\n") (cps "y\n")]]) (by
    intro i hi
    simp only [List.mem_cons, List.not_mem_nil, or_false] at hi
    rcases hi with rfl | rfl
    · exact ⟨by decide, by decide⟩
    · refine ⟨by decide +kernel, ⟨⟨_, List.mem_cons_self .., rfl⟩, _, List.mem_cons_self .., rfl⟩, ?_, ?_⟩ <;>
        (intro x y h; simp [onlyInto, onlyFrom] at h; simp [h])) (by decide +kernel) (by decide +kernel)

/-! Styles.  With `--strikeout` the style for deletions is a function. -/

example := C49_deletion_raises (m0 := (getMarkupStyle { strikeout := true } true {}).2.1) (m1 := coloredLevel1) rfl
  (cps "new") (cps "old") id [.text (cps "a"), .change (.str []) (.str [97])] ⟨.str [], .str [97], by simp, rfl⟩
example := C49_no_deletion coloredLevel0 coloredLevel1 .function (cps "new") (cps "old") id
  [.text (cps "a"), .change (.str [97]) (.str [])] (by simp [MSide.truthy])
example := C49_tables_changed { strikeout := true } rfl {} {} rfl false
example := C49_diff_pieces (C58_diff_alternates asciiWord).2.2.1 pyIsSpace (args := { strikeout := true }) rfl rfl rfl {}
  (cps "old") (cps "new") (o := cps "a\nb") (m := cps "a") trivial trivial
example := C49_diff_lines (C58_diff_alternates asciiWord).2.2.1 pyIsSpace
  (args := { strikeout := true, showLines := true }) rfl rfl {}
  (cps "old") (cps "new") (o := cps "a\nb") (m := cps "a") trivial trivial (by decide)
example := C58_line_diff_of_diff (C58_diff_alternates asciiWord).2.2.1 pyIsSpace (o := cps "a\nb") (m := cps "a") trivial trivial

/-! Files -/

theorem valid {s : PyStr} (h : (s.all fun c => decide (c < 0x110000)) = true) : ValidStr s := by
  intro c hc
  simpa using List.all_eq_true.1 h c hc

/-- Text in single characters. -/
theorem chars {args : Args} {s : PyStr} (hw : args.words = false) (hl : args.lines = false)
    (h : (s.all fun c => decide (c < 0x110000)) = true) : CliPieces asciiWord args s (s.map ([·])) := by
  unfold CliPieces
  simp only [hw, hl, Bool.false_eq_true, if_false]
  exact ⟨trivial, valid h⟩

/-- Text in lines. -/
theorem lines {args : Args} (init : List PyStr) (last : PyStr) (hw : args.words = false) (hl : args.lines = true)
    (h : ∀ p ∈ last :: init, nl ∉ p) :
    CliPieces asciiWord args ((init.map (· ++ [nl])).flatten ++ last) (init.map (· ++ [nl]) ++ [last]) := by
  unfold CliPieces
  simp only [hw, hl, Bool.false_eq_true, if_false, if_true]
  refine ⟨by simp, _, last, rfl, h _ (by simp), ?_⟩
  intro p hp
  obtain ⟨q, hq, rfl⟩ := List.mem_map.1 hp
  exact ⟨q, rfl, h q (by simp [hq])⟩

/-- To a file, with git markers. -/
def toGitFile : Args := { output := some (cps "f"), gitCompatible := true }

example := C60_merge_file asciiWord pyIsSpace (args := toGitFile) ⟨rfl, rfl, rfl⟩ rfl rfl rfl (cps "p") (cps "c")
  (cps "o") (p := cps "a\nb\n") (c := cps "a\nc\n") (o := cps "d\nb\n") (valid (by decide)) (valid (by decide))
  (valid (by decide))
example := C60_merge_unchanged asciiWord pyIsSpace (args := toGitFile) ⟨rfl, rfl, rfl⟩ rfl (cps "p") (cps "c")
  (cps "o") (p := cps "a\nb\n") (c := cps "a\nc\n") (o := cps "a\nb\n") (r := cps "a\nc\n") (valid (by decide))
  (valid (by decide)) (valid (by decide)) (.inl ⟨rfl, rfl⟩)
example := C67_diff_console asciiWord pyIsSpace (args := {}) ⟨rfl, rfl⟩ rfl rfl (cps "old") (cps "new")
  (chars (s := cps "a[0]") rfl rfl (by decide)) (chars (s := cps "a[1]") rfl rfl (by decide)) (by decide) (by decide)
example := C67_merge_console asciiWord pyIsSpace (args := {}) ⟨rfl, rfl⟩ rfl rfl (cps "p") (cps "c") (cps "o")
  (chars (s := cps "a[0]") rfl rfl (by decide)) (chars (s := cps "a[1]") rfl rfl (by decide))
  (chars (s := cps "b[0]") rfl rfl (by decide)) (by decide) (by decide)
example := C70_diff_console asciiWord pyIsSpace (args := {}) ⟨rfl, rfl⟩ rfl (cps "old") (cps "new")
  (o := cps "a[0]") (m := cps "a[1]") (valid (by decide)) (valid (by decide)) (by decide) (by decide)
example := C70_merge_console asciiWord pyIsSpace (args := {}) ⟨rfl, rfl⟩ rfl (cps "p") (cps "c") (cps "o")
  (chars (s := cps "a[0]") rfl rfl (by decide)) (chars (s := cps "a[1]") rfl rfl (by decide))
  (chars (s := cps "b[0]") rfl rfl (by decide)) (by decide) (by decide)
example := C71_merge_diff_console asciiWord pyIsSpace (args := { diff := true }) ⟨rfl, rfl⟩ rfl rfl (cps "p")
  (cps "d/c") (cps "o") ⟨by decide, by decide, by decide⟩ ⟨by decide, by decide, by decide⟩
  (chars (s := cps "a[0]") rfl rfl (by decide)) (chars (s := cps "a[1]") rfl rfl (by decide))
  (chars (s := cps "b[0]") rfl rfl (by decide)) (by decide) (by decide) (by decide)
example := C71_merge_diff_file asciiWord pyIsSpace (args := { toGitFile with diff := true }) ⟨rfl, rfl, rfl⟩ rfl
  (cps "p") (cps "d/c") (cps "o") (chars (s := cps "a\nb\n") rfl rfl (by decide))
  (chars (s := cps "a\nc\n") rfl rfl (by decide)) (chars (s := cps "d\nb\n") rfl rfl (by decide)) (by decide) (by decide)
example := C74_diff_git_console asciiWord pyIsSpace (args := { gitCompatible := true }) ⟨rfl, rfl⟩ rfl
  (on := cps "d/old") (mn := cps "new") ⟨by decide, by decide⟩ ⟨by decide, by decide⟩ (o := cps "x\na[0]\n")
  (m := cps "x\na[1]\n") (valid (by decide)) (valid (by decide)) (by decide) (by decide)
example := C74_merge_git_console asciiWord pyIsSpace (args := { gitCompatible := true }) ⟨rfl, rfl⟩ rfl (cps "p")
  (cn := cps "c") (on := cps "o") ⟨by decide, by decide⟩ ⟨by decide, by decide⟩
  (chars (s := cps "a[0]") rfl rfl (by decide)) (chars (s := cps "a[1]") rfl rfl (by decide))
  (chars (s := cps "b[0]") rfl rfl (by decide)) (by decide) (by decide)
example := C81_diff_file asciiWord pyIsSpace (args := toGitFile) ⟨rfl, rfl, rfl⟩ (cps "old") (cps "new")
  (chars (s := cps "a\nb\n") rfl rfl (by decide)) (chars (s := cps "a\nc\n") rfl rfl (by decide))
example := C81_merge_file asciiWord pyIsSpace (args := toGitFile) ⟨rfl, rfl, rfl⟩ rfl (cps "p") (cps "c") (cps "o")
  (chars (s := cps "a\nb\n") rfl rfl (by decide)) (chars (s := cps "a\nc\n") rfl rfl (by decide))
  (chars (s := cps "d\nb\n") rfl rfl (by decide))
example := C81_diff_bytes asciiWord pyIsSpace (args := toGitFile) ⟨rfl, rfl, rfl⟩ (on := cps "old") (mn := cps "new")
  (by decide) (by decide) (original := [97, 13, 10, 0xE9]) (modified := [98, 10, 0xC3, 0xA9])
  (chars rfl rfl (by decide)) (chars rfl rfl (by decide))
example := C81_merge_bytes asciiWord pyIsSpace (args := toGitFile) ⟨rfl, rfl, rfl⟩ rfl (cps "p") (cn := cps "c")
  (on := cps "o") (by decide) (by decide) (parent := [97, 13, 10]) (current := [97, 10, 0xE9])
  (other := [98, 10, 0xC3, 0xA9]) (chars rfl rfl (by decide)) (chars rfl rfl (by decide)) (chars rfl rfl (by decide))
example := C72_read_utf8 (s := [97, 10, 233]) (data := [97, 13, 10, 0xC3, 0xA9]) (by decide)
example : readText [97, 13, 10, 0xC3, 0xA9] = [97, 10, 233] := (C72_read_utf8 (by decide)).2 (by decide)
example := C72_read_latin1 (data := [97, 10, 0xE9]) (by
  rintro ⟨s, hs⟩
  have := utf8_iff.2 hs
  revert this
  rw [show utf8Decode [97, 10, 0xE9] = none by decide +kernel]
  simp) (by decide)
example := C73_diff_files asciiWord pyIsSpace (args := toGitFile) ⟨rfl, rfl, rfl⟩ (on := cps "old") (mn := cps "d/new")
  (by decide) (by decide) [97, 13, 10, 0xE9] [98, 10]
example := C73_merge_files asciiWord pyIsSpace (args := toGitFile) ⟨rfl, rfl, rfl⟩ rfl (cps "p") (cn := cps "c")
  (on := cps "o") (by decide) (by decide) (parent := [97, 13, 10]) (current := [97, 10, 0xE9])
  (other := [98, 10, 0xC3, 0xA9]) (chars rfl rfl (by decide)) (chars rfl rfl (by decide)) (chars rfl rfl (by decide))
example := C73_unchanged_files asciiWord pyIsSpace (args := toGitFile) ⟨rfl, rfl, rfl⟩ rfl (cps "p") (cps "c") (cps "o")
  (p := [97, 10]) (c := [0xC3, 0xA9, 10]) (o := [97, 10]) (r := [0xC3, 0xA9, 10]) (.inl ⟨rfl, rfl⟩)
  (s := [233, 10]) (by decide) (by decide) (by decide)

/-! By lines: the first line is rewritten in one file, the last one is removed in the other. -/

def byLines : Args := { toGitFile with lines := true }

example := C87_merge_file asciiWord pyIsSpace (args := byLines) ⟨rfl, rfl, rfl⟩ rfl (cps "p") (cps "c") (cps "o")
  (rs := [⟨[], [cps "a\n"], [cps "X\n", cps "a\n"], true⟩, ⟨[cps "b\n"], [cps "c\n"], [], false⟩]) (last := [[]])
  (by constructor <;> simp [Apart, Region.all] <;> decide)
  (lines [cps "a", cps "b", cps "c"] [] rfl rfl (by decide))
  (lines [cps "X", cps "a", cps "b", cps "c"] [] rfl rfl (by decide))
  (lines [cps "a", cps "b"] [] rfl rfl (by decide))
example := C67_merge_clean asciiWord pyIsSpace (args := byLines) ⟨rfl, rfl, rfl⟩ rfl (cps "p") (cps "c") (cps "o")
  (lines [cps "a", cps "b", cps "c"] [] rfl rfl (by decide))
  (lines [cps "X", cps "b", cps "c"] [] rfl rfl (by decide))
  (lines [cps "a", cps "b"] [] rfl rfl (by decide))
  (d0 := [.change [cps "X\n"] [cps "a\n"], .common [cps "b\n", cps "c\n", []]])
  (d1 := [.common [cps "a\n", cps "b\n"], .change [] [cps "c\n"], .common [[]]])
  (by decide +kernel) (by decide +kernel) (by
    intro e0 h0 e1 h1
    simp only [editsOf, List.mem_cons, List.not_mem_nil, or_false] at h0 h1
    subst h0 h1
    exact .inr ⟨by unfold Edit.Disjoint; decide, .inl (by decide)⟩)
example := C67_merge_file asciiWord pyIsSpace (args := byLines) ⟨rfl, rfl, rfl⟩ rfl (cps "p") (cps "c") (cps "o")
  (lines [cps "a", cps "b", cps "c"] [] rfl rfl (by decide))
  (lines [cps "X", cps "b", cps "c"] [] rfl rfl (by decide))
  (lines [cps "Y", cps "b"] [] rfl rfl (by decide))

/-! Line diffs of `bytes` -/

example := C96_decoded_bytes C41_line_diff pyIsSpace (before := []) (o := [97, 10, 98]) (m := [97, 10, 99]) trivial trivial
  (by intro y hy; cases hy)
  (s1 := (lineTokenizer.encode .new (.bytes [97, 10, 98])).1)
  (s2 := (lineTokenizer.encode (lineTokenizer.encode .new (.bytes [97, 10, 98])).1 (.bytes [97, 10, 99])).1)
  (eo := [0, 1]) (em := [0, 2]) (cs := [.common [0], .change [2] [1]])
  (by decide +kernel) (by decide +kernel) (by decide +kernel)
example := C96_decoded_str (C58_diff_alternates asciiWord).2.2.1 pyIsSpace (before := []) (o := [97, 10, 98])
  (m := [97, 10, 99]) trivial trivial (by intro y hy; cases hy)
  (s1 := (lineTokenizer.encode .new (.str [97, 10, 98])).1)
  (s2 := (lineTokenizer.encode (lineTokenizer.encode .new (.str [97, 10, 98])).1 (.str [97, 10, 99])).1)
  (eo := [0, 1]) (em := [0, 2]) (cs := [.common [0], .change [2] [1]])
  (by decide +kernel) (by decide +kernel) (by decide +kernel)

end Gaspra.Witness
