import Verif.Model.MultipleStrings
import Verif.Model.Changesets

/-!
The expectations of the project's own tests about the suffix automaton, evaluated by the kernel in
the model.  These are tests of the model, not proofs about it.
-/

namespace Gaspra

/-! test_suffix_automaton.py, lines 15-33: the empty sequence. -/

example : (build ([] : List Char)).bind allSuffixes = some [[]] := by decide +kernel

/-! test_suffix_automaton.py, lines 36-103: all suffixes, each of them once. -/

example : ((build "bananas".toList).bind allSuffixes).map (fun l => l.length == 8 && (List.range
    8).all fun n => l.contains ("bananas".toList.drop n)) = some true := by decide +kernel
example : ((build "abcbc".toList).bind allSuffixes).map (fun l => l.length == 6 && (List.range
    6).all fun n => l.contains ("abcbc".toList.drop n)) = some true := by decide +kernel
example : ((build "baaacccabaabaabbabca".toList).bind allSuffixes).map (fun l => l.length == 21
    && (List.range 21).all fun n => l.contains ("baaacccabaabaabbabca".toList.drop n)) = some
    true := by decide +kernel

/-! test_suffix_automaton.py, lines 106-142: `find_substring` of the automaton. -/

example : (build ([] : List Char)).map (saFindSubstring · "anything".toList) = some none := by
    decide +kernel
example : (build "bananas".toList).map (saFindSubstring · "bananasx".toList) = some none := by
    decide +kernel
example : (build "bananas".toList).map (saFindSubstring · "xbananas".toList) = some none := by
    decide +kernel
example : (build "anything".toList).map (saFindSubstring · []) = some (some 0) := by
    decide +kernel
example : (build ([] : List Char)).map (saFindSubstring · []) = some (some 0) := by decide +kernel

/-! test_suffix_automaton.py, lines 145-167: every non-empty piece is found where it is. -/

example : (build "bananas".toList).map (fun h => (List.range 7).all fun i => (List.range 7).all
    fun k => let q := ("bananas".toList.drop i).take (k - i); (saFindSubstring h q).any fun p =>
    ("bananas".toList.drop p).take q.length == q) = some true := by decide +kernel
example : (build "abcbc".toList).map (fun h => (List.range 5).all fun i => (List.range 5).all fun
    k => let q := ("abcbc".toList.drop i).take (k - i); (saFindSubstring h q).any fun p =>
    ("abcbc".toList.drop p).take q.length == q) = some true := by decide +kernel
example : (build "baaacccabaabaabbabca".toList).map (fun h => (List.range 20).all fun i =>
    (List.range 20).all fun k => let q := ("baaacccabaabaabbabca".toList.drop i).take (k - i);
    (saFindSubstring h q).any fun p => ("baaacccabaabaabbabca".toList.drop p).take q.length == q)
    = some true := by decide +kernel

/-! test_suffix_automaton.py, lines 170-215: pieces drawn at random. -/

example : (build "bananas".toList).map (fun h => ["a".toList, "ba".toList, "ssb".toList,
    "aann".toList, "abnab".toList, "naasas".toList, "aaaabna".toList].map (saFindSubstring h)) =
    some [some 1, some 0, none, none, none, none, none] := by decide +kernel
example : (build "abcbc".toList).map (fun h => ["c".toList, "ac".toList, "cca".toList,
    "bcbb".toList, "babaa".toList].map (saFindSubstring h)) = some [some 2, none, none, none,
    none] := by decide +kernel
example : (build "baaacccabaabaabbabca".toList).map (fun h => ["a".toList, "aa".toList,
    "aca".toList, "caaa".toList, "caaaa".toList, "abbcbc".toList, "baacbaa".toList,
    "caaaaaaa".toList, "caabacaca".toList, "aaabbababa".toList, "bbbcaaaaacc".toList,
    "abcaabaaabac".toList, "aaaabacaaabaa".toList, "caaaacacbaaccb".toList,
    "abacccbacaabacc".toList, "abbaabbabaccbccc".toList, "aabbbacabccabcbac".toList,
    "aaacbbaababcacacba".toList, "aacaaaaaccacabbcccb".toList, "abaaaacaccccaccbcaca".toList].map
    (saFindSubstring h)) = some [some 1, some 1, none, none, none, none, none, none, none, none,
    none, none, none, none, none, none, none, none, none, none] := by decide +kernel

/-! test_suffix_automaton.py, lines 218-258: `find_substring_all`. -/

example : (build "abcdefg".toList).bind (saFindSubstringAll · "def".toList) = some [3] := by
    decide +kernel
example : (build "anything".toList).bind (saFindSubstringAll · []) = some [0, 1, 2, 3, 4, 5, 6,
    7, 8] := by decide +kernel
example : (build ([] : List Char)).bind (saFindSubstringAll · []) = some [0] := by decide +kernel
example : (build "abcabc".toList).bind (saFindSubstringAll · "abc".toList) = some [0, 3] := by
    decide +kernel
example : (build ([] : List Char)).bind (saFindSubstringAll · "anything".toList) = some [] := by
    decide +kernel
example : (build "bananas".toList).bind (saFindSubstringAll · "sana".toList) = some [] := by
    decide +kernel
example : (build "bananas".toList).bind (saFindSubstringAll · "bananasx".toList) = some [] := by
    decide +kernel
example : (build "bananas".toList).bind (saFindSubstringAll · "xbananas".toList) = some [] := by
    decide +kernel

/-! test_suffix_automaton.py, lines 261-349: `find_lcs` finds a common piece of at least the given
length which cannot be prolonged on both sides. -/

example : let a := "bananas".toList; let b := "xnanananx".toList; (findLcs a b).map (fun (i, j,
    n) => 5 ≤ n ∧ (a.drop i).take n = (b.drop j).take n ∧ ((a.drop (i - 1)).take (i + n - (i -
    1)) ≠ (b.drop (j - 1)).take (j + n - (j - 1)) ∨ (a.drop i).take (n + 1) ≠ (b.drop j).take (n
    + 1)) : Nat × Nat × Nat → Bool) = some true := by decide +kernel
example : let a := "abcabcxyzfoo".toList; let b := "xyzafabcxyzfaz".toList; (findLcs a b).map
    (fun (i, j, n) => 7 ≤ n ∧ (a.drop i).take n = (b.drop j).take n ∧ ((a.drop (i - 1)).take (i +
    n - (i - 1)) ≠ (b.drop (j - 1)).take (j + n - (j - 1)) ∨ (a.drop i).take (n + 1) ≠ (b.drop
    j).take (n + 1)) : Nat × Nat × Nat → Bool) = some true := by decide +kernel
example : let a := "baabaacbcbbcbcbcbaacacccabaaba".toList; let b :=
    "acabccbaacbcbbcbcbcbaaccabaaba".toList; (findLcs a b).map (fun (i, j, n) => 17 ≤ n ∧ (a.drop
    i).take n = (b.drop j).take n ∧ ((a.drop (i - 1)).take (i + n - (i - 1)) ≠ (b.drop (j -
    1)).take (j + n - (j - 1)) ∨ (a.drop i).take (n + 1) ≠ (b.drop j).take (n + 1)) : Nat × Nat ×
    Nat → Bool) = some true := by decide +kernel

/-! test_suffix_automaton.py, lines 352-391: nothing in common. -/

example : findLcs "abc".toList "xyz".toList = some (0, 0, 0) := by decide +kernel
example : findLcs [] "xyz".toList = some (0, 0, 0) := by decide +kernel
example : findLcs "abc".toList [] = some (0, 0, 0) := by decide +kernel
example : findLcs ([] : List Char) [] = some (0, 0, 0) := by decide +kernel

/-! test_wrappers.py, lines 14-31: `find_substring` and `find_lcs` on sentences. -/

example : findSubstring "Artistic alarms alarm artistically.".toList "stic".toList = some [4, 26]
    := by decide +kernel
example : findSubstring "Artistic alarms alarm artistically.".toList "ti".toList = some [2, 5,
    24, 27] := by decide +kernel
example : findLcs "Fantastic farmers farm finely.".toList
    "Artistic alarms alarm artistically.".toList = some (5, 4, 5) := by decide +kernel

/-! test_multiple_strings.py, lines 11-48. -/

example : findLcsMultiple ([] : List (List Char)) = some ([], none) := by decide +kernel
example : findLcsMultiple ([[], []] : List (List Char)) = some ([0, 0], some 0) := by
    decide +kernel
example : findLcsMultiple ([[], "abc".toList] : List (List Char)) = some ([0, 0], some 0) := by
    decide +kernel
example : findLcsMultiple (["abc".toList, []] : List (List Char)) = some ([0, 0], some 0) := by
    decide +kernel
example : findLcsMultiple (["abc".toList, "abc".toList] : List (List Char)) = some ([0, 0], some
    3) := by decide +kernel
example : findLcsMultiple (["abc".toList, "abcdef".toList] : List (List Char)) = some ([0, 0],
    some 3) := by decide +kernel
example : findLcsMultiple (["abcdef".toList, "def".toList] : List (List Char)) = some ([3, 0],
    some 3) := by decide +kernel
example : findLcsMultiple (["abc".toList, "xbc".toList, "bcxy".toList] : List (List Char)) = some
    ([1, 1, 0], some 2) := by decide +kernel
example : findLcsMultiple (["abcd".toList, "bcdax".toList, "yzbcd".toList] : List (List Char)) =
    some ([1, 0, 2], some 3) := by decide +kernel

/-! test_common.py. -/

example : commonPrefixLength ([] : List Char) [] = 0 := by decide +kernel
example : commonPrefixLength ([] : List Char) "a".toList = 0 := by decide +kernel
example : commonPrefixLength ("x".toList : List Char) "y".toList = 0 := by decide +kernel
example : commonPrefixLength ("xy".toList : List Char) "yz".toList = 0 := by decide +kernel
example : commonPrefixLength ("a".toList : List Char) "a".toList = 1 := by decide +kernel
example : commonPrefixLength ("ab".toList : List Char) "ab".toList = 2 := by decide +kernel
example : commonPrefixLength ("ab".toList : List Char) "ac".toList = 1 := by decide +kernel
example : commonPrefixLength ("abc".toList : List Char) "abd".toList = 2 := by decide +kernel
example : commonPrefixLength ("abcd".toList : List Char) "abde".toList = 2 := by decide +kernel

end Gaspra
