import Verif.Model.Merge

/-!
The expectations of the project's own tests and of README.md about diffs and merges, evaluated by
the kernel in the model.  These are tests of the model, not proofs about it.
-/

namespace Gaspra

/-! test_changesets.py, lines 17-131: a diff and its streams reproduce both texts. -/

/-- What the six tests of a pair of texts assert. -/
def bothWays (a b : List Char) : Bool :=
  match findChangeset a b with
  | none => false
  | some cs =>
    oldApplyForward cs a == b && oldApplyReverse cs b == a &&
    applyForward cs.asChangeStream a == b && applyReverse cs.asChangeStream b == a &&
    applyPatch (stripForward cs.asChangeStream) a == b &&
    applyPatch (stripReverse cs.asChangeStream) b == a

example : bothWays [] [] = true := by decide +kernel
example : bothWays "abcabcabc".toList [] = true := by decide +kernel
example : bothWays [] "abxybcabcx".toList = true := by decide +kernel
example : bothWays "abcabcabc".toList "abcabcabcxyz".toList = true := by decide +kernel
example : bothWays "abcabcabc".toList "xyzabcabcabc".toList = true := by decide +kernel
example : bothWays "abcabcabc".toList "abxybcabcx".toList = true := by decide +kernel
example : bothWays "dabbeefacabdabddbdeaeecafcaafdeedfcdedfdeabbababdcc".toList
    "dabbeefacabdabddbdeaeecafcaafdeedfcdedfdeabbababdccbb".toList = true := by decide +kernel

/-! test_wrappers.py, lines 34-46, and README.md, lines 168-183: the diff of two sentences. -/

def foxOriginal : List Char :=
  "The quick brown fox jumps over the lazy dog near the riverbank.".toList

def foxModified : List Char :=
  "The quick brown fox leaps over the lazy dogs near the river".toList

def foxEditor1 : List Char :=
  "The quick brown fox leaps over the lazy dogs near the river.".toList

def foxEditor2 : List Char :=
  "The quick, clever fox jumps across the lazy dogs by the riverbank.".toList

def foxConflicting : List Char :=
  "The swift, agile fox leaps over the sleepy dog near the riverside.".toList

example : diffTokenSequences foxOriginal foxModified = some [.common
    "The quick brown fox ".toList, .change "lea".toList "jum".toList, .common
    "ps over the lazy dog".toList, .change "s".toList [], .common " near the river".toList,
    .change [] "bank.".toList] := by decide +kernel

/-! README.md, lines 187-214: two diffs and a clean merge; one more diff and a merge with a conflict. -/

example : diffTokenSequences foxOriginal foxEditor1 = some [.common
    "The quick brown fox ".toList, .change "lea".toList "jum".toList, .common
    "ps over the lazy dog".toList, .change "s".toList [], .common " near the river".toList,
    .change [] "bank".toList, .common ".".toList] := by decide +kernel
example : diffTokenSequences foxOriginal foxEditor2 = some [.common "The quick".toList, .change
    ",".toList [], .common " ".toList, .change "cleve".toList "b".toList, .common "r".toList,
    .change [] "own".toList, .common " fox jumps ".toList, .change "ac".toList "ove".toList,
    .common "r".toList, .change "oss".toList [], .common " the lazy dog".toList, .change
    "s".toList [], .common " ".toList, .change "by".toList "near".toList, .common
    " the riverbank.".toList] := by decide +kernel
example : mergeTokenSequence .str foxOriginal foxEditor1 foxEditor2 = .ok [.common
    "The quick, clever fox leaps across the lazy dogs by the river.".toList] := by decide +kernel
example : diffTokenSequences foxOriginal foxConflicting = some [.common "The ".toList, .change
    "s".toList "quick bro".toList, .common "w".toList, .change "ift, agile".toList "n".toList,
    .common " fox ".toList, .change "lea".toList "jum".toList, .common "ps over the ".toList,
    .change "s".toList [], .common "l".toList, .change "eep".toList "az".toList, .common
    "y dog near the river".toList, .change "side".toList "bank".toList, .common ".".toList] := by
    decide +kernel
example : mergeTokenSequence .str foxOriginal foxEditor1 foxConflicting = .ok [.common
    "The swift, agile fox leaps over the sleepy dogs near the river".toList, .change []
    "side".toList, .common ".".toList] := by decide +kernel

/-! test_merge.py, lines 7-103: merges without a conflict, for each kind of sequence. -/

/-- The result is the same for `str`, `bytes` and tuples of numbers. -/
def mergesTo (parent branch1 branch2 : List Char) (merged : List (DiffItem Char)) : Bool :=
  [Kind.str, .bytes, .tuple].all fun k =>
    match mergeTokenSequence k parent branch1 branch2 with
    | .ok out => out == merged
    | .error _ => false

example : mergesTo [] [] [] [.common []] = true := by decide +kernel
example : mergesTo "a".toList "a".toList "a".toList [.common "a".toList] = true := by
    decide +kernel
example : mergesTo [] "a".toList "a".toList [.common "a".toList] = true := by decide +kernel
example : mergesTo "abc".toList "ac".toList "ac".toList [.common "ac".toList] = true := by
    decide +kernel
example : mergesTo "a".toList [] [] [.common []] = true := by decide +kernel
example : mergesTo "a".toList [] "a".toList [.common []] = true := by decide +kernel
example : mergesTo [] "a".toList [] [.common "a".toList] = true := by decide +kernel
example : mergesTo "a".toList "ax".toList "a".toList [.common "ax".toList] = true := by
    decide +kernel
example : mergesTo "ax".toList "a".toList "ax".toList [.common "a".toList] = true := by
    decide +kernel
example : mergesTo "a".toList "xa".toList "ay".toList [.common "xay".toList] = true := by
    decide +kernel
example : mergesTo "abc".toList "bc".toList "ab".toList [.common "b".toList] = true := by
    decide +kernel
example : mergesTo "ab".toList "xab".toList "a".toList [.common "xa".toList] = true := by
    decide +kernel
example : mergesTo "ab".toList "b".toList "a".toList [.common []] = true := by decide +kernel
example : mergesTo "a".toList "xa".toList [] [.common "x".toList] = true := by decide +kernel
example : mergesTo ".a".toList ".xa".toList ".".toList [.common ".x".toList] = true := by
    decide +kernel
example : mergesTo "a".toList "ab".toList "x".toList [.common "xb".toList] = true := by
    decide +kernel
example : mergesTo "ab".toList "b".toList "xab".toList [.common "xb".toList] = true := by
    decide +kernel
example : mergesTo "abcdefg".toList "abcxyz".toList "abcxyz".toList [.common "abcxyz".toList] =
    true := by decide +kernel
example : mergesTo "abcdefghij".toList "abxyzefghij".toList "abcdefgpqrij".toList [.common
    "abxyzefgpqrij".toList] = true := by decide +kernel

/-! test_merge.py, lines 106-220: merges with a conflict. -/

example : mergesTo [] "a".toList "b".toList [.change "a".toList "b".toList] = true := by
    decide +kernel
example : mergesTo "a".toList [] "b".toList [.change [] "b".toList] = true := by decide +kernel
example : mergesTo "a".toList "b".toList [] [.change "b".toList []] = true := by decide +kernel
example : mergesTo "abcdefg".toList "axdpefg".toList "abcdqey".toList [.common "axd".toList,
    .change "p".toList "q".toList, .common "ey".toList] = true := by decide +kernel
example : mergesTo "ab".toList "xb".toList "yb".toList [.change "x".toList "y".toList, .common
    "b".toList] = true := by decide +kernel
example : mergesTo "ab".toList "b".toList "xb".toList [.change [] "x".toList, .common "b".toList]
    = true := by decide +kernel
example : mergesTo "spqe".toList "sxyqe".toList "sxze".toList [.common "sx".toList, .change
    "yq".toList "z".toList, .common "e".toList] = true := by decide +kernel
example : mergesTo "sqe".toList "sxyqe".toList "sxze".toList [.common "sx".toList, .change
    "yq".toList "z".toList, .common "e".toList] = true := by decide +kernel
example : mergesTo "spqe".toList "syqe".toList "sze".toList [.common "s".toList, .change
    "yq".toList "z".toList, .common "e".toList] = true := by decide +kernel
example : mergesTo "spqe".toList "sqe".toList "sze".toList [.common "s".toList, .change
    "q".toList "z".toList, .common "e".toList] = true := by decide +kernel
example : mergesTo "sye".toList "sxabce".toList "sxbe".toList [.common "sx".toList, .change
    "a".toList [], .common "b".toList, .change "c".toList [], .common "e".toList] = true := by
    decide +kernel
example : mergesTo "sye".toList "sxabcde".toList "sxbde".toList [.common "sx".toList, .change
    "a".toList [], .common "b".toList, .change "c".toList [], .common "de".toList] = true := by
    decide +kernel
example : mergesTo "abcdefgh".toList "aqdrgh".toList "abseth".toList [.common "a".toList, .change
    "qdrg".toList "bset".toList, .common "h".toList] = true := by decide +kernel

end Gaspra
