import Verif.Model.MultipleStrings

/-!
The results which README.md prints for common texts, evaluated in the model.  The kernel would need
several gigabytes for them, so `#guard` evaluates them outside of it.  These are tests of the model,
not proofs about it.
-/

namespace Gaspra

/-! README.md, lines 127-152: the longest text common to two openings.  The dashes are not ASCII. -/

def readmeIshmael : List Nat :=
  "Call me Ishmael. Some years ago—never mind how long precisely—having little or no money in my purse, and nothing particular to interest me on shore, I thought I would sail about a little and see the watery part of the world".toList.map Char.toNat

def readmeTimes : List Nat :=
  "It was the best of times, it was the worst of times, it was the age of wisdom, it was the age of foolishness, it was the epoch of belief, it was the epoch of incredulity, it was the season of Light, it was the season of Darkness, it was the spring of hope, it was the winter of despair, we had everything before us, we had nothing before us, we were all going direct to Heaven, we were all going direct the other way – in short, the period was so far like the present period, that some of its noisiest authorities insisted on its being received, for good or for evil, in the superlative degree of comparison only.".toList.map Char.toNat

#guard findLcs readmeIshmael readmeTimes = some (103, 321, 10)
example : (readmeIshmael.drop 103).take 10 = "d nothing ".toList.map Char.toNat := by
    decide +kernel

/-! README.md, lines 155-165: three sentences. -/

def readmeFox1 : List Nat :=
  "The quick brown fox jumps over the lazy dog near the riverbank.".toList.map Char.toNat

def readmeFox2 : List Nat :=
  "The quick brown fox leaps over the lazy dogs near the river.".toList.map Char.toNat

def readmeFox3 : List Nat :=
  "The quick, clever fox jumps across the lazy dogs by the riverbank.".toList.map Char.toNat

#guard findLcsMultiple [readmeFox1, readmeFox2, readmeFox3] = some ([30, 30, 34], some 13)

end Gaspra
