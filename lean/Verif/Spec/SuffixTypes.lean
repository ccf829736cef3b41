import Verif.Model.SuffixTypes

/-!
# Suffixes as values

`joined empty w` is the sequence of the type of `empty` that has the tokens of `w` in it, if there is
one.
-/

namespace Gaspra

/-- The string of a token that is a string. -/
def tokStr : PyTok → Option PyStr
  | .str s => some s
  | _ => none

/-- The byte of a token that is an integer in `range(256)`. -/
def tokByte : PyTok → Option UInt8
  | .int n => if 0 ≤ n ∧ n < 256 then some (UInt8.ofNat n.toNat) else none
  | _ => none

/-- `w` followed by `empty`, as a sequence of the type of `empty`. -/
def joined : PySeq → List PyTok → Option PySeq
  | .tuple l, w => some (.tuple (w ++ l))
  | .str s, w => (w.mapM tokStr).map fun ps => .str (ps.flatten ++ s)
  | .bytes b, w => (w.mapM tokByte).map fun bs => .bytes (bs ++ b)
  | .other, [] => some .other
  | .other, _ :: _ => none

/-- The token can be put into a sequence of the type of `empty`. -/
def Fits : PySeq → PyTok → Prop
  | .tuple _, _ => True
  | .str _, t => ∃ s, t = .str s
  | .bytes _, t => ∃ n, t = .int n ∧ 0 ≤ n ∧ n < 256
  | .other, _ => False

end Gaspra
