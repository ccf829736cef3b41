import Verif.Props.ExactSides

/-!
# C142: exchanging the branches exchanges the sides
-/

namespace Gaspra

variable {α : Type _} [DecidableEq α]

/-- C142.  If overlapping changes of the branches start at the same place, merging the branches in the other order
exchanges the texts that the first sides and the second sides of the conflicts give. -/
theorem C142_exchange {kind kind' : Kind} {parent b0 b1 : List α} {d0 d1 d d' : List (DiffItem α)}
    (h0 : diffTokenSequences parent b0 = some d0) (h1 : diffTokenSequences parent b1 = some d1)
    (ha : ∀ e0 ∈ editsOf 0 d0, ∀ e1 ∈ editsOf 0 d1, e0.Aligned e1)
    (h : mergeTokenSequence kind parent b0 b1 = .ok d) (h' : mergeTokenSequence kind' parent b1 b0 = .ok d') :
    intoText d' = fromText d ∧ fromText d' = intoText d := by
  classical
  have q := C141_exact (k0 := fun e => decide (CountsBeside (editsOf 0 d1) (editsOf 0 d0) e))
    (k1 := fun e => decide (CountsBeside (editsOf 0 d0) (editsOf 0 d1) e)) h0 h1 h ha (by simp) (by simp)
  have q' := C141_exact (k0 := fun e => decide (CountsBeside (editsOf 0 d0) (editsOf 0 d1) e))
    (k1 := fun e => decide (CountsBeside (editsOf 0 d1) (editsOf 0 d0) e)) h1 h0 h'
    (fun e1 m1 e0 m0 => (ha e0 m0 e1 m1).symm) (by simp) (by simp)
  exact ⟨q'.1.trans q.2.symm, q'.2.trans q.1.symm⟩

/-- C142.  So if there is no conflict in one order, both sides of the merge in the other order give the text of the
first merge. -/
theorem C142_clean {kind kind' : Kind} {parent b0 b1 m : List α} {d0 d1 d' : List (DiffItem α)}
    (h0 : diffTokenSequences parent b0 = some d0) (h1 : diffTokenSequences parent b1 = some d1)
    (ha : ∀ e0 ∈ editsOf 0 d0, ∀ e1 ∈ editsOf 0 d1, e0.Aligned e1)
    (h : mergeTokenSequence kind parent b0 b1 = .ok [.common m])
    (h' : mergeTokenSequence kind' parent b1 b0 = .ok d') : intoText d' = m ∧ fromText d' = m := by
  obtain ⟨a, b⟩ := C142_exchange h0 h1 ha h h'
  exact ⟨by rw [a]; simp [fromText], by rw [b]; simp [intoText]⟩

/-- C142.  The file that `gaspra-merge -g` writes with the branches in the other order has the same two texts, on
the other sides. -/
theorem C142_file (cls sp : Nat → Bool) {args : Args} (h : args.GitFile) (hd : args.diff = false)
    (pn cn on : PyStr) {p c o : PyStr} {qp qc qo : List PyStr} (hp : CliPieces cls args p qp)
    (hc : CliPieces cls args c qc) (ho : CliPieces cls args o qo) {d0 d1 : List (DiffItem PyStr)}
    (h0 : diffTokenSequences qp qc = some d0) (h1 : diffTokenSequences qp qo = some d1)
    (ha : ∀ e0 ∈ editsOf 0 d0, ∀ e1 ∈ editsOf 0 d1, e0.Aligned e1) :
    ∃ out out' n n' t0 t1, mergeCli cls sp args {} pn cn on p c o = ({}, out, none) ∧
      mergeCli cls sp args {} pn on cn p o c = ({}, out', none) ∧ (n = [] ∨ n = [nl]) ∧ (n' = [] ∨ n' = [nl]) ∧
      GitOutput (basename cn) (basename on) out (t0 ++ n) (t1 ++ n) ∧
      GitOutput (basename on) (basename cn) out' (t1 ++ n') (t0 ++ n') := by
  obtain ⟨d, out, n, m1, m2, m3, _, m5⟩ := C67_merge_file cls sp h hd pn cn on hp hc ho
  obtain ⟨d', out', n', m1', m2', m3', _, m5'⟩ := C67_merge_file cls sp h hd pn on cn hp ho hc
  obtain ⟨a, b⟩ := C142_exchange h0 h1 ha m1 m1'
  rw [into_joined, from_joined] at m5 m5'
  rw [a, b] at m5'
  exact ⟨out, out', n, n', _, _, m3, m3', m2, m2', m5, m5'⟩

-- A conflict that a further change touches, in both orders.
example : mergeTokenSequence .str "abcdef".toList "aYc1ef".toList "aXdef".toList =
      .ok [.common "a".toList, .change "Yc1".toList "Xd".toList, .common "ef".toList] ∧
    mergeTokenSequence .str "abcdef".toList "aXdef".toList "aYc1ef".toList =
      .ok [.common "a".toList, .change "Xd".toList "Yc1".toList, .common "ef".toList] := by decide +kernel
example {d d' : List (DiffItem Char)}
    (h : mergeTokenSequence .str "abcdef".toList "aYc1ef".toList "aXdef".toList = .ok d)
    (h' : mergeTokenSequence .str "abcdef".toList "aXdef".toList "aYc1ef".toList = .ok d') :
    intoText d' = fromText d ∧ fromText d' = intoText d :=
  C142_exchange
    (d0 := [.common "a".toList, .change "Y".toList "b".toList, .common "c".toList, .change "1".toList "d".toList,
      .common "ef".toList])
    (d1 := [.common "a".toList, .change "X".toList "bc".toList, .common "def".toList])
    (by decide +kernel) (by decide +kernel) (by simp [editsOf, Edit.Aligned, Edit.Disjoint]) h h'
-- Without the condition the order matters: one order has no conflict, the other has one.
example : mergeTokenSequence .str "ab".toList "aa".toList [] = .ok [.common "a".toList] ∧
    mergeTokenSequence .str "ab".toList [] "aa".toList = .ok [.change [] "aa".toList] := by decide +kernel

end Gaspra
