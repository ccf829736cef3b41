import Verif.Proofs.BytesMerge
import Verif.Proofs.MergeCut

/-!
# C125: when merging `bytes` raises
-/

namespace Gaspra

variable {α : Type _} [DecidableEq α]

/-- C125.  Merging `bytes` raises `TypeError` exactly when one branch inserts something, deleting
nothing, right behind tokens deleted by a branch without a gap since a place where the two branches
clash. -/
theorem C125_exactly {parent b0 b1 : List α} {d0 d1 : List (DiffItem α)}
    (h0 : diffTokenSequences parent b0 = some d0) (h1 : diffTokenSequences parent b1 = some d1) :
    mergeTokenSequence .bytes parent b0 b1 = .error .typeError ↔
      InsertsBehindClash (editsOf 0 d0) (editsOf 0 d1) :=
  merge_bytes_iff h0 h1

/-- C125.  Otherwise the items are those of the merge of tuples. -/
theorem C125_otherwise {parent b0 b1 : List α} {d0 d1 : List (DiffItem α)}
    (h0 : diffTokenSequences parent b0 = some d0) (h1 : diffTokenSequences parent b1 = some d1)
    (h : ¬ InsertsBehindClash (editsOf 0 d0) (editsOf 0 d1)) :
    ∃ out, mergeTokenSequence .bytes parent b0 b1 = .ok out ∧
      mergeTokenSequence .tuple parent b0 b1 = .ok out := by
  obtain ⟨_, _, out, _, _, hm, _⟩ := merge_general parent b0 b1
  refine ⟨out, ?_, hm⟩
  rcases merge_bytes parent b0 b1 with e | e
  · exact absurd ((merge_bytes_iff h0 h1).1 e) h
  · rw [e, hm]

/-- C125.  No exception as long as no pure insertion of one branch lies within or right behind what
the other branch deletes or replaces. -/
theorem C125_safe {parent b0 b1 : List α} {d0 d1 : List (DiffItem α)}
    (h0 : diffTokenSequences parent b0 = some d0) (h1 : diffTokenSequences parent b1 = some d1)
    (h : ∀ e ∈ editsOf 0 d0, ∀ f ∈ editsOf 0 d1,
      (e.start = e.stop → ¬ (f.start < e.start ∧ e.start ≤ f.stop)) ∧
      (f.start = f.stop → ¬ (e.start < f.start ∧ f.start ≤ e.stop))) :
    ∃ out, mergeTokenSequence .bytes parent b0 b1 = .ok out ∧
      mergeTokenSequence .tuple parent b0 b1 = .ok out := by
  refine C125_otherwise h0 h1 ?_
  have apart : ∀ {b : List α} {d : List (DiffItem α)}, diffTokenSequences parent b = some d →
      ∀ e ∈ editsOf 0 d, ∀ f ∈ editsOf 0 d, f.start < e.start → f.stop < e.start := by
    intro b d hd e he f hf hlt
    obtain ⟨cs, _, hd', ⟨_, _, hF⟩, _, _⟩ := merge_setup parent b
    have e' : cs.asDiffStream parent = d := by rw [hd] at hd'; simpa using hd'.symm
    subst e'
    have hv := (hF.ve (k := 0)).1
    rw [fedits_map] at hv
    have ha := hv.apart
    have hr := hv.range
    rw [List.pairwise_iff_getElem] at ha
    obtain ⟨i, hi, rfl⟩ := List.getElem_of_mem he
    obtain ⟨j, hj, rfl⟩ := List.getElem_of_mem hf
    rcases Nat.lt_trichotomy i j with c | c | c
    · have := ha i j hi hj c
      have := hr _ (List.getElem_mem hi)
      omega
    · subst c; omega
    · exact ha j i hj hi c
  rintro ⟨q, p, hqp, _, hd, e, he, hs, ht⟩
  have hdel := hd (p - 1) (by omega) (by omega)
  have mem : ∀ {es : List (Edit α)}, deletes es (p - 1) = true → ∃ f ∈ es, f.start < p ∧ p ≤ f.stop := by
    intro es hdel
    unfold deletes at hdel
    obtain ⟨f, hf, hx⟩ := List.any_eq_true.1 hdel
    simp only [Bool.and_eq_true, decide_eq_true_eq] at hx
    exact ⟨f, hf, by omega, by omega⟩
  rcases he with he | he
  · rcases hdel with hdel | hdel
    · obtain ⟨f, hf, a, b⟩ := mem hdel
      have := apart h0 e he f hf (by omega)
      omega
    · obtain ⟨f, hf, a, b⟩ := mem hdel
      exact (h e he f hf).1 (by omega) (by omega)
  · rcases hdel with hdel | hdel
    · obtain ⟨f, hf, a, b⟩ := mem hdel
      exact (h f hf e he).2 (by omega) (by omega)
    · obtain ⟨f, hf, a, b⟩ := mem hdel
      have := apart h1 e he f hf (by omega)
      omega

/-- C125.  The order of the branches makes no difference to the exception. -/
theorem C125_swap (parent b0 b1 : List α) :
    mergeTokenSequence .bytes parent b1 b0 = .error .typeError ↔
      mergeTokenSequence .bytes parent b0 b1 = .error .typeError := by
  obtain ⟨d0, d1, _, h0, h1, _⟩ := merge_general parent b0 b1
  rw [merge_bytes_iff h0 h1, merge_bytes_iff h1 h0, ← trouble_iff, ← trouble_iff]
  exact Trouble.swap_iff

/-- One branch replaces `ab`, the other replaces `a` and adds something at the end. -/
example : mergeTokenSequence .bytes "ab".toList "x".toList "ybz".toList = .error .typeError ∧
    InsertsBehindClash [⟨0, 2, ['x']⟩] [⟨0, 1, ['y']⟩, ⟨2, 2, ['z']⟩] :=
  ⟨by decide +kernel, (C125_exactly (parent := "ab".toList) (b0 := "x".toList) (b1 := "ybz".toList)
    (d0 := [.change ['x'] ['a', 'b']])
    (d1 := [.change ['y'] ['a'], .common ['b'], .change ['z'] []])
    (by decide +kernel) (by decide +kernel)).1 (by decide +kernel)⟩

/-- The insertion may be some way behind the clash, but not behind a token that both keep. -/
example : diffTokenSequences "abcd".toList "xd".toList =
      some [.change ['x'] ['a', 'b', 'c'], .common ['d']] ∧
    diffTokenSequences "abcd".toList "ybcwd".toList =
      some [.change ['y'] ['a'], .common ['b', 'c'], .change ['w'] [], .common ['d']] ∧
    mergeTokenSequence .bytes "abcd".toList "xd".toList "ybcwd".toList = .error .typeError ∧
    mergeTokenSequence .bytes "abcd".toList "xd".toList "ybcdw".toList ≠ .error .typeError := by
  decide +kernel

/-- An insertion within a deletion is a conflict but no clash: no exception, although `C125_safe`
does not apply. -/
example : mergeTokenSequence .bytes "abc".toList "".toList "aXbc".toList =
      mergeTokenSequence .tuple "abc".toList "".toList "aXbc".toList ∧
    mergeTokenSequence .bytes "abc".toList "".toList "aXbc".toList ≠ .error .typeError := by
  decide +kernel

/-- A clash without an insertion behind it: `C125_safe` applies. -/
example : ∃ out, mergeTokenSequence .bytes "abcd".toList "xcd".toList "ybcd".toList = .ok out ∧
    mergeTokenSequence .tuple "abcd".toList "xcd".toList "ybcd".toList = .ok out :=
  C125_safe (d0 := [.change ['x'] ['a', 'b'], .common ['c', 'd']])
    (d1 := [.change ['y'] ['a'], .common ['b', 'c', 'd']]) (by decide +kernel) (by decide +kernel)
    (by decide)

end Gaspra
