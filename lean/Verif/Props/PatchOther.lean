import Verif.Props.Changesets

set_option linter.unusedSectionVars false

/-!
# C116: patches applied to other texts

`apply` does not look at the text it is given, except where the patch copies from it.
-/

namespace Gaspra

variable {α : Type _} [DecidableEq α]

theorem applyPatch_cons (c : PatchItem α) (rest : List (PatchItem α)) (x : List α) :
    applyPatch (c :: rest) x = (match c with | .slice s => s.get x | .piece p => p) ++ applyPatch rest x := by
  simp [applyPatch, joinChanges]
  cases c <;> rfl

theorem sliceGet_length_le {s e : Nat} {x other : List α} (he : e ≤ x.length) :
    (Slice.get ⟨s, some e⟩ other).length ≤ (Slice.get ⟨s, some e⟩ x).length := by
  simp only [Slice.get, List.length_drop, List.length_take]
  omega

theorem applyPatch_length_le {P : List (PatchItem α)} {x m other : List α}
    (hP : ∀ c ∈ P, c.WellFormed x m) : (applyPatch P other).length ≤ (applyPatch P x).length := by
  induction P with
  | nil => simp [applyPatch, joinChanges]
  | cons c rest ih =>
    have := ih fun c hc => hP c (by simp [hc])
    rw [applyPatch_cons, applyPatch_cons, List.length_append, List.length_append]
    cases c with
    | piece p => simpa using this
    | slice sl =>
      obtain ⟨e, h1, h2, h3⟩ := hP (.slice sl) (by simp)
      obtain ⟨st, sp⟩ := sl
      simp only at h1
      subst h1
      have := sliceGet_length_le (s := st) (other := other) h3
      dsimp only
      omega

theorem applyPatch_eq_iff {P : List (PatchItem α)} {x m other : List α}
    (hP : ∀ c ∈ P, c.WellFormed x m) :
    applyPatch P other = applyPatch P x ↔ ∀ sl, .slice sl ∈ P → sl.get other = sl.get x := by
  induction P with
  | nil => simp [applyPatch, joinChanges]
  | cons c rest ih =>
    have hr : ∀ c ∈ rest, c.WellFormed x m := fun c hc => hP c (by simp [hc])
    have ih := ih hr
    rw [applyPatch_cons, applyPatch_cons]
    cases c with
    | piece p =>
      simp only [List.append_cancel_left_eq, List.mem_cons, reduceCtorEq, false_or]
      exact ih
    | slice sl =>
      obtain ⟨e, h1, h2, h3⟩ := hP (.slice sl) (by simp)
      obtain ⟨st, sp⟩ := sl
      simp only at h1
      subst h1
      dsimp only
      constructor
      · intro h
        have hl := congrArg List.length h
        simp only [List.length_append] at hl
        have := sliceGet_length_le (s := st) (other := other) h3
        have := applyPatch_length_le (other := other) hr
        obtain ⟨k1, k2⟩ := List.append_inj h (by omega)
        intro sl hsl
        simp only [List.mem_cons, PatchItem.slice.injEq] at hsl
        rcases hsl with rfl | hsl
        · exact k1
        · exact (ih.1 k2) sl hsl
      · intro h
        rw [h _ (by simp), ih.2 fun sl hsl => h sl (by simp [hsl])]

/-- C116.  A patch makes `modified` from another text than `original` exactly if the two agree on
every slice that the patch copies; all else in the text is ignored, and so is what follows.  Likewise
for the reversed patch. -/
theorem C116_other_text (original modified : List α) :
    ∃ cs, findChangeset original modified = some cs ∧
      (∀ other, applyForward cs.asChangeStream other = modified ↔
        ∀ sl, .slice sl ∈ stripForward cs.asChangeStream → sl.get other = sl.get original) ∧
      (∀ other, applyReverse cs.asChangeStream other = original ↔
        ∀ sl, .slice sl ∈ stripReverse cs.asChangeStream → sl.get other = sl.get modified) := by
  obtain ⟨cs, h, hf, hr⟩ := C10_apply_both_ways original modified
  obtain ⟨cs', h', w1, _, w2, _⟩ := C55_patch_normal_form original modified
  rw [h] at h'
  cases h'
  refine ⟨cs, h, fun other => ?_, fun other => ?_⟩
  · rw [← applyPatch_eq_iff w1]
    exact ⟨fun e => e.trans hf.symm, fun e => e.trans hf⟩
  · rw [← applyPatch_eq_iff w2]
    exact ⟨fun e => e.trans hr.symm, fun e => e.trans hr⟩

/-- C116.  Applied to any text, a patch makes at most as many tokens as `modified` has. -/
theorem C116_no_longer (original modified : List α) :
    ∃ cs, findChangeset original modified = some cs ∧
      (∀ other, (applyForward cs.asChangeStream other).length ≤ modified.length) ∧
      ∀ other, (applyReverse cs.asChangeStream other).length ≤ original.length := by
  obtain ⟨cs, h, hf, hr⟩ := C10_apply_both_ways original modified
  obtain ⟨cs', h', w1, _, w2, _⟩ := C55_patch_normal_form original modified
  rw [h] at h'
  cases h'
  refine ⟨cs, h, fun other => ?_, fun other => ?_⟩
  · have := applyPatch_length_le (other := other) w1
    rw [show applyPatch (stripForward cs.asChangeStream) original = modified from hf] at this
    exact this
  · have := applyPatch_length_le (other := other) w2
    rw [show applyPatch (stripReverse cs.asChangeStream) modified = original from hr] at this
    exact this

/-- C116.  In particular, a part of `original` from which the patch copies nothing may be replaced by
any other part of the same length, and anything may be appended. -/
theorem C116_replaced (p x q modified : List α) :
    ∃ cs, findChangeset (p ++ x ++ q) modified = some cs ∧
      ((∀ s e, .slice ⟨s, some e⟩ ∈ stripForward cs.asChangeStream →
          e ≤ p.length ∨ p.length + x.length ≤ s) →
        ∀ y z, y.length = x.length →
          applyForward cs.asChangeStream (p ++ y ++ q ++ z) = modified) := by
  obtain ⟨cs, h, hf, _⟩ := C116_other_text (p ++ x ++ q) modified
  obtain ⟨cs', h', w1, _, _, _⟩ := C55_patch_normal_form (p ++ x ++ q) modified
  rw [h] at h'
  cases h'
  refine ⟨cs, h, fun hs y z hy => (hf _).2 fun sl hsl => ?_⟩
  obtain ⟨e, h1, h2, h3⟩ := w1 _ hsl
  obtain ⟨st, sp⟩ := sl
  simp only at h1 h2
  subst h1
  simp only [List.length_append] at h3
  apply List.ext_getElem?
  intro i
  simp only [Slice.get, List.getElem?_drop, List.getElem?_take]
  by_cases hi : st + i < e
  · rw [if_pos hi, if_pos hi]
    rw [List.getElem?_append_left (by simp; omega)]
    rcases hs st e hsl with h4 | h4
    · rw [List.append_assoc, List.append_assoc, List.getElem?_append_left (by omega),
        List.getElem?_append_left (by omega)]
    · rw [List.getElem?_append_right (by simp; omega), List.getElem?_append_right (by simp; omega)]
      simp [hy]
  · rw [if_neg hi, if_neg hi]

-- The patch from "abcdef" to "xbcdyf" copies "bcd" and "f"; "a" and "e" do not matter.
example : ((findChangeset "abcdef".toList "xbcdyf".toList).map fun cs =>
    ["abcdef", "?bcd!f", "?bcd!f and more", "?bcD!f", "?bcd!", ""].map fun s =>
      String.ofList (applyForward cs.asChangeStream s.toList)) =
    some ["xbcdyf", "xbcdyf", "xbcdyf", "xbcDyf", "xbcdy", "xy"] := by decide +kernel

end Gaspra
