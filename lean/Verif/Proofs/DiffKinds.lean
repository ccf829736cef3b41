import Verif.Proofs.TokenizerDiff
import Verif.Spec.DiffToLines

set_option linter.unusedSectionVars false
set_option linter.unusedSimpArgs false
set_option linter.unusedVariables false

/-!
# Decoding a diff keeps its shape
-/

namespace Gaspra

/-- Is the item a `Change`? -/
def Item.isChange {E : Type _} : Item E → Bool
  | .common _ => false
  | .change _ _ => true

/-- No two equal neighbours. -/
def AltKinds : List Bool → Prop
  | [] => True
  | [_] => True
  | x :: y :: rest => x ≠ y ∧ AltKinds (y :: rest)

theorem alternating_iff {α : Type _} : ∀ (d : List (DiffItem α)),
    Alternating d ↔ AltKinds (d.map DiffItem.isChange)
  | [] => Iff.rfl
  | [_] => Iff.rfl
  | x :: y :: rest => by
    have := alternating_iff (y :: rest)
    simp only [Alternating, AltKinds, List.map_cons] at this ⊢
    rw [this]

theorem toItem_kind {α E : Type _} (f : List α → E) (d : List (DiffItem α)) :
    (d.map (DiffItem.toItem f)).map Item.isChange = d.map DiffItem.isChange := by
  rw [List.map_map]
  apply List.map_congr_left
  intro x _
  cases x <;> rfl

section
variable {E S : Type _} {tk : Tokenizer E S}

theorem decodeChanges_kinds {st : S} : ∀ {cs : List (Item E)} {items : List (Item Text)},
    decodeChanges tk st cs = (items, none) → items.map Item.isChange = cs.map Item.isChange
  | [], items, h => by simp only [decodeChanges, Prod.mk.injEq] at h; rw [← h.1]; rfl
  | .common p :: rest, items, h => by
    simp only [decodeChanges] at h
    split at h
    · simp at h
    · simp only [Prod.mk.injEq] at h
      have := decodeChanges_kinds (cs := rest) (items := (decodeChanges tk st rest).1)
        (by rw [← h.2])
      rw [← h.1]
      simp only [List.map_cons, this]; rfl
  | .change a b :: rest, items, h => by
    simp only [decodeChanges] at h
    split at h
    · simp at h
    · split at h
      · simp at h
      · simp only [Prod.mk.injEq] at h
        have := decodeChanges_kinds (cs := rest) (items := (decodeChanges tk st rest).1)
          (by rw [← h.2])
        rw [← h.1]
        simp only [List.map_cons, this]; rfl

theorem tokDiff_kinds {st : S} {o m : Text} {items : List (Item Text)}
    (h : (tokDiff tk st o m).2 = .ok (items, none)) :
    ∃ eo em cs, tk.diffSeq eo em = some cs ∧ items.map Item.isChange = cs.map Item.isChange := by
  unfold tokDiff at h
  split at h
  · simp at h
  · split at h
    · simp at h
    · split at h
      · simp at h
      · next cs hcs =>
        simp only [Except.ok.injEq] at h
        exact ⟨_, _, cs, hcs, decodeChanges_kinds h⟩

end

theorem diffInts_kinds {eo em : List Nat} {cs : List (Item (List Nat))} (h : diffInts eo em = some cs) :
    AltKinds (cs.map Item.isChange) := by
  unfold diffInts at h
  obtain ⟨d, hd, _, ha⟩ := C12_diff_normal_form eo em
  rw [hd] at h
  cases h
  rw [toItem_kind]
  exact (alternating_iff d).1 ha

theorem diffTexts_kinds {eo em : Text} {cs : List (Item Text)} (h : diffTexts eo em = some cs) :
    AltKinds (cs.map Item.isChange) := by
  unfold diffTexts at h
  split at h
  · next a b =>
    obtain ⟨d, hd, _, ha⟩ := C12_diff_normal_form a b
    rw [hd] at h
    cases h
    rw [toItem_kind]
    exact (alternating_iff d).1 ha
  · next a b =>
    obtain ⟨d, hd, _, ha⟩ := C12_diff_normal_form a b
    rw [hd] at h
    cases h
    rw [toItem_kind]
    exact (alternating_iff d).1 ha
  · cases h; trivial

/-- Items whose pieces are all `str` come from a diff of `str`. -/
theorem items_str : ∀ {items : List (Item Text)} {is fs : List PyStr},
    intoPieces items = is.map .str → fromPieces items = fs.map .str →
    ∃ d : List (DiffItem Nat), items = d.map (DiffItem.toItem .str) ∧ intoText d = is.flatten ∧
      fromText d = fs.flatten
  | [], is, fs, h1, h2 => by
    have e1 : is = [] := by simpa [intoPieces] using h1.symm
    have e2 : fs = [] := by simpa [fromPieces] using h2.symm
    subst e1 e2
    exact ⟨[], rfl, rfl, rfl⟩
  | x :: items, [], fs, h1, h2 => by simp [intoPieces] at h1
  | x :: items, i :: is, [], h1, h2 => by simp [fromPieces] at h2
  | x :: items, i :: is, f :: fs, h1, h2 => by
    simp only [intoPieces, fromPieces, List.map_cons, List.cons.injEq] at h1 h2
    obtain ⟨d, e1, e2, e3⟩ := items_str (items := items) h1.2 h2.2
    cases x with
    | common p =>
      have hi : p = .str i := h1.1
      have hf : p = .str f := h2.1
      rw [hi] at hf
      cases hf
      refine ⟨.common i :: d, by rw [e1, hi]; rfl, ?_, ?_⟩
      · simp only [intoText, List.flatMap_cons, List.flatten_cons] at e2 ⊢; rw [e2]
      · simp only [fromText, List.flatMap_cons, List.flatten_cons] at e3 ⊢; rw [e3]
    | change a b =>
      have hi : a = .str i := h1.1
      have hf : b = .str f := h2.1
      refine ⟨.change i f :: d, by rw [e1, hi, hf]; rfl, ?_, ?_⟩
      · simp only [intoText, List.flatMap_cons, List.flatten_cons] at e2 ⊢; rw [e2]
      · simp only [fromText, List.flatMap_cons, List.flatten_cons] at e3 ⊢; rw [e3]

end Gaspra
