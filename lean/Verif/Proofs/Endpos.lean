import Verif.Spec.Strings

/-!
# End positions and end-position equivalence
-/

namespace Gaspra

variable {α : Type _}

/-- `w` occurs in `s` ending at position `e`. -/
def Occ (s w : List α) (e : Nat) : Prop := e ≤ s.length ∧ w <:+ s.take e

/-- `w` occurs in `s`. -/
def Sub (s w : List α) : Prop := ∃ e, Occ s w e

/-- Same end positions. -/
def Eqv (s w w' : List α) : Prop := ∀ e, Occ s w e ↔ Occ s w' e

theorem Occ.length_le {s w : List α} {e : Nat} (h : Occ s w e) : w.length ≤ e := by
  have := h.2.length_le
  simp only [List.length_take] at this
  omega

theorem Occ.le {s w : List α} {e : Nat} (h : Occ s w e) : e ≤ s.length := h.1

theorem occ_nil {s : List α} {e : Nat} : Occ s [] e ↔ e ≤ s.length := by
  simp [Occ]

theorem sub_nil {s : List α} : Sub s [] := ⟨0, by simp [Occ]⟩

theorem Occ.of_suffix {s u w : List α} {e : Nat} (h : Occ s w e) (hu : u <:+ w) : Occ s u e :=
  ⟨h.1, hu.trans h.2⟩

theorem Sub.of_suffix {s u w : List α} (h : Sub s w) (hu : u <:+ w) : Sub s u :=
  let ⟨e, he⟩ := h; ⟨e, he.of_suffix hu⟩

theorem Occ.suffix_total {s u w : List α} {e : Nat} (h : Occ s u e) (h' : Occ s w e) :
    u <:+ w ∨ w <:+ u := List.suffix_or_suffix_of_suffix h.2 h'.2

theorem Occ.suffix_of_le {s u w : List α} {e : Nat} (h : Occ s u e) (h' : Occ s w e)
    (hl : u.length ≤ w.length) : u <:+ w := List.suffix_of_suffix_length_le h.2 h'.2 hl

theorem occ_length_iff {s w : List α} : Occ s w s.length ↔ w <:+ s := by
  simp [Occ]

theorem occ_self {s : List α} : Occ s s s.length := occ_length_iff.2 (List.suffix_refl s)

theorem sub_self {s : List α} : Sub s s := ⟨_, occ_self⟩

theorem Sub.of_suffix_self {s w : List α} (h : w <:+ s) : Sub s w := sub_self.of_suffix h

theorem Sub.length_le {s w : List α} (h : Sub s w) : w.length ≤ s.length := by
  obtain ⟨e, he⟩ := h
  have := he.length_le; have := he.le; omega

theorem occ_snoc {s w : List α} {c : α} {e : Nat} :
    Occ (s ++ [c]) w e ↔ Occ s w e ∨ (e = s.length + 1 ∧ w <:+ s ++ [c]) := by
  unfold Occ
  by_cases he : e ≤ s.length
  · have : (s ++ [c]).take e = s.take e := by
      rw [List.take_append_of_le_length he]
    rw [this]
    simp only [List.length_append, List.length_singleton]
    constructor
    · rintro ⟨_, h⟩; exact Or.inl ⟨he, h⟩
    · rintro (⟨_, h⟩ | ⟨h, _⟩)
      · exact ⟨by omega, h⟩
      · omega
  · simp only [List.length_append, List.length_singleton]
    constructor
    · rintro ⟨h1, h⟩
      have : e = s.length + 1 := by omega
      subst this
      right
      refine ⟨rfl, ?_⟩
      simpa [List.take_of_length_le] using h
    · rintro (⟨h, _⟩ | ⟨h, h2⟩)
      · omega
      · subst h
        refine ⟨by omega, ?_⟩
        simpa [List.take_of_length_le] using h2

theorem Occ.snoc {s w : List α} {c : α} {e : Nat} (h : Occ s w e) : Occ (s ++ [c]) w e :=
  occ_snoc.2 (Or.inl h)

theorem Occ.of_snoc {s w : List α} {c : α} {e : Nat} (h : Occ (s ++ [c]) w e)
    (he : e ≤ s.length) : Occ s w e := by
  rcases occ_snoc.1 h with h | h
  · exact h
  · omega

theorem sub_snoc {s w : List α} {c : α} :
    Sub (s ++ [c]) w ↔ Sub s w ∨ w <:+ s ++ [c] := by
  constructor
  · rintro ⟨e, he⟩
    rcases occ_snoc.1 he with h | h
    · exact Or.inl ⟨e, h⟩
    · exact Or.inr h.2
  · rintro (⟨e, he⟩ | h)
    · exact ⟨e, he.snoc⟩
    · exact Sub.of_suffix_self h

theorem suffix_snoc_iff {w s : List α} {c d : α} :
    w ++ [d] <:+ s ++ [c] ↔ w <:+ s ∧ d = c := by
  constructor
  · rintro ⟨t, ht⟩
    rw [← List.append_assoc] at ht
    have := List.append_inj' ht (by simp)
    refine ⟨⟨t, this.1⟩, by simpa using this.2⟩
  · rintro ⟨⟨t, ht⟩, rfl⟩
    exact ⟨t, by rw [← ht, List.append_assoc]⟩

theorem suffix_snoc_cases {w s : List α} {c : α} (h : w <:+ s ++ [c]) :
    w = [] ∨ ∃ w', w = w' ++ [c] ∧ w' <:+ s := by
  rcases List.eq_nil_or_concat w with rfl | ⟨w', d, rfl⟩
  · exact Or.inl rfl
  · rw [List.concat_eq_append] at h ⊢
    obtain ⟨h1, rfl⟩ := suffix_snoc_iff.1 h
    exact Or.inr ⟨w', rfl, h1⟩

theorem occ_concat {s w : List α} {c : α} {e : Nat} :
    Occ s (w ++ [c]) e ↔ ∃ e', e = e' + 1 ∧ Occ s w e' ∧ s[e']? = some c := by
  constructor
  · intro h
    have hl := h.length_le
    simp only [List.length_append, List.length_singleton] at hl
    obtain ⟨e', rfl⟩ : ∃ e', e = e' + 1 := ⟨e - 1, by omega⟩
    have hlt : e' < s.length := h.le
    refine ⟨e', rfl, ?_⟩
    have h2 := h.2
    rw [List.take_succ_eq_append_getElem hlt] at h2
    obtain ⟨h3, h4⟩ := suffix_snoc_iff.1 h2
    exact ⟨⟨by omega, h3⟩, by rw [List.getElem?_eq_getElem hlt, h4]⟩
  · rintro ⟨e', rfl, h, hc⟩
    obtain ⟨hlt, hc⟩ := List.getElem?_eq_some_iff.1 hc
    refine ⟨hlt, ?_⟩
    rw [List.take_succ_eq_append_getElem hlt]
    exact suffix_snoc_iff.2 ⟨h.2, hc.symm⟩

theorem Eqv.refl (s w : List α) : Eqv s w w := fun _ => Iff.rfl
theorem Eqv.symm {s w w' : List α} (h : Eqv s w w') : Eqv s w' w := fun e => (h e).symm
theorem Eqv.trans {s a b c : List α} (h : Eqv s a b) (h' : Eqv s b c) : Eqv s a c :=
  fun e => (h e).trans (h' e)

theorem Eqv.sub_iff {s w w' : List α} (h : Eqv s w w') : Sub s w ↔ Sub s w' :=
  ⟨fun ⟨e, he⟩ => ⟨e, (h e).1 he⟩, fun ⟨e, he⟩ => ⟨e, (h e).2 he⟩⟩

theorem Eqv.suffix_iff {s w w' : List α} (h : Eqv s w w') : w <:+ s ↔ w' <:+ s := by
  rw [← occ_length_iff, ← occ_length_iff]; exact h _

theorem Eqv.concat {s w w' : List α} (h : Eqv s w w') (c : α) :
    Eqv s (w ++ [c]) (w' ++ [c]) := by
  intro e
  rw [occ_concat, occ_concat]
  constructor
  · rintro ⟨e', h1, h2, h3⟩; exact ⟨e', h1, (h e').1 h2, h3⟩
  · rintro ⟨e', h1, h2, h3⟩; exact ⟨e', h1, (h e').2 h2, h3⟩

theorem Eqv.total {s w w' : List α} (h : Eqv s w w') (hs : Sub s w) : w <:+ w' ∨ w' <:+ w := by
  obtain ⟨e, he⟩ := hs
  exact he.suffix_total ((h e).1 he)

/-- A word between two equivalent words (in the suffix order) is equivalent to them. -/
theorem Eqv.sandwich {s u v w : List α} (huv : u <:+ v) (hvw : v <:+ w) (h : Eqv s u w) :
    Eqv s v w := fun e =>
  ⟨fun hv => (h e).1 (hv.of_suffix huv), fun hw => hw.of_suffix hvw⟩

/-- Restriction of equivalence to the shorter text. -/
theorem Eqv.of_snoc {s w w' : List α} {c : α} (h : Eqv (s ++ [c]) w w') : Eqv s w w' := by
  intro e
  constructor
  · intro he; exact ((h e).1 he.snoc).of_snoc he.le
  · intro he; exact ((h e).2 he.snoc).of_snoc he.le

/-- Extension of equivalence to the longer text. -/
theorem Eqv.snoc {s w w' : List α} {c : α} (h : Eqv s w w')
    (hs : w <:+ s ++ [c] ↔ w' <:+ s ++ [c]) : Eqv (s ++ [c]) w w' := by
  intro e
  rw [occ_snoc, occ_snoc, h e, hs]

/-- All new words (suffixes of the longer text that did not occur before) are equivalent. -/
theorem eqv_new {s w : List α} {c : α} (hw : w <:+ s ++ [c]) (hn : ¬ Sub s w) :
    Eqv (s ++ [c]) w (s ++ [c]) := by
  intro e
  rw [occ_snoc, occ_snoc]
  constructor
  · rintro (h | ⟨h, _⟩)
    · exact absurd ⟨e, h⟩ hn
    · exact Or.inr ⟨h, List.suffix_refl _⟩
  · rintro (h | ⟨h, _⟩)
    · have := h.length_le; have := h.le; simp at *; omega
    · exact Or.inr ⟨h, hw⟩

theorem not_sub_snoc_self {s : List α} {c : α} : ¬ Sub s (s ++ [c]) := by
  intro h; have := h.length_le; simp at this; omega

/-! ## Relation to the specification -/

theorem occ_iff_occursAt {s w : List α} {e : Nat} :
    Occ s w e ↔ w.length ≤ e ∧ OccursAt s w (e - w.length) := by
  constructor
  · intro h
    refine ⟨h.length_le, ?_⟩
    obtain ⟨t, ht⟩ := h.2
    refine ⟨t, s.drop e, by rw [ht, List.take_append_drop], ?_⟩
    have := congrArg List.length ht
    simp only [List.length_append, List.length_take] at this
    have := h.le
    omega
  · rintro ⟨hl, pre, post, hs, hp⟩
    have hlen := congrArg List.length hs
    simp only [List.length_append] at hlen
    refine ⟨by omega, ?_⟩
    have : e = (pre ++ w).length := by simp; omega
    rw [hs, this, List.take_left]
    exact List.suffix_append _ _

theorem occursAt_iff_occ {s w : List α} {i : Nat} : OccursAt s w i ↔ Occ s w (i + w.length) := by
  rw [occ_iff_occursAt]; simp

theorem sub_iff_substring {s w : List α} : Sub s w ↔ Substring s w := by
  constructor
  · rintro ⟨e, he⟩; exact ⟨_, (occ_iff_occursAt.1 he).2⟩
  · rintro ⟨i, hi⟩; exact ⟨_, occursAt_iff_occ.1 hi⟩

theorem Substring.length_le {s w : List α} (h : Substring s w) : w.length ≤ s.length :=
  (sub_iff_substring.2 h).length_le

/-- substrings of substrings: prefixes. -/
theorem Sub.of_append_left {s u v : List α} (h : Sub s (u ++ v)) : Sub s u := by
  rw [sub_iff_substring] at *
  obtain ⟨i, pre, post, h, hi⟩ := h
  exact ⟨i, pre, v ++ post, by simpa using h, hi⟩

end Gaspra
