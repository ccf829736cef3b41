import Verif.Model.MultipleStrings
import Verif.Proofs.SASize
import Verif.Proofs.MemoryTree

set_option linter.unusedSectionVars false
set_option linter.unusedSimpArgs false
set_option linter.unusedVariables false

/-! # Longest common substring of several strings -/

namespace Gaspra

variable {α : Type _}

/-! ### The text with separators -/

/-- The concatenation of the strings, numbered from `k`. -/
def sepText (k : Nat) : List (List α) → List (α ⊕ Nat)
  | [] => []
  | s :: ss => s.map Sum.inl ++ Sum.inr k :: sepText (k + 1) ss

theorem concatTokens_eq_aux : ∀ (ss : List (List α)) (k : Nat),
    (((ss.map (·.map Sum.inl)).zipIdx k).map fun (p : List (α ⊕ Nat) × Nat) =>
      p.1 ++ [Sum.inr p.2]).flatten = sepText k ss
  | [], _ => rfl
  | s :: ss, k => by
    simp only [List.map_cons, List.zipIdx_cons, List.flatten_cons, sepText]
    rw [concatTokens_eq_aux ss (k + 1)]
    simp

theorem concatTokens_eq [DecidableEq α] (ss : List (List α)) :
    concatTokens Sum.inr (ss.map (·.map Sum.inl)) = sepText 0 ss :=
  concatTokens_eq_aux ss 0

/-- Where string `j` starts in the text. -/
def startOf (ss : List (List α)) (j : Nat) : Nat := ((ss.take j).map fun s => s.length + 1).sum

theorem startOf_zero (ss : List (List α)) : startOf ss 0 = 0 := by simp [startOf]

theorem startOf_cons (s : List α) (ss : List (List α)) (j : Nat) :
    startOf (s :: ss) (j + 1) = s.length + 1 + startOf ss j := by
  simp [startOf]

/-- Splitting the text around string `j`. -/
theorem sepText_split : ∀ {ss : List (List α)} {j : Nat} {s : List α} (k : Nat),
    ss[j]? = some s → ∃ pre post, sepText k ss = pre ++ s.map Sum.inl ++ Sum.inr (k + j) :: post ∧
      pre.length = startOf ss j
  | [], j, s, k, h => by simp at h
  | s' :: ss, 0, s, k, h => by
    simp at h; subst h
    exact ⟨[], sepText (k + 1) ss, by simp [sepText], by simp [startOf]⟩
  | s' :: ss, j + 1, s, k, h => by
    obtain ⟨pre, post, h1, h2⟩ := sepText_split (k + 1) (ss := ss) (j := j) (by simpa using h)
    refine ⟨s'.map Sum.inl ++ Sum.inr k :: pre, post, ?_, ?_⟩
    · simp [sepText, h1, Nat.add_assoc, Nat.add_comm 1 j]
    · rw [startOf_cons]; simp [h2]; omega

theorem map_inl_prefix : ∀ {w s : List α} {k : Nat} {r post : List (α ⊕ Nat)},
    w.map Sum.inl ++ r = s.map Sum.inl ++ Sum.inr k :: post → ∃ s', s = w ++ s'
  | [], s, _, _, _, _ => ⟨s, rfl⟩
  | a :: w, [], _, _, _, h => by simp at h
  | a :: w, b :: s, k, r, post, h => by
    simp at h
    obtain ⟨rfl, h⟩ := h
    obtain ⟨s', rfl⟩ := map_inl_prefix h
    exact ⟨s', rfl⟩

theorem map_inl_sep_inj : ∀ {w s : List α} {i k : Nat} {r post : List (α ⊕ Nat)},
    w.map Sum.inl ++ Sum.inr i :: r = s.map Sum.inl ++ Sum.inr k :: post →
      w = s ∧ i = k ∧ r = post
  | [], [], _, _, _, _, h => by simpa using h
  | [], b :: s, _, _, _, _, h => by simp at h
  | a :: w, [], _, _, _, _, h => by simp at h
  | a :: w, b :: s, i, k, r, post, h => by
    simp at h
    obtain ⟨rfl, h⟩ := h
    obtain ⟨rfl, h2⟩ := map_inl_sep_inj h
    exact ⟨rfl, h2⟩

/-- A separator-free word before a separator is the end of the string of that separator. -/
theorem sepText_locate : ∀ {ss : List (List α)} {k i : Nat} {pre post : List (α ⊕ Nat)} {y : List α},
    sepText k ss = pre ++ y.map Sum.inl ++ Sum.inr i :: post →
    ∃ j s x, i = k + j ∧ ss[j]? = some s ∧ s = x ++ y ∧ pre.length = startOf ss j + x.length
  | [], k, i, pre, post, y, h => by simp [sepText] at h
  | s :: ss, k, i, pre, post, y, h => by
    simp only [sepText, List.append_assoc] at h
    rcases List.append_eq_append_iff.1 h with ⟨a, h1, h2⟩ | ⟨a, h1, h2⟩
    · -- `pre` reaches beyond `s`
      cases a with
      | nil =>
        simp at h1 h2
        obtain ⟨rfl, rfl, rfl⟩ := map_inl_sep_inj (w := []) (i := k) (by simpa using h2)
        exact ⟨0, s, s, by simp, rfl, by simp, by rw [h1]; simp [startOf]⟩
      | cons b a =>
        simp at h2
        obtain ⟨rfl, h2⟩ := h2
        obtain ⟨j, s', x, e1, e2, e3, e4⟩ := sepText_locate (ss := ss) (k := k + 1)
          (pre := a) (y := y) (i := i) (post := post) (by simpa using h2)
        refine ⟨j + 1, s', x, by omega, by simpa using e2, e3, ?_⟩
        rw [h1, startOf_cons]; simp [e4]; omega
    · obtain ⟨x, z, rfl, rfl, rfl⟩ := List.map_eq_append_iff.1 h1
      obtain ⟨rfl, rfl, rfl⟩ := map_inl_sep_inj h2
      exact ⟨0, _, x, by simp, rfl, rfl, by simp [startOf]⟩

theorem sepText_sep_pos {ss : List (List α)} {k i : Nat} {pre post : List (α ⊕ Nat)}
    (h : sepText k ss = pre ++ Sum.inr i :: post) :
    ∃ j s, i = k + j ∧ ss[j]? = some s ∧ pre.length = startOf ss j + s.length := by
  obtain ⟨j, s, x, h1, h2, h3, h4⟩ := sepText_locate (y := []) (pre := pre) (by simpa using h)
  simp at h3; subst h3
  exact ⟨j, s, h1, h2, h4⟩

/-- Every separator occurs once. -/
theorem sepText_sep_unique {ss : List (List α)} {k i : Nat} {pre post pre' post' : List (α ⊕ Nat)}
    (h : sepText k ss = pre ++ Sum.inr i :: post) (h' : sepText k ss = pre' ++ Sum.inr i :: post') :
    pre.length = pre'.length := by
  obtain ⟨j, s, h1, h2, h3⟩ := sepText_sep_pos h
  obtain ⟨j', s', h1', h2', h3'⟩ := sepText_sep_pos h'
  have : j = j' := by omega
  subst this
  rw [h2] at h2'; cases h2'
  omega

/-- The string of number `i` contains the word: in terms of the text. -/
def Shares (s : List (α ⊕ Nat)) (v : List (α ⊕ Nat)) (i : Nat) : Prop :=
  ∃ x : List α, Sub s (v ++ x.map Sum.inl ++ [Sum.inr i])

theorem shares_lt {ss : List (List α)} {v : List (α ⊕ Nat)} {i : Nat}
    (h : Shares (sepText 0 ss) v i) : i < ss.length := by
  obtain ⟨x, h⟩ := h
  obtain ⟨p, pre, post, h, _⟩ := sub_iff_substring.1 h
  obtain ⟨j, s, h1, h2, _⟩ := sepText_sep_pos (k := 0) (i := i)
    (pre := pre ++ (v ++ x.map Sum.inl)) (post := post) (by simpa using h)
  have := (List.getElem?_eq_some_iff.1 h2).1
  omega

/-- A word with a separator is not shared by the string of that separator. -/
theorem shares_no_sep {ss : List (List α)} {v : List (α ⊕ Nat)} {i : Nat}
    (h : Shares (sepText 0 ss) v i) : Sum.inr i ∉ v := by
  intro hm
  obtain ⟨v1, v2, rfl⟩ := List.append_of_mem hm
  obtain ⟨x, h⟩ := h
  obtain ⟨p, pre, post, h, _⟩ := sub_iff_substring.1 h
  have := sepText_sep_unique (k := 0) (i := i)
    (pre := pre ++ v1) (post := v2 ++ x.map Sum.inl ++ Sum.inr i :: post)
    (pre' := pre ++ v1 ++ Sum.inr i :: v2 ++ x.map Sum.inl) (post' := post)
    (by simpa using h) (by simpa using h)
  simp at this

theorem eq_map_inl : ∀ {v : List (α ⊕ Nat)}, (∀ i, Sum.inr i ∉ v) → ∃ w : List α, v = w.map Sum.inl
  | [], _ => ⟨[], rfl⟩
  | .inl a :: v, h => by
    obtain ⟨w, rfl⟩ := eq_map_inl (v := v) fun i hi => h i (by simp [hi])
    exact ⟨a :: w, rfl⟩
  | .inr i :: v, h => absurd (by simp) (h i)

theorem shares_iff {ss : List (List α)} {w : List α} {i : Nat} :
    Shares (sepText 0 ss) (w.map Sum.inl) i ↔ ∃ s, ss[i]? = some s ∧ Substring s w := by
  constructor
  · rintro ⟨x, h⟩
    obtain ⟨p, pre, post, h, _⟩ := sub_iff_substring.1 h
    obtain ⟨j, s, y, h1, h2, h3, h4⟩ := sepText_locate (k := 0) (i := i) (pre := pre)
      (y := w ++ x) (post := post) (by simpa using h)
    have : i = j := by omega
    subst this
    exact ⟨s, h2, y.length, y, x, by simp [h3], rfl⟩
  · rintro ⟨s, h1, p, y, x, rfl, _⟩
    obtain ⟨pre, post, h2, h3⟩ := sepText_split 0 h1
    refine ⟨x, sub_iff_substring.2 ⟨(pre ++ y.map Sum.inl).length, pre ++ y.map Sum.inl, post, ?_, rfl⟩⟩
    simpa using h2

/-- Occurrences in the text that start within string `j` are occurrences in that string. -/
theorem occursAt_string {ss : List (List α)} {w s : List α} {j p : Nat} (hs : ss[j]? = some s)
    (h1 : startOf ss j ≤ p) (h2 : p ≤ startOf ss j + s.length) :
    OccursAt (sepText 0 ss) (w.map Sum.inl) p ↔ OccursAt s w (p - startOf ss j) := by
  obtain ⟨pre, post, e1, e2⟩ := sepText_split 0 hs
  constructor
  · rintro ⟨pre', post', e3, e4⟩
    rw [e1, List.append_assoc, List.append_assoc] at e3
    rcases List.append_eq_append_iff.1 e3 with ⟨a, h3, h4⟩ | ⟨a, h3, h4⟩
    · -- pre' = pre ++ a
      rcases List.append_eq_append_iff.1 h4 with ⟨b, h5, h6⟩ | ⟨b, h5, h6⟩
      · have hb : b = [] := by
          have l1 := congrArg List.length h3
          have l2 := congrArg List.length h5
          simp at l1 l2
          exact List.eq_nil_of_length_eq_zero (by omega)
        subst hb
        simp at h5 h6
        obtain ⟨s', hs'⟩ := map_inl_prefix (s := []) (k := j) (by simpa using h6.symm)
        simp at hs'
        obtain ⟨rfl, rfl⟩ := hs'
        refine ⟨s, [], by simp, ?_⟩
        have l1 := congrArg List.length h3
        have l2 := congrArg List.length h5
        simp at l1 l2
        omega
      · obtain ⟨x, z, rfl, rfl, rfl⟩ := List.map_eq_append_iff.1 h5
        obtain ⟨s', rfl⟩ := map_inl_prefix h6
        refine ⟨x, s', by simp, ?_⟩
        have l1 := congrArg List.length h3
        simp at l1
        omega
    · have hb : a = [] := by
        have l1 := congrArg List.length h3
        simp at l1
        exact List.eq_nil_of_length_eq_zero (by omega)
      subst hb
      simp at h3 h4
      obtain ⟨s', rfl⟩ := map_inl_prefix h4
      refine ⟨[], s', by simp, ?_⟩
      simp [h3] at *; omega
  · rintro ⟨x, y, rfl, e3⟩
    refine ⟨pre ++ x.map Sum.inl, y.map Sum.inl ++ Sum.inr j :: post, ?_, ?_⟩
    · simpa using e1
    · simp; omega

/-! ### Offsets -/

/-- With the sorted list of all occurrences in the text, `get_string_offsets` gives the first
occurrence in every string. -/
theorem stringOffsets_spec {ps : List Nat} (hps : ps.Pairwise (· < ·)) {β : Type _} :
    ∀ (ss : List (List β)) (start : Nat),
    (∀ j s, ss[j]? = some s → ∃ p ∈ ps, start + startOf ss j ≤ p) →
    (stringOffsets ps start ss).length = ss.length ∧
    ∀ j q, (stringOffsets ps start ss)[j]? = some q →
      start + startOf ss j + q ∈ ps ∧ ∀ p ∈ ps, start + startOf ss j ≤ p → start + startOf ss j + q ≤ p
  | [], start, _ => by simp [stringOffsets]
  | s :: ss, start, h => by
    obtain ⟨i1, i2⟩ := stringOffsets_spec hps ss (start + s.length + 1) (by
      intro j s' hj
      obtain ⟨p, h1, h2⟩ := h (j + 1) s' (by simpa using hj)
      rw [startOf_cons] at h2
      exact ⟨p, h1, by omega⟩)
    obtain ⟨p0, hp0, hp0'⟩ := h 0 s rfl
    rw [startOf_zero] at hp0'
    cases hf : ps.find? fun p => decide (start ≤ p) with
    | none =>
      rw [List.find?_eq_none] at hf
      exact absurd (by simpa using hp0') (hf p0 hp0)
    | some p =>
      simp only [stringOffsets, hf]
      refine ⟨by simp [i1], ?_⟩
      intro j q hq
      cases j with
      | zero =>
        simp at hq
        have hp := List.find?_some hf
        simp at hp
        have hmem := List.mem_of_find?_eq_some hf
        subst hq
        rw [startOf_zero]
        have e : start + 0 + (p - start) = p := by omega
        rw [e]
        refine ⟨hmem, ?_⟩
        intro p' hp' hle
        obtain ⟨l, r, hl, hall⟩ := (List.find?_eq_some_iff_append.1 hf).2
        rw [hl] at hp' hps
        rcases List.mem_append.1 hp' with hm | hm
        · have := hall p' hm
          simp at this
          omega
        · rcases List.mem_cons.1 hm with rfl | hm
          · exact Nat.le_refl _
          · rw [List.pairwise_append] at hps
            have := (List.pairwise_cons.1 hps.2.1).1 p' hm
            omega
      | succ j =>
        simp at hq
        have := i2 j q hq
        rw [startOf_cons]
        have e : start + (s.length + 1 + startOf ss j) = start + s.length + 1 + startOf ss j := by
          omega
        rw [e]
        exact this

end Gaspra
