import Verif.Proofs.MergeClean
import Verif.Proofs.MergeConsolidate

/-!
# What holds for every merge: termination, tokens, kept positions
-/

set_option linter.unusedSectionVars false
set_option linter.unusedSimpArgs false
set_option linter.unusedVariables false

namespace Gaspra

variable {α : Type _}

/-- Tokens inserted by the change fragments of a stream. -/
def changeTokens : List (Fragment α) → List α
  | [] => []
  | .copy _ _ :: F => changeTokens F
  | .change i _ _ :: F => i ++ changeTokens F

/-- All tokens a stream inserts. -/
def allTokens (F : List (Fragment α)) : List α := F.flatMap (·.insert)

@[simp] theorem allTokens_nil : allTokens ([] : List (Fragment α)) = [] := rfl
@[simp] theorem allTokens_cons (f : Fragment α) (F : List (Fragment α)) :
    allTokens (f :: F) = f.insert ++ allTokens F := rfl

theorem deletes_le_start {k g : Nat} {es : List (Edit α)} (i : List α) (n : Nat) (hg : k + n ≤ g) :
    deletes (⟨k, k + n, i⟩ :: es) g = deletes es g := by
  have : ¬ g < k + n := by omega
  simp [deletes_cons, this]

/-- The facts about one iteration of `_merge`. -/
structure StepOK (k : Nat) (p : List α) (f0 : Fragment α) (fs0 : List (Fragment α))
    (f1 : Fragment α) (fs1 : List (Fragment α)) (o : Option (MFragment α))
    (t0 t1 : Option (Fragment α)) : Prop where
  short : t0.toList.length + t1.toList.length ≤ 1
  fwd : ∀ t, (∃ x ∈ o.toList, t ∈ x.tokens) ∨ t ∈ allTokens (t0.toList ++ fs0) ∨
    t ∈ allTokens (t1.toList ++ fs1) → t ∈ allTokens (f0 :: fs0) ∨ t ∈ allTokens (f1 :: fs1)
  bwd : ∀ t, t ∈ changeTokens (f0 :: fs0) ∨ t ∈ changeTokens (f1 :: fs1) →
    (∃ x ∈ o.toList, t ∈ x.tokens) ∨ t ∈ changeTokens (t0.toList ++ fs0) ∨
      t ∈ changeTokens (t1.toList ++ fs1)
  rest : ∃ c p', p = c ++ p' ∧ (∃ a b, FS a b p' (t0.toList ++ fs0)) ∧
    (∃ a b, FS a b p' (t1.toList ++ fs1)) ∧
    (∀ g, k + c.length ≤ g → deletes (fedits (k + c.length) (t0.toList ++ fs0)) g =
      deletes (fedits k (f0 :: fs0)) g) ∧
    (∀ g, k + c.length ≤ g → deletes (fedits (k + c.length) (t1.toList ++ fs1)) g =
      deletes (fedits k (f1 :: fs1)) g) ∧
    ((∃ x ∈ o.toList, ∀ t ∈ c, t ∈ x.tokens) ∨
      ∀ g, k ≤ g → g < k + c.length →
        deletes (fedits k (f0 :: fs0)) g = true ∨ deletes (fedits k (f1 :: fs1)) g = true)

variable [DecidableEq α]

/-- Splitting a well-formed fragment: what the head takes and what the tail keeps. -/
theorem splitFragment_spec {c h : Bool} {p : List α} {f : Fragment α} {fs : List (Fragment α)}
    (H : FS c h p (f :: fs)) {m : Nat} (hm : m ≤ f.length) (k : Nat) :
    ∃ p', p = p.take m ++ p' ∧ (p.take m).length = m ∧
      (∃ a b, FS a b p' ((splitFragment f m).2.toList ++ fs)) ∧
      f.insert = (insertOrLit (splitFragment f m).1).toList ++
        allTokens (splitFragment f m).2.toList ∧
      ((splitFragment f m).2.toList.length ≤ 1 ∧ ((splitFragment f m).2 ≠ none ↔ m < f.length)) ∧
      (∀ g, k + m ≤ g → deletes (fedits (k + m) ((splitFragment f m).2.toList ++ fs)) g =
        deletes (fedits k (f :: fs)) g) ∧
      (∀ t ∈ changeTokens (f :: fs), t ∈ (insertOrLit (splitFragment f m).1).toList ∨
        t ∈ changeTokens ((splitFragment f m).2.toList ++ fs)) := by
  cases f with
  | copy w n =>
    obtain ⟨p1, hp, hn, hw, hF⟩ := H.inv_copy
    subst hn hp
    simp only [length_copy] at hm
    have hl : (w.take m).length = m := by simp [hm]
    refine ⟨w.drop m ++ p1, ?_, ?_, ?_⟩
    · rw [List.take_append_of_le_length hm, ← List.append_assoc, List.take_append_drop]
    · rw [List.take_append_of_le_length hm, hl]
    · simp only [splitFragment, splitCopy, length_copy, insert_copy]
      by_cases h1 : m < w.length
      · have hd : w.drop m ≠ [] := by
          intro h; have := congrArg List.length h; simp at this; omega
        simp only [h1, if_true, Option.toList_some, List.cons_append, List.nil_append]
        refine ⟨⟨true, true, ?_⟩, ?_, ?_, ?_, ?_⟩
        · have := FS.copy (h := true) hd hF
          rwa [List.length_drop] at this
        · by_cases h0 : m > 0
          · simp [h0, insertOrLit, Side.toList, allTokens]
          · have : m = 0 := by omega
            subst this
            simp [insertOrLit, Side.toList, allTokens]
        · simp
        · intro g hg
          simp only [fedits]
          rw [show k + m + (w.length - m) = k + w.length by omega]
        · intro t ht
          right; simpa [changeTokens] using ht
      · have hmw : m = w.length := by omega
        have hpos : 0 < w.length := List.length_pos_iff.2 hw
        subst hmw
        simp only [Nat.lt_irrefl, if_false, Option.toList_none, List.nil_append]
        refine ⟨⟨false, true, ?_⟩, ?_, ?_, ?_, ?_⟩
        · simpa using hF
        · simp [hpos, insertOrLit, Side.toList, allTokens]
        · simp
        · intro g hg; rfl
        · intro t ht; right; simpa [changeTokens] using ht
  | change i d n =>
    obtain ⟨p1, hp, hn, hne, hF⟩ := H.inv_change
    subst hn hp
    simp only [length_change] at hm
    have hl : (d.take m).length = m := by simp [hm]
    refine ⟨d.drop m ++ p1, ?_, ?_, ?_⟩
    · rw [List.take_append_of_le_length hm, ← List.append_assoc, List.take_append_drop]
    · rw [List.take_append_of_le_length hm, hl]
    · simp only [splitFragment, splitChange, length_change, insert_change, Nat.lt_irrefl, or_false]
      have hhead : (insertOrLit (if m > 0 ∨ i.length > 0 then
          some (Fragment.change (i.take i.length) (d.take m) m) else none)).toList = i := by
        by_cases h0 : m > 0 ∨ i.length > 0
        · simp [h0, insertOrLit, Side.toList]
        · have : i = [] := List.eq_nil_of_length_eq_zero (by omega)
          subst this
          simp at h0
          simp [h0, insertOrLit, Side.toList]
      rw [hhead]
      by_cases h1 : m < d.length
      · have hd : d.drop m ≠ [] := by
          intro h; have := congrArg List.length h; simp at this; omega
        simp only [h1, if_true, Option.toList_some, List.cons_append, List.nil_append]
        refine ⟨⟨true, true, ?_⟩, ?_, ?_, ?_, ?_⟩
        · have := FS.change (c := true) (i := i.drop i.length) (Or.inr hd) hF
          rwa [List.length_drop] at this
        · simp
        · simp
        · intro g hg
          simp only [fedits, deletes_cons]
          rw [show k + m + (d.length - m) = k + d.length by omega]
          have h2 : k ≤ g := by omega
          simp [hg, h2]
        · intro t ht
          simpa [changeTokens] using ht
      · have hmd : m = d.length := by omega
        subst hmd
        simp only [Nat.lt_irrefl, if_false, Option.toList_none, List.nil_append]
        refine ⟨⟨true, false, ?_⟩, ?_, ?_, ?_, ?_⟩
        · simpa using hF
        · simp
        · simp
        · intro g hg
          simp only [fedits]
          rw [deletes_le_start _ _ hg]
        · intro t ht; simpa [changeTokens] using ht

theorem deletes_head {k g n : Nat} {i : List α} {es : List (Edit α)} (h1 : k ≤ g) (h2 : g < k + n) :
    deletes (⟨k, k + n, i⟩ :: es) g = true := by simp [deletes_cons, h1, h2]

/-- Splitting both fragments at the shorter length and keeping both heads as a conflict. -/
theorem StepOK.pending {k : Nat} {p : List α} {f0 f1 : Fragment α} {fs0 fs1 : List (Fragment α)}
    {c0 h0 c1 h1 : Bool} (H0 : FS c0 h0 p (f0 :: fs0)) (H1 : FS c1 h1 p (f1 :: fs1))
    (hch : (∃ i d n, f0 = .change i d n) ∨ (∃ i d n, f1 = .change i d n)) :
    StepOK k p f0 fs0 f1 fs1
      (some (.conflict (insertOrLit (splitFragment f0 (min f0.length f1.length)).1)
        (insertOrLit (splitFragment f1 (min f0.length f1.length)).1)))
      (splitFragment f0 (min f0.length f1.length)).2
      (splitFragment f1 (min f0.length f1.length)).2 := by
  generalize hm : min f0.length f1.length = m
  obtain ⟨p0, e0, l0, F0, i0, s0, d0, b0⟩ := splitFragment_spec H0 (m := m) (by omega) k
  obtain ⟨p1, e1, l1, F1, i1, s1, d1, b1⟩ := splitFragment_spec H1 (m := m) (by omega) k
  have hpe : p0 = p1 := List.append_cancel_left (e0.symm.trans e1)
  subst hpe
  constructor
  · have h2 : ¬ (m < f0.length ∧ m < f1.length) := by omega
    rcases hs0 : (splitFragment f0 m).2 with _ | x <;> rcases hs1 : (splitFragment f1 m).2 with _ | y
    · simp
    · simp
    · simp
    · rw [hs0] at s0; rw [hs1] at s1
      exact absurd ⟨s0.2.1 (by simp), s1.2.1 (by simp)⟩ h2
  · intro t ht
    simp only [allTokens_cons, i0, i1]
    simp only [Option.toList_some, List.mem_singleton, exists_eq_left, MFragment.tokens,
      List.mem_append, allTokens, List.flatMap_append] at ht ⊢
    rcases ht with (h | h) | (h | h) | (h | h) <;> simp [h]
  · intro t ht
    simp only [Option.toList_some, List.mem_singleton, exists_eq_left, MFragment.tokens,
      List.mem_append]
    rcases ht with h | h
    · rcases b0 t h with h | h <;> simp [h]
    · rcases b1 t h with h | h <;> simp [h]
  · refine ⟨p.take m, p0, e0, F0, F1, ?_, ?_, ?_⟩
    · rw [l0]; exact d0
    · rw [l0]; exact d1
    · right
      intro g hg hg'
      rw [l0] at hg'
      rcases hch with ⟨i, d, n, rfl⟩ | ⟨i, d, n, rfl⟩
      · left
        simp only [length_change] at hm
        exact deletes_head hg (by omega)
      · right
        simp only [length_change] at hm
        exact deletes_head hg (by omega)

theorem insertOrLit_some {f : Fragment α} {m : Nat} {h : Fragment α}
    (hs : (splitFragment f m).1 = some h) : insertOrLit (splitFragment f m).1 = .seq h.insert := by
  rw [hs]; rfl

theorem StepOK.swap {k : Nat} {p : List α} {f0 f1 : Fragment α} {fs0 fs1 : List (Fragment α)}
    {o : Option (MFragment α)} {t0 t1 : Option (Fragment α)}
    (h : StepOK k p f0 fs0 f1 fs1 o t0 t1) : StepOK k p f1 fs1 f0 fs0 o t1 t0 := by
  obtain ⟨h1, h2, h3, c, p', h4, h5, h6, h7, h8, h9⟩ := h
  refine ⟨by omega, ?_, ?_, c, p', h4, h6, h5, h8, h7, ?_⟩
  · intro t ht
    rw [or_comm]
    apply h2
    rcases ht with h | h | h
    · exact Or.inl h
    · exact Or.inr (Or.inr h)
    · exact Or.inr (Or.inl h)
  · intro t ht
    have := h3 t ht.symm
    rcases this with h | h | h
    · exact Or.inl h
    · exact Or.inr (Or.inr h)
    · exact Or.inr (Or.inl h)
  · rcases h9 with h | h
    · left; exact h
    · right; intro g a b; exact (h g a b).symm

theorem copyChange_step {k : Nat} {p ci i d : List α} {cn n : Nat} {fs0 fs1 : List (Fragment α)}
    {c0 h0 c1 h1 : Bool} (H0 : FS c0 h0 p (.copy ci cn :: fs0))
    (H1 : FS c1 h1 p (.change i d n :: fs1)) :
    StepOK k p (.copy ci cn) fs0 (.change i d n) fs1 (copyChange ci cn i d n).1
      (copyChange ci cn i d n).2.1 (copyChange ci cn i d n).2.2 := by
  obtain ⟨p0, e0, n0, hw, hF0⟩ := H0.inv_copy
  obtain ⟨p1, e1, n1, hne, hF1⟩ := H1.inv_change
  have hcn : 0 < cn := by rw [n0]; exact List.length_pos_iff.2 hw
  by_cases hle : n ≤ cn
  · have hmin : min cn n = n := by omega
    obtain ⟨p0', a0, l0, F0, i0, s0, d0, b0⟩ := splitFragment_spec H0 (m := n) hle k
    have ht0 : (if cn > n then (splitCopy ci cn n).2 else none) =
        (splitFragment (.copy ci cn) n).2 := by
      simp only [splitFragment, splitCopy]
      by_cases h : n < cn
      · simp [h]
      · simp [h]
    simp only [copyChange, hmin, if_true, ht0]
    have hd : p.take n = d := by rw [e1, n1]; simp
    rw [hd] at a0
    have hpe : p0' = p1 := List.append_cancel_left (a0.symm.trans e1)
    subst hpe
    constructor
    · simpa using s0.1
    · intro t ht
      simp only [Option.toList_some, List.mem_singleton, exists_eq_left, MFragment.tokens,
        allTokens_cons, Option.toList_none, List.nil_append, i0] at ht ⊢
      simp only [List.mem_append, allTokens, List.flatMap_append] at ht ⊢
      rcases ht with h | (h | h) | h
      · right; left; simpa using h
      · simp [h]
      · simp [h]
      · simp [h]
    · intro t ht
      simp only [Option.toList_some, List.mem_singleton, exists_eq_left, MFragment.tokens,
        Option.toList_none, List.nil_append]
      rcases ht with h | h
      · right; left
        simp only [splitFragment, splitCopy]
        split <;> simpa [changeTokens] using h
      · simp only [changeTokens, List.mem_append] at h
        rcases h with h | h
        · left; exact h
        · simp [h]
    · refine ⟨d, p0', e1, F0, ⟨_, _, by simpa using hF1⟩, ?_, ?_, ?_⟩
      · rw [← n1]; exact d0
      · intro g hg
        simp only [Option.toList_none, List.nil_append, fedits]
        rw [← n1] at hg ⊢
        rw [deletes_le_start _ _ hg]
      · right
        intro g h1 h2
        right
        rw [← n1] at h2
        exact deletes_head h1 h2
  · have hmin : min cn n = cn := by omega
    have hnn : ¬ n = cn := by omega
    have hP := StepOK.pending (k := k) H0 H1 (Or.inr ⟨_, _, _, rfl⟩)
    simp only [length_copy, length_change, hmin] at hP
    simp only [copyChange, hmin, hnn, if_false]
    have hS0 : splitFragment (.copy ci cn) cn = (some (.copy (ci.take cn) cn), none) := by
      simp [splitFragment, splitCopy, hcn]
    have hS1 : splitFragment (.change i d n) cn = splitChange i d n i.length cn := rfl
    have hci : ci.take cn = ci := by rw [n0]; simp
    rw [hS0, hS1] at hP
    rcases hs : (splitChange i d n i.length cn).1 with _ | h
    · simp [splitChange, hcn] at hs
    · rw [hs] at hP
      simp only [insertOrLit, insert_copy, hci] at hP
      obtain ⟨q1, q2, q3, q4⟩ := hP
      refine ⟨q1, ?_, ?_, ?_⟩
      · intro t ht
        apply q2 t
        simpa [MFragment.tokens, or_comm] using ht
      · intro t ht
        have := q3 t ht
        simpa [MFragment.tokens, or_comm] using this
      · obtain ⟨c, p', r1, r2, r3, r4, r5, r6⟩ := q4
        refine ⟨c, p', r1, r2, r3, r4, r5, ?_⟩
        simpa [MFragment.tokens, or_comm] using r6

theorem eq_of_commonPrefixLength {a b : List α} (h1 : a.length = b.length)
    (h2 : b.length = commonPrefixLength a b) : a = b := by
  unfold commonPrefixLength at h2
  rcases commonPrefixLoop_spec a b 0 with ⟨p, x, y, a', b', h, e1, e2, h3⟩ | ⟨h, h4⟩
  · rw [h] at h2
    simp only [e2] at h2
    simp at h2
  · rcases h4 with h4 | h4
    · exact h4.eq_of_length h1
    · exact (h4.eq_of_length h1.symm).symm

theorem changeChange_step {k : Nat} {p i0 d0 i1 d1 : List α} {n0 n1 : Nat}
    {fs0 fs1 : List (Fragment α)} {c0 h0 c1 h1 : Bool}
    (H0 : FS c0 h0 p (.change i0 d0 n0 :: fs0)) (H1 : FS c1 h1 p (.change i1 d1 n1 :: fs1)) :
    StepOK k p (.change i0 d0 n0) fs0 (.change i1 d1 n1) fs1 (changeChange i0 d0 n0 i1 d1 n1).1
      (changeChange i0 d0 n0 i1 d1 n1).2.1 (changeChange i0 d0 n0 i1 d1 n1).2.2.1 := by
  obtain ⟨p0, e0, hn0, hne0, hF0⟩ := H0.inv_change
  obtain ⟨p1, e1, hn1, hne1, hF1⟩ := H1.inv_change
  unfold changeChange
  by_cases hc : hasComposable i0 n0 i1 n1 = true
  · simp only [hc, if_true]
    by_cases hA : n0 = 0 ∧ i1.length = 0
    · simp only [hA, and_self, if_true]
      obtain ⟨hA1, hA2⟩ := hA
      have hi1 : i1 = [] := List.eq_nil_of_length_eq_zero hA2
      have hd0 : d0 = [] := List.eq_nil_of_length_eq_zero (by omega)
      subst hi1 hd0
      subst hn0
      have hi0 : i0 ≠ [] := by simpa using hne0
      simp at e0; subst e0
      constructor
      · simp
      · intro t ht
        simp only [Option.toList_none, Option.toList_some, List.nil_append, List.cons_append,
          allTokens_cons, insert_change, List.mem_append, List.not_mem_nil, false_and,
          exists_false, false_or] at ht ⊢
        rcases ht with h | h | h <;> simp [h]
      · intro t ht
        simp only [Option.toList_none, Option.toList_some, List.nil_append, List.cons_append,
          changeTokens, List.mem_append, List.not_mem_nil, false_and, exists_false,
          false_or] at ht ⊢
        rcases ht with (h | h) | h <;> simp [h]
      · refine ⟨[], p, rfl, ⟨_, _, hF0⟩, ⟨true, true, ?_⟩, ?_, ?_, ?_⟩
        · rw [e1, hn1]
          exact FS.change (Or.inl hi0) hF1
        · intro g hg
          simp only [List.length_nil, Nat.add_zero, Option.toList_none, List.nil_append, fedits] at hg ⊢
          have := deletes_le_start (k := k) (g := g) (es := fedits k fs0) i0 0 (by omega)
          simpa using this.symm
        · intro g hg
          simp [fedits, deletes_cons]
        · right
          intro g h1 h2
          simp at h2; omega
    · simp only [hA, if_false]
      have hB : i0.length = 0 ∧ n1 = 0 := by
        simp only [hasComposable, Bool.or_eq_true, Bool.and_eq_true, beq_iff_eq] at hc
        rcases hc with h | h
        · exact absurd h hA
        · exact h
      obtain ⟨hA1, hA2⟩ := hB
      have hi0 : i0 = [] := List.eq_nil_of_length_eq_zero hA1
      have hd1 : d1 = [] := List.eq_nil_of_length_eq_zero (by omega)
      subst hi0 hd1
      subst hn1
      have hi1 : i1 ≠ [] := by simpa using hne1
      simp at e1; subst e1
      constructor
      · simp
      · intro t ht
        simp only [Option.toList_none, Option.toList_some, List.nil_append, List.cons_append,
          allTokens_cons, insert_change, List.mem_append, List.not_mem_nil, false_and,
          exists_false, false_or] at ht ⊢
        rcases ht with (h | h) | h <;> simp [h]
      · intro t ht
        simp only [Option.toList_none, Option.toList_some, List.nil_append, List.cons_append,
          changeTokens, List.mem_append, List.not_mem_nil, false_and, exists_false,
          false_or] at ht ⊢
        rcases ht with h | h | h <;> simp [h]
      · refine ⟨[], p, rfl, ⟨true, true, ?_⟩, ⟨_, _, hF1⟩, ?_, ?_, ?_⟩
        · rw [e0, hn0]
          exact FS.change (Or.inl hi1) hF0
        · intro g hg
          simp [fedits, deletes_cons]
        · intro g hg
          simp only [List.length_nil, Nat.add_zero, Option.toList_none, List.nil_append, fedits] at hg ⊢
          have := deletes_le_start (k := k) (g := g) (es := fedits k fs1) i1 0 (by omega)
          simpa using this.symm
        · right
          intro g h1 h2
          simp at h2; omega
  · simp only [hc, Bool.false_eq_true, if_false]
    by_cases hid : areIdentical i0 d0 n0 i1 d1 n1 = true
    · simp only [hid, if_true]
      obtain ⟨hi, hd⟩ : i0 = i1 ∧ d0 = d1 := by
        simp only [areIdentical, Bool.and_eq_true, beq_iff_eq] at hid
        obtain ⟨⟨a1, a2⟩, a3, a4⟩ := hid
        constructor
        · exact eq_of_commonPrefixLength a1 a2
        · exact eq_of_commonPrefixLength (by omega) (by omega)
      subst hi hd
      have hpe : p0 = p1 := List.append_cancel_left (e0.symm.trans e1)
      subst hpe
      have hnn : n0 = n1 := hn0.trans hn1.symm
      subst hnn
      constructor
      · simp
      · intro t ht
        simp only [Option.toList_none, Option.toList_some, List.nil_append, List.mem_singleton,
          exists_eq_left, MFragment.tokens, allTokens_cons, insert_change, List.mem_append] at ht ⊢
        rcases ht with h | h | h
        · left; left; exact h
        · simp [h]
        · simp [h]
      · intro t ht
        simp only [Option.toList_none, Option.toList_some, List.nil_append, List.mem_singleton,
          exists_eq_left, MFragment.tokens, changeTokens, List.mem_append] at ht ⊢
        rcases ht with (h | h) | (h | h)
        · left; exact h
        · simp [h]
        · left; exact h
        · simp [h]
      · refine ⟨d0, p0, e0, ⟨_, _, hF0⟩, ⟨_, _, hF1⟩, ?_, ?_, ?_⟩
        · intro g hg
          simp only [Option.toList_none, List.nil_append, fedits]
          rw [← hn0] at hg ⊢
          rw [deletes_le_start _ _ hg]
        · intro g hg
          simp only [Option.toList_none, List.nil_append, fedits]
          rw [← hn0] at hg ⊢
          rw [deletes_le_start _ _ hg]
        · right
          intro g h1 h2
          left
          rw [← hn0] at h2
          exact deletes_head h1 h2
    · simp only [hid, Bool.false_eq_true, if_false]
      have hP := StepOK.pending (k := k) H0 H1 (Or.inr ⟨_, _, _, rfl⟩)
      simp only [length_change] at hP
      have hS0 : splitFragment (.change i0 d0 n0) (min n0 n1) =
        splitChange i0 d0 n0 i0.length (min n0 n1) := rfl
      have hS1 : splitFragment (.change i1 d1 n1) (min n0 n1) =
        splitChange i1 d1 n1 i1.length (min n0 n1) := rfl
      rw [hS0, hS1] at hP
      have hq : ¬ ((n0 = 0 ∧ i1 = []) ∨ (i0 = [] ∧ n1 = 0)) := by
        intro h
        apply hc
        simp only [hasComposable, Bool.or_eq_true, Bool.and_eq_true, beq_iff_eq]
        rcases h with ⟨h1, h2⟩ | ⟨h1, h2⟩
        · left; exact ⟨h1, by simp [h2]⟩
        · right; exact ⟨by simp [h1], h2⟩
      have hs0 : (splitChange i0 d0 n0 i0.length (min n0 n1)).1 ≠ none := by
        simp only [splitChange]
        rw [if_pos]
        · simp
        · by_cases hi : i0 = []
          · left
            have : d0 ≠ [] := by simpa [hi] using hne0
            have h3 : 0 < n0 := by rw [hn0]; exact List.length_pos_iff.2 this
            have h4 : n1 ≠ 0 := fun h => hq (Or.inr ⟨hi, h⟩)
            omega
          · right; exact List.length_pos_iff.2 hi
      have hs1 : (splitChange i1 d1 n1 i1.length (min n0 n1)).1 ≠ none := by
        simp only [splitChange]
        rw [if_pos]
        · simp
        · by_cases hi : i1 = []
          · left
            have : d1 ≠ [] := by simpa [hi] using hne1
            have h3 : 0 < n1 := by rw [hn1]; exact List.length_pos_iff.2 this
            have h4 : n0 ≠ 0 := fun h => hq (Or.inl ⟨h, hi⟩)
            omega
          · right; exact List.length_pos_iff.2 hi
      simp only [ordinaryConflict]
      rcases e0' : (splitChange i0 d0 n0 i0.length (min n0 n1)).1 with _ | x0
      · exact absurd e0' hs0
      rcases e1' : (splitChange i1 d1 n1 i1.length (min n0 n1)).1 with _ | x1
      · exact absurd e1' hs1
      rw [e0', e1'] at hP
      simpa [insertOrLit] using hP

theorem copyCopy_step {k : Nat} {p i0 i1 : List α} {n0 n1 : Nat}
    {fs0 fs1 : List (Fragment α)} {c0 h0 c1 h1 : Bool}
    (H0 : FS c0 h0 p (.copy i0 n0 :: fs0)) (H1 : FS c1 h1 p (.copy i1 n1 :: fs1)) :
    StepOK k p (.copy i0 n0) fs0 (.copy i1 n1) fs1 (copyCopy i0 n0 i1 n1).1
      (copyCopy i0 n0 i1 n1).2.1 (copyCopy i0 n0 i1 n1).2.2 := by
  have key : ∀ {i0 i1 : List α} {n0 n1 : Nat} {fs0 fs1 : List (Fragment α)} {c0 h0 c1 h1 : Bool},
      FS c0 h0 p (.copy i0 n0 :: fs0) → FS c1 h1 p (.copy i1 n1 :: fs1) → n0 ≤ n1 →
      StepOK k p (.copy i0 n0) fs0 (.copy i1 n1) fs1 (some (.input (.copy i0 n0))) none
        (splitFragment (.copy i1 n1) n0).2 := by
    intro i0 i1 n0 n1 fs0 fs1 c0 h0 c1 h1 H0 H1 hle
    obtain ⟨p0, e0, hn0, hw0, hF0⟩ := H0.inv_copy
    obtain ⟨p1', a1, l1, F1, t1, s1, d1, b1⟩ := splitFragment_spec H1 (m := n0) hle k
    have hd : p.take n0 = i0 := by rw [e0, hn0]; simp
    rw [hd] at a1
    have hpe : p1' = p0 := List.append_cancel_left (a1.symm.trans e0)
    subst hpe
    constructor
    · simpa using s1.1
    · intro t ht
      simp only [Option.toList_some, List.mem_singleton, exists_eq_left, MFragment.tokens,
        allTokens_cons, Option.toList_none, List.nil_append, t1] at ht ⊢
      simp only [List.mem_append, allTokens, List.flatMap_append] at ht ⊢
      rcases ht with h | h | h | h
      · left; left; exact h
      · simp [h]
      · simp [h]
      · simp [h]
    · intro t ht
      simp only [Option.toList_some, List.mem_singleton, exists_eq_left, MFragment.tokens,
        Option.toList_none, List.nil_append]
      rcases ht with h | h
      · right; left; exact h
      · right; right
        simp only [splitFragment, splitCopy]
        split <;> simpa [changeTokens] using h
    · refine ⟨i0, p1', e0, ⟨_, _, by simpa using hF0⟩, F1, ?_, ?_, ?_⟩
      · intro g hg
        simp only [Option.toList_none, List.nil_append, fedits, hn0]
      · rw [← hn0]; exact d1
      · left
        exact ⟨.input (.copy i0 n0), by simp, fun t ht => ht⟩
  unfold copyCopy
  by_cases hlt : n0 < n1
  · simp only [hlt, if_true]
    exact key H0 H1 (by omega)
  · simp only [hlt, if_false]
    have := (key H1 H0 (by omega)).swap
    have ht : (if n1 ≠ n0 then (splitCopy i0 n0 n1).2 else none) =
        (splitFragment (.copy i0 n0) n1).2 := by
      simp only [splitFragment, splitCopy]
      by_cases h : n1 < n0
      · have : n1 ≠ n0 := by omega
        simp [h, this]
      · simp [h]
    rw [ht]
    exact this

theorem process_step {k : Nat} {p : List α} {f0 f1 : Fragment α} {fs0 fs1 : List (Fragment α)}
    {c0 h0 c1 h1 : Bool} (w : Bool) (H0 : FS c0 h0 p (f0 :: fs0)) (H1 : FS c1 h1 p (f1 :: fs1)) :
    StepOK k p f0 fs0 f1 fs1 (processFragments f0 f1 w).1 (processFragments f0 f1 w).2.1
      (processFragments f0 f1 w).2.2.1 := by
  cases f0 with
  | copy i0 n0 =>
    cases f1 with
    | copy i1 n1 => exact copyCopy_step H0 H1
    | change i1 d1 n1 =>
      cases w with
      | true => exact StepOK.pending H0 H1 (Or.inr ⟨_, _, _, rfl⟩)
      | false => exact copyChange_step H0 H1
  | change i0 d0 n0 =>
    cases f1 with
    | copy i1 n1 =>
      cases w with
      | true => exact StepOK.pending H0 H1 (Or.inl ⟨_, _, _, rfl⟩)
      | false => exact (copyChange_step H1 H0).swap
    | change i1 d1 n1 =>
      cases w with
      | true => exact StepOK.pending H0 H1 (Or.inl ⟨_, _, _, rfl⟩)
      | false => exact changeChange_step H0 H1

/-- `_merge` terminates; tokens neither appear nor disappear. -/
theorem mergeLoop_general : ∀ (fuel k : Nat) (p : List α) (F0 F1 : List (Fragment α)) (w : Bool),
    (∃ c h, FS c h p F0) → (∃ c h, FS c h p F1) → F0.length + F1.length ≤ fuel →
    ∃ out, mergeLoop fuel F0 F1 w = some out ∧
      (∀ t, (∃ x ∈ out, t ∈ x.tokens) → t ∈ allTokens F0 ∨ t ∈ allTokens F1) ∧
      (∀ t, t ∈ changeTokens F0 ∨ t ∈ changeTokens F1 → ∃ x ∈ out, t ∈ x.tokens) ∧
      (∀ g (hg : g < p.length), deletes (fedits k F0) (k + g) = false →
        deletes (fedits k F1) (k + g) = false → ∃ x ∈ out, p[g] ∈ x.tokens) := by
  intro fuel
  induction fuel with
  | zero =>
    rintro k p F0 F1 w ⟨c0, h0, H0⟩ ⟨c1, h1, H1⟩ hf
    have : F0 = [] := List.eq_nil_of_length_eq_zero (by omega)
    have : F1 = [] := List.eq_nil_of_length_eq_zero (by omega)
    subst F0 F1
    have := H0.inv_nil; subst this
    exact ⟨[], rfl, by simp, by simp [changeTokens], by simp⟩
  | succ fuel ih =>
    rintro k p F0 F1 w ⟨c0, h0, H0⟩ ⟨c1, h1, H1⟩ hf
    cases F0 with
    | nil =>
      have := H0.inv_nil; subst this
      rcases H1.nil_of with rfl | ⟨i, hi, rfl⟩
      · exact ⟨[], rfl, by simp, by simp [changeTokens], by simp⟩
      · cases w
        · refine ⟨[.input (.change i [] 0)], rfl, ?_, ?_, by simp⟩ <;>
            simp [MFragment.tokens, changeTokens]
        · refine ⟨[.conflict .strLit (.seq i)], rfl, ?_, ?_, by simp⟩ <;>
            simp [MFragment.tokens, changeTokens, Side.toList]
    | cons f0 fs0 =>
    cases F1 with
    | nil =>
      have := H1.inv_nil; subst this
      rcases H0.nil_of with h | ⟨i, hi, h⟩
      · simp at h
      · rw [h]
        cases w
        · refine ⟨[.input (.change i [] 0)], rfl, ?_, ?_, by simp⟩ <;>
            simp [MFragment.tokens, changeTokens]
        · refine ⟨[.conflict (.seq i) .strLit], rfl, ?_, ?_, by simp⟩ <;>
            simp [MFragment.tokens, changeTokens, Side.toList]
    | cons f1 fs1 =>
    simp only [List.length_cons] at hf
    obtain ⟨s1, s2, s3, c, p', s4, s5, s6, s7, s8, s9⟩ := process_step (k := k) w H0 H1
    obtain ⟨out, o1, o2, o3, o4⟩ := ih (k + c.length) p' _ _
      (processFragments f0 f1 w).2.2.2 s5 s6 (by simp only [List.length_append]; omega)
    refine ⟨_, mergeLoop_step rfl o1, ?_, ?_, ?_⟩
    · rintro t ⟨x, hx, ht⟩
      apply s2
      rcases List.mem_append.1 hx with hx | hx
      · left; exact ⟨x, hx, ht⟩
      · right; exact o2 t ⟨x, hx, ht⟩
    · intro t ht
      rcases s3 t ht with ⟨x, hx, h⟩ | h
      · exact ⟨x, List.mem_append_left _ hx, h⟩
      · obtain ⟨x, hx, h⟩ := o3 t h
        exact ⟨x, List.mem_append_right _ hx, h⟩
    · intro g hg hd0 hd1
      subst s4
      by_cases hgc : g < c.length
      · rcases s9 with ⟨x, hx, h⟩ | h
        · refine ⟨x, List.mem_append_left _ hx, h _ ?_⟩
          rw [List.getElem_append_left hgc]
          exact List.getElem_mem _
        · have := h (k + g) (by omega) (by omega)
          rw [hd0, hd1] at this
          simp at this
      · rw [List.getElem_append_right (by omega)]
        have e : k + c.length + (g - c.length) = k + g := by omega
        obtain ⟨x, hx, h⟩ := o4 (g - c.length) (by simp at hg; omega)
          (by rw [e, s7 _ (by omega)]; exact hd0) (by rw [e, s8 _ (by omega)]; exact hd1)
        exact ⟨x, List.mem_append_right _ hx, h⟩

end Gaspra
