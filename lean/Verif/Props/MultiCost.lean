import Verif.Proofs.MultiCost

/-!
# C94: running time of the longest common substring of several strings
-/

namespace Gaspra

variable {α : Type _} [DecidableEq α]

/-- C94.  Counting the steps does not change the result. -/
theorem C94_same_result (strings : List (List α)) :
    (findLcsMultipleC strings).map Prod.fst = findLcsMultiple strings :=
  multiFindLcsC_fst _ _ _

/-- C94.  For `k ≥ 1` strings with `n` tokens together, `find_lcs_multiple` takes at most
`(7 k + 44) (n + k)` steps. -/
theorem C94_cost (strings : List (List α)) (hne : strings ≠ []) :
    ∃ r t, findLcsMultipleC strings = some (r, t) ∧
      t ≤ (7 * strings.length + 44) * (strings.flatten.length + strings.length) := by
  obtain ⟨r, t, h, ht⟩ := findLcsMultipleC_cost hne
  refine ⟨r, t, h, ?_⟩
  have : ∀ ss : List (List α), (ss.map fun s => s.length + 1).sum = ss.flatten.length + ss.length := by
    intro ss
    induction ss with
    | nil => rfl
    | cons s ss ih => simp only [List.map_cons, List.sum_cons, List.flatten_cons, List.length_append,
        List.length_cons, ih]; omega
  rw [← this]; exact ht

/-- C94.  The factor `k` is really there: on `k` copies of one word it takes at least `k (k + 1) / 2`
steps, however short the word is. -/
theorem C94_factor_reached (w : List α) (k : Nat) (hk : 0 < k) :
    ∃ r t, findLcsMultipleC (List.replicate k w) = some (r, t) ∧ k * (k + 1) ≤ 2 * t := by
  have hne : List.replicate k w ≠ [] := by
    intro e; have := congrArg List.length e; simp at this; omega
  obtain ⟨ps, n, x, h1, h2, h3, h4, h5⟩ := findLcsMultiple_spec hne
  have hx : x = w := by
    have hle := h5 w (by
      intro s hs
      rw [List.eq_of_mem_replicate hs]
      exact ⟨0, [], [], by simp, rfl⟩)
    obtain ⟨p, hp⟩ : ∃ p, ps[0]? = some p :=
      ⟨ps[0]'(by simp at h3; omega), List.getElem?_eq_getElem _⟩
    obtain ⟨⟨pre, post, e, _⟩, _⟩ := h4 0 w p (by simp [hk]) hp
    have hl := congrArg List.length e
    simp only [List.length_append] at hl
    have e1 : pre = [] := List.eq_nil_of_length_eq_zero (by omega)
    have e2 : post = [] := List.eq_nil_of_length_eq_zero (by omega)
    simpa [e1, e2] using e.symm
  have hps : ps = List.replicate k 0 := by
    rw [List.eq_replicate_iff]
    refine ⟨by simpa using h3, ?_⟩
    intro p hp
    obtain ⟨j, hj⟩ := List.mem_iff_getElem?.1 hp
    have hjl := (List.getElem?_eq_some_iff.1 hj).1
    rw [h3, List.length_replicate] at hjl
    have := (h4 j w p (by simp [List.getElem?_replicate, hjl]) hj).2 0
      ⟨[], [], by simp [hx], rfl⟩
    omega
  obtain ⟨r, t, hC, _⟩ := findLcsMultipleC_cost hne
  refine ⟨r, t, hC, ?_⟩
  have hr : r.1 = List.replicate k 0 := by
    have := multiFindLcsC_fst (β := α ⊕ Nat) Sum.inr (fun _ t => t.isRight)
      ((List.replicate k w).map (·.map Sum.inl))
    change (findLcsMultipleC (List.replicate k w)).map Prod.fst =
      findLcsMultiple (List.replicate k w) at this
    rw [hC, h1, hps] at this
    simp only [Option.map_some, Option.some.injEq] at this
    rw [this]
  -- the last part of the count
  simp only [findLcsMultipleC, multiFindLcsC, concatTokens_eq, List.map_replicate] at hC
  obtain ⟨h, m, hb, hb', _⟩ := buildC_cost (sepText 0 (List.replicate k w))
  obtain ⟨h', last, L, hb'', B, _⟩ := build_spec (sepText 0 (List.replicate k w))
  rw [hb'] at hb''; cases hb''
  have hcat : concatTokens Sum.inr (List.replicate k (w.map (Sum.inl : α → α ⊕ Nat))) =
      sepText 0 (List.replicate k w) := by
    rw [← concatTokens_eq, List.map_replicate]
  obtain ⟨st', l1, l2, l3, _⟩ := multiLoop_spec B
  obtain ⟨st, m', m1, _⟩ := multiLoopC_cost B
  have hst : st' = st := by
    have e := multiLoopC_fst sumSep h (List.replicate k w).length (multiFuel h) ⟨[0], [], 0, 0⟩
    rw [m1, l1 _ (Nat.le_refl _)] at e
    simpa using e.symm
  subst hst
  obtain ⟨qs, k', p1, p2, _⟩ := allStartPositionsC_cost B l2
  rw [← l3] at p1
  have m1' : multiLoopC (fun _ (t : α ⊕ Nat) => t.isRight) h k (multiFuel h)
    ⟨[0], [], 0, 0⟩ = some (st', m') := by
    have := m1; rw [List.length_replicate] at this; exact this
  have hk0 : ¬ k = 0 := by omega
  rw [hcat, hb] at hC
  simp only [List.length_replicate, hk0, if_false, m1', p1, Option.some.injEq, Prod.mk.injEq] at hC
  obtain ⟨hC1, hC2⟩ := hC
  rw [← hC1] at hr
  simp only [stringOffsetsC_fst] at hr
  have hm := mem_of_stringOffsets hr
  have := stringOffsetsC_ge (s := w.map (Sum.inl : α → α ⊕ Nat)) p2 (k := k) (i := 0) (by
    intro j hj
    have := hm j (by omega)
    simpa using this)
  simp only [Nat.mul_zero, Nat.zero_mul, Nat.zero_add] at this
  omega

example : findLcsMultipleC ["abcabc".toList, "xbcab".toList, "zcabcab".toList] =
    some (([1, 1, 3], some 4), 432) := by decide +kernel
/-- The same number of tokens and separators, in one string and in seven. -/
example : (findLcsMultipleC [List.replicate 13 'a']).map Prod.snd = some 210 ∧
    (findLcsMultipleC (List.replicate 7 ['a'])).map Prod.snd = some 225 := by decide +kernel

end Gaspra
