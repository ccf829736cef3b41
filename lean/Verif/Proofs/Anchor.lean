import Verif.Spec.Anchor
import Verif.Props.DiffExact
import Verif.Proofs.Patch

/-!
# The diff keeps landmarks
-/

set_option linter.unusedSectionVars false
set_option linter.unusedSimpArgs false
set_option linter.unusedVariables false

namespace Gaspra

variable {α : Type _}

theorem occursAt_getElem {s w : List α} {i k : Nat} (h : OccursAt s w i) (hk : k < w.length) :
    s[i + k]? = w[k]? := by
  obtain ⟨p, q, rfl, rfl⟩ := h
  rw [List.append_assoc, List.getElem?_append_right (by omega), List.getElem?_append_left (by omega)]
  congr 1; omega

theorem occursAt_of_getElem {s w : List α} {i : Nat} (hb : i + w.length ≤ s.length)
    (h : ∀ k, k < w.length → s[i + k]? = w[k]?) : OccursAt s w i := by
  refine ⟨s.take i, (s.drop i).drop w.length, ?_, by simp; omega⟩
  have : (s.drop i).take w.length = w := by
    apply List.ext_getElem?
    intro k
    rw [List.getElem?_take]
    by_cases hk : k < w.length
    · simp only [hk, if_true, List.getElem?_drop]; exact h k hk
    · simp only [hk, if_false]; exact (List.getElem?_eq_none (by omega)).symm
  rw [List.append_assoc]
  conv => rhs; rhs; lhs; rw [← this]
  rw [List.take_append_drop, List.take_append_drop]

/-- Occurrences in both texts can be extended to the left. -/
theorem extend_left {s t w : List α} {i j : Nat} (hi : OccursAt s w (i + 1)) (hj : OccursAt t w (j + 1))
    (h : s[i]? = t[j]?) : ∃ z, z.length = w.length + 1 ∧ CommonSubstring s t z := by
  have b1 := hi.bound
  have b2 := hj.bound
  obtain ⟨x, hx⟩ : ∃ x, s[i]? = some x := ⟨_, List.getElem?_eq_getElem (by omega)⟩
  refine ⟨x :: w, rfl, ⟨i, occursAt_of_getElem (by simp; omega) ?_⟩, ⟨j, occursAt_of_getElem (by simp; omega) ?_⟩⟩
  all_goals
    intro k hk
    cases k with
    | zero => first | exact hx | exact h ▸ hx
    | succ k =>
      simp only [List.length_cons] at hk
      rw [List.getElem?_cons_succ]
      first
        | (rw [← occursAt_getElem hi (by omega)]; congr 1; omega)
        | (rw [← occursAt_getElem hj (by omega)]; congr 1; omega)

theorem extend_right {s t w : List α} {i j : Nat} (hi : OccursAt s w i) (hj : OccursAt t w j)
    (hl : i + w.length < s.length) (h : s[i + w.length]? = t[j + w.length]?) :
    ∃ z, z.length = w.length + 1 ∧ CommonSubstring s t z := by
  have b1 := hi.bound
  have b2 := hj.bound
  obtain ⟨x, hx⟩ : ∃ x, s[i + w.length]? = some x := ⟨_, List.getElem?_eq_getElem (by omega)⟩
  have hl' : j + w.length < t.length := by
    rw [hx] at h
    exact (List.getElem?_eq_some_iff.1 h.symm).1
  refine ⟨w ++ [x], by simp, ⟨i, occursAt_of_getElem (by simp; omega) ?_⟩, ⟨j, occursAt_of_getElem (by simp; omega) ?_⟩⟩
  all_goals
    intro k hk
    simp only [List.length_append, List.length_cons, List.length_nil] at hk
    by_cases hk' : k < w.length
    · rw [List.getElem?_append_left hk']
      first | exact occursAt_getElem hi hk' | exact occursAt_getElem hj hk'
    · have : k = w.length := by omega
      subst this
      simp only [List.getElem?_append_right (Nat.le_refl _), Nat.sub_self, List.getElem?_cons_zero]
      first | exact hx | exact h ▸ hx

/-- Where a token of a text in three parts comes from. -/
theorem three_parts {u c v : List α} {n : Nat} {t : α} (h : (u ++ c ++ v)[n]? = some t) :
    (n < u.length ∧ t ∈ u) ∨ (u.length ≤ n ∧ n < u.length + c.length ∧ t ∈ c) ∨
      (u.length + c.length ≤ n ∧ t ∈ v) := by
  by_cases h1 : n < u.length
  · rw [List.append_assoc, List.getElem?_append_left h1] at h
    exact .inl ⟨h1, List.mem_of_getElem? h⟩
  · rw [List.append_assoc, List.getElem?_append_right (by omega)] at h
    by_cases h2 : n < u.length + c.length
    · rw [List.getElem?_append_left (by omega)] at h
      exact .inr (.inl ⟨by omega, h2, List.mem_of_getElem? h⟩)
    · rw [List.getElem?_append_right (by omega)] at h
      exact .inr (.inr ⟨by omega, List.mem_of_getElem? h⟩)

section
variable {u c v u' v' w : List α} {i j : Nat}

/-- Equal tokens are on the same side of a landmark. -/
theorem Landmark.sides (L : Landmark u c v u' v') (hi : OccursAt (u ++ c ++ v) w i)
    (hj : OccursAt (u' ++ c ++ v') w j) {k : Nat} (hk : k < w.length) :
    (i + k < u.length ↔ j + k < u'.length) ∧
    (i + k < u.length + c.length ↔ j + k < u'.length + c.length) := by
  obtain ⟨t, ht⟩ : ∃ t, w[k]? = some t := ⟨_, List.getElem?_eq_getElem hk⟩
  have h1 := three_parts ((occursAt_getElem hi hk).trans ht)
  have h2 := three_parts ((occursAt_getElem hj hk).trans ht)
  have a1 := L.before t; have a2 := L.behind t; have a3 := L.before' t; have a4 := L.behind' t
  have a5 := L.forth t; have a6 := L.back t
  rcases h1 with ⟨p, m⟩ | ⟨p, p', m⟩ | ⟨p, m⟩ <;> rcases h2 with ⟨q, m'⟩ | ⟨q, q', m'⟩ | ⟨q, m'⟩ <;>
    first
      | exact absurd m' (by first | exact a5 m | exact a6 m | exact a3 m | exact a4 m)
      | exact absurd m (by first | exact a1 m' | exact a2 m')
      | (constructor <;> omega)

/-- A longest common substring is before the landmark, behind it, or contains it. -/
theorem Landmark.where (L : Landmark u c v u' v') (hi : OccursAt (u ++ c ++ v) w i)
    (hj : OccursAt (u' ++ c ++ v') w j) (hw : w ≠ [])
    (hl : ∀ z, CommonSubstring (u ++ c ++ v) (u' ++ c ++ v') z → z.length ≤ w.length) :
    (i + w.length ≤ u.length ∧ j + w.length ≤ u'.length) ∨
    (u.length + c.length ≤ i ∧ u'.length + c.length ≤ j) ∨
    (i ≤ u.length ∧ u.length + c.length ≤ i + w.length ∧ u.length + j = u'.length + i) := by
  have hc : c.length ≤ w.length :=
    hl c ⟨⟨u.length, u, v, rfl, rfl⟩, ⟨u'.length, u', v', rfl, rfl⟩⟩
  have hc0 : 0 < c.length := List.length_pos_iff.2 L.nonempty
  have hw0 : 0 < w.length := List.length_pos_iff.2 hw
  have s0 := L.sides hi hj (k := 0) hw0
  have s1 := L.sides hi hj (k := w.length - 1) (by omega)
  by_cases h1 : i + w.length ≤ u.length
  · left; omega
  by_cases h2 : u.length + c.length ≤ i
  · right; left; omega
  right; right
  -- The two occurrences are aligned.
  have ha : u.length + j = u'.length + i := by
    by_cases h3 : i < u.length
    · have t0 := L.sides hi hj (k := u.length - i) (by omega)
      have t1 := L.sides hi hj (k := u.length - i - 1) (by omega)
      omega
    · by_cases h4 : u.length + c.length < i + w.length
      · have t0 := L.sides hi hj (k := u.length + c.length - i) (by omega)
        have t1 := L.sides hi hj (k := u.length + c.length - i - 1) (by omega)
        omega
      · omega
  have inC : ∀ n, n < c.length → (u ++ c ++ v)[u.length + n]? = (u' ++ c ++ v')[u'.length + n]? := by
    intro n hn
    have one : ∀ a b : List α, (a ++ c ++ b)[a.length + n]? = c[n]? := fun a b =>
      occursAt_getElem ⟨a, b, rfl, rfl⟩ hn
    rw [one, one]
  refine ⟨Classical.byContradiction fun h3 => ?_, Classical.byContradiction fun h3 => ?_, ha⟩
  · obtain ⟨i, rfl⟩ : ∃ i0, i = i0 + 1 := ⟨i - 1, by omega⟩
    obtain ⟨j, rfl⟩ : ∃ j0, j = j0 + 1 := ⟨j - 1, by omega⟩
    obtain ⟨z, hz, hz'⟩ := extend_left hi hj (by
      have := inC (i - u.length) (by omega)
      rwa [show u.length + (i - u.length) = i by omega, show u'.length + (i - u.length) = j by omega] at this)
    have := hl z hz'
    omega
  · obtain ⟨z, hz, hz'⟩ := extend_right hi hj (by simp; omega) (by
      have := inC (i + w.length - u.length) (by omega)
      rwa [show u.length + (i + w.length - u.length) = i + w.length by omega,
        show u'.length + (i + w.length - u.length) = j + w.length by omega] at this)
    have := hl z hz'
    omega

/-- A longest common substring that contains the landmark extends to the start if the texts in front of
the landmark agree. -/
theorem Landmark.to_start (hi : OccursAt (u ++ c ++ v) w i) (hj : OccursAt (u ++ c ++ v') w j)
    (hl : ∀ z, CommonSubstring (u ++ c ++ v) (u ++ c ++ v') z → z.length ≤ w.length)
    (hij : i = j) (hu : i ≤ u.length) : i = 0 := by
  subst hij
  cases i with
  | zero => rfl
  | succ i =>
    obtain ⟨z, hz, hz'⟩ := extend_left hi hj (by
      rw [List.append_assoc, List.append_assoc, List.getElem?_append_left (by omega),
        List.getElem?_append_left (by omega)])
    have := hl z hz'
    omega

theorem Landmark.to_end (hi : OccursAt (u ++ c ++ v) w i) (hj : OccursAt (u' ++ c ++ v) w j)
    (hl : ∀ z, CommonSubstring (u ++ c ++ v) (u' ++ c ++ v) z → z.length ≤ w.length)
    (hij : u.length + j = u'.length + i) (hu : u.length + c.length ≤ i + w.length) :
    i + w.length = (u ++ c ++ v).length := by
  have b := hi.bound
  refine Classical.byContradiction fun h => ?_
  obtain ⟨z, hz, hz'⟩ := extend_right hi hj (by omega) (by
    rw [List.getElem?_append_right (by simp; omega), List.getElem?_append_right (by simp; omega)]
    congr 1; simp; omega)
  have := hl z hz'
  omega

end

/-- Splitting equal texts at the shorter prefix. -/
theorem append_cut {a b c d : List α} (h : a ++ b = c ++ d) (hl : a.length ≤ c.length) :
    ∃ e, c = a ++ e ∧ b = e ++ d := by
  refine ⟨c.drop a.length, ?_, ?_⟩
  · have := congrArg (List.take a.length) h
    rw [List.take_left, List.take_append_of_le_length hl] at this
    conv => rhs; lhs; rw [this]
    exact (List.take_append_drop _ _).symm
  · have := congrArg (List.drop a.length) h
    rwa [List.drop_left, List.drop_append_of_le_length hl] at this

theorem Apart.sub {a b a' b' : List α} (h : Apart a b) (ha : ∀ t ∈ a', t ∈ a) (hb : ∀ t ∈ b', t ∈ b) :
    Apart a' b' := fun t h1 h2 => h t (ha t h1) (hb t h2)

theorem intoText_app (d e : List (DiffItem α)) : intoText (d ++ e) = intoText d ++ intoText e := by
  simp [intoText]
theorem fromText_app (d e : List (DiffItem α)) : fromText (d ++ e) = fromText d ++ fromText e := by
  simp [fromText]

theorem IsDiff.texts {o m : List α} {d : List (DiffItem α)} (h : IsDiff o m d) :
    fromText d = o ∧ intoText d = m := by
  induction h with
  | empty => exact ⟨rfl, rfl⟩
  | change _ _ => simp [fromText, intoText]
  | split _ _ _ _ _ _ h1 h2 =>
    simp only [fromText_app, intoText_app, h1.1, h1.2]
    simp only [fromText, intoText, List.flatMap_cons] at *
    simp [h2.1, h2.2]

theorem isDiff_nil_eq {o m : List α} {d : List (DiffItem α)} (h : IsDiff o m d) (ho : o = [])
    (hm : m = []) : d = [] := by
  cases h with
  | empty => rfl
  | change hne _ => simp [ho, hm] at hne
  | split hw _ _ _ _ _ =>
    simp at ho
    exact absurd ho.2.1 hw

/-- A landmark is kept, in one common piece. -/
theorem isDiff_landmark {o m : List α} {d : List (DiffItem α)} (h : IsDiff o m d) :
    ∀ u c v u' v' : List α, o = u ++ c ++ v → m = u' ++ c ++ v' → Landmark u c v u' v' →
    ∃ d1 x y d2, d = d1 ++ .common (x ++ c ++ y) :: d2 ∧ fromText d1 ++ x = u ∧ intoText d1 ++ x = u' ∧
      y ++ fromText d2 = v ∧ y ++ intoText d2 = v' ∧ (u = u' → d1 = []) ∧ (v = v' → d2 = []) := by
  induction h with
  | empty =>
    intro u c v u' v' ho _ L
    simp at ho
    exact absurd ho.2.1 L.nonempty
  | @change o m hne hno =>
    intro u c v u' v' ho hm L
    obtain ⟨t, ht⟩ := List.exists_mem_of_ne_nil _ L.nonempty
    exact absurd (by rw [hm]; simp [ht]) (hno t (by rw [ho]; simp [ht]))
  | @split o1 o2 m1 m2 w d1 d2 hw hl _ _ before after ih1 ih2 =>
    intro u c v u' v' ho hm L
    have hi : OccursAt (u ++ c ++ v) w o1.length := ⟨o1, o2, ho.symm, rfl⟩
    have hj : OccursAt (u' ++ c ++ v') w m1.length := ⟨m1, m2, hm.symm, rfl⟩
    rw [ho, hm] at hl
    have hw0 : 0 < w.length := List.length_pos_iff.2 hw
    have hc0 : 0 < c.length := List.length_pos_iff.2 L.nonempty
    rcases L.where hi hj hw hl with ⟨h1, h2⟩ | ⟨h1, h2⟩ | ⟨h1, h2, h3⟩
    · obtain ⟨e, he, he'⟩ := append_cut (a := o1 ++ w) (c := u) (b := o2) (d := c ++ v)
        (by simpa using ho) (by simpa using h1)
      obtain ⟨f, hf, hf'⟩ := append_cut (a := m1 ++ w) (c := u') (b := m2) (d := c ++ v')
        (by simpa using hm) (by simpa using h2)
      have L' : Landmark e c v f v' :=
        ⟨L.nonempty, L.before.sub (fun _ h => h) (by rw [he]; simp +contextual),
          L.behind, L.before'.sub (fun _ h => h) (by rw [hf]; simp +contextual), L.behind',
          L.forth.sub (by rw [he]; simp +contextual) (fun _ h => h),
          L.back.sub (fun _ h => h) (by rw [hf]; simp +contextual)⟩
      obtain ⟨e1, x, y, e2, hd, g1, g2, g3, g4, _, g6⟩ :=
        ih2 _ _ _ _ _ (by simpa using he') (by simpa using hf') L'
      refine ⟨d1 ++ .common w :: e1, x, y, e2, by simp [hd], ?_, ?_, g3, g4, ?_, g6⟩
      · rw [fromText_app, before.texts.1, he, ← g1]; simp [fromText]
      · rw [intoText_app, before.texts.2, hf, ← g2]; simp [intoText]
      · intro hu
        subst hu
        -- The landmark with the text in front of it would be a longer common substring.
        exfalso
        have := hl (u ++ c) ⟨⟨0, [], v, by simp, rfl⟩, ⟨0, [], v', by simp, rfl⟩⟩
        simp at this
        omega
    · obtain ⟨e, he, he'⟩ := append_cut (a := u ++ c) (c := o1) (b := v) (d := w ++ o2)
        (by simpa using ho.symm) (by simpa using h1)
      obtain ⟨f, hf, hf'⟩ := append_cut (a := u' ++ c) (c := m1) (b := v') (d := w ++ m2)
        (by simpa using hm.symm) (by simpa using h2)
      have L' : Landmark u c e u' f :=
        ⟨L.nonempty, L.before, L.behind.sub (fun _ h => h) (by rw [he']; simp +contextual), L.before',
          L.behind'.sub (fun _ h => h) (by rw [hf']; simp +contextual),
          L.forth.sub (fun _ h => h) (by rw [hf']; simp +contextual),
          L.back.sub (by rw [he']; simp +contextual) (fun _ h => h)⟩
      obtain ⟨e1, x, y, e2, hd, g1, g2, g3, g4, g5, _⟩ := ih1 _ _ _ _ _ he hf L'
      refine ⟨e1, x, y, e2 ++ .common w :: d2, by simp [hd], g1, g2, ?_, ?_, g5, ?_⟩
      · have := after.texts.1
        simp only [fromText] at this g3
        simp [fromText, he', ← g3, this]
      · have := after.texts.2
        simp only [intoText] at this g4
        simp [intoText, hf', ← g4, this]
      · intro hv
        subst hv
        exfalso
        have := hl (c ++ v) ⟨⟨u.length, u, [], by simp, rfl⟩, ⟨u'.length, u', [], by simp, rfl⟩⟩
        have hv' := congrArg List.length he'
        simp at this hv'
        omega
    · obtain ⟨x, hx, hx'⟩ := append_cut (a := o1) (c := u) (b := w ++ o2) (d := c ++ v)
        (by simpa using ho) h1
      obtain ⟨x', hy, hy'⟩ := append_cut (a := m1) (c := u') (b := w ++ m2) (d := c ++ v')
        (by simpa using hm) (by omega)
      have hxl : x.length = x'.length := by
        have := congrArg List.length hx; have := congrArg List.length hy
        simp at *; omega
      have hwl : x.length + c.length ≤ w.length := by
        have := congrArg List.length hx
        simp at this; omega
      obtain ⟨y, hw1, hv1⟩ := append_cut (a := x ++ c) (c := w) (b := v) (d := o2)
        (by simpa using hx'.symm) (by simpa using hwl)
      obtain ⟨y', hw2, hv2⟩ := append_cut (a := x' ++ c) (c := w) (b := v') (d := m2)
        (by simpa using hy'.symm) (by simp; omega)
      have hxy : x ++ (c ++ y) = x' ++ (c ++ y') := by
        rw [← List.append_assoc, ← List.append_assoc, ← hw1, ← hw2]
      obtain ⟨rfl, hcy⟩ := List.append_inj hxy hxl
      obtain rfl := List.append_cancel_left hcy
      refine ⟨d1, x, y, d2, by rw [hw1], by rw [before.texts.1, hx], by rw [before.texts.2, hy],
        by rw [after.texts.1, hv1], by rw [after.texts.2, hv2], ?_, ?_⟩
      · intro hu
        subst hu
        have h0 := Landmark.to_start hi hj hl (by omega) h1
        have h0' : m1.length = 0 := by omega
        have e1 := List.eq_nil_of_length_eq_zero h0
        have e2 := List.eq_nil_of_length_eq_zero h0'
        subst e1 e2
        exact isDiff_nil_eq before rfl rfl
      · intro hv
        subst hv
        have h0 := Landmark.to_end hi hj hl h3 h2
        have e1 : o2 = [] := by
          have := congrArg List.length ho
          simp only [List.length_append] at this h0
          exact List.eq_nil_of_length_eq_zero (by omega)
        have e2 : m2 = [] := by
          rw [e1] at hv1
          have : y ++ m2 = y ++ [] := by rw [← hv2, hv1]
          exact List.append_cancel_left this
        subst e1 e2
        exact isDiff_nil_eq after rfl rfl

end Gaspra
