import Verif.Proofs.Changesets
import Verif.Spec.DiffExact

/-!
# The diff is the one that is meant
-/

set_option linter.unusedSectionVars false
set_option linter.unusedSimpArgs false
set_option linter.unusedVariables false

namespace Gaspra

variable {α : Type _}

theorem Valid.isDiff {i j : Nat} {x y : List α} {cs : Changeset α} (V : Valid i x j y cs)
    {s : List α} (hs : OccursAt s x i) : IsDiff x y (cs.asDiffStream s) := by
  induction V with
  | @leaf i j x y os ms h =>
    simp only [Changeset.asDiffStream]
    by_cases hx : x = []
    · by_cases hy : y = []
      · subst hx hy; simp [bothEmpty]; exact IsDiff.empty
      · have : ¬ bothEmpty y x = true := by simp [bothEmpty, hy]
        rw [if_neg this]
        exact IsDiff.change (.inr hy) h
    · have : ¬ bothEmpty y x = true := by simp [bothEmpty, hx]
      rw [if_neg this]
      exact IsDiff.change (.inl hx) h
  | @node i j x1 w x2 y1 y2 p s' hw hmax hfirst hfirstO hp hs' ih1 ih2 =>
    simp only [Changeset.asDiffStream]
    have e := hs.mid.slice (e := i + x1.length + w.length) rfl
    rw [e]
    have := IsDiff.split hw hmax hfirst hfirstO (ih1 hs.left) (ih2 hs.right)
    simpa using this

theorem IsDiff.nil {o m : List α} {d : List (DiffItem α)} (h : IsDiff o m d) (ho : o = [])
    (hm : m = []) : d = [] := by
  cases h with
  | empty => rfl
  | change hne => simp [ho, hm] at hne
  | split hw => simp at ho; exact absurd ho.2.1 hw

/-- The splitting of `o` and `m` is determined. -/
theorem isDiff_unique : ∀ (n : Nat) {o m : List α} {d d' : List (DiffItem α)}, o.length ≤ n →
    IsDiff o m d → IsDiff o m d' → d = d' := by
  intro n
  induction n with
  | zero =>
    intro o m d d' hn h h'
    have ho : o = [] := List.eq_nil_of_length_eq_zero (by omega)
    cases h with
    | empty =>
      exact (h'.nil rfl rfl).symm
    | change hne hno =>
      cases h' with
      | empty => simp at hne
      | change => rfl
      | split hw => simp at ho; exact absurd ho.2.1 hw
    | split hw => simp at ho; exact absurd ho.2.1 hw
  | succ n ih =>
    intro o m d d' hn h h'
    cases h with
    | empty =>
      exact (h'.nil rfl rfl).symm
    | change hne hno =>
      cases h' with
      | empty => simp at hne
      | change => rfl
      | split hw =>
        rename_i w _ _
        obtain ⟨t, ht⟩ := List.exists_mem_of_ne_nil _ hw
        exact absurd (by simp [ht]) (hno t (by simp [ht]))
    | @split o1 o2 m1 m2 w d1 d2 hw hl hm ho hb ha =>
      generalize eo : o1 ++ w ++ o2 = o at h' hl hm ho hn
      generalize em : m1 ++ w ++ m2 = m at h' hl hm ho
      cases h' with
      | empty => simp at eo; exact absurd eo.2.1 hw
      | change hne hno =>
        obtain ⟨t, ht⟩ := List.exists_mem_of_ne_nil _ hw
        refine absurd ?_ (hno t ?_)
        · rw [← em]; simp [ht]
        · rw [← eo]; simp [ht]
      | @split p1 p2 q1 q2 v e1 e2 hv hl' hm' ho' hb' ha' =>
        have cw : CommonSubstring (p1 ++ v ++ p2) (q1 ++ v ++ q2) w :=
          ⟨⟨o1.length, o1, o2, eo.symm, rfl⟩, ⟨m1.length, m1, m2, em.symm, rfl⟩⟩
        have cv : CommonSubstring (p1 ++ v ++ p2) (q1 ++ v ++ q2) v :=
          ⟨⟨p1.length, p1, p2, rfl, rfl⟩, ⟨q1.length, q1, q2, rfl, rfl⟩⟩
        have hlen : w.length = v.length := Nat.le_antisymm (hl' w cw) (hl v cv)
        have hq : m1.length = q1.length := Nat.le_antisymm
          (hm v q1.length cv hlen.symm ⟨q1, q2, rfl, rfl⟩)
          (hm' w m1.length cw hlen ⟨m1, m2, em.symm, rfl⟩)
        have em' : m1 ++ (w ++ m2) = q1 ++ (v ++ q2) := by simpa using em
        obtain ⟨e3, e4⟩ := List.append_inj em' hq
        obtain ⟨e5, e6⟩ := List.append_inj e4 hlen
        subst e3 e5 e6
        have hp : o1.length = p1.length := Nat.le_antisymm
          (ho p1.length ⟨p1, p2, rfl, rfl⟩) (ho' o1.length ⟨o1, o2, eo.symm, rfl⟩)
        have eo' : o1 ++ (w ++ o2) = p1 ++ (w ++ p2) := by simpa using eo
        obtain ⟨e7, e8⟩ := List.append_inj eo' hp
        have e9 := List.append_cancel_left e8
        subst e7 e9
        have := List.length_pos_iff.2 hw
        simp only [List.length_append] at hn
        rw [ih (by omega) hb hb', ih (by omega) ha ha']

end Gaspra
