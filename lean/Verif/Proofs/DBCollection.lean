import Verif.Proofs.Dict
import Verif.Spec.DBCollection

set_option linter.unusedSectionVars false
set_option linter.unusedSimpArgs false
set_option linter.unusedVariables false

/-! # `DBCollection` is a dictionary -/

namespace Gaspra

variable {τ β : Type _} [DecidableEq τ]

theorem filter_tag_nil {rows : Coll τ β} {k : τ} :
    rows.filter (fun r => r.1 = k) = [] ↔ dget rows k = none := by
  rw [dget_eq_none_iff, List.filter_eq_nil_iff]
  simp

theorem filter_tag_head {rows : Coll τ β} {k : τ} {v : β} (h : dget rows k = some v) :
    ∃ rest, rows.filter (fun r => r.1 = k) = (k, v) :: rest := by
  induction rows with
  | nil => cases h
  | cons x rows ih =>
    obtain ⟨a, b⟩ := x
    simp only [dget] at h
    split at h
    · next e => subst e; cases h; exact ⟨rows.filter (fun r => r.1 = a), by simp⟩
    · next e =>
      obtain ⟨rest, hr⟩ := ih h
      exact ⟨rest, by simp [e, hr]⟩

theorem collGet_eq (rows : Coll τ β) (k : τ) : collGet rows k = orKeyError (dget rows k) := by
  unfold collGet
  cases h : dget rows k with
  | none => rw [filter_tag_nil.2 h]; rfl
  | some v => obtain ⟨rest, hr⟩ := filter_tag_head h; rw [hr]; rfl

theorem collContains_eq (rows : Coll τ β) (k : τ) : collContains rows k = dmem rows k := by
  unfold collContains dmem
  cases h : dget rows k with
  | none => rw [filter_tag_nil.2 h]; rfl
  | some v => obtain ⟨rest, hr⟩ := filter_tag_head h; rw [hr]; rfl

theorem map_set_absent {rows : Coll τ β} {k : τ} (v : β) (h : ∀ x ∈ rows, x.1 ≠ k) :
    (rows.map fun r => if r.1 = k then (r.1, v) else r) = rows := by
  conv => rhs; rw [← List.map_id rows]
  apply List.map_congr_left
  intro x hx
  rw [if_neg (h x hx)]; rfl

theorem collSet_eq {rows : Coll τ β} (hn : (rows.map Prod.fst).Nodup) (k : τ) (v : β) :
    collSet rows k v = dset rows k v := by
  induction rows with
  | nil => simp [collSet, dset]
  | cons x rows ih =>
    obtain ⟨a, b⟩ := x
    simp only [List.map_cons, List.nodup_cons] at hn
    have ih := ih hn.2
    unfold collSet at ih ⊢
    simp only [List.any_cons, List.map_cons, dset]
    by_cases e : a = k
    · subst e
      simp only [decide_true, Bool.true_or, if_true]
      rw [map_set_absent]
      intro y hy e
      exact hn.1 (e ▸ List.mem_map_of_mem (f := Prod.fst) hy)
    · simp only [e, decide_false, Bool.false_or, if_false]
      rw [← ih]
      split <;> simp

theorem ddel_eq_filter {rows : Coll τ β} (hn : (rows.map Prod.fst).Nodup) (k : τ) :
    rows.filter (fun r => ¬ r.1 = k) = ddel rows k := by
  induction rows with
  | nil => rfl
  | cons x rows ih =>
    obtain ⟨a, b⟩ := x
    simp only [List.map_cons, List.nodup_cons] at hn
    have ih := ih hn.2
    simp only [ddel]
    by_cases e : a = k
    · subst e
      simp only [List.filter_cons, not_true_eq_false, decide_false, Bool.false_eq_true, if_false, if_true]
      rw [List.filter_eq_self]
      intro y hy
      simp only [decide_eq_true_eq]
      intro e
      exact hn.1 (e ▸ List.mem_map_of_mem (f := Prod.fst) hy)
    · simp only [List.filter_cons, e, not_false_eq_true, decide_true, if_true, if_false]
      rw [ih]

theorem ddel_absent {rows : Coll τ β} {k : τ} (h : dget rows k = none) : ddel rows k = rows := by
  induction rows with
  | nil => rfl
  | cons x rows ih =>
    obtain ⟨a, b⟩ := x
    simp only [dget] at h
    split at h
    · cases h
    · next e => simp only [ddel, if_neg e, ih h]

theorem collDel_eq {rows : Coll τ β} (hn : (rows.map Prod.fst).Nodup) (k : τ) :
    collDel rows k = (ddel rows k, if dmem rows k then none else some .keyError) := by
  unfold collDel dmem
  cases h : dget rows k with
  | none =>
    rw [filter_tag_nil.2 h]
    simp [ddel_absent h]
  | some v =>
    obtain ⟨rest, hr⟩ := filter_tag_head h
    rw [hr]
    simp only [List.length_cons, Nat.add_eq_zero_iff, Nat.succ_ne_self, and_false, if_false,
      Option.isSome_some, if_true]
    rw [← ddel_eq_filter hn]

theorem collAfter_spec (ops : List (CollOp τ β)) :
    ((collAfter ops).map Prod.fst).Nodup ∧ ∀ k, dget (collAfter ops) k = mapAfter ops k := by
  unfold collAfter mapAfter
  have key : ∀ (ops : List (CollOp τ β)) (rows : Coll τ β) (m : τ → Option β),
      (rows.map Prod.fst).Nodup → (∀ k, dget rows k = m k) →
      ((ops.foldl collStep rows).map Prod.fst).Nodup ∧
        ∀ k, dget (ops.foldl collStep rows) k = ops.foldl mapStep m k := by
    intro ops
    induction ops with
    | nil => intro rows m h1 h2; exact ⟨h1, h2⟩
    | cons o ops ih =>
      intro rows m h1 h2
      simp only [List.foldl_cons]
      apply ih
      · cases o with
        | set k v => simp only [collStep]; rw [collSet_eq h1]; exact dset_nodup h1 _ _
        | del k => simp only [collStep]; rw [collDel_eq h1]; exact ddel_nodup h1 _
      · intro k'
        cases o with
        | set k v =>
          simp only [collStep, mapStep]
          rw [collSet_eq h1, dget_dset, h2]
          by_cases e : k = k'
          · rw [if_pos e, if_pos e.symm]
          · rw [if_neg e, if_neg (fun h => e h.symm)]
        | del k =>
          simp only [collStep, mapStep]
          rw [collDel_eq h1, dget_ddel h1, h2]
          by_cases e : k = k'
          · rw [if_pos e, if_pos e.symm]
          · rw [if_neg e, if_neg (fun h => e h.symm)]
  exact key ops [] _ (by simp) (by simp [dget])

end Gaspra
