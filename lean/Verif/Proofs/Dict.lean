import Verif.Model.Py

/-! # Lemmas on the dict model -/

namespace Gaspra

variable {κ β : Type _} [DecidableEq κ]

theorem dget_dset (d : List (κ × β)) (k k' : κ) (v : β) :
    dget (dset d k v) k' = if k = k' then some v else dget d k' := by
  induction d with
  | nil => simp [dset, dget]
  | cons x d ih =>
    obtain ⟨a, b⟩ := x
    unfold dset
    split
    · next h => subst h; simp only [dget]; split <;> rfl
    · next h =>
      simp only [dget, ih]
      split <;> split <;> simp_all

theorem dget_dset_self (d : List (κ × β)) (k : κ) (v : β) : dget (dset d k v) k = some v := by
  simp [dget_dset]

theorem dget_dset_ne (d : List (κ × β)) {k k' : κ} (v : β) (h : k ≠ k') :
    dget (dset d k v) k' = dget d k' := by
  simp [dget_dset, h]

theorem dget_eq_none_iff {d : List (κ × β)} {k : κ} : dget d k = none ↔ ∀ x ∈ d, x.1 ≠ k := by
  induction d with
  | nil => simp [dget]
  | cons x d ih =>
    obtain ⟨a, b⟩ := x
    simp only [dget]
    split
    · next h => simp [h]
    · next h => simp [h, ih]

theorem mem_of_dget {d : List (κ × β)} {k : κ} {v : β} (h : dget d k = some v) : (k, v) ∈ d := by
  induction d with
  | nil => simp [dget] at h
  | cons x d ih =>
    obtain ⟨a, b⟩ := x
    simp only [dget] at h
    split at h
    · next h' => subst h'; simp at h; simp [h]
    · next h' => exact List.mem_cons_of_mem _ (ih h)

theorem dget_of_mem {d : List (κ × β)} (hn : (d.map Prod.fst).Nodup) {k : κ} {v : β}
    (h : (k, v) ∈ d) : dget d k = some v := by
  induction d with
  | nil => simp at h
  | cons x d ih =>
    obtain ⟨a, b⟩ := x
    simp only [List.map_cons, List.nodup_cons] at hn
    simp only [dget]
    rcases List.mem_cons.1 h with h | h
    · cases h; simp
    · split
      · next h' =>
        subst h'
        exact absurd (List.mem_map_of_mem (f := Prod.fst) h) hn.1
      · exact ih hn.2 h

theorem dset_keys (d : List (κ × β)) (k : κ) (v : β) :
    (dset d k v).map Prod.fst =
      if k ∈ d.map Prod.fst then d.map Prod.fst else d.map Prod.fst ++ [k] := by
  induction d with
  | nil => simp [dset]
  | cons x d ih =>
    obtain ⟨a, b⟩ := x
    simp only [dset]
    split
    · next h => simp [h]
    · next h =>
      simp only [List.map_cons, ih, List.mem_cons]
      have : ¬ k = a := fun e => h e.symm
      simp only [this, false_or]
      split <;> simp

theorem dset_nodup {d : List (κ × β)} (hn : (d.map Prod.fst).Nodup) (k : κ) (v : β) :
    ((dset d k v).map Prod.fst).Nodup := by
  rw [dset_keys]
  split
  · exact hn
  · next h =>
    rw [List.nodup_append]
    refine ⟨hn, by simp, ?_⟩
    intro a ha b hb
    simp at hb; subst hb
    rintro rfl; exact h ha

theorem dget_ddel {d : List (κ × β)} (hn : (d.map Prod.fst).Nodup) (k k' : κ) :
    dget (ddel d k) k' = if k = k' then none else dget d k' := by
  induction d with
  | nil => simp [ddel, dget]
  | cons x d ih =>
    obtain ⟨a, b⟩ := x
    simp only [List.map_cons, List.nodup_cons] at hn
    simp only [ddel]
    split
    · next h =>
      subst h
      simp only [dget]
      split
      · next h' =>
        subst h'
        rw [dget_eq_none_iff]
        rintro x hx rfl
        exact hn.1 (List.mem_map_of_mem (f := Prod.fst) hx)
      · rfl
    · next h =>
      simp only [dget, ih hn.2]
      split <;> split <;> simp_all

theorem ddel_sublist (d : List (κ × β)) (k : κ) : (ddel d k).Sublist d := by
  induction d with
  | nil => simp [ddel]
  | cons x d ih =>
    obtain ⟨a, b⟩ := x
    simp only [ddel]
    split
    · exact List.sublist_cons_self _ _
    · exact ih.cons_cons _

theorem ddel_nodup {d : List (κ × β)} (hn : (d.map Prod.fst).Nodup) (k : κ) :
    ((ddel d k).map Prod.fst).Nodup :=
  hn.sublist ((ddel_sublist d k).map _)

end Gaspra
