import Verif.Props.Shortest

set_option linter.unusedSectionVars false
set_option linter.unusedVariables false

/-! # What is read is never shorter than what is written -/

namespace Gaspra

theorem pair_of_snd {A B : Type _} {x : A × B} {b : B} (h : x.2 = b) : x = (x.1, b) := by
  rw [← h]

theorem encV_of_zero : encV 0 = [0] := rfl

theorem encAll_true_le (items : List (PatchItem UInt8)) :
    (encAll true items).length ≤ (encAll false items).length + 1 := by
  cases items with
  | nil => simp [encAll]
  | cons c rest => cases c <;> simp only [encAll, encV_of_zero, List.length_append, List.length_singleton] <;> omega

theorem encAll_shared_le (items : List (PatchItem UInt8)) :
    (encAll false items).length ≤ (encAll true items).length + 2 := by
  cases items with
  | nil => simp [encAll]
  | cons c rest => cases c <;> simp only [encAll, encV_of_zero, List.length_append, List.length_singleton] <;> omega

theorem vdeser_le {s r : List UInt8} {v : Nat} (h : vdeserializeInt s = .ok (v, r)) :
    v < 2 ^ 64 ∧ (encV v).length + r.length ≤ s.length := by
  obtain ⟨h1, a, used, h2, rfl, h3, _⟩ := C24_shortest h
  have e : encV v = a := by
    have := vser_encV h1
    rw [h2] at this
    exact (Except.ok.inj this).symm
  refine ⟨h1, ?_⟩
  rw [List.length_append, e]
  omega

theorem deserializeLoop_shortest : ∀ (f : Nat) (nb : Bool) (s : List UInt8)
    {items : List (PatchItem UInt8)}, deserializeLoop f nb s = (items, none) →
    (∀ c ∈ items, c.Fits ∧ c.isNonempty = true) ∧ (encAll nb items).length ≤ s.length := by
  intro f
  induction f with
  | zero =>
    intro nb s items h
    simp only [deserializeLoop] at h
    split at h
    · cases h; simp [encAll]
    · cases h
  | succ f ih =>
    intro nb s items h
    simp only [deserializeLoop] at h
    split at h
    · cases h; simp [encAll]
    · cases nb with
      | true =>
        simp only [if_true] at h
        cases hv : vdeserializeInt s with
        | error e => rw [hv] at h; cases h
        | ok x =>
          obtain ⟨n, s1⟩ := x
          obtain ⟨k1, k2⟩ := vdeser_le hv
          rw [hv] at h
          dsimp only at h
          split at h
          · next hn =>
            split at h
            · cases h
            · next hlen =>
              simp only [Prod.mk.injEq] at h
              obtain ⟨rfl, h2⟩ := h
              obtain ⟨a1, a2⟩ := ih false (s1.drop n) (pair_of_snd h2)
              have hl : (s1.take n).length = n := by simp; omega
              constructor
              · intro c hc
                simp only [List.mem_cons] at hc
                rcases hc with rfl | hc
                · refine ⟨by show (s1.take n).length < 2 ^ 64; rw [hl]; exact k1, ?_⟩
                  simp only [PatchItem.isNonempty, Bool.not_eq_true', List.isEmpty_eq_false_iff]
                  intro e
                  rw [e] at hl
                  exact hn hl.symm
                · exact a1 c hc
              · simp only [encAll, List.length_append, hl]
                simp only [List.length_drop] at a2
                omega
          · next hn =>
            have hn : n = 0 := by omega
            subst hn
            obtain ⟨a1, a2⟩ := ih false (s1.drop 0) h
            refine ⟨a1, ?_⟩
            have := encAll_true_le items
            rw [encV_of_zero] at k2
            simp only [List.length_singleton, List.drop_zero] at k2 a2
            omega
      | false =>
        simp only [Bool.false_eq_true, if_false] at h
        cases hv : vdeserializeInt s with
        | error e => rw [hv] at h; cases h
        | ok x =>
          obtain ⟨st, s1⟩ := x
          obtain ⟨k1, k2⟩ := vdeser_le hv
          rw [hv] at h
          dsimp only at h
          cases hw : vdeserializeInt s1 with
          | error e => rw [hw] at h; cases h
          | ok y =>
            obtain ⟨en, s2⟩ := y
            obtain ⟨l1, l2⟩ := vdeser_le hw
            rw [hw] at h
            dsimp only at h
            split at h
            · next hne =>
              simp only [Prod.mk.injEq] at h
              obtain ⟨rfl, h2⟩ := h
              obtain ⟨a1, a2⟩ := ih true s2 (pair_of_snd h2)
              constructor
              · intro c hc
                simp only [List.mem_cons] at hc
                rcases hc with rfl | hc
                · exact ⟨⟨k1, en, rfl, l1⟩, by simp [PatchItem.isNonempty, Ne.symm hne]⟩
                · exact a1 c hc
              · simp only [encAll, List.length_append, Option.getD_some]
                omega
            · obtain ⟨a1, a2⟩ := ih true s2 h
              refine ⟨a1, ?_⟩
              have := encAll_shared_le items
              have := (encV_length k1).1
              have := (encV_length l1).1
              omega

end Gaspra
