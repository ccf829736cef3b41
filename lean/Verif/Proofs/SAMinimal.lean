import Verif.Proofs.SASize
import Verif.Spec.Automata

/-!
# The suffix automaton is minimal
-/

set_option linter.unusedSectionVars false
set_option linter.unusedSimpArgs false
set_option linter.unusedVariables false

namespace Gaspra

variable {α : Type _} [DecidableEq α]

theorem DFA.run_append {k : Nat} (A : DFA α k) : ∀ (u v : List α) (q : Fin k),
    A.run q (u ++ v) = (A.run q u).bind (A.run · v)
  | [], v, q => rfl
  | t :: u, v, q => by
    simp only [List.cons_append, DFA.run]
    cases A.step q t with
    | none => rfl
    | some r => exact A.run_append u v r

/-- The right context of a word determines its end positions. -/
theorem occ_iff_suffix {s w : List α} {e : Nat} :
    Occ s w e ↔ e ≤ s.length ∧ w ++ s.drop e <:+ s := by
  unfold Occ
  constructor
  · rintro ⟨he, p, hp⟩
    refine ⟨he, p, ?_⟩
    rw [← List.append_assoc, hp, List.take_append_drop]
  · rintro ⟨he, p, hp⟩
    refine ⟨he, p, ?_⟩
    have h := (List.take_append_drop e s)
    rw [← List.append_assoc] at hp
    have := hp.trans h.symm
    exact List.append_inj_left' this rfl

theorem minimal_states {s : List α} {h : Heap α} {last : Nat} {L : Nat → List α}
    (B : Built s h last L) {k : Nat} (A : DFA α k) (hA : ∀ w, A.Accepts w ↔ w <:+ s) :
    h.length ≤ k := by
  have I := B.hinv.inv
  have hst : ∀ i, i < h.length → ∃ q, A.run A.start (L i) = some q := by
    intro i hi
    obtain ⟨e, he⟩ := I.sub hi
    obtain ⟨q, hq, _⟩ := (hA _).2 (occ_iff_suffix.1 he).2
    rw [A.run_append] at hq
    cases hr : A.run A.start (L i) with
    | none => simp [hr] at hq
    | some r => exact ⟨r, rfl⟩
  let f : Nat → Nat := fun i => match A.run A.start (L i) with
    | none => 0
    | some q => q.val
  have hmem : ∀ i ∈ List.range h.length, f i < k := by
    intro i hi
    obtain ⟨q, hq⟩ := hst i (List.mem_range.1 hi)
    simp only [f, hq]
    exact q.isLt
  have hinj : ∀ i ∈ List.range h.length, ∀ j ∈ List.range h.length, f i = f j → i = j := by
    intro i hi j hj hf
    have hi := List.mem_range.1 hi
    have hj := List.mem_range.1 hj
    obtain ⟨q, hq⟩ := hst i hi
    obtain ⟨r, hr⟩ := hst j hj
    simp only [f, hq, hr] at hf
    have hqr : q = r := Fin.ext hf
    subst hqr
    apply I.eq_of_eqv hi hj
    intro e
    rw [occ_iff_suffix, occ_iff_suffix, ← hA, ← hA]
    simp only [DFA.Accepts, A.run_append, hq, hr]
  have := length_le_of_inj (f := f) List.nodup_range hmem hinj
  simpa using this

end Gaspra
