import Verif.Proofs.SAMinimal
import Verif.Proofs.SAQueries

/-!
# C63: the suffix automaton is the smallest automaton of its language
-/

namespace Gaspra

variable {α : Type _} [DecidableEq α]

/-- C63.  Reading a word from the root ends in a terminal node exactly if the word is a suffix of the
text. -/
theorem C63_accepts_suffixes (text : List α) : ∃ h, build text = some h ∧
    ∀ w, (∃ v nd, matchNode h 0 w = some v ∧ h[v]? = some nd ∧ nd.isTerminal = true) ↔
      w <:+ text := by
  obtain ⟨h, last, L, hb, B, _⟩ := build_spec text
  refine ⟨h, hb, fun w => ?_⟩
  obtain ⟨h1, h2⟩ := matchNode_root B.hinv w
  have hsfx : ∀ v, Eqv text w (L v) → (w <:+ text ↔ L v <:+ text) := by
    intro v hv
    have := hv text.length
    simpa [Occ] using this
  constructor
  · rintro ⟨v, nd, hv, hnd, ht⟩
    obtain ⟨hlt, he⟩ := h1 v hv
    exact (hsfx v he).2 ((B.term v hlt).1 (by simp [termOf, hnd, ht]))
  · intro hw
    cases hm : matchNode h 0 w with
    | none =>
      refine absurd ?_ (h2 hm)
      exact ⟨text.length, by simpa [Occ] using hw⟩
    | some v =>
      obtain ⟨hlt, he⟩ := h1 v hm
      have ht := (B.term v hlt).2 ((hsfx v he).1 hw)
      obtain ⟨nd, hnd⟩ := heap_get hlt
      exact ⟨v, nd, rfl, hnd, by simpa [termOf, hnd] using ht⟩

/-- C63.  No deterministic automaton that accepts exactly the suffixes of the text has fewer states
than `build` creates, not even one with missing transitions. -/
theorem C63_minimal (text : List α) : ∃ h, build text = some h ∧
    ∀ (k : Nat) (A : DFA α k), (∀ w, A.Accepts w ↔ w <:+ text) → h.length ≤ k := by
  obtain ⟨h, last, L, hb, B, _⟩ := build_spec text
  exact ⟨h, hb, fun k A hA => minimal_states B A hA⟩

-- "abb" needs five states: the clone for "b" cannot be avoided.
example : (build "abb".toList).map List.length = some 5 := by decide +kernel
example : (build "aaa".toList).map List.length = some 4 := by decide +kernel
example : (build "abb".toList).map (fun h => ["", "b", "bb", "abb", "a", "ab"].map fun w =>
    match matchNode h 0 w.toList with
    | none => false
    | some v => match h[v]? with
      | none => false
      | some nd => nd.isTerminal) = some [true, true, true, true, false, false] := by decide +kernel

/-- An automaton with two states for the suffixes of `[a]`: the hypothesis of `C63_minimal` is met. -/
def twoStates : DFA Nat 2 where
  start := 0
  step q t := if q = 0 ∧ t = 7 then some 1 else none
  accept _ := true

example : ∀ w, twoStates.Accepts w ↔ w <:+ [7] := by
  intro w
  rcases w with _ | ⟨t, _ | ⟨u, w⟩⟩
  · simp [DFA.Accepts, DFA.run, twoStates]
  · by_cases h : t = 7 <;> simp [DFA.Accepts, DFA.run, twoStates, h, List.suffix_cons_iff]
  · by_cases h : t = 7 <;> simp [DFA.Accepts, DFA.run, twoStates, h, List.suffix_cons_iff]

end Gaspra
