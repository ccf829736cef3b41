/-!
# Finite automata
-/

namespace Gaspra

/-- A deterministic finite automaton with `k` states; a missing transition rejects. -/
structure DFA (α : Type _) (k : Nat) where
  start : Fin k
  step : Fin k → α → Option (Fin k)
  accept : Fin k → Bool

/-- The state reached from `q` by reading a word. -/
def DFA.run {α : Type _} {k : Nat} (A : DFA α k) : Fin k → List α → Option (Fin k)
  | q, [] => some q
  | q, t :: ts =>
    match A.step q t with
    | none => none
    | some r => A.run r ts

/-- The automaton accepts the word. -/
def DFA.Accepts {α : Type _} {k : Nat} (A : DFA α k) (w : List α) : Prop :=
  ∃ q, A.run A.start w = some q ∧ A.accept q = true

end Gaspra
