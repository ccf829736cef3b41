import Verif.Proofs.MultiLoop

/-!
# C07, C08: longest common substring of several strings
-/

namespace Gaspra

variable {α : Type _} [DecidableEq α]

/-- C07.  For at least one string, `find_lcs_multiple` terminates with one position per string and
a length `n`.  There is a word of length `n` that occurs in every string, for the first time at
the given position, and no word common to all strings is longer. -/
theorem C07_find_lcs_multiple (strings : List (List α)) (hne : strings ≠ []) :
    ∃ (ps : List Nat) (n : Nat) (w : List α),
      findLcsMultiple strings = some (ps, some n) ∧ w.length = n ∧ ps.length = strings.length ∧
      (∀ (k : Nat) s p, strings[k]? = some s → ps[k]? = some p →
        OccursAt s w p ∧ ∀ j, OccursAt s w j → p ≤ j) ∧
      ∀ x, (∀ s ∈ strings, Substring s x) → x.length ≤ n :=
  findLcsMultiple_spec hne

example : findLcsMultiple ["abcabc".toList, "xbcab".toList, "zcabcab".toList] =
    some ([1, 1, 3], some 4) := by decide +kernel
example : findLcsMultiple ["abc".toList, "".toList] = some ([0, 0], some 0) := by decide +kernel
/-- One string: it is its own longest common substring. -/
example : findLcsMultiple ["aba".toList] = some ([0], some 3) := by decide +kernel

/-- C07, no strings. -/
theorem C07_no_strings : findLcsMultiple ([] : List (List α)) = some ([], none) := by
  obtain ⟨h, _, _, hb, _⟩ := build_spec (concatTokens Sum.inr ([] : List (List (α ⊕ Nat))))
  simp only [findLcsMultiple, multiFindLcs, List.map_nil, hb, List.length_nil, if_true]

/-- C07, linear time: the loop of `find_lcs_multiple` ends within `5 n + 2` iterations, where `n`
is the total length of the strings and their separators; more iterations change nothing. -/
theorem C07_iterations (strings : List (List α)) (hne : strings ≠ []) :
    ∃ h st, build (concatTokens Sum.inr (strings.map (·.map Sum.inl))) = some h ∧
      ∀ fuel, 5 * (strings.map fun s => s.length + 1).sum + 2 ≤ fuel →
        multiLoop (fun _ (t : α ⊕ Nat) => t.isRight) h strings.length fuel ⟨[0], [], 0, 0⟩
          = some st := by
  obtain ⟨h, last, L, hb, B, h1, h2, h3⟩ := build_spec (sepText 0 strings)
  obtain ⟨st, l1, _⟩ := multiLoop_spec B
  refine ⟨h, st, by rw [concatTokens_eq, hb], fun fuel hf => l1 fuel ?_⟩
  have hlen : ∀ (ss : List (List α)) k, (sepText k ss).length =
      (ss.map fun s => s.length + 1).sum := by
    intro ss
    induction ss with
    | nil => intro k; rfl
    | cons s ss ih => intro k; simp [sepText, ih]; omega
  have he := edges_length_le B
  rw [edges_length] at he
  rw [hlen] at h2 he
  unfold multiFuel
  omega

/-- C08 is refuted.  `Separator(0) == (0,)` and both hash alike.  Take the strings
`[7]` and `[7, (0,)]`; with the values written as numbers, `(0,)` and `Separator(0)` are both `0`,
and `Separator(1)` is `1`.  The word `[7]` is common to both strings and nothing longer is, but
`find_lcs_multiple` never returns length 1 — whichever of the two equal objects happens to be the
dictionary key in each node (`isSep`, free on the value `0`). -/
theorem C08_separator_collision (isSep : Nat → Nat → Bool) (h1 : ∀ i, isSep i 1 = true)
    (h7 : ∀ i, isSep i 7 = false) :
    (∃ ps n, multiFindLcs id isSep [[7], [7, 0]] = some (ps, some n) ∧ n ≠ 1) ∧
      (∀ s ∈ [[7], [7, 0]], Substring s [7]) ∧
      ∀ x : List Nat, (∀ s ∈ [[7], [7, 0]], Substring s x) → x.length ≤ 1 := by
  refine ⟨?_, ?_, ?_⟩
  · let k : Nat → Nat → Bool := fun i t =>
      if t = 1 then true else if t = 7 then false
      else if i = 0 then isSep 0 0 else if i = 1 then isSep 1 0 else isSep 3 0
    have hk : multiFindLcs id isSep [[7], [7, 0]] = multiFindLcs id k [[7], [7, 0]] := by
      have hb : build (concatTokens id [[7], [7, 0]]) = build [7, 0, 7, 0, 1] := rfl
      obtain ⟨h, hh⟩ : ∃ h, build [7, 0, 7, 0, 1] = some h := by
        obtain ⟨h, _, _, hb, _⟩ := build_spec [7, 0, 7, 0, 1]
        exact ⟨h, hb⟩
      simp only [multiFindLcs, hb, hh]
      have hc : (build [7, 0, 7, 0, 1]).map (·.map (·.transitions)) =
          some [[(7, 1), (0, 2), (1, 5)], [(0, 2)], [(7, 3), (1, 5)], [(0, 4)], [(1, 5)], []] := by
        decide +kernel
      rw [hh] at hc
      simp only [Option.map_some, Option.some.injEq] at hc
      rw [multiLoop_congr (k1 := isSep) (k2 := k)]
      intro i nd t c hnd htc
      have e : (h.map (·.transitions))[i]? = some nd.transitions := by simp [hnd]
      rw [hc] at e
      match i, e with
      | 0, e => simp at e; rw [← e] at htc; simp at htc
                rcases htc with ⟨rfl, _⟩ | ⟨rfl, _⟩ | ⟨rfl, _⟩ <;> simp [k, h1, h7]
      | 1, e => simp at e; rw [← e] at htc; simp at htc
                rcases htc with ⟨rfl, _⟩; simp [k]
      | 2, e => simp at e; rw [← e] at htc; simp at htc
                rcases htc with ⟨rfl, _⟩ | ⟨rfl, _⟩ <;> simp [k, h1, h7]
      | 3, e => simp at e; rw [← e] at htc; simp at htc
                rcases htc with ⟨rfl, _⟩; simp [k]
      | 4, e => simp at e; rw [← e] at htc; simp at htc
                rcases htc with ⟨rfl, _⟩; simp [k, h1]
      | 5, e => simp at e; rw [e] at htc; simp at htc
      | i + 6, e => simp at e
    rw [hk]
    have hcases : ∀ b0 b1 b3 : Bool, multiFindLcs id (fun i t =>
        if t = 1 then true else if t = 7 then false
        else if i = 0 then b0 else if i = 1 then b1 else b3) [[7], [7, 0]] =
        some ([0, 0], some (if b3 then 2 else 0)) := by decide +kernel
    refine ⟨[0, 0], _, hcases (isSep 0 0) (isSep 1 0) (isSep 3 0), ?_⟩
    split <;> decide
  · intro s hs
    simp at hs
    rcases hs with rfl | rfl
    · exact ⟨0, [], [], rfl, rfl⟩
    · exact ⟨0, [], [0], rfl, rfl⟩
  · intro x hx
    obtain ⟨_, p, q, h, _⟩ := hx [7] (by simp)
    have := congrArg List.length h
    simp at this
    omega

/-- The hypotheses of `C08_separator_collision` can be met. -/
example : ∃ isSep : Nat → Nat → Bool, (∀ i, isSep i 1 = true) ∧ ∀ i, isSep i 7 = false :=
  ⟨fun _ t => t == 1, fun _ => rfl, fun _ => rfl⟩

end Gaspra
