import Verif.Model.Difflib
import Verif.Proofs.Dict

/-!
# Proofs about `find_longest_match`
-/

set_option linter.unusedSectionVars false
set_option linter.unusedSimpArgs false
set_option linter.unusedVariables false

namespace Gaspra

variable {α : Type _} [DecidableEq α] {a b : List α}

/-! ### The indices of the elements -/

/-- Exactly the places of `x` among the first `i` elements, in increasing order. -/
def PlacesOf (b : List α) (i : Nat) (x : α) (l : List Nat) : Prop :=
  (∀ j, j ∈ l ↔ j < i ∧ b[j]? = some x) ∧ l.Pairwise (· < ·)

theorem chainB_places : ∀ (rest pre : List α) (d : List (α × List Nat)), b = pre ++ rest →
    (∀ x, PlacesOf b pre.length x ((dget d x).getD [])) →
    ∀ x, PlacesOf b b.length x ((dget (chainB pre.length rest d) x).getD [])
  | [], pre, d, e, h, x => by
    have := h x
    rw [List.append_nil] at e
    subst e
    exact this
  | y :: rest, pre, d, e, h, x => by
    have hl : (pre ++ [y]).length = pre.length + 1 := by simp
    rw [chainB, ← hl]
    refine chainB_places rest (pre ++ [y]) _ (by simp [e]) ?_ x
    intro z
    have hy : b[pre.length]? = some y := by simp [e]
    rw [hl, dget_dset]
    split
    · next hz =>
      subst hz
      have ⟨h1, h2⟩ := h y
      refine ⟨fun j => ?_, ?_⟩
      · simp only [Option.getD_some, List.mem_append, List.mem_singleton, h1]
        constructor
        · rintro (⟨h3, h4⟩ | rfl)
          · exact ⟨by omega, h4⟩
          · exact ⟨by omega, hy⟩
        · rintro ⟨h3, h4⟩
          by_cases hj : j = pre.length
          · exact .inr hj
          · exact .inl ⟨by omega, h4⟩
      · simp only [Option.getD_some]
        refine List.pairwise_append.2 ⟨h2, by simp, fun p hp q hq => ?_⟩
        simp only [List.mem_singleton] at hq
        subst hq
        exact ((h1 p).1 hp).1
    · next hz =>
      have ⟨h1, h2⟩ := h z
      refine ⟨fun j => ?_, h2⟩
      rw [h1]
      constructor
      · rintro ⟨h3, h4⟩; exact ⟨by omega, h4⟩
      · rintro ⟨h3, h4⟩
        refine ⟨?_, h4⟩
        rcases Nat.lt_succ_iff_lt_or_eq.1 h3 with h5 | rfl
        · exact h5
        · rw [hy] at h4; cases h4; exact absurd rfl hz

theorem chainB_spec (b : List α) (x : α) : PlacesOf b b.length x ((dget (chainB 0 b []) x).getD []) :=
  chainB_places b [] [] rfl (fun y => ⟨fun j => by simp [dget], by simp [dget]⟩) x

/-! ### Common blocks -/

/-- `a[i:i+n]` and `b[j:j+n]` are equal and have `n` elements. -/
def Block (a b : List α) (i j n : Nat) : Prop :=
  i + n ≤ a.length ∧ j + n ≤ b.length ∧ ∀ t < n, a[i + t]? = b[j + t]?

/-- The length of the longest common block that ends before `i` and `j`. -/
def endLen (a b : List α) : Nat → Nat → Nat
  | i + 1, j + 1 => if a[i]? = b[j]? then endLen a b i j + 1 else 0
  | _, _ => 0

theorem endLen_le : ∀ (i j : Nat), endLen a b i j ≤ i ∧ endLen a b i j ≤ j
  | 0, j => by simp [endLen]
  | i + 1, 0 => by simp [endLen]
  | i + 1, j + 1 => by
    have := endLen_le i j
    simp only [endLen]
    split <;> omega

theorem endLen_block : ∀ (i j : Nat), i ≤ a.length → j ≤ b.length →
    Block a b (i - endLen a b i j) (j - endLen a b i j) (endLen a b i j)
  | 0, j, h1, h2 => ⟨by simp [endLen], by simp [endLen]; exact h2, by simp [endLen]⟩
  | i + 1, 0, h1, h2 => ⟨by simp [endLen]; exact h1, by simp [endLen], by simp [endLen]⟩
  | i + 1, j + 1, h1, h2 => by
    have hl := endLen_le (a := a) (b := b) i j
    have ⟨h3, h4, h5⟩ := endLen_block i j (by omega) (by omega)
    simp only [endLen]
    split
    · next e =>
      refine ⟨by omega, by omega, fun t ht => ?_⟩
      by_cases hk : t = endLen a b i j
      · subst hk
        rw [show i + 1 - (endLen a b i j + 1) + endLen a b i j = i by omega,
          show j + 1 - (endLen a b i j + 1) + endLen a b i j = j by omega]
        exact e
      · have := h5 t (by omega)
        rw [show i + 1 - (endLen a b i j + 1) = i - endLen a b i j by omega,
          show j + 1 - (endLen a b i j + 1) = j - endLen a b i j by omega]
        exact this
    · exact ⟨by omega, by omega, fun t ht => by omega⟩

theorem Block.le_endLen : ∀ {n i j : Nat}, Block a b i j n → n ≤ endLen a b (i + n) (j + n)
  | 0, _, _, _ => Nat.zero_le _
  | n + 1, i, j, h => by
    have := Block.le_endLen (n := n) (i := i) (j := j)
      ⟨by have := h.1; omega, by have := h.2.1; omega, fun t ht => h.2.2 t (by omega)⟩
    rw [show i + (n + 1) = (i + n) + 1 by omega, show j + (n + 1) = (j + n) + 1 by omega, endLen,
      if_pos (h.2.2 n (by omega))]
    omega

/-! ### The loops -/

/-- The best block so far is the first longest one of those that end in the given places. -/
structure BestSoFar (a b : List α) (P : Nat → Nat → Prop) (st : MatchState) : Prop where
  block : Block a b st.besti st.bestj st.bestsize
  zero : st.bestsize = 0 → st.besti = 0 ∧ st.bestj = 0
  seen : 0 < st.bestsize → P (st.besti + st.bestsize) (st.bestj + st.bestsize)
  longest : ∀ i j, P i j → endLen a b i j ≤ st.bestsize
  first : ∀ i j, P i j → endLen a b i j = st.bestsize → 0 < st.bestsize →
    st.besti + st.bestsize < i ∨ st.besti + st.bestsize = i ∧ st.bestj + st.bestsize ≤ j

theorem BestSoFar.step {P : Nat → Nat → Prop} {st : MatchState} (B : BestSoFar a b P st) {i j : Nat}
    (hi : i < a.length) (hj : j < b.length)
    (hP : ∀ p q, P p q → p < i + 1 ∨ p = i + 1 ∧ q ≤ j + 1) (r : Nat) :
    BestSoFar a b (fun p q => P p q ∨ p = i + 1 ∧ q = j + 1)
      (if endLen a b (i + 1) (j + 1) > st.bestsize then
        { st with besti := i + 1 - endLen a b (i + 1) (j + 1), bestj := j + 1 - endLen a b (i + 1) (j + 1),
                  bestsize := endLen a b (i + 1) (j + 1), rounds := r }
      else { st with rounds := r }) := by
  have hle := endLen_le (a := a) (b := b) (i + 1) (j + 1)
  have hb := endLen_block (a := a) (b := b) (i + 1) (j + 1) hi hj
  generalize hk' : endLen a b (i + 1) (j + 1) = k at *
  split
  · next hk =>
    refine ⟨hb, fun h => ?_, fun _ => ?_, ?_, ?_⟩
    · simp only at h; omega
    · right; simp only; omega
    · rintro p q (h | ⟨rfl, rfl⟩)
      · have := B.longest p q h
        simp only; omega
      · simp only; omega
    · rintro p q (h | ⟨rfl, rfl⟩) he _
      · have := B.longest p q h
        simp only at he; omega
      · simp only at he ⊢; omega
  · next hk =>
    refine ⟨B.block, B.zero, fun h => .inl (B.seen h), ?_, ?_⟩
    · rintro p q (h | ⟨rfl, rfl⟩)
      · exact B.longest p q h
      · simp only; omega
    · rintro p q (h | ⟨rfl, rfl⟩) he h0
      · exact B.first p q h he h0
      · exact hP _ _ (B.seen h0)

/-- Places where no block ends can be added. -/
theorem BestSoFar.mono {P Q : Nat → Nat → Prop} {st : MatchState} (B : BestSoFar a b P st)
    (hPQ : ∀ i j, P i j → Q i j) (hQ : ∀ i j, Q i j → P i j ∨ endLen a b i j = 0) :
    BestSoFar a b Q st := by
  refine ⟨B.block, B.zero, fun h => hPQ _ _ (B.seen h), fun i j h => ?_, fun i j h he h0 => ?_⟩
  · rcases hQ i j h with h | h
    · exact B.longest i j h
    · omega
  · rcases hQ i j h with h | h
    · exact B.first i j h he h0
    · omega

theorem matchRow_spec {i : Nat} {x : α} {j2len : List (Nat × Nat)} (hx : a[i]? = some x)
    (hlen : ∀ j, lenBefore j2len j = endLen a b i j) :
    ∀ (js : List Nat) (new : List (Nat × Nat)) (st : MatchState) (P : Nat → Nat → Prop),
    (∀ j ∈ js, b[j]? = some x) → js.Pairwise (· < ·) → BestSoFar a b P st →
    (∀ p q, P p q → p < i + 1 ∨ p = i + 1 ∧ ∀ j ∈ js, q ≤ j + 1) →
    BestSoFar a b (fun p q => P p q ∨ p = i + 1 ∧ ∃ j ∈ js, q = j + 1) (matchRow i j2len js new st).2 ∧
    (∀ j, dget (matchRow i j2len js new st).1 j =
      if j ∈ js then some (endLen a b (i + 1) (j + 1)) else dget new j) ∧
    (matchRow i j2len js new st).2.rounds = st.rounds + js.length
  | [], new, st, P, _, _, B, _ => by
    refine ⟨B.mono (fun _ _ => .inl) ?_, by simp [matchRow], by simp [matchRow]⟩
    rintro p q (h | ⟨_, j, h, _⟩)
    · exact .inl h
    · simp at h
  | j :: js, new, st, P, hjs, hp, B, hP => by
    have hia : i < a.length := (List.getElem?_eq_some_iff.1 hx).1
    have hj := hjs j (List.mem_cons_self ..)
    have hjb : j < b.length := (List.getElem?_eq_some_iff.1 hj).1
    have hk : lenBefore j2len j + 1 = endLen a b (i + 1) (j + 1) := by
      rw [hlen, endLen, if_pos (by rw [hx, hj])]
    have ⟨hp1, hp2⟩ := List.pairwise_cons.1 hp
    have B' := B.step hia hjb (fun p q h => (hP p q h).imp_right
      (fun h => ⟨h.1, h.2 j (List.mem_cons_self ..)⟩)) (st.rounds + 1)
    simp only [matchRow, hk]
    generalize hst : (if endLen a b (i + 1) (j + 1) > st.bestsize then
        { st with besti := i + 1 - endLen a b (i + 1) (j + 1), bestj := j + 1 - endLen a b (i + 1) (j + 1),
                  bestsize := endLen a b (i + 1) (j + 1), rounds := st.rounds + 1 }
      else { st with rounds := st.rounds + 1 } : MatchState) = st' at B' ⊢
    have hr : st'.rounds = st.rounds + 1 := by rw [← hst]; split <;> rfl
    have ⟨h1, h2, h3⟩ := matchRow_spec hx hlen js (dset new j (endLen a b (i + 1) (j + 1))) st' _
      (fun j' h => hjs j' (List.mem_cons_of_mem _ h)) hp2 B' (by
        rintro p q (h | ⟨rfl, rfl⟩)
        · exact (hP p q h).imp_right (fun h => ⟨h.1, fun j' h' => h.2 j' (List.mem_cons_of_mem _ h')⟩)
        · exact .inr ⟨rfl, fun j' h' => by have := hp1 j' h'; omega⟩)
    refine ⟨h1.mono ?_ ?_, fun j' => ?_, by rw [h3, hr, List.length_cons]; omega⟩
    · rintro p q ((h | ⟨rfl, rfl⟩) | ⟨rfl, j', h, rfl⟩)
      · exact .inl h
      · exact .inr ⟨rfl, j, List.mem_cons_self .., rfl⟩
      · exact .inr ⟨rfl, j', List.mem_cons_of_mem _ h, rfl⟩
    · rintro p q (h | ⟨rfl, j', h, rfl⟩)
      · exact .inl (.inl (.inl h))
      · rcases List.mem_cons.1 h with rfl | h
        · exact .inl (.inl (.inr ⟨rfl, rfl⟩))
        · exact .inl (.inr ⟨rfl, j', h, rfl⟩)
    · rw [h2, dget_dset]
      by_cases h : j' = j
      · subst h; simp
      · by_cases h' : j' ∈ js <;> simp [h, h', Ne.symm h]

/-- How many elements of `b` equal each element of `a`, together. -/
def equalPairs (a b : List α) : Nat := (a.map (fun x => (b.filter (· = x)).length)).sum

theorem PlacesOf.length : ∀ {b : List α} {x : α} {l : List Nat}, PlacesOf b b.length x l →
    l.length = (b.filter (· = x)).length := by
  intro b x l ⟨h1, h2⟩
  have key : ∀ (b : List α) (o : Nat), ∃ l' : List Nat, l'.Pairwise (· < ·) ∧
      l'.length = (b.filter (· = x)).length ∧ (∀ j, j ∈ l' ↔ o ≤ j ∧ b[j - o]? = some x) := by
    intro b
    induction b with
    | nil => intro o; exact ⟨[], by simp, by simp, by simp⟩
    | cons y b ih =>
      intro o
      obtain ⟨l', p, q, r⟩ := ih (o + 1)
      have hr : ∀ j, j ≠ o → (j ∈ l' ↔ o ≤ j ∧ (y :: b)[j - o]? = some x) := by
        intro j hj
        rw [r]
        by_cases h : o + 1 ≤ j
        · rw [show j - o = (j - (o + 1)) + 1 by omega, List.getElem?_cons_succ]
          simp [h]; omega
        · constructor <;> (intro h'; omega)
      have ho : o ∉ l' := fun h => by have := ((r o).1 h).1; omega
      by_cases hy : y = x
      · refine ⟨o :: l', List.pairwise_cons.2 ⟨fun j hj => ?_, p⟩, by simp [hy, q], fun j => ?_⟩
        · have := ((r j).1 hj).1; omega
        · by_cases hj : j = o
          · subst hj; simp [hy]
          · rw [List.mem_cons, ← hr j hj]; simp [hj]
      · refine ⟨l', p, by simp [hy, q], fun j => ?_⟩
        by_cases hj : j = o
        · subst hj; simp [hy, ho]
        · exact hr j hj
  obtain ⟨l', p, q, r⟩ := key b 0
  rw [← q]
  have hmem : ∀ j, j ∈ l ↔ j ∈ l' := by
    intro j
    rw [h1, r]
    simp only [Nat.zero_le, Nat.sub_zero, true_and]
    exact ⟨fun h => h.2, fun h => ⟨(List.getElem?_eq_some_iff.1 h).1, h⟩⟩
  have n1 : l.Nodup := h2.imp (fun h => Nat.ne_of_lt h)
  have n2 : l'.Nodup := p.imp (fun h => Nat.ne_of_lt h)
  exact ((List.perm_ext_iff_of_nodup n1 n2).2 hmem).length_eq

theorem matchRows_spec : ∀ (rest pre : List α) (j2len : List (Nat × Nat)) (st : MatchState), a = pre ++ rest →
    (∀ j, lenBefore j2len j = endLen a b pre.length j) →
    BestSoFar a b (fun p q => p ≤ pre.length ∧ q ≤ b.length) st →
    BestSoFar a b (fun p q => p ≤ a.length ∧ q ≤ b.length)
      (matchRows (chainB 0 b []) pre.length rest j2len st) ∧
    (matchRows (chainB 0 b []) pre.length rest j2len st).rounds = st.rounds + equalPairs rest b
  | [], pre, j2len, st, e, _, B => by
    rw [List.append_nil] at e
    subst e
    exact ⟨B, by simp [matchRows, equalPairs]⟩
  | x :: rest, pre, j2len, st, e, hlen, B => by
    have hx : a[pre.length]? = some x := by simp [e]
    have hpl := chainB_spec b x
    have hcount := hpl.length
    have ⟨hm, hpw⟩ := hpl
    have ⟨h1, h2, h3⟩ := matchRow_spec hx hlen ((dget (chainB 0 b []) x).getD []) [] st _
      (fun j h => ((hm j).1 h).2) hpw B (fun p q h => .inl (by omega))
    have hl : (pre ++ [x]).length = pre.length + 1 := by simp
    rw [matchRows, ← hl]
    have hzero : ∀ j, j ∉ (dget (chainB 0 b []) x).getD [] → endLen a b (pre.length + 1) (j + 1) = 0 := by
      intro j hj
      rw [endLen, if_neg]
      intro h
      rw [hx] at h
      exact hj ((hm j).2 ⟨(List.getElem?_eq_some_iff.1 h.symm).1, h.symm⟩)
    have ⟨r1, r2⟩ := matchRows_spec rest (pre ++ [x])
      (matchRow pre.length j2len ((dget (chainB 0 b []) x).getD []) [] st).1
      (matchRow pre.length j2len ((dget (chainB 0 b []) x).getD []) [] st).2 (by simp [e])
      (by
        intro j
        rw [hl]
        cases j with
        | zero => simp [lenBefore, endLen]
        | succ j =>
          rw [lenBefore, h2]
          split
          · rfl
          · next h => rw [hzero j h]; rfl)
      (by
        rw [hl]
        refine h1.mono ?_ ?_
        · rintro p q (h | ⟨rfl, j, h, rfl⟩)
          · exact ⟨by omega, h.2⟩
          · exact ⟨by omega, ((hm j).1 h).1⟩
        · rintro p q ⟨hp, hq⟩
          by_cases hp' : p ≤ pre.length
          · exact .inl (.inl ⟨hp', hq⟩)
          · obtain rfl : p = pre.length + 1 := by omega
            cases q with
            | zero => exact .inr (by simp [endLen])
            | succ j =>
              by_cases hj : j ∈ (dget (chainB 0 b []) x).getD []
              · exact .inl (.inr ⟨rfl, j, hj, rfl⟩)
              · exact .inr (hzero j hj))
    refine ⟨r1, ?_⟩
    rw [r2, h3, hcount]
    simp only [equalPairs, List.map_cons, List.sum_cons]
    omega

/-- What `find_longest_match` returns. -/
theorem findLongestMatch_spec (a b : List α) :
    BestSoFar a b (fun p q => p ≤ a.length ∧ q ≤ b.length) (findLongestMatch a b) ∧
    (findLongestMatch a b).rounds = equalPairs a b := by
  have h := matchRows_spec (a := a) (b := b) a [] [] ⟨0, 0, 0, 0⟩ rfl
    (fun j => by cases j <;> simp [lenBefore, endLen, dget])
    ⟨⟨Nat.zero_le _, Nat.zero_le _, fun t h => by simp at h⟩, fun _ => ⟨rfl, rfl⟩, fun h => by simp at h,
      fun i j h => by
        obtain rfl : i = 0 := by simpa using h.1
        simp [endLen],
      fun i j _ _ h => by simp at h⟩
  simp only [List.length_nil] at h
  unfold findLongestMatch
  generalize matchRows (chainB 0 b []) 0 a [] ⟨0, 0, 0, 0⟩ = st at h ⊢
  obtain ⟨B, hr⟩ := h
  have noLonger : ∀ i j n, Block a b i j n → n ≤ st.bestsize := fun i j n hb =>
    Nat.le_trans hb.le_endLen (B.longest _ _ ⟨hb.1, hb.2.1⟩)
  have hleft : ∀ f, extendLeft a b f st = st := by
    intro f
    cases f with
    | zero => rfl
    | succ f =>
      rw [extendLeft, if_neg]
      rintro ⟨h1, h2, h3⟩
      have hb : Block a b (st.besti - 1) (st.bestj - 1) (st.bestsize + 1) := by
        refine ⟨by have := B.block.1; omega, by have := B.block.2.1; omega, fun t ht => ?_⟩
        cases t with
        | zero => exact h3
        | succ t =>
          rw [show st.besti - 1 + (t + 1) = st.besti + t by omega,
            show st.bestj - 1 + (t + 1) = st.bestj + t by omega]
          exact B.block.2.2 t (by omega)
      have := noLonger _ _ _ hb
      omega
  have hright : ∀ f, extendRight a b f st = st := by
    intro f
    cases f with
    | zero => rfl
    | succ f =>
      rw [extendRight, if_neg]
      rintro ⟨h1, h2, h3⟩
      have hb : Block a b st.besti st.bestj (st.bestsize + 1) := by
        refine ⟨by omega, by omega, fun t ht => ?_⟩
        by_cases h : t = st.bestsize
        · subst h; exact h3
        · exact B.block.2.2 t (by omega)
      have := noLonger _ _ _ hb
      omega
  rw [hleft, hright]
  exact ⟨B, by rw [hr]; simp⟩

end Gaspra
