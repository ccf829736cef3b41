import Verif.Proofs.SAQueries
import Verif.Proofs.MemoryTree

set_option linter.unusedSectionVars false
set_option linter.unusedSimpArgs false
set_option linter.unusedVariables false

/-! # The number of nodes visited to list all occurrences -/

namespace Gaspra

/-- Pigeonhole for a relation that is injective from right to left. -/
theorem length_le_of_rel {β γ : Type _} [DecidableEq γ] {Q : β → γ → Prop} : ∀ {l : List β} {E : List γ},
    l.Nodup → (∀ x ∈ l, ∃ y ∈ E, Q x y) → (∀ x ∈ l, ∀ x' ∈ l, ∀ y, Q x y → Q x' y → x = x') →
    l.length ≤ E.length
  | [], _, _, _, _ => by simp
  | a :: l, E, hn, h1, h2 => by
    obtain ⟨y, hy, hq⟩ := h1 a (by simp)
    have hn' := List.nodup_cons.1 hn
    have ih := length_le_of_rel (l := l) (E := E.erase y) hn'.2 (by
        intro x hx
        obtain ⟨z, hz, hzq⟩ := h1 x (by simp [hx])
        refine ⟨z, ?_, hzq⟩
        have : z ≠ y := by
          rintro rfl
          have := h2 a (by simp) x (by simp [hx]) z hq hzq
          subst this
          exact hn'.1 hx
        exact (List.mem_erase_of_ne this).2 hz)
      fun x hx x' hx' => h2 x (by simp [hx]) x' (by simp [hx'])
    rw [List.length_erase_of_mem hy] at ih
    have := List.length_pos_of_mem hy
    simp only [List.length_cons]
    omega

theorem exists_least {Q : Nat → Prop} (h : ∃ n, Q n) : ∃ n, Q n ∧ ∀ m, Q m → n ≤ m := by
  obtain ⟨n, hn⟩ := h
  induction n using Nat.strongRecOn with
  | ind n ih =>
    by_cases hm : ∃ m, m < n ∧ Q m
    · obtain ⟨m, h1, h2⟩ := hm
      exact ih m h1 h2
    · refine ⟨n, hn, fun m hq => Nat.le_of_not_lt fun hlt => hm ⟨m, hlt, hq⟩⟩

variable {α : Type _}

theorem cons_suffix_head {c d : α} {w x : List α} (h1 : c :: w <:+ x) (h2 : d :: w <:+ x) : c = d := by
  have := List.suffix_of_suffix_length_le h1 h2 (by simp)
  have := this.eq_of_length (by simp)
  simpa using this

/-- A word that is a proper suffix of another one, preceded by its letter there. -/
theorem suffix_cases_cons {u w : List α} (h : u <:+ w) : u = w ∨ ∃ c, c :: u <:+ w := by
  obtain ⟨t, ht⟩ := h
  rcases List.eq_nil_or_concat t with rfl | ⟨t', c, rfl⟩
  · exact Or.inl (by simpa using ht)
  · right
    refine ⟨c, t', ?_⟩
    rw [← ht]; simp

theorem nodes_le {s : List α} {n : Nat} {tr : Nat → α → Option Nat}
    {lk : Nat → Option Nat} {fe : Nat → Nat} {last : Nat} {L : Nat → List α}
    (I : SAInv s n tr lk fe last L) {v : Nat} (hv : v < n) {r E : List Nat} (hn : r.Nodup)
    (hr : ∀ u ∈ r, u < n ∧ L v <:+ L u) (hE : ∀ e, Occ s (L v) e → e ∈ E) :
    r.length + 1 ≤ 2 * E.length := by
  let isP := fun u => decide ((L u).length = fe u)
  have hsplit : r.length = (r.filter isP).length + (r.filter fun u => !isP u).length := by
    have := List.length_eq_countP_add_countP isP (l := r)
    rw [List.countP_eq_length_filter, List.countP_eq_length_filter] at this
    simpa using this
  have hfv : fe v ∈ E := hE _ (I.fe_occ v hv)
  -- nodes of prefixes
  have h1 : (r.filter isP).length ≤ E.length := by
    refine length_le_of_rel (Q := fun u e => fe u = e) (hn.filter _) ?_ ?_
    · intro u hu
      obtain ⟨hu1, hu2⟩ := hr u (List.mem_filter.1 hu).1
      exact ⟨fe u, hE _ ((I.fe_occ u hu1).of_suffix hu2), rfl⟩
    · intro u hu u' hu' y e1 e2
      obtain ⟨m1, p1⟩ := List.mem_filter.1 hu
      obtain ⟨m2, p2⟩ := List.mem_filter.1 hu'
      have p1' : (L u).length = fe u := by simpa [isP] using p1
      have p2' : (L u').length = fe u' := by simpa [isP] using p2
      have o1 := I.fe_occ u (hr u m1).1
      have o2 := I.fe_occ u' (hr u' m2).1
      apply I.inj u u' (hr u m1).1 (hr u' m2).1
      rw [e1] at o1 p1'
      rw [e2] at o2 p2'
      exact (o1.suffix_of_le o2 (by omega)).eq_of_length (by omega)
  -- the other nodes
  have h2 : (r.filter fun u => !isP u).length ≤ (E.erase (fe v)).length := by
    refine length_le_of_rel (Q := fun w e => ∃ d, Occ s (d :: L w) (fe w) ∧ Occ s (L w) e ∧
      ¬ Occ s (d :: L w) e ∧ ∀ e', Occ s (L w) e' → ¬ Occ s (d :: L w) e' → e ≤ e')
      (hn.filter _) ?_ ?_
    · intro w hw
      obtain ⟨m1, p1⟩ := List.mem_filter.1 hw
      obtain ⟨hw1, hw2⟩ := hr w m1
      have p1' : (L w).length ≠ fe w := by simpa [isP] using p1
      have o1 := I.fe_occ w hw1
      rcases suffix_cases_cons o1.2 with heq | ⟨d, hd⟩
      · exfalso
        have := congrArg List.length heq
        rw [List.length_take] at this
        have := o1.1
        omega
      · have od : Occ s (d :: L w) (fe w) := ⟨o1.1, hd⟩
        have hex : ∃ e, Occ s (L w) e ∧ ¬ Occ s (d :: L w) e := by
          apply Classical.byContradiction
          intro hno
          have he : Eqv s (d :: L w) (L w) := by
            intro e
            constructor
            · intro h; exact h.of_suffix (List.suffix_cons _ _)
            · intro h
              exact Classical.byContradiction fun h' => hno ⟨e, h, h'⟩
          have := (I.longest w hw1 _ he).length_le
          simp at this
          omega
        obtain ⟨e, ⟨q1, q2⟩, q3⟩ := exists_least hex
        refine ⟨e, ?_, d, od, q1, q2, fun e' a b => q3 e' ⟨a, b⟩⟩
        have hne : e ≠ fe v := by
          intro h
          have a1 := I.fe_min w hw1 e q1
          have a2 := I.fe_min v hv (fe w) (o1.of_suffix hw2)
          have : e = fe w := by omega
          rw [this] at q2
          exact q2 od
        exact (List.mem_erase_of_ne hne).2 (hE _ (q1.of_suffix hw2))
    · have key : ∀ w w' : Nat, w < n → w' < n → ∀ e, (L w).length ≤ (L w').length →
          (∃ d, Occ s (d :: L w) (fe w) ∧ Occ s (L w) e ∧
            ¬ Occ s (d :: L w) e ∧ ∀ e', Occ s (L w) e' → ¬ Occ s (d :: L w) e' → e ≤ e') →
          (∃ d, Occ s (d :: L w') (fe w') ∧ Occ s (L w') e ∧
            ¬ Occ s (d :: L w') e ∧ ∀ e', Occ s (L w') e' → ¬ Occ s (d :: L w') e' → e ≤ e') →
          w = w' := by
        rintro w w' hw hw' e hle ⟨d, a1, a2, a3, a4⟩ ⟨d', b1, b2, b3, b4⟩
        rcases suffix_cases_cons (a2.suffix_of_le b2 hle) with heq | ⟨c, hc⟩
        · exact I.inj w w' hw hw' heq
        · exfalso
          have o1 := I.fe_occ w' hw'
          have hcne : c ≠ d := by
            rintro rfl
            exact a3 (b2.of_suffix hc)
          have h3 := a4 (fe w') (o1.of_suffix ((List.suffix_cons _ _).trans hc)) (by
            intro h
            exact hcne (cons_suffix_head (hc.trans o1.2) h.2))
          have h4 := I.fe_min w' hw' e b2
          have : e = fe w' := by omega
          rw [this] at b3
          exact b3 b1
      intro w hw w' hw' e q1 q2
      have m1 := (hr w (List.mem_filter.1 hw).1).1
      have m2 := (hr w' (List.mem_filter.1 hw').1).1
      rcases Nat.le_total (L w).length (L w').length with h | h
      · exact key w w' m1 m2 e h q1 q2
      · exact (key w' w m2 m1 e h q2 q1).symm
  rw [List.length_erase_of_mem hfv] at h2
  have := List.length_pos_of_mem hfv
  omega

variable [DecidableEq α]

theorem followReverse_fuel {h : Heap α} : ∀ {f f' : Nat} {stack all r : List Nat},
    followReverse h f stack all = some r → r.length ≤ f' + all.length →
    followReverse h f' stack all = some r
  | _, f', [], all, r, e, _ => by simpa [followReverse] using e
  | 0, _, _ :: _, _, _, e, _ => by simp [followReverse] at e
  | f + 1, f', cur :: stack, all, r, e, hf => by
    have mono : ∀ {f : Nat} {stack all r : List Nat}, followReverse h f stack all = some r →
        all.length ≤ r.length := by
      intro f
      induction f with
      | zero =>
        intro stack all r e
        cases stack with
        | nil => simp [followReverse] at e; simp [e]
        | cons => simp [followReverse] at e
      | succ f ih =>
        intro stack all r e
        cases stack with
        | nil => simp [followReverse] at e; simp [e]
        | cons c st =>
          simp only [followReverse] at e
          cases hc : h[c]? with
          | none => rw [hc] at e; cases e
          | some nd =>
            rw [hc] at e
            have := ih e
            simp at this; omega
    simp only [followReverse] at e
    cases hc : h[cur]? with
    | none => rw [hc] at e; cases e
    | some nd =>
      rw [hc] at e
      have hm := mono e
      simp only [List.length_append, List.length_singleton] at hm
      cases f' with
      | zero => omega
      | succ f' =>
        simp only [followReverse, hc]
        exact followReverse_fuel e (by simp; omega)

/-- The nodes visited for a word that occurs, and the positions found. -/
theorem findAll_cost {s : List α} {h : Heap α} {last : Nat} {L : Nat → List α}
    (B : Built s h last L) {w : List α} {v : Nat} (hm : matchNode h 0 w = some v) :
    ∃ nodes ps, saFindSubstringAll h w = some ps ∧ nodes.Nodup ∧
      followReverse h (2 * ps.length) [v] [] = some nodes ∧
      ps.length ≤ nodes.length ∧ nodes.length + 1 ≤ 2 * ps.length := by
  have H := B.hinv
  have I := H.inv
  obtain ⟨hv, he⟩ := (matchNode_root H w).1 v hm
  obtain ⟨r, hr, hn, hmem⟩ := followReverse_spec B hv (h.length + 1) [v] [] (by simp)
    (by intro u hu; simp at hu; subst hu; exact ⟨hv, List.suffix_refl _⟩) (by simp)
    (by intro u hu; simp at hu; exact Or.inl hu) (by simp) (by simp)
  obtain ⟨ps, p1, p2, p3⟩ := saFindSubstringAll_spec B w
  have hle : r.length + 1 ≤ 2 * ps.length := by
    have := nodes_le I hv (E := ps.map (· + w.length)) hn (fun u hu => (hmem u).1 hu) (by
      intro e ho
      have ho' := (he e).2 ho
      have hl := ho'.length_le
      refine List.mem_map.2 ⟨e - w.length, (p3 _).2 (occ_iff_occursAt.1 ho').2, by omega⟩)
    simpa using this
  refine ⟨r, ps, p1, hn, followReverse_fuel hr (by simp; omega), ?_, hle⟩
  have e : ps = dedupSorted (sortNat (r.map fun i => endposOf h i - w.length)) := by
    simp only [saFindSubstringAll, hm, allStartPositions, hr, Option.some.injEq] at p1
    exact p1.symm
  have hnd : ps.Nodup := p2.imp (fun h => Nat.ne_of_lt h)
  have := nodup_subset_length (l' := r.map fun i => endposOf h i - w.length) hnd (by
    intro x hx
    rw [e, (dedupSorted_spec _).2] at hx
    exact hx)
  simpa using this

end Gaspra
