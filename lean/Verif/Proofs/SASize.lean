import Verif.Proofs.SAQueries

/-!
# Number of transitions of a built automaton
-/

set_option linter.unusedSectionVars false
set_option linter.unusedSimpArgs false
set_option linter.unusedVariables false

namespace Gaspra

variable {α : Type _} [DecidableEq α]

theorem SAInv.dropLast_word {s : List α} {n : Nat} {tr : Nat → α → Option Nat}
    {lk : Nat → Option Nat} {fe : Nat → Nat} {last : Nat} {L : Nat → List α}
    (I : SAInv s n tr lk fe last L) {i : Nat} (hi : i < n) {x : List α} {c : α}
    (h : L i = x ++ [c]) : ∃ m, m < n ∧ L m = x := by
  have hs : Sub s (x ++ [c]) := by rw [← h]; exact I.sub hi
  obtain ⟨m, hm, he⟩ := I.cover x hs.of_append_left
  refine ⟨m, hm, ?_⟩
  have h1 : Eqv s (L m ++ [c]) (L i) := by rw [h]; exact (he.concat c).symm
  have h2 := I.longest i hi _ h1
  rw [h] at h2
  have h3 := (suffix_snoc_iff.1 h2).1
  have h4 := I.longest m hm _ he
  exact h3.eq_of_length (Nat.le_antisymm h3.length_le h4.length_le)

theorem SAInv.prefix_word {s : List α} {n : Nat} {tr : Nat → α → Option Nat}
    {lk : Nat → Option Nat} {fe : Nat → Nat} {last : Nat} {L : Nat → List α}
    (I : SAInv s n tr lk fe last L) : ∀ (y : List α) {i : Nat} (_ : i < n) {x : List α}
    (_ : L i = x ++ y), ∃ m, m < n ∧ L m = x := by
  intro y
  suffices ∀ k (y : List α), y.length = k → ∀ {i : Nat} (_ : i < n) {x : List α}
      (_ : L i = x ++ y), ∃ m, m < n ∧ L m = x from
    @this _ y rfl
  intro k
  induction k with
  | zero =>
    intro y hy i hi x h
    have : y = [] := List.eq_nil_of_length_eq_zero hy
    subst this
    exact ⟨i, hi, by simpa using h⟩
  | succ k ih =>
    intro y hy i hi x h
    rcases List.eq_nil_or_concat y with rfl | ⟨y', c, rfl⟩
    · simp at hy
    · rw [List.concat_eq_append] at *
      rw [← List.append_assoc] at h
      obtain ⟨m, hm, hLm⟩ := I.dropLast_word hi h
      exact ih y' (by simpa using hy) hm hLm

/-- The list of all transitions `(source, token, target)`. -/
def edges (h : Heap α) : List (Nat × α × Nat) :=
  (List.range h.length).flatMap fun i => (transOf h i).map fun t => (i, t.1, t.2)

theorem mem_edges {s : List α} {h : Heap α} {last : Nat} {L : Nat → List α}
    (B : Built s h last L) {i j : Nat} {c : α} :
    (i, c, j) ∈ edges h → i < h.length ∧ trOf h i c = some j := by
  intro hm
  simp only [edges, List.mem_flatMap, List.mem_range, List.mem_map, Prod.mk.injEq,
    Prod.exists] at hm
  obtain ⟨i', hi, c', j', hcj, rfl, rfl, rfl⟩ := hm
  exact ⟨hi, by rw [trOf_eq_dget]; exact dget_of_mem (B.keys i') hcj⟩

theorem nodup_edges {s : List α} {h : Heap α} {last : Nat} {L : Nat → List α}
    (B : Built s h last L) : (edges h).Nodup := by
  unfold edges
  rw [List.nodup_iff_pairwise_ne, List.pairwise_flatMap]
  refine ⟨?_, ?_⟩
  · intro i _
    have : (transOf h i).Nodup := List.Pairwise.of_map _ (fun a b h e => h (by rw [e])) (B.keys i)
    refine List.Pairwise.map (R := (· ≠ ·)) _ ?_ this
    intro a b hab h
    apply hab
    simp at h
    exact Prod.ext h.1 h.2
  · refine List.Pairwise.imp (R := (· ≠ ·)) ?_ List.nodup_range
    intro i j hij x hx y hy hxy
    subst hxy
    simp only [List.mem_map] at hx hy
    obtain ⟨a, _, rfl⟩ := hx
    obtain ⟨b, _, hb⟩ := hy
    simp at hb
    exact hij hb.1.symm

theorem length_le_of_inj {β : Type _} {l : List β} {f : β → Nat} {n : Nat} (hn : l.Nodup)
    (hf : ∀ x ∈ l, f x < n) (hinj : ∀ x ∈ l, ∀ y ∈ l, f x = f y → x = y) : l.length ≤ n := by
  have : (l.map f).length ≤ n := by
    apply mem_range_length_le
    · rw [List.nodup_iff_pairwise_ne, List.pairwise_map]
      refine List.Pairwise.imp_of_mem ?_ hn
      intro a b ha hb hab h
      exact hab (hinj a ha b hb h)
    · intro x hx
      obtain ⟨y, hy, rfl⟩ := List.mem_map.1 hx
      exact hf y hy
  simpa using this

theorem edges_length_le {s : List α} {h : Heap α} {last : Nat} {L : Nat → List α}
    (B : Built s h last L) : (edges h).length ≤ (h.length - 1) + s.length := by
  have I := B.hinv.inv
  let prim : Nat × α × Nat → Bool := fun e => (L e.2.2).length == (L e.1).length + 1
  have hsplit : (edges h).length =
      ((edges h).filter prim).length + ((edges h).filter (fun e => !prim e)).length := by
    rw [← List.countP_eq_length_filter, ← List.countP_eq_length_filter,
      List.length_eq_countP_add_countP prim]
    simp
  have hword : ∀ i c j, (i, c, j) ∈ edges h → i < h.length ∧ j < h.length ∧
      Eqv s (L i ++ [c]) (L j) ∧ L i ++ [c] <:+ L j := by
    intro i c j hm
    obtain ⟨h1, h2⟩ := mem_edges B hm
    obtain ⟨h3, h4⟩ := I.tr_some i h1 c j h2
    exact ⟨h1, h3, h4, I.longest j h3 _ h4⟩
  have h1 : ((edges h).filter prim).length ≤ h.length - 1 := by
    refine length_le_of_inj (f := fun e => e.2.2 - 1) ((nodup_edges B).filter _) ?_ ?_
    · rintro ⟨i, c, j⟩ hm
      rw [List.mem_filter] at hm
      obtain ⟨hi, hj, _, hsuf⟩ := hword i c j hm.1
      have : j ≠ 0 := by
        rintro rfl
        rw [I.rootL] at hsuf; simpa using hsuf.length_le
      show j - 1 < h.length - 1
      omega
    · rintro ⟨i, c, j⟩ hm ⟨i', c', j'⟩ hm' hjj
      rw [List.mem_filter] at hm hm'
      obtain ⟨hi, hj, _, hsuf⟩ := hword i c j hm.1
      obtain ⟨hi', hj', _, hsuf'⟩ := hword i' c' j' hm'.1
      have hp : (L j).length = (L i).length + 1 := by simpa [prim] using hm.2
      have hp' : (L j').length = (L i').length + 1 := by simpa [prim] using hm'.2
      have e1 : L i ++ [c] = L j := hsuf.eq_of_length (by simp [hp])
      have e2 : L i' ++ [c'] = L j' := hsuf'.eq_of_length (by simp [hp'])
      have hne : j ≠ 0 := by rintro rfl; rw [I.rootL] at e1; simp at e1
      have hne' : j' ≠ 0 := by rintro rfl; rw [I.rootL] at e2; simp at e2
      have hjj' : j = j' := by simp at hjj; omega
      subst hjj'
      rw [← e2] at e1
      have := List.append_inj' e1 (by simp)
      have hii := I.inj i i' hi hi' this.1
      have hcc : c = c' := by simpa using this.2
      rw [hii, hcc]
  have h2 : ((edges h).filter (fun e => !prim e)).length ≤ s.length := by
    -- first start position of `L i ++ [c]`
    have hocc : ∀ i c j, (i, c, j) ∈ edges h →
        (L i).length + 1 ≤ endposOf h j ∧ endposOf h j ≤ s.length ∧
        L i ++ [c] <+: s.drop (endposOf h j - ((L i).length + 1)) := by
      intro i c j hm
      obtain ⟨hi, hj, he, _⟩ := hword i c j hm
      have ho : Occ s (L i ++ [c]) (endposOf h j) := (he _).2 (I.fe_occ j hj)
      have hl := ho.length_le
      simp at hl
      refine ⟨hl, ho.le, ?_⟩
      obtain ⟨_, pre, post, h1, h2⟩ := occ_iff_occursAt.1 ho
      simp only [List.length_append, List.length_singleton] at h2
      rw [← h2, h1, List.append_assoc, List.drop_left]
      exact List.prefix_append _ _
    have hnosec : ∀ i c j i' c' j', (i, c, j) ∈ edges h → (i', c', j') ∈ edges h →
        prim (i, c, j) = false → (L i ++ [c]) <+: (L i' ++ [c']) →
        (L i ++ [c]).length < (L i' ++ [c']).length → False := by
      intro i c j i' c' j' hm hm' hs hpre hlen
      obtain ⟨hi, hj, he, _⟩ := hword i c j hm
      obtain ⟨hi', hj', _, _⟩ := hword i' c' j' hm'
      obtain ⟨y, hy⟩ : L i ++ [c] <+: L i' := by
        apply List.prefix_of_prefix_length_le hpre (List.prefix_append _ _)
        simp at hlen ⊢; omega
      obtain ⟨m, hm1, hm2⟩ := I.prefix_word y hi' hy.symm
      have : m = j := I.eq_of_eqv hm1 hj (by rw [hm2]; exact he)
      subst this
      rw [beq_eq_false_iff_ne] at hs
      apply hs
      show (L m).length = (L i).length + 1
      rw [hm2]; simp
    refine length_le_of_inj (f := fun e => endposOf h e.2.2 - ((L e.1).length + 1))
      ((nodup_edges B).filter _) ?_ ?_
    · rintro ⟨i, c, j⟩ hm
      rw [List.mem_filter] at hm
      obtain ⟨ha, hb, _⟩ := hocc i c j hm.1
      show endposOf h j - ((L i).length + 1) < s.length
      omega
    · rintro ⟨i, c, j⟩ hm ⟨i', c', j'⟩ hm' hk
      rw [List.mem_filter] at hm hm'
      obtain ⟨_, _, hpre⟩ := hocc i c j hm.1
      obtain ⟨_, _, hpre'⟩ := hocc i' c' j' hm'.1
      simp only at hk
      rw [hk] at hpre
      have hs : prim (i, c, j) = false := by simpa using hm.2
      have hs' : prim (i', c', j') = false := by simpa using hm'.2
      rcases Nat.lt_trichotomy (L i ++ [c]).length (L i' ++ [c']).length with hl | hl | hl
      · exact (hnosec i c j i' c' j' hm.1 hm'.1 hs
          (List.prefix_of_prefix_length_le hpre hpre' (by omega)) hl).elim
      · have e1 : L i ++ [c] = L i' ++ [c'] :=
          (List.prefix_of_prefix_length_le hpre hpre' (by omega)).eq_of_length hl
        obtain ⟨hi, hj, he, _⟩ := hword i c j hm.1
        obtain ⟨hi', hj', he', _⟩ := hword i' c' j' hm'.1
        have hjj : j = j' := I.eq_of_eqv hj hj' (he.symm.trans (e1 ▸ he'))
        have := List.append_inj' e1 (by simp)
        have hii := I.inj i i' hi hi' this.1
        have hcc : c = c' := by simpa using this.2
        rw [hii, hcc, hjj]
      · exact (hnosec i' c' j' i c j hm'.1 hm.1 hs'
          (List.prefix_of_prefix_length_le hpre' hpre (by omega)) hl).elim
  omega

theorem edges_length (h : Heap α) :
    (edges h).length = (h.map fun nd => nd.transitions.length).sum := by
  unfold edges
  rw [List.length_flatMap]
  congr 1
  apply List.ext_getElem
  · simp
  · intro i h1 h2
    simp at h1 h2
    simp [transOf, h1]

end Gaspra
