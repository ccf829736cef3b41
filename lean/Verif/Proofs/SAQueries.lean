import Verif.Proofs.SABuild

/-!
# Correctness of the queries on a built automaton
-/

set_option linter.unusedSectionVars false
set_option linter.unusedSimpArgs false
set_option linter.unusedVariables false

namespace Gaspra

variable {α : Type _} [DecidableEq α]

theorem matchNode_spec {s : List α} {h : Heap α} {last : Nat} {L : Nat → List α}
    (H : HInv s h last L) : ∀ (ts u : List α) (cur : Nat), cur < h.length → Eqv s u (L cur) →
      (∀ v, matchNode h cur ts = some v → v < h.length ∧ Eqv s (u ++ ts) (L v)) ∧
      (matchNode h cur ts = none → ¬ Sub s (u ++ ts)) := by
  have I := H.inv
  intro ts
  induction ts with
  | nil =>
    intro u cur hc he
    simp only [matchNode, List.append_nil]
    refine ⟨?_, by simp⟩
    intro v hv
    cases hv
    exact ⟨hc, he⟩
  | cons t ts ih =>
    intro u cur hc he
    obtain ⟨nd, hnd⟩ := heap_get hc
    simp only [matchNode, hnd]
    cases hd : dget nd.transitions t with
    | none =>
      refine ⟨by simp, fun _ hs => ?_⟩
      have h1 : ¬ Sub s (L cur ++ [t]) := I.tr_none cur hc t (by rw [trOf_some hnd, hd])
      have h2 : Sub s (u ++ [t]) := by
        have : u ++ t :: ts = (u ++ [t]) ++ ts := by simp
        rw [this] at hs; exact hs.of_append_left
      exact h1 ((he.concat t).sub_iff.1 h2)
    | some j =>
      obtain ⟨hj, hej⟩ := I.tr_some cur hc t j (by rw [trOf_some hnd, hd])
      have := ih (u ++ [t]) j hj ((he.concat t).trans hej)
      simpa using this

theorem matchNode_root {s : List α} {h : Heap α} {last : Nat} {L : Nat → List α}
    (H : HInv s h last L) (w : List α) :
      (∀ v, matchNode h 0 w = some v → v < h.length ∧ Eqv s w (L v)) ∧
      (matchNode h 0 w = none → ¬ Sub s w) := by
  have := matchNode_spec H w [] 0 H.inv.zero_lt (by rw [H.inv.rootL]; exact Eqv.refl _ _)
  simpa using this

/-! ## `follow_reverse_links` -/

theorem SAInv.reach_closed {s : List α} {n : Nat} {tr : Nat → α → Option Nat}
    {lk : Nat → Option Nat} {fe : Nat → Nat} {last : Nat} {L : Nat → List α}
    (I : SAInv s n tr lk fe last L) {v : Nat} (hv : v < n) (S : Nat → Prop) (h0 : S v)
    (hcl : ∀ p u, u < n → S p → lk u = some p → S u) :
    ∀ u, u < n → L v <:+ L u → S u := by
  suffices ∀ k u, (L u).length = k → u < n → L v <:+ L u → S u from fun u hu h => this _ u rfl hu h
  intro k
  induction k using Nat.strongRecOn with
  | ind k ih =>
    intro u hk hu hsuf
    by_cases huv : u = v
    · subst huv; exact h0
    · cases hl : lk u with
      | none =>
        have := I.lk_none u hu hl
        rw [this] at hsuf
        exact absurd (I.inj u v hu hv (by rw [this]; exact (List.suffix_nil.1 hsuf).symm)) huv
      | some p =>
        obtain ⟨hp, h2, h3, h4⟩ := I.lk_some u hu p hl
        refine hcl p u hu (ih _ (by omega) p rfl hp ?_) hl
        apply List.suffix_of_suffix_length_le hsuf h2
        apply Nat.le_of_not_lt
        intro hlt
        exact huv (I.eq_of_eqv hv hu (h4 _ hsuf hlt)).symm

theorem mem_range_length_le {l : List Nat} {n : Nat} (hn : l.Nodup) (hl : ∀ x ∈ l, x < n) :
    l.length ≤ n := by
  induction n generalizing l with
  | zero =>
    cases l with
    | nil => simp
    | cons a l => exact absurd (hl a (by simp)) (by omega)
  | succ n ih =>
    by_cases hm : n ∈ l
    · have h1 : (l.erase n).length = l.length - 1 := List.length_erase_of_mem hm
      have h2 := ih (hn.erase n) (by
        intro x hx
        have h3 := hl x (List.mem_of_mem_erase hx)
        have h4 : x ≠ n := by
          rintro rfl
          exact (List.Nodup.not_mem_erase hn) hx
        omega)
      omega
    · have := ih hn (by
        intro x hx
        have h3 := hl x hx
        have h4 : x ≠ n := by rintro rfl; exact hm hx
        omega)
      omega

theorem revOf_mem {s : List α} {h : Heap α} {last : Nat} {L : Nat → List α}
    (B : Built s h last L) {i j : Nat} (hi : i < h.length) :
    j ∈ revOf h i ↔ j < h.length ∧ lkOf h j = some i := by
  rw [B.rev i hi]; simp

theorem revOf_nodup {s : List α} {h : Heap α} {last : Nat} {L : Nat → List α}
    (B : Built s h last L) {i : Nat} (hi : i < h.length) : (revOf h i).Nodup := by
  rw [B.rev i hi]; exact List.nodup_range.filter _

theorem followReverse_spec {s : List α} {h : Heap α} {last : Nat} {L : Nat → List α}
    (B : Built s h last L) {v : Nat} (hv : v < h.length) :
    ∀ (fuel : Nat) (stack all : List Nat),
      (all ++ stack).Nodup →
      (∀ u ∈ all ++ stack, u < h.length ∧ L v <:+ L u) →
      v ∈ all ++ stack →
      (∀ u ∈ all ++ stack, u = v ∨ ∃ p ∈ all, lkOf h u = some p) →
      (∀ p ∈ all, ∀ u, u < h.length → lkOf h u = some p → u ∈ all ++ stack) →
      h.length < fuel + all.length →
      ∃ r, followReverse h fuel stack all = some r ∧ r.Nodup ∧
        ∀ u, u ∈ r ↔ (u < h.length ∧ L v <:+ L u) := by
  have I := B.hinv.inv
  intro fuel
  induction fuel with
  | zero =>
    intro stack all hn hm hv0 hp hcl hf
    have := mem_range_length_le hn (fun x hx => (hm x hx).1)
    simp at this; omega
  | succ f ih =>
    intro stack all hn hm hv0 hp hcl hf
    cases stack with
    | nil =>
      refine ⟨all, by simp [followReverse], by simpa using hn, ?_⟩
      simp only [List.append_nil] at *
      intro u
      constructor
      · exact hm u
      · rintro ⟨h1, h2⟩
        exact I.reach_closed hv (· ∈ all) hv0 (fun p u hu hpa hl => hcl p hpa u hu hl) u h1 h2
    | cons cur stack =>
      obtain ⟨hc, hcs⟩ := hm cur (by simp)
      obtain ⟨nd, hnd⟩ := heap_get hc
      have hrev : nd.reverseLinks = revOf h cur := by simp only [revOf, hnd]
      simp only [followReverse, hnd, hrev]
      have hcn : cur ∉ all := by
        intro hca
        rw [List.nodup_append] at hn
        exact hn.2.2 cur hca cur (by simp) rfl
      have hnew : ∀ u ∈ revOf h cur, u ∉ all ++ cur :: stack := by
        intro u hu hu'
        obtain ⟨h1, h2⟩ := (revOf_mem B hc).1 hu
        rcases hp u hu' with rfl | ⟨p, hpa, hpl⟩
        · have := (I.lk_some u h1 cur h2).2.2.1
          have := hcs.length_le; omega
        · rw [h2] at hpl; cases hpl; exact hcn hpa
      apply ih
      · have e : (all ++ [cur]) ++ ((revOf h cur).reverse ++ stack) =
            (all ++ [cur]) ++ (revOf h cur).reverse ++ stack := by simp
        have hp' : List.Perm ((all ++ cur :: stack) ++ revOf h cur)
            ((all ++ [cur]) ++ ((revOf h cur).reverse ++ stack)) := by
          have h1 : (all ++ cur :: stack) ++ revOf h cur = (all ++ [cur]) ++ (stack ++ revOf h cur) := by
            simp
          rw [h1]
          apply List.Perm.append_left
          exact List.perm_append_comm.trans (List.Perm.append_right _ (List.reverse_perm _).symm)
        rw [← hp'.nodup_iff, List.nodup_append]
        exact ⟨hn, revOf_nodup B hc, fun a ha b hb hab => hnew b hb (hab ▸ ha)⟩
      · intro u hu
        simp only [List.mem_append, List.mem_reverse, List.mem_singleton] at hu
        have : u ∈ all ++ cur :: stack ∨ u ∈ revOf h cur := by
          simp only [List.mem_append, List.mem_cons]
          rcases hu with (h1 | h1) | h1 | h1 <;> simp [h1]
        rcases this with h1 | h1
        · exact hm u h1
        · obtain ⟨h1, h2⟩ := (revOf_mem B hc).1 h1
          exact ⟨h1, hcs.trans (I.lk_some u h1 cur h2).2.1⟩
      · simp only [List.mem_append, List.mem_cons, List.mem_reverse, List.mem_singleton] at hv0 ⊢
        rcases hv0 with h1 | h1 | h1 <;> simp [h1]
      · intro u hu
        simp only [List.mem_append, List.mem_reverse, List.mem_singleton] at hu
        have : u ∈ all ++ cur :: stack ∨ u ∈ revOf h cur := by
          simp only [List.mem_append, List.mem_cons]
          rcases hu with (h1 | h1) | h1 | h1 <;> simp [h1]
        rcases this with h1 | h1
        · rcases hp u h1 with h2 | ⟨p, h2, h3⟩
          · exact Or.inl h2
          · exact Or.inr ⟨p, by simp [h2], h3⟩
        · exact Or.inr ⟨cur, by simp, ((revOf_mem B hc).1 h1).2⟩
      · intro p hpa u hu hl
        simp only [List.mem_append, List.mem_singleton] at hpa
        simp only [List.mem_append, List.mem_reverse, List.mem_singleton]
        rcases hpa with hpa | rfl
        · have := hcl p hpa u hu hl
          simp only [List.mem_append, List.mem_cons] at this
          rcases this with h1 | h1 | h1 <;> simp [h1]
        · right; left; exact (revOf_mem B hc).2 ⟨hu, hl⟩
      · simp; omega

/-- The first end positions in the reverse-link tree below `v` are the end positions of `L v`. -/
theorem SAInv.endpos_set {s : List α} {n : Nat} {tr : Nat → α → Option Nat}
    {lk : Nat → Option Nat} {fe : Nat → Nat} {last : Nat} {L : Nat → List α}
    (I : SAInv s n tr lk fe last L) {v : Nat} (hv : v < n) (e : Nat) :
    (∃ u, u < n ∧ L v <:+ L u ∧ fe u = e) ↔ Occ s (L v) e := by
  constructor
  · rintro ⟨u, hu, hs, rfl⟩; exact (I.fe_occ u hu).of_suffix hs
  · intro he
    have hocc : Occ s (s.take e) e := ⟨he.1, List.suffix_refl _⟩
    obtain ⟨u, hu, heq⟩ := I.cover (s.take e) ⟨e, hocc⟩
    refine ⟨u, hu, he.2.trans (I.longest u hu _ heq), ?_⟩
    have h1 := I.fe_min u hu e ((heq e).1 hocc)
    have h2 := ((heq _).2 (I.fe_occ u hu)).length_le
    simp only [List.length_take] at h2
    have := he.1
    omega

/-! ## Sorting and deduplication -/

theorem mem_insertSorted {x y : Nat} {l : List Nat} : y ∈ insertSorted x l ↔ y = x ∨ y ∈ l := by
  induction l with
  | nil => simp [insertSorted]
  | cons a l ih =>
    simp only [insertSorted]
    split
    · simp
    · simp only [List.mem_cons, ih]
      constructor
      · rintro (h | h | h) <;> simp [h]
      · rintro (h | h | h) <;> simp [h]

theorem mem_sortNat {y : Nat} {l : List Nat} : y ∈ sortNat l ↔ y ∈ l := by
  induction l with
  | nil => simp [sortNat]
  | cons a l ih => simp [sortNat, mem_insertSorted, ih]

theorem insertSorted_sorted {x : Nat} {l : List Nat} (h : l.Pairwise (· ≤ ·)) :
    (insertSorted x l).Pairwise (· ≤ ·) := by
  induction l with
  | nil => simp [insertSorted]
  | cons a l ih =>
    simp only [insertSorted]
    split
    · next hx =>
      refine List.Pairwise.cons ?_ h
      intro b hb
      rcases List.mem_cons.1 hb with rfl | hb
      · exact hx
      · exact Nat.le_trans hx (List.rel_of_pairwise_cons h hb)
    · next hx =>
      refine List.Pairwise.cons ?_ (ih h.of_cons)
      intro b hb
      rcases mem_insertSorted.1 hb with rfl | hb
      · omega
      · exact List.rel_of_pairwise_cons h hb

theorem sortNat_sorted (l : List Nat) : (sortNat l).Pairwise (· ≤ ·) := by
  induction l with
  | nil => simp [sortNat]
  | cons a l ih => exact insertSorted_sorted ih

theorem dedupSorted_aux (xs : List Nat) : ∀ acc : List Nat, acc.Pairwise (· < ·) →
    xs.Pairwise (· ≤ ·) → (∀ a, acc.getLast? = some a → ∀ x ∈ xs, a ≤ x) →
    (xs.foldl (fun acc c => if acc.getLast? = some c then acc else acc ++ [c]) acc).Pairwise (· < ·) ∧
    ∀ y, y ∈ (xs.foldl (fun acc c => if acc.getLast? = some c then acc else acc ++ [c]) acc) ↔
      y ∈ acc ∨ y ∈ xs := by
  induction xs with
  | nil => intro acc h1 _ _; simp [h1]
  | cons x xs ih =>
    intro acc h1 h2 h3
    simp only [List.foldl_cons]
    have hx : ∀ y ∈ xs, x ≤ y := fun y hy => List.rel_of_pairwise_cons h2 hy
    split
    · next hlast =>
      obtain ⟨a, b⟩ := ih acc h1 h2.of_cons (by
        intro a ha y hy; exact h3 a ha y (by simp [hy]))
      refine ⟨a, fun y => ?_⟩
      rw [b y]
      have : x ∈ acc := List.mem_of_getLast? hlast
      constructor
      · rintro (h | h) <;> simp [h]
      · rintro (h | h)
        · exact Or.inl h
        · rcases List.mem_cons.1 h with rfl | h
          · exact Or.inl this
          · exact Or.inr h
    · next hlast =>
      have hlt : ∀ a ∈ acc, a < x := by
        intro a ha
        rcases List.eq_nil_or_concat acc with rfl | ⟨acc', l, rfl⟩
        · simp at ha
        · rw [List.concat_eq_append] at *
          simp only [List.getLast?_append, List.getLast?_singleton, Option.some_or,
            Option.some.injEq] at hlast h3
          have h5 : l ≤ x := h3 l rfl x (by simp)
          have h6 : l < x := by omega
          rcases List.mem_append.1 ha with ha | ha
          · have := (List.pairwise_append.1 h1).2.2 a ha l (by simp)
            omega
          · simp at ha; subst ha; exact h6
      obtain ⟨a, b⟩ := ih (acc ++ [x]) (by
          rw [List.pairwise_append]
          exact ⟨h1, by simp, fun a ha b hb => by simp at hb; subst hb; exact hlt a ha⟩)
        h2.of_cons (by
          intro a ha y hy
          simp at ha; subst ha; exact hx y hy)
      refine ⟨a, fun y => ?_⟩
      rw [b y]; simp [or_assoc]

theorem dedupSorted_spec (l : List Nat) :
    (dedupSorted (sortNat l)).Pairwise (· < ·) ∧ ∀ y, y ∈ dedupSorted (sortNat l) ↔ y ∈ l := by
  obtain ⟨a, b⟩ := dedupSorted_aux (sortNat l) [] (by simp) (sortNat_sorted l) (by simp)
  refine ⟨a, fun y => ?_⟩
  have := b y
  unfold dedupSorted
  rw [this, mem_sortNat]; simp

/-! ## `find_substring` and `find_substring_all` -/

theorem saFindSubstringAll_spec {s : List α} {h : Heap α} {last : Nat} {L : Nat → List α}
    (B : Built s h last L) (w : List α) :
    ∃ ps, saFindSubstringAll h w = some ps ∧ ps.Pairwise (· < ·) ∧
      ∀ i, i ∈ ps ↔ OccursAt s w i := by
  have H := B.hinv
  have I := H.inv
  unfold saFindSubstringAll
  cases hm : matchNode h 0 w with
  | none =>
    refine ⟨[], rfl, by simp, fun i => ?_⟩
    have := (matchNode_root H w).2 hm
    simp only [List.not_mem_nil, false_iff]
    intro ho; exact this (sub_iff_substring.2 ⟨i, ho⟩)
  | some v =>
    obtain ⟨hv, he⟩ := (matchNode_root H w).1 v hm
    obtain ⟨r, hr, _, hmem⟩ := followReverse_spec B hv (h.length + 1) [v] [] (by simp)
      (by intro u hu; simp at hu; subst hu; exact ⟨hv, List.suffix_refl _⟩) (by simp)
      (by intro u hu; simp at hu; exact Or.inl hu) (by simp) (by simp)
    simp only [allStartPositions, hr]
    obtain ⟨h1, h2⟩ := dedupSorted_spec (r.map fun i => endposOf h i - w.length)
    refine ⟨_, rfl, h1, fun i => ?_⟩
    rw [h2, List.mem_map, occursAt_iff_occ, he, ← I.endpos_set hv]
    constructor
    · rintro ⟨u, hu, rfl⟩
      obtain ⟨hu1, hu2⟩ := (hmem u).1 hu
      refine ⟨u, hu1, hu2, ?_⟩
      have : Occ s (L v) (endposOf h u) := (I.fe_occ u hu1).of_suffix hu2
      have := ((he _).2 this).length_le
      omega
    · rintro ⟨u, hu1, hu2, h3⟩
      exact ⟨u, (hmem u).2 ⟨hu1, hu2⟩, by omega⟩

theorem saFindSubstring_spec {s : List α} {h : Heap α} {last : Nat} {L : Nat → List α}
    (B : Built s h last L) (w : List α) :
    (∀ i, saFindSubstring h w = some i → OccursAt s w i ∧ ∀ j, OccursAt s w j → i ≤ j) ∧
    (saFindSubstring h w = none → ¬ Substring s w) := by
  have H := B.hinv
  have I := H.inv
  unfold saFindSubstring
  cases hm : matchNode h 0 w with
  | none =>
    refine ⟨by simp, fun _ => ?_⟩
    rw [← sub_iff_substring]; exact (matchNode_root H w).2 hm
  | some v =>
    obtain ⟨hv, he⟩ := (matchNode_root H w).1 v hm
    refine ⟨?_, by simp⟩
    intro i hi
    simp only [Option.some.injEq] at hi
    subst hi
    have h1 : Occ s w (endposOf h v) := (he _).2 (I.fe_occ v hv)
    have h2 := h1.length_le
    refine ⟨(occ_iff_occursAt.1 h1).2, fun j hj => ?_⟩
    have := I.fe_min v hv _ ((he _).1 (occursAt_iff_occ.1 hj))
    omega

/-! ## `all_suffixes` -/

theorem Eqv.append {s w w' : List α} (h : Eqv s w w') (x : List α) : Eqv s (w ++ x) (w' ++ x) := by
  induction x generalizing w w' with
  | nil => simpa using h
  | cons c x ih =>
    have := ih (h.concat c)
    simpa using this

theorem allSuffixesFrom_spec {s : List α} {h : Heap α} {last : Nat} {L : Nat → List α}
    (B : Built s h last L) : ∀ (fuel v : Nat), v < h.length → s.length < fuel + (L v).length →
      ∃ out, allSuffixesFrom h fuel v = some out ∧ out.Nodup ∧
        ∀ x, x ∈ out ↔ L v ++ x <:+ s := by
  have H := B.hinv
  have I := H.inv
  intro fuel
  induction fuel with
  | zero => intro v hv hf; have := I.length_le hv; omega
  | succ f ih =>
    intro v hv hf
    obtain ⟨nd, hnd⟩ := heap_get hv
    simp only [allSuffixesFrom, hnd]
    have hkeys : (nd.transitions.map Prod.fst).Nodup := by
      have := B.keys v; simp only [transOf, hnd] at this; exact this
    have htr : ∀ c j, (c, j) ∈ nd.transitions → trOf h v c = some j := by
      intro c j hm; rw [trOf_some hnd]; exact dget_of_mem hkeys hm
    -- the fold over the transitions
    have fold : ∀ (ts : List (α × Nat)) (acc : List (List α)),
        (∀ x ∈ ts, x ∈ nd.transitions) → (ts.map Prod.fst).Nodup → acc.Nodup →
        (∀ y ∈ acc, ∀ c x, y = c :: x → c ∉ ts.map Prod.fst) →
        ∃ out, ts.foldl (fun acc tr =>
            match acc, allSuffixesFrom h f tr.2 with
            | some out, some subs => some (out ++ subs.map (tr.1 :: ·))
            | _, _ => none) (some acc) = some out ∧ out.Nodup ∧
          ∀ y, y ∈ out ↔ y ∈ acc ∨ ∃ c x j, (c, j) ∈ ts ∧ y = c :: x ∧ L v ++ y <:+ s := by
      intro ts
      induction ts with
      | nil => intro acc _ _ hn _; exact ⟨acc, rfl, hn, by simp⟩
      | cons t ts iht =>
        obtain ⟨c, j⟩ := t
        intro acc hsub hk hn hd
        obtain ⟨hj, hej⟩ := I.tr_some v hv c j (htr c j (hsub _ (by simp)))
        have hlj := (I.longest j hj _ hej).length_le
        simp at hlj
        obtain ⟨subs, hs1, hs2, hs3⟩ := ih j hj (by omega)
        simp only [List.map_cons, List.nodup_cons] at hk
        obtain ⟨out, ho1, ho2, ho3⟩ := iht (acc ++ subs.map (c :: ·))
          (fun x hx => hsub x (by simp [hx])) hk.2
          (by
            rw [List.nodup_append]
            refine ⟨hn, ?_, ?_⟩
            · exact List.Pairwise.map (R := (· ≠ ·)) (S := (· ≠ ·)) _
                (fun a b hab h => hab (by simpa using h)) hs2
            · intro a ha b hb hab
              obtain ⟨x, _, rfl⟩ := List.mem_map.1 hb
              exact hd a ha c x hab (by simp))
          (by
            intro y hy c' x hyx
            rcases List.mem_append.1 hy with hy | hy
            · have := hd y hy c' x hyx
              intro h; apply this; simp at h ⊢; exact Or.inr h
            · obtain ⟨x', _, rfl⟩ := List.mem_map.1 hy
              cases hyx
              exact hk.1)
        refine ⟨out, ?_, ho2, ?_⟩
        · simp only [List.foldl_cons, hs1]; exact ho1
        · intro y
          rw [ho3 y, List.mem_append]
          have hcase : y ∈ subs.map (c :: ·) ↔ ∃ x, y = c :: x ∧ L v ++ y <:+ s := by
            rw [List.mem_map]
            constructor
            · rintro ⟨x, hx, rfl⟩
              refine ⟨x, rfl, ?_⟩
              have h1 := (hej.append x).suffix_iff.2 ((hs3 x).1 hx)
              simpa using h1
            · rintro ⟨x, rfl, hx⟩
              refine ⟨x, (hs3 x).2 ?_, rfl⟩
              apply (hej.append x).suffix_iff.1
              simpa using hx
          rw [hcase]
          constructor
          · rintro ((h1 | ⟨x, h1, h2⟩) | ⟨c', x, j', h1, h2⟩)
            · exact Or.inl h1
            · exact Or.inr ⟨c, x, j, by simp, h1, h2⟩
            · exact Or.inr ⟨c', x, j', by simp [h1], h2⟩
          · rintro (h1 | ⟨c', x, j', h1, h2, h3⟩)
            · exact Or.inl (Or.inl h1)
            · rcases List.mem_cons.1 h1 with h1 | h1
              · cases h1; exact Or.inl (Or.inr ⟨x, h2, h3⟩)
              · exact Or.inr ⟨c', x, j', h1, h2, h3⟩
    obtain ⟨out, h1, h2, h3⟩ := fold nd.transitions (if nd.isTerminal then [[]] else [])
      (fun _ hx => hx) hkeys (by split <;> simp) (by
        intro y hy c x hyx
        split at hy <;> simp at hy
        subst hy; cases hyx)
    refine ⟨out, h1, h2, fun x => ?_⟩
    rw [h3 x]
    have hterm : nd.isTerminal = true ↔ L v <:+ s := by
      have := B.term v hv; simp only [termOf, hnd] at this; exact this
    constructor
    · rintro (h | ⟨c, y, j, _, rfl, h⟩)
      · split at h <;> simp at h
        next ht => subst h; simpa using hterm.1 ht
      · exact h
    · intro hx
      cases x with
      | nil =>
        left
        have : nd.isTerminal = true := hterm.2 (by simpa using hx)
        simp [this]
      | cons c y =>
        right
        have hsub : Sub s (L v ++ [c]) := by
          have : L v ++ c :: y = (L v ++ [c]) ++ y := by simp
          rw [this] at hx
          exact (Sub.of_suffix_self hx).of_append_left
        cases ht : trOf h v c with
        | none => exact absurd hsub (I.tr_none v hv c ht)
        | some j =>
          rw [trOf_some hnd] at ht
          exact ⟨c, y, j, mem_of_dget ht, rfl, hx⟩

/-! ## `find_lcs` -/

theorem lcsClimb_spec {s : List α} {h : Heap α} {last : Nat} {L : Nat → List α}
    (H : HInv s h last L) (tok : α) (r : List α) :
    ∀ (fuel cur len : Nat) (w : List α), cur < h.length → w <:+ r → w.length = len →
      Eqv s w (L cur) → (L cur).length < fuel →
      (∀ x, x <:+ r → Sub s (x ++ [tok]) → x.length ≤ len) →
      ∃ nxt cur' len', lcsClimb h tok fuel cur len = some (nxt, cur', len') ∧
        cur' < h.length ∧ ∃ w', w' <:+ r ∧ w'.length = len' ∧ Eqv s w' (L cur') ∧
        (∀ x, x <:+ r → Sub s (x ++ [tok]) → x.length ≤ len') ∧
        (∀ j, nxt = some j → trOf h cur' tok = some j) ∧
        (nxt = none → ¬ Sub s [tok] ∧ w' = []) := by
  have I := H.inv
  intro fuel
  induction fuel with
  | zero => intro cur len w hc hw hl he hf; omega
  | succ f ih =>
    intro cur len w hc hw hl he hf hmax
    obtain ⟨nd, hnd⟩ := heap_get hc
    simp only [lcsClimb, hnd]
    have hwc : w <:+ L cur := I.longest cur hc w he
    cases hd : dget nd.transitions tok with
    | some j =>
      exact ⟨some j, cur, len, rfl, hc, w, hw, hl, he, hmax,
        fun j' hj => by cases hj; rw [trOf_some hnd, hd], by simp⟩
    | none =>
      have hns : ¬ Sub s (L cur ++ [tok]) := I.tr_none cur hc tok (by rw [trOf_some hnd, hd])
      cases hlk : nd.link with
      | none =>
        have hnil := I.lk_none cur hc (by rw [lkOf_some hnd, hlk])
        rw [hnil] at hns hwc
        refine ⟨none, cur, len, rfl, hc, w, hw, hl, he, hmax, by simp, fun _ => ⟨by simpa using hns, by simpa using hwc⟩⟩
      | some l =>
        obtain ⟨hll, h2, h3, h4⟩ := I.lk_some cur hc l (by rw [lkOf_some hnd, hlk])
        obtain ⟨ln, hln⟩ := heap_get hll
        have hlen : ln.length = (L l).length := by rw [← lenOf_some hln, H.len l hll]
        simp only [hln, hlen]
        have hlw : L l <:+ w := by
          rcases List.suffix_or_suffix_of_suffix h2 hwc with h5 | h5
          · exact h5
          · have := I.eq_of_eqv hll hc (Eqv.sandwich h5 h2 he)
            subst this; omega
        refine ih l (L l).length (L l) hll (hlw.trans hw) rfl (Eqv.refl _ _) (by omega) ?_
        intro x hx hs
        apply Nat.le_of_not_lt
        intro hlt
        have hxw : x <:+ w := List.suffix_of_suffix_length_le hx hw (by rw [hl]; exact hmax x hx hs)
        have := h4 x (hxw.trans hwc) hlt
        exact hns ((this.concat tok).sub_iff.1 hs)

/-- Loop invariant of `find_lcs` after reading `r`. -/
structure LcsInv (s : List α) (h : Heap α) (L : Nat → List α) (r : List α) (st : LcsState) : Prop where
  cur_lt : st.current < h.length
  cur : ∃ w, w <:+ r ∧ w.length = st.curLen ∧ Eqv s w (L st.current) ∧
    ∀ x, x <:+ r → Sub s x → x.length ≤ st.curLen
  best : ∃ w, w.length = st.bestLen ∧ Occ s w st.bestEnd1 ∧ (∀ e, Occ s w e → st.bestEnd1 ≤ e) ∧
    Occ r w st.bestEnd2
  best_max : ∀ x e, Sub s x → Occ r x e → x.length ≤ st.bestLen
  best_first : ∀ x e, Sub s x → Occ r x e → x.length = st.bestLen → st.bestEnd2 ≤ e

theorem lcsStep_spec {s : List α} {h : Heap α} {last : Nat} {L : Nat → List α}
    (B : Built s h last L) {r : List α} {st : LcsState} (V : LcsInv s h L r st) (tok : α) :
    ∃ st', lcsStep h st r.length tok = some st' ∧ LcsInv s h L (r ++ [tok]) st' := by
  have H := B.hinv
  have I := H.inv
  obtain ⟨w, hw, hwl, hwe, hwm⟩ := V.cur
  obtain ⟨nxt, cur, len, hcl, hcur, w', hw', hwl', hwe', hmax, hnx, hnn⟩ :=
    lcsClimb_spec H tok r (h.length + 1) st.current st.curLen w V.cur_lt hw hwl hwe
      (by have := I.length_le V.cur_lt; have := B.size; omega)
      (by
        intro x hx hs
        exact hwm x hx hs.of_append_left)
  simp only [lcsStep, hcl]
  -- the pair after the step
  have key : ∃ cur2 len2, ((nxt = some cur2 ∧ len2 = len + 1) ∨
      (nxt = none ∧ cur2 = cur ∧ len2 = len)) ∧ cur2 < h.length ∧
      ∃ w2, w2 <:+ r ++ [tok] ∧ w2.length = len2 ∧ Eqv s w2 (L cur2) ∧
        ∀ x, x <:+ r ++ [tok] → Sub s x → x.length ≤ len2 := by
    cases nxt with
    | some j =>
      obtain ⟨hj, hje⟩ := I.tr_some cur hcur tok j (hnx j rfl)
      refine ⟨j, len + 1, Or.inl ⟨rfl, rfl⟩, hj, w' ++ [tok], suffix_snoc_iff.2 ⟨hw', rfl⟩, by simp [hwl'],
        (hwe'.concat tok).trans hje, ?_⟩
      intro x hx hs
      rcases suffix_snoc_cases hx with rfl | ⟨x', rfl, hx'⟩
      · simp
      · have := hmax x' hx' hs; simp; omega
    | none =>
      obtain ⟨hns, hnil⟩ := hnn rfl
      subst hnil
      refine ⟨cur, len, Or.inr ⟨rfl, rfl, rfl⟩, hcur, [], List.nil_suffix, hwl', hwe', ?_⟩
      intro x hx hs
      rcases suffix_snoc_cases hx with rfl | ⟨x', rfl, hx'⟩
      · simp
      · exact absurd (hs.of_suffix (List.suffix_append x' [tok])) hns
  obtain ⟨cur2, len2, hk, hc2, w2, hw2, hwl2, hwe2, hwm2⟩ := key
  suffices fin : ∃ st', (if st.bestLen < len2 then
        some { current := cur2, curLen := len2, bestLen := len2,
               bestEnd1 := endposOf h cur2, bestEnd2 := r.length + 1 }
      else some { st with current := cur2, curLen := len2 }) = some st' ∧
      LcsInv s h L (r ++ [tok]) st' by
    rcases hk with ⟨rfl, rfl⟩ | ⟨rfl, rfl, rfl⟩
    · exact fin
    · exact fin
  split
  · next hlt =>
    refine ⟨_, rfl, ⟨hc2, ⟨w2, hw2, hwl2, hwe2, hwm2⟩, ⟨w2, hwl2, ?_, ?_, ?_⟩, ?_, ?_⟩⟩
    · exact (hwe2 _).2 (I.fe_occ cur2 hc2)
    · intro e he; exact I.fe_min cur2 hc2 e ((hwe2 e).1 he)
    · have := (occ_length_iff (s := r ++ [tok])).2 hw2
      simpa using this
    · intro x e hs ho
      rcases occ_snoc.1 ho with ho | ⟨_, ho⟩
      · have := V.best_max x e hs ho; dsimp only; omega
      · exact hwm2 x ho hs
    · intro x e hs ho hx
      dsimp only at hx ⊢
      rcases occ_snoc.1 ho with ho | ⟨ho, _⟩
      · have := V.best_max x e hs ho; omega
      · omega
  · next hge =>
    refine ⟨_, rfl, ⟨hc2, ⟨w2, hw2, hwl2, hwe2, hwm2⟩, ?_, ?_, ?_⟩⟩
    · obtain ⟨b, h1, h2, h3, h4⟩ := V.best
      exact ⟨b, h1, h2, h3, h4.snoc⟩
    · intro x e hs ho
      rcases occ_snoc.1 ho with ho | ⟨_, ho⟩
      · exact V.best_max x e hs ho
      · have := hwm2 x ho hs; dsimp only; omega
    · intro x e hs ho hx
      rcases occ_snoc.1 ho with ho | ⟨ho, hsuf⟩
      · exact V.best_first x e hs ho hx
      · obtain ⟨b, _, _, _, h4⟩ := V.best
        have := h4.le; dsimp only; omega

theorem lcsLoop_spec {s : List α} {h : Heap α} {last : Nat} {L : Nat → List α}
    (B : Built s h last L) : ∀ (ts r : List α) (st : LcsState), LcsInv s h L r st →
    ∃ st', lcsLoop h st r.length ts = some st' ∧ LcsInv s h L (r ++ ts) st' := by
  intro ts
  induction ts with
  | nil => intro r st V; exact ⟨st, rfl, by simpa using V⟩
  | cons t ts ih =>
    intro r st V
    obtain ⟨st1, h1, V1⟩ := lcsStep_spec B V t
    obtain ⟨st2, h2, V2⟩ := ih (r ++ [t]) st1 V1
    refine ⟨st2, ?_, by simpa using V2⟩
    simp only [lcsLoop, h1]
    simpa using h2

theorem saFindLcs_spec {s : List α} {h : Heap α} {last : Nat} {L : Nat → List α}
    (B : Built s h last L) (b : List α) :
    ∃ i j n w, saFindLcs h b = some (i, j, n) ∧ w.length = n ∧
      OccursAt s w i ∧ OccursAt b w j ∧
      (∀ x, CommonSubstring s b x → x.length ≤ n) ∧
      (∀ i', OccursAt s w i' → i ≤ i') ∧
      (∀ x j', Substring s x → x.length = n → OccursAt b x j' → j ≤ j') := by
  have I := B.hinv.inv
  have V0 : LcsInv s h L [] ⟨0, 0, 0, 0, 0⟩ := by
    refine ⟨I.zero_lt, ⟨[], List.suffix_refl _, rfl, by rw [I.rootL]; exact Eqv.refl _ _, ?_⟩,
      ⟨[], rfl, by simp [Occ], by simp, by simp [Occ]⟩, ?_, ?_⟩
    · intro x hx _; simp at hx; simp [hx]
    · intro x e _ ho
      have h1 := ho.length_le
      have h2 := ho.le
      simp only [List.length_nil] at h2 ⊢
      omega
    · simp
  obtain ⟨st, h1, V⟩ := lcsLoop_spec B b [] _ V0
  rw [List.nil_append] at V
  obtain ⟨w, hw1, hw2, hw3, hw4⟩ := V.best
  refine ⟨st.bestEnd1 - st.bestLen, st.bestEnd2 - st.bestLen, st.bestLen, w, ?_, hw1, ?_, ?_, ?_, ?_, ?_⟩
  · simp only [saFindLcs]
    have : ([] : List α).length = 0 := rfl
    rw [this] at h1
    rw [h1]
  · rw [← hw1]; exact (occ_iff_occursAt.1 hw2).2
  · rw [← hw1]; exact (occ_iff_occursAt.1 hw4).2
  · rintro x ⟨hs, j, hj⟩
    exact V.best_max x _ (sub_iff_substring.2 hs) (occursAt_iff_occ.1 hj)
  · intro i' hi'
    have := hw3 _ (occursAt_iff_occ.1 hi')
    omega
  · intro x j' hs hx hj
    have := V.best_first x _ (sub_iff_substring.2 hs) (occursAt_iff_occ.1 hj) hx
    omega

end Gaspra
