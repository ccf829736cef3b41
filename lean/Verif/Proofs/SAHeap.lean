import Verif.Model.SuffixAutomaton
import Verif.Proofs.SAAbstract
import Verif.Proofs.Dict

/-!
# The heap functions of the suffix automaton preserve the invariant
-/

set_option linter.unusedSectionVars false
set_option linter.unusedSimpArgs false
set_option linter.unusedVariables false

namespace Gaspra

variable {α : Type _} [DecidableEq α]

/-- Transition function of a heap. -/
def trOf (h : Heap α) (i : Nat) (c : α) : Option Nat :=
  match h[i]? with
  | none => none
  | some nd => dget nd.transitions c

/-- Link function of a heap. -/
def lkOf (h : Heap α) (i : Nat) : Option Nat :=
  match h[i]? with
  | none => none
  | some nd => nd.link

/-- Length function of a heap. -/
def lenOf (h : Heap α) (i : Nat) : Nat :=
  match h[i]? with
  | none => 0
  | some nd => nd.length

theorem trOf_some {h : Heap α} {i : Nat} {nd : Node α} (hi : h[i]? = some nd) (c : α) :
    trOf h i c = dget nd.transitions c := by simp [trOf, hi]
theorem lkOf_some {h : Heap α} {i : Nat} {nd : Node α} (hi : h[i]? = some nd) :
    lkOf h i = nd.link := by simp [lkOf, hi]
theorem lenOf_some {h : Heap α} {i : Nat} {nd : Node α} (hi : h[i]? = some nd) :
    lenOf h i = nd.length := by simp [lenOf, hi]
theorem endposOf_some {h : Heap α} {i : Nat} {nd : Node α} (hi : h[i]? = some nd) :
    endposOf h i = nd.firstEndpos := by simp [endposOf, hi]

theorem heap_get {h : Heap α} {i : Nat} (hi : i < h.length) : ∃ nd, h[i]? = some nd :=
  ⟨_, List.getElem?_eq_getElem hi⟩

/-- The heap invariant: the abstract invariant, and `length` is the length of the word. -/
structure HInv (s : List α) (h : Heap α) (last : Nat) (L : Nat → List α) : Prop where
  inv : SAInv s h.length (trOf h) (lkOf h) (endposOf h) last L
  len : ∀ i, i < h.length → lenOf h i = (L i).length

/-! ## Accessors after an update -/

/-- Two heaps that differ only in transitions. -/
structure SameShape (h h' : Heap α) : Prop where
  length_eq : h'.length = h.length
  lk : ∀ i, lkOf h' i = lkOf h i
  len : ∀ i, lenOf h' i = lenOf h i
  fe : ∀ i, endposOf h' i = endposOf h i

theorem SameShape.refl (h : Heap α) : SameShape h h := ⟨rfl, fun _ => rfl, fun _ => rfl, fun _ => rfl⟩

theorem SameShape.trans {a b c : Heap α} (h : SameShape a b) (h' : SameShape b c) :
    SameShape a c :=
  ⟨h'.length_eq.trans h.length_eq, fun i => (h'.lk i).trans (h.lk i),
    fun i => (h'.len i).trans (h.len i), fun i => (h'.fe i).trans (h.fe i)⟩

theorem getElem?_set' {β : Type _} (l : List β) (i j : Nat) (x : β) :
    (l.set i x)[j]? = if i = j then (if i < l.length then some x else none) else l[j]? := by
  rw [List.getElem?_set]

theorem sameShape_set {h : Heap α} {u : Nat} {nd : Node α} (hu : h[u]? = some nd)
    (t : List (α × Nat)) : SameShape h (h.set u { nd with transitions := t }) := by
  have hlt : u < h.length := (List.getElem?_eq_some_iff.1 hu).1
  refine ⟨by simp, ?_, ?_, ?_⟩ <;> intro i <;>
    simp only [lkOf, lenOf, endposOf, getElem?_set'] <;>
    by_cases hiu : u = i
  all_goals first
    | (subst hiu; simp only [hlt, hu, if_true])
    | simp [hiu]

theorem trOf_set {h : Heap α} {u : Nat} {nd : Node α} (hu : h[u]? = some nd) (c : α) (v : Nat)
    (i : Nat) (d : α) :
    trOf (h.set u { nd with transitions := dset nd.transitions c v }) i d =
      if u = i ∧ c = d then some v else trOf h i d := by
  have hlt : u < h.length := (List.getElem?_eq_some_iff.1 hu).1
  simp only [trOf, getElem?_set']
  by_cases hiu : u = i
  · subst hiu
    simp only [hlt, hu, dget_dset, if_true, true_and]
  · simp [hiu]

/-! ## The first loop of `extend` -/

/-- State of the first loop: `cur` is the current node, everything on the suffix path of
`last` above it already points to `N` on `c`. -/
structure AddState (s : List α) (N : Nat) (tr0 : Nat → α → Option Nat) (L : Nat → List α) (c : α)
    (h : Heap α) (cur : Option Nat) : Prop where
  cur_lt : ∀ u, cur = some u → u < N ∧ L u <:+ s
  visited : ∀ i, i < N → L i <:+ s → (∀ u, cur = some u → (L u).length < (L i).length) →
    trOf h i c = some N ∧ ¬ Sub s (L i ++ [c])
  rest : ∀ i d, ¬ (i < N ∧ d = c ∧ L i <:+ s ∧ ∀ u, cur = some u → (L u).length < (L i).length) →
    trOf h i d = tr0 i d

theorem addLoop_spec {s : List α} {N : Nat} {h0 : Heap α} {tr : Nat → α → Option Nat}
    {lk : Nat → Option Nat} {fe : Nat → Nat} {last : Nat} {L : Nat → List α} {c : α}
    (I : SAInv s N tr lk fe last L)
    (htr : ∀ i, i < N → ∀ d, trOf h0 i d = tr i d)
    (hlk : ∀ i, i < N → lkOf h0 i = lk i) (hN : N < h0.length) :
    ∀ (fuel : Nat) (h : Heap α) (prev cur : Option Nat),
      SameShape h0 h → AddState s N (trOf h0) L c h cur →
      (∀ u, cur = some u → (L u).length < fuel) → (cur = none → prev = some 0) →
      ∃ h' prev' cur', addLoop c N fuel h prev cur = some (h', prev', cur') ∧
        SameShape h0 h' ∧ AddState s N (trOf h0) L c h' cur' ∧
        (cur' = none → prev' = some 0) ∧
        (∀ u, cur' = some u → ∃ q, trOf h' u c = some q) := by
  intro fuel
  induction fuel with
  | zero =>
    intro h prev cur hs ha hf hp
    cases cur with
    | none => exact ⟨h, prev, none, by simp [addLoop], hs, ha, hp, by simp⟩
    | some u => exact absurd (hf u rfl) (by omega)
  | succ f ih =>
    intro h prev cur hs ha hf hp
    cases cur with
    | none => exact ⟨h, prev, none, by simp [addLoop], hs, ha, hp, by simp⟩
    | some u =>
      obtain ⟨huN, hus⟩ := ha.cur_lt u rfl
      obtain ⟨nd, hnd⟩ := heap_get (h := h) (i := u) (by rw [hs.length_eq]; omega)
      simp only [addLoop, hnd]
      have hrest_u : ∀ d, trOf h u d = trOf h0 u d := by
        intro d
        apply ha.rest
        rintro ⟨_, _, _, h4⟩
        exact absurd (h4 u rfl) (by omega)
      cases hd : dget nd.transitions c with
      | some q =>
        exact ⟨h, prev, some u, rfl, hs, ha, by simp, by
          intro v hv; cases hv; exact ⟨q, by rw [trOf_some hnd, hd]⟩⟩
      | none =>
        have hnsub : ¬ Sub s (L u ++ [c]) := by
          apply I.tr_none u huN
          rw [← htr u huN, ← hrest_u, trOf_some hnd, hd]
        have hlku : nd.link = lk u := by
          rw [← hlk u huN, ← hs.lk, lkOf_some hnd]
        have hnext : ∀ v, nd.link = some v → v < N ∧ L v <:+ L u ∧ (L v).length < (L u).length ∧
            ∀ w, w <:+ L u → (L v).length < w.length → Eqv s w (L u) := by
          intro v hv; rw [hlku] at hv; exact I.lk_some u huN v hv
        have hnone : nd.link = none → L u = [] := by
          intro hv; rw [hlku] at hv; exact I.lk_none u huN hv
        -- nodes newly counted as visited: only `u`
        have hnew : ∀ i, i < N → L i <:+ s →
            (∀ v, nd.link = some v → (L v).length < (L i).length) →
            i = u ∨ (L u).length < (L i).length := by
          intro i hi his hv
          by_cases hle : (L u).length < (L i).length
          · exact Or.inr hle
          · left
            have hiu : L i <:+ L u := List.suffix_of_suffix_length_le his hus (by omega)
            cases hl : nd.link with
            | none =>
              have := hnone hl
              rw [this] at hiu
              apply I.inj i u hi huN
              rw [this]; simpa using hiu
            | some v =>
              obtain ⟨_, _, _, h4⟩ := hnext v hl
              exact I.eq_of_eqv hi huN (h4 _ hiu (hv v hl))
        apply ih
        · exact hs.trans (sameShape_set hnd _)
        · refine ⟨?_, ?_, ?_⟩
          · intro v hv
            obtain ⟨h1, h2, _⟩ := hnext v hv
            exact ⟨h1, h2.trans hus⟩
          · intro i hi his hv
            rw [trOf_set hnd]
            rcases hnew i hi his hv with rfl | hlt
            · simp [hnsub]
            · have := ha.visited i hi his (by intro u' hu'; cases hu'; exact hlt)
              by_cases hiu : u = i
              · subst hiu; omega
              · simp [hiu, this.1, this.2]
          · intro i d hn
            rw [trOf_set hnd]
            by_cases hiu : u = i ∧ c = d
            · obtain ⟨rfl, rfl⟩ := hiu
              exfalso; apply hn
              exact ⟨huN, rfl, hus, fun v hv => (hnext v hv).2.2.1⟩
            · rw [if_neg hiu]
              apply ha.rest
              rintro ⟨h1, h2, h3, h4⟩
              apply hn
              refine ⟨h1, h2, h3, fun v hv => ?_⟩
              have := h4 u rfl; have := (hnext v hv).2.2.1; omega
        · intro v hv
          have := (hnext v hv).2.2.1; have := hf u rfl; omega
        · intro hl
          have := hnone hl
          congr 1
          exact I.inj u 0 huN I.zero_lt (by rw [this, I.rootL])

/-! ## The loop of `insert_node` -/

structure RedState (N q M : Nat) (tr1 : Nat → α → Option Nat) (L : Nat → List α) (c : α) (p : Nat)
    (h : Heap α) (cur : Option Nat) : Prop where
  cur_lt : ∀ u, cur = some u → u < N ∧ L u <:+ L p
  visited : ∀ i, i < N → L i <:+ L p → (∀ u, cur = some u → (L u).length < (L i).length) →
    trOf h i c = some M ∧ tr1 i c = some q
  rest : ∀ i d, ¬ (i < N ∧ d = c ∧ L i <:+ L p ∧ ∀ u, cur = some u → (L u).length < (L i).length) →
    trOf h i d = tr1 i d

theorem redirectLoop_spec {s : List α} {N q M p : Nat} {h1 : Heap α} {tr : Nat → α → Option Nat}
    {lk : Nat → Option Nat} {fe : Nat → Nat} {last : Nat} {L : Nat → List α} {c : α}
    (I : SAInv s N tr lk fe last L)
    (hlk : ∀ i, i < N → L i <:+ L p → lkOf h1 i = lk i) (hN : N < h1.length) :
    ∀ (fuel : Nat) (h : Heap α) (cur : Option Nat),
      SameShape h1 h → RedState N q M (trOf h1) L c p h cur →
      (∀ u, cur = some u → (L u).length < fuel) →
      ∃ h' cur', redirectLoop c q M fuel h cur = some h' ∧
        SameShape h1 h' ∧ RedState N q M (trOf h1) L c p h' cur' ∧
        (∀ u, cur' = some u → trOf h1 u c ≠ some q) := by
  intro fuel
  induction fuel with
  | zero =>
    intro h cur hs ha hf
    cases cur with
    | none => exact ⟨h, none, by simp [redirectLoop], hs, ha, by simp⟩
    | some u => exact absurd (hf u rfl) (by omega)
  | succ f ih =>
    intro h cur hs ha hf
    cases cur with
    | none => exact ⟨h, none, by simp [redirectLoop], hs, ha, by simp⟩
    | some u =>
      obtain ⟨huN, hus⟩ := ha.cur_lt u rfl
      obtain ⟨nd, hnd⟩ := heap_get (h := h) (i := u) (by rw [hs.length_eq]; omega)
      simp only [redirectLoop, hnd]
      have hrest_u : ∀ d, trOf h u d = trOf h1 u d := by
        intro d
        apply ha.rest
        rintro ⟨_, _, _, h4⟩
        exact absurd (h4 u rfl) (by omega)
      split
      · next hd =>
        have hq : trOf h1 u c = some q := by rw [← hrest_u, trOf_some hnd, hd]
        have hlku : nd.link = lk u := by
          rw [← hlk u huN hus, ← hs.lk, lkOf_some hnd]
        have hnext : ∀ v, nd.link = some v → v < N ∧ L v <:+ L u ∧ (L v).length < (L u).length ∧
            ∀ w, w <:+ L u → (L v).length < w.length → Eqv s w (L u) := by
          intro v hv; rw [hlku] at hv; exact I.lk_some u huN v hv
        have hnone : nd.link = none → L u = [] := by
          intro hv; rw [hlku] at hv; exact I.lk_none u huN hv
        have hnew : ∀ i, i < N → L i <:+ L p →
            (∀ v, nd.link = some v → (L v).length < (L i).length) →
            i = u ∨ (L u).length < (L i).length := by
          intro i hi his hv
          by_cases hle : (L u).length < (L i).length
          · exact Or.inr hle
          · left
            have hiu : L i <:+ L u := List.suffix_of_suffix_length_le his hus (by omega)
            cases hl : nd.link with
            | none =>
              have := hnone hl
              rw [this] at hiu
              apply I.inj i u hi huN
              rw [this]; simpa using hiu
            | some v =>
              obtain ⟨_, _, _, h4⟩ := hnext v hl
              exact I.eq_of_eqv hi huN (h4 _ hiu (hv v hl))
        apply ih
        · exact hs.trans (sameShape_set hnd _)
        · refine ⟨?_, ?_, ?_⟩
          · intro v hv
            obtain ⟨h1, h2, _⟩ := hnext v hv
            exact ⟨h1, h2.trans hus⟩
          · intro i hi his hv
            rw [trOf_set hnd]
            rcases hnew i hi his hv with rfl | hlt
            · simp [hq]
            · have := ha.visited i hi his (by intro u' hu'; cases hu'; exact hlt)
              by_cases hiu : u = i
              · subst hiu; omega
              · simp [hiu, this.1, this.2]
          · intro i d hn
            rw [trOf_set hnd]
            by_cases hiu : u = i ∧ c = d
            · obtain ⟨rfl, rfl⟩ := hiu
              exfalso; apply hn
              exact ⟨huN, rfl, hus, fun v hv => (hnext v hv).2.2.1⟩
            · rw [if_neg hiu]
              apply ha.rest
              rintro ⟨h1, h2, h3, h4⟩
              apply hn
              refine ⟨h1, h2, h3, fun v hv => ?_⟩
              have := h4 u rfl; have := (hnext v hv).2.2.1; omega
        · intro v hv
          have := (hnext v hv).2.2.1; have := hf u rfl; omega
      · next hd =>
        refine ⟨h, some u, rfl, hs, ha, ?_⟩
        intro v hv; cases hv
        rw [← hrest_u, trOf_some hnd]; exact hd

/-! ## Append and set-link -/

theorem getElem?_snoc {β : Type _} (l : List β) (x : β) (i : Nat) :
    (l ++ [x])[i]? = if i < l.length then l[i]? else if i = l.length then some x else none := by
  by_cases h : i < l.length
  · simp [h, List.getElem?_append_left]
  · by_cases h' : i = l.length
    · subst h'; simp
    · have : l.length < i := by omega
      simp [h, h', List.getElem?_eq_none, this]
      omega

theorem setLink_length (h : Heap α) (i : Nat) (l : Option Nat) :
    (setLink h i l).length = h.length := by
  unfold setLink; split <;> simp

theorem setLink_get (h : Heap α) (i j : Nat) (l : Option Nat) :
    (setLink h i l)[j]? = if i = j then (h[j]?).map (fun nd => { nd with link := l }) else h[j]? := by
  unfold setLink
  split
  · next h1 => split
               · next h2 => subst h2; simp [h1]
               · rfl
  · next nd h1 =>
    have hlt : i < h.length := (List.getElem?_eq_some_iff.1 h1).1
    rw [getElem?_set']
    split
    · next h2 => subst h2; simp only [h1, hlt, if_true, Option.map_some]
    · rfl

theorem setLink_tr (h : Heap α) (i j : Nat) (l : Option Nat) (c : α) :
    trOf (setLink h i l) j c = trOf h j c := by
  simp only [trOf, setLink_get]
  by_cases hij : i = j
  · subst hij; simp only [if_true]; cases h[i]? <;> rfl
  · simp [hij]

theorem setLink_fe (h : Heap α) (i j : Nat) (l : Option Nat) :
    endposOf (setLink h i l) j = endposOf h j := by
  simp only [endposOf, setLink_get]
  by_cases hij : i = j
  · subst hij; simp only [if_true]; cases h[i]? <;> rfl
  · simp [hij]

theorem setLink_len (h : Heap α) (i j : Nat) (l : Option Nat) :
    lenOf (setLink h i l) j = lenOf h j := by
  simp only [lenOf, setLink_get]
  by_cases hij : i = j
  · subst hij; simp only [if_true]; cases h[i]? <;> rfl
  · simp [hij]

theorem setLink_lk (h : Heap α) (i j : Nat) (l : Option Nat) (hi : i < h.length) :
    lkOf (setLink h i l) j = if i = j then l else lkOf h j := by
  simp only [lkOf, setLink_get]
  by_cases hij : i = j
  · subst hij
    obtain ⟨nd, hnd⟩ := heap_get hi
    simp [hnd]
  · simp [hij]

/-! ## `extend` -/

theorem trOf_append_left (h : Heap α) (nd : Node α) {i : Nat} (hi : i < h.length) (c : α) :
    trOf (h ++ [nd]) i c = trOf h i c := by simp only [trOf, getElem?_snoc, hi, if_true]
theorem lkOf_append_left (h : Heap α) (nd : Node α) {i : Nat} (hi : i < h.length) :
    lkOf (h ++ [nd]) i = lkOf h i := by simp only [lkOf, getElem?_snoc, hi, if_true]
theorem lenOf_append_left (h : Heap α) (nd : Node α) {i : Nat} (hi : i < h.length) :
    lenOf (h ++ [nd]) i = lenOf h i := by simp only [lenOf, getElem?_snoc, hi, if_true]
theorem endposOf_append_left (h : Heap α) (nd : Node α) {i : Nat} (hi : i < h.length) :
    endposOf (h ++ [nd]) i = endposOf h i := by simp only [endposOf, getElem?_snoc, hi, if_true]
theorem get_append_right (h : Heap α) (nd : Node α) : (h ++ [nd])[h.length]? = some nd := by
  simp

/-- The word function after an extension without split. -/
def upd (L : Nat → List α) (n : Nat) (w : List α) : Nat → List α :=
  fun i => if i = n then w else L i

theorem upd_self (L : Nat → List α) (n : Nat) (w : List α) : upd L n w n = w := by simp [upd]
theorem upd_lt (L : Nat → List α) {n i : Nat} (w : List α) (h : i < n) : upd L n w i = L i := by
  simp [upd, Nat.ne_of_lt h]

theorem extend_spec {s : List α} {h : Heap α} {last : Nat} {L : Nat → List α}
    (H : HInv s h last L) (c : α) :
    ∃ h' L', extend c last h = some (h', h.length) ∧ HInv (s ++ [c]) h' h.length L' ∧
      (h'.length = h.length + 1 ∨ (h'.length = h.length + 2 ∧ 2 ≤ s.length)) := by
  have I := H.inv
  obtain ⟨ln, hln⟩ := heap_get I.last_lt
  have hlen_last : ln.length = s.length := by
    rw [← lenOf_some hln, H.len last I.last_lt, I.lastL]
  generalize hh1 : h ++ [({ length := ln.length + 1, firstEndpos := ln.length + 1 } : Node α)] = h1
  have hh1len : h1.length = h.length + 1 := by rw [← hh1]; simp
  have htr1 : ∀ i, i < h.length → ∀ d, trOf h1 i d = trOf h i d := by
    intro i hi d; rw [← hh1]; exact trOf_append_left h _ hi d
  have hlk1 : ∀ i, i < h.length → lkOf h1 i = lkOf h i := by
    intro i hi; rw [← hh1]; exact lkOf_append_left h _ hi
  have hlen1 : ∀ i, i < h.length → lenOf h1 i = lenOf h i := by
    intro i hi; rw [← hh1]; exact lenOf_append_left h _ hi
  have hfe1 : ∀ i, i < h.length → endposOf h1 i = endposOf h i := by
    intro i hi; rw [← hh1]; exact endposOf_append_left h _ hi
  have hnew : h1[h.length]? = some { length := ln.length + 1, firstEndpos := ln.length + 1 } := by
    rw [← hh1]; exact get_append_right _ _
  have htrN : ∀ d, trOf h1 h.length d = none := by
    intro d; rw [trOf_some hnew]; rfl
  have hlkN : lkOf h1 h.length = none := by rw [lkOf_some hnew]
  have hlenN : lenOf h1 h.length = s.length + 1 := by rw [lenOf_some hnew, hlen_last]
  have hfeN : endposOf h1 h.length = s.length + 1 := by rw [endposOf_some hnew, hlen_last]
  -- first loop
  have hstart : AddState s h.length (trOf h1) L c h1 (some last) := by
    refine ⟨?_, ?_, fun _ _ _ => rfl⟩
    · intro u hu; cases hu; exact ⟨I.last_lt, by rw [I.lastL]; exact List.suffix_refl _⟩
    · intro i hi his hlt
      have := hlt last rfl
      rw [I.lastL] at this
      have := his.length_le; omega
  obtain ⟨h2, prev, cur, hloop, hs2, ha, hprev, hcur⟩ :=
    addLoop_spec I htr1 hlk1 (by omega) (ln.length + 1) h1 none (some last)
      (SameShape.refl _) hstart
      (by intro u hu; cases hu; rw [I.lastL]; omega) (by simp)
  have hlen2 : h2.length = h.length + 1 := by rw [hs2.length_eq, hh1len]
  have hNs : ∀ d, trOf h2 h.length d = none := by
    intro d; rw [ha.rest _ _ (by rintro ⟨h, _⟩; omega), htrN]
  simp only [extend, hln, hh1, hloop]
  -- case analysis
  have plain : ∀ q, q < h.length → L q <:+ s ++ [c] →
      (∀ i, i < h.length → L i <:+ s →
        ((L q).length ≤ (L i).length ↔ (∀ u, cur = some u → (L u).length < (L i).length))) →
      ∃ L', HInv (s ++ [c]) (setLink h2 h.length (some q)) h.length L' := by
    intro q hq hqs hiff
    have hmax : ∀ w, w <:+ s ++ [c] → (L q).length < w.length → ¬ Sub s w := by
      intro w hw hl
      refine I.maximal_suffix (k := (L q).length) ?_ hw hl
      intro i hi his hlt
      exact (ha.visited i hi his ((hiff i hi his).1 (by omega))).2
    refine ⟨upd L h.length (s ++ [c]), ?_, ?_⟩
    · rw [setLink_length, hlen2]
      refine I.step_plain c q hq hqs hmax _ _ _ _ ?_ ?_ ?_ ?_ ?_ ?_ ?_ ?_ ?_
      · intro i hi his hl
        rw [setLink_tr]; exact (ha.visited i hi his ((hiff i hi his).1 hl)).1
      · intro i hi d hn
        rw [setLink_tr, ha.rest, htr1 i hi]
        rintro ⟨_, h2, h3, h4⟩
        exact hn ⟨h2, h3, (hiff i hi h3).2 h4⟩
      · intro d; rw [setLink_tr]; exact hNs d
      · intro i hi
        rw [setLink_lk _ _ _ _ (by omega), if_neg (by omega), hs2.lk, hlk1 i hi]
      · rw [setLink_lk _ _ _ _ (by omega), if_pos rfl]
      · intro i hi; rw [setLink_fe, hs2.fe, hfe1 i hi]
      · rw [setLink_fe, hs2.fe, hfeN]
      · intro i hi; exact upd_lt _ _ hi
      · exact upd_self _ _ _
    · intro i hi
      rw [setLink_length, hlen2] at hi
      rw [setLink_len, hs2.len]
      by_cases hi' : i < h.length
      · rw [hlen1 i hi', upd_lt _ _ hi', H.len i hi']
      · have : i = h.length := by omega
        subst this
        rw [hlenN, upd_self]; simp
  cases cur with
  | none =>
    rw [hprev rfl]
    obtain ⟨L', hL'⟩ := plain 0 I.zero_lt (by rw [I.rootL]; exact List.nil_suffix)
      (by intro i hi his; rw [I.rootL]; simp)
    exact ⟨_, L', rfl, hL', Or.inl (by rw [setLink_length, hlen2])⟩
  | some p =>
    obtain ⟨hp, hps⟩ := ha.cur_lt p rfl
    obtain ⟨q, hq⟩ := hcur p rfl
    obtain ⟨pn, hpn⟩ := heap_get (h := h2) (i := p) (by omega)
    have hq' : trOf h p c = some q := by
      rw [← htr1 p hp, ← ha.rest p c (by rintro ⟨_, _, _, h4⟩; exact absurd (h4 p rfl) (by omega))]
      exact hq
    obtain ⟨hqlt, hpq⟩ := I.tr_some p hp c q hq'
    obtain ⟨qn, hqn⟩ := heap_get (h := h2) (i := q) (by omega)
    have hpnlen : pn.length = (L p).length := by
      rw [← lenOf_some hpn, hs2.len, hlen1 p hp, H.len p hp]
    have hqnlen : qn.length = (L q).length := by
      rw [← lenOf_some hqn, hs2.len, hlen1 q hqlt, H.len q hqlt]
    have hdq : dget pn.transitions c = some q := by rw [← trOf_some hpn]; exact hq
    simp only [hpn, hdq, hqn]
    have hzs : L p ++ [c] <:+ s ++ [c] := suffix_snoc_iff.2 ⟨hps, rfl⟩
    have hzL : L p ++ [c] <:+ L q := I.longest q hqlt _ hpq
    split
    · next heq =>
      have hLq : L p ++ [c] = L q := hzL.eq_of_length (by simp; omega)
      obtain ⟨L', hL'⟩ := plain q hqlt (by rw [← hLq]; exact hzs) (by
        intro i hi his
        rw [← hLq]
        simp only [List.length_append, List.length_singleton, Option.some.injEq, forall_eq']
        omega)
      exact ⟨_, L', rfl, hL', Or.inl (by rw [setLink_length, hlen2])⟩
    · next hne =>
      have hzlen : (L p ++ [c]).length < (L q).length := by
        have := hzL.length_le; simp at this ⊢; omega
      have hmax : ∀ w, w <:+ s ++ [c] → (L p ++ [c]).length < w.length → ¬ Sub s w := by
        intro w hw hl
        refine I.maximal_suffix (k := (L p ++ [c]).length) ?_ hw hl
        intro i hi his hlt
        refine (ha.visited i hi his ?_).2
        intro u hu; cases hu; simp at hlt; omega
      -- insert_node
      simp only [insertNode, hpn, hqn]
      generalize hh3 : h2 ++ [({ length := pn.length + 1, firstEndpos := qn.firstEndpos, link := qn.link, transitions := qn.transitions } : Node α)] = h3
      have hh3len : h3.length = h.length + 2 := by rw [← hh3]; simp [hlen2]
      have hqn3 : h3[q]? = some qn := by
        rw [← hh3, getElem?_snoc, if_pos (by omega)]; exact hqn
      have hcl3 : h3[h.length + 1]? = some { length := pn.length + 1, firstEndpos := qn.firstEndpos, link := qn.link, transitions := qn.transitions } := by
        rw [← hh3, ← hlen2]; exact get_append_right _ _
      have hset : h3.set q { qn with link := some h2.length } = setLink h3 q (some h2.length) := by
        simp only [setLink, hqn3]
      rw [hset]
      generalize hh4 : setLink h3 q (some h2.length) = h4
      have hh4len : h4.length = h.length + 2 := by rw [← hh4, setLink_length, hh3len]
      have htr4 : ∀ i, i < h.length + 1 → ∀ d, trOf h4 i d = trOf h2 i d := by
        intro i hi d
        rw [← hh4, setLink_tr, ← hh3]; exact trOf_append_left h2 _ (by omega) d
      have htr4c : ∀ d, trOf h4 (h.length + 1) d = trOf h2 q d := by
        intro d; rw [← hh4, setLink_tr, trOf_some hcl3, trOf_some hqn]
      have hlk4 : ∀ i, lkOf h4 i = if q = i then some (h.length + 1) else lkOf h3 i := by
        intro i; rw [← hh4, setLink_lk _ _ _ _ (by omega), hlen2]
      have hlk3 : ∀ i, i < h.length → lkOf h3 i = lkOf h i := by
        intro i hi
        rw [← hh3, lkOf_append_left _ _ (by omega), hs2.lk, hlk1 i hi]
      have hfe4 : ∀ i, i < h.length + 1 → endposOf h4 i = endposOf h1 i := by
        intro i hi
        rw [← hh4, setLink_fe, ← hh3, endposOf_append_left _ _ (by omega), hs2.fe]
      have hlen4 : ∀ i, i < h.length + 1 → lenOf h4 i = lenOf h1 i := by
        intro i hi
        rw [← hh4, setLink_len, ← hh3, lenOf_append_left _ _ (by omega), hs2.len]
      have hpq_ne : ∀ i, i < h.length → L i <:+ L p → i ≠ q := by
        intro i _ hi heq; subst heq
        have := hi.length_le; simp at hzlen; omega
      have hrstart : RedState h.length q (h.length + 1) (trOf h4) L c p h4 (some p) := by
        refine ⟨?_, ?_, fun _ _ _ => rfl⟩
        · intro u hu; cases hu; exact ⟨hp, List.suffix_refl _⟩
        · intro i hi his hlt
          have := hlt p rfl
          have := his.length_le; omega
      obtain ⟨h5, cur', hloop', hs5, hr, hstop⟩ :=
        redirectLoop_spec (M := h.length + 1) (q := q) (c := c) (h1 := h4) I
          (by
            intro i hi his
            rw [hlk4, if_neg (by have := hpq_ne i hi his; omega), hlk3 i hi])
          (by omega) (pn.length + 1) h4 (some p) (SameShape.refl _) hrstart
          (by intro u hu; cases hu; omega)
      rw [hlen2]
      simp only [hloop']
      have hh5len : h5.length = h.length + 2 := by rw [hs5.length_eq, hh4len]
      refine ⟨setLink h5 h.length (some (h.length + 1)),
        upd (upd L h.length (s ++ [c])) (h.length + 1) (L p ++ [c]), rfl, ⟨?_, ?_⟩, Or.inr ⟨?_, ?_⟩⟩
      · rw [setLink_length, hh5len]
        have hold : ∀ i, i < h.length → L i <:+ L p → trOf h4 i c = trOf h i c := by
          intro i hi his
          rw [htr4 i (by omega), ha.rest, htr1 i hi]
          rintro ⟨_, _, _, h4⟩
          have := h4 p rfl; have := his.length_le; omega
        -- all nodes on the path of p that led to q are redirected
        have hall : ∀ i, i < h.length → L i <:+ L p → trOf h i c = some q →
            (∀ u, cur' = some u → (L u).length < (L i).length) := by
          intro i hi his htq u hu
          obtain ⟨hu1, hu2⟩ := hr.cur_lt u hu
          apply Nat.lt_of_not_le
          intro hle
          have hiu : L i <:+ L u := List.suffix_of_suffix_length_le his hu2 hle
          have h1 : Eqv s (L i ++ [c]) (L q) := (I.tr_some i hi c q htq).2
          have h2 : Eqv s (L u ++ [c]) (L q) :=
            Eqv.sandwich (suffix_snoc_iff.2 ⟨hiu, rfl⟩)
              ((suffix_snoc_iff.2 ⟨hu2, rfl⟩).trans hzL) h1
          apply hstop u hu
          rw [hold u hu1 hu2]
          cases hx : trOf h u c with
          | none => exact absurd (h2.sub_iff.2 (I.sub hqlt)) (I.tr_none u hu1 c hx)
          | some x =>
            obtain ⟨hx1, hx2⟩ := I.tr_some u hu1 c x hx
            rw [I.eq_of_eqv hx1 hqlt (hx2.symm.trans h2)]
        refine I.step_clone c q hqlt (L p ++ [c]) hzs (by simp) hmax hpq hzlen _ _ _ _
          ?_ ?_ ?_ ?_ ?_ ?_ ?_ ?_ ?_ ?_ ?_ ?_ ?_ ?_ ?_
        · intro i hi his hl
          rw [setLink_tr, hr.rest, htr4 i (by omega)]
          · refine (ha.visited i hi his ?_).1
            intro u hu; cases hu; simp at hl; omega
          · rintro ⟨_, _, h3, _⟩
            have := h3.length_le; simp at hl; omega
        · intro i hi d _ hsuf htq
          obtain ⟨his, rfl⟩ := suffix_snoc_iff.1 hsuf
          rw [setLink_tr]
          exact (hr.visited i hi his (hall i hi his htq)).1
        · intro i hi d hn1 hn2
          rw [setLink_tr, hr.rest, htr4 i (by omega), ha.rest, htr1 i hi]
          · rintro ⟨_, h2, h3, h4⟩
            apply hn1
            refine ⟨h2, h3, ?_⟩
            have := h4 p rfl; simp; omega
          · rintro ⟨_, rfl, h3, h4⟩
            apply hn2
            refine ⟨suffix_snoc_iff.2 ⟨h3, rfl⟩, ?_⟩
            rw [← hold i hi h3]; exact (hr.visited i hi h3 h4).2
        · intro d
          rw [setLink_tr, hr.rest _ _ (by rintro ⟨h, _⟩; omega), htr4 _ (by omega)]
          exact hNs d
        · intro d
          rw [setLink_tr, setLink_tr, hr.rest _ _ (by rintro ⟨h, _⟩; omega), htr4c,
            hr.rest, htr4 q (by omega)]
          rintro ⟨_, _, h3, _⟩
          exact hpq_ne q hqlt h3 rfl
        · intro i hi hiq
          rw [setLink_lk _ _ _ _ (by omega), if_neg (by omega), hs5.lk, hlk4,
            if_neg (by omega), hlk3 i hi]
        · rw [setLink_lk _ _ _ _ (by omega), if_neg (by omega), hs5.lk, hlk4, if_pos rfl]
        · rw [setLink_lk _ _ _ _ (by omega), if_pos rfl]
        · rw [setLink_lk _ _ _ _ (by omega), if_neg (by omega), hs5.lk, hlk4,
            if_neg (by omega), lkOf_some hcl3, ← hlk1 q hqlt, ← hs2.lk, lkOf_some hqn]
        · intro i hi
          rw [setLink_fe, hs5.fe, hfe4 i (by omega), hfe1 i hi]
        · rw [setLink_fe, hs5.fe, hfe4 _ (by omega), hfeN]
        · rw [setLink_fe, hs5.fe, ← hh4, setLink_fe, endposOf_some hcl3, ← hfe1 q hqlt,
            ← hs2.fe, endposOf_some hqn]
        · intro i hi; rw [upd_lt _ _ (by omega), upd_lt _ _ hi]
        · rw [upd_lt _ _ (by omega), upd_self]
        · rw [upd_self]
      · intro i hi
        rw [setLink_length, hh5len] at hi
        rw [setLink_len, hs5.len]
        by_cases hi1 : i < h.length + 1
        · rw [hlen4 i hi1, upd_lt _ _ hi1]
          by_cases hi2 : i < h.length
          · rw [hlen1 i hi2, upd_lt _ _ hi2, H.len i hi2]
          · have : i = h.length := by omega
            subst this
            rw [hlenN, upd_self]; simp
        · have : i = h.length + 1 := by omega
          subst this
          rw [← hh4, setLink_len, lenOf_some hcl3, upd_self]; simp [hpnlen]
      · rw [setLink_length, hh5len]
      · have := I.length_le hqlt; simp at hzlen; omega

end Gaspra
