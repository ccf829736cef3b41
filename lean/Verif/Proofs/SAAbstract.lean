import Verif.Proofs.Endpos

/-!
# The suffix-automaton invariant and its preservation, on an abstract automaton

An automaton with `n` states is given by functions `tr` (transitions), `lk` (links), `fe`
(first end position).  The ghost function `L` gives the longest word of each state.
-/

namespace Gaspra

variable {α : Type _}

structure SAInv (s : List α) (n : Nat) (tr : Nat → α → Option Nat) (lk : Nat → Option Nat)
    (fe : Nat → Nat) (last : Nat) (L : Nat → List α) : Prop where
  last_lt : last < n
  lastL : L last = s
  zero_lt : 0 < n
  rootL : L 0 = []
  fe_occ : ∀ i, i < n → Occ s (L i) (fe i)
  fe_min : ∀ i, i < n → ∀ e, Occ s (L i) e → fe i ≤ e
  longest : ∀ i, i < n → ∀ w, Eqv s w (L i) → w <:+ L i
  cover : ∀ w, Sub s w → ∃ i, i < n ∧ Eqv s w (L i)
  inj : ∀ i j, i < n → j < n → L i = L j → i = j
  tr_some : ∀ i, i < n → ∀ c j, tr i c = some j → j < n ∧ Eqv s (L i ++ [c]) (L j)
  tr_none : ∀ i, i < n → ∀ c, tr i c = none → ¬ Sub s (L i ++ [c])
  lk_some : ∀ i, i < n → ∀ j, lk i = some j → j < n ∧ L j <:+ L i ∧ (L j).length < (L i).length ∧
    ∀ w, w <:+ L i → (L j).length < w.length → Eqv s w (L i)
  lk_none : ∀ i, i < n → lk i = none → L i = []

namespace SAInv

variable {s : List α} {n : Nat} {tr : Nat → α → Option Nat} {lk : Nat → Option Nat}
  {fe : Nat → Nat} {last : Nat} {L : Nat → List α}

theorem sub (I : SAInv s n tr lk fe last L) {i : Nat} (hi : i < n) : Sub s (L i) :=
  ⟨_, I.fe_occ i hi⟩

/-- Equivalent states are equal. -/
theorem eq_of_eqv (I : SAInv s n tr lk fe last L) {i j : Nat} (hi : i < n) (hj : j < n)
    (h : Eqv s (L i) (L j)) : i = j := by
  apply I.inj i j hi hj
  have h1 := I.longest j hj _ h
  have h2 := I.longest i hi _ h.symm
  exact h1.eq_of_length (Nat.le_antisymm h1.length_le h2.length_le)

theorem length_le (I : SAInv s n tr lk fe last L) {i : Nat} (hi : i < n) :
    (L i).length ≤ s.length := (I.sub hi).length_le

/-- The empty automaton. -/
theorem init : SAInv ([] : List α) 1 (fun _ _ => none) (fun _ => none) (fun _ => 0) 0
    (fun _ => []) where
  last_lt := by omega
  lastL := rfl
  zero_lt := by omega
  rootL := rfl
  fe_occ := by intro i _; simp [Occ]
  fe_min := by intro i _ e _; omega
  longest := by
    intro i _ w h
    have : Occ ([] : List α) w 0 := (h 0).2 (by simp [Occ])
    simpa [Occ] using this
  cover := by
    rintro w ⟨e, he⟩
    refine ⟨0, by omega, ?_⟩
    have h1 := he.length_le
    have h2 := he.le
    have : w = [] := List.eq_nil_of_length_eq_zero (by simp at h2; omega)
    subst this
    exact Eqv.refl _ _
  inj := by intro i j hi hj _; omega
  tr_some := by intro i _ c j h; cases h
  tr_none := by
    rintro i _ c _ h
    have := h.length_le
    simp at this
  lk_some := by intro i _ j h; cases h
  lk_none := by intro i _ _; rfl

/-- Key fact: `z` is the longest suffix of `s ++ [c]` that already occurs, if `L p ++ [c]` does
and no longer state word that is a suffix of `s` can be extended by `c`. -/
theorem maximal_suffix (I : SAInv s n tr lk fe last L) {c : α} {k : Nat}
    (hmax : ∀ i, i < n → L i <:+ s → k < (L i).length + 1 → ¬ Sub s (L i ++ [c]))
    {w : List α} (hw : w <:+ s ++ [c]) (hlen : k < w.length) : ¬ Sub s w := by
  intro hs
  rcases suffix_snoc_cases hw with rfl | ⟨w', rfl, hw'⟩
  · simp at hlen
  · obtain ⟨u, hu, he⟩ := I.cover w' (Sub.of_suffix_self hw')
    have h1 : L u <:+ s := he.suffix_iff.1 hw'
    have h2 := (I.longest u hu _ he).length_le
    have h3 : Sub s (L u ++ [c]) := (he.concat c).sub_iff.1 hs
    simp only [List.length_append, List.length_singleton] at hlen
    exact hmax u hu h1 (by omega) h3

/-- Extending without splitting a state.  `q` is the state whose word `L q` is the longest
suffix of `s ++ [c]` occurring in `s`. -/
theorem step_plain (I : SAInv s n tr lk fe last L) (c : α) (q : Nat) (hq : q < n)
    (hqs : L q <:+ s ++ [c])
    (hmax : ∀ w, w <:+ s ++ [c] → (L q).length < w.length → ¬ Sub s w)
    (tr' : Nat → α → Option Nat) (lk' : Nat → Option Nat) (fe' : Nat → Nat) (L' : Nat → List α)
    (htr1 : ∀ i, i < n → L i <:+ s → (L q).length ≤ (L i).length → tr' i c = some n)
    (htr2 : ∀ i, i < n → ∀ d, ¬ (d = c ∧ L i <:+ s ∧ (L q).length ≤ (L i).length) →
      tr' i d = tr i d)
    (htrn : ∀ d, tr' n d = none)
    (hlk : ∀ i, i < n → lk' i = lk i) (hlkn : lk' n = some q)
    (hfe : ∀ i, i < n → fe' i = fe i) (hfen : fe' n = s.length + 1)
    (hL : ∀ i, i < n → L' i = L i) (hLn : L' n = s ++ [c]) :
    SAInv (s ++ [c]) (n + 1) tr' lk' fe' n L' := by
  -- words equivalent to a state word stay so
  have key : ∀ w v, v < n → Sub s w → Eqv s w (L v) → Eqv (s ++ [c]) w (L v) := by
    intro w v hv hs he
    refine he.snoc ⟨?_, fun h => (I.longest v hv _ he).trans h⟩
    intro hw
    have hwl : w.length ≤ (L q).length := Nat.le_of_not_lt fun h => hmax w hw h hs
    have hwq : w <:+ L q := List.suffix_of_suffix_length_le hw hqs hwl
    obtain ⟨e, hz⟩ := I.sub hq
    have hve : Occ s (L v) e := (he e).1 (hz.of_suffix hwq)
    rcases hve.suffix_total hz with h | h
    · exact h.trans hqs
    · have := Eqv.sandwich hwq h he
      have := I.eq_of_eqv hq hv this
      rw [← this]; exact hqs
  have hlt : ∀ i, i < n + 1 → i < n ∨ i = n := by intro i hi; omega
  refine
    { last_lt := by omega
      lastL := hLn
      zero_lt := by omega
      rootL := by rw [hL 0 I.zero_lt, I.rootL]
      fe_occ := ?_
      fe_min := ?_
      longest := ?_
      cover := ?_
      inj := ?_
      tr_some := ?_
      tr_none := ?_
      lk_some := ?_
      lk_none := ?_ }
  · intro i hi
    rcases hlt i hi with hi | rfl
    · rw [hL i hi, hfe i hi]; exact (I.fe_occ i hi).snoc
    · rw [hLn, hfen]; have := occ_self (s := s ++ [c]); simpa using this
  · intro i hi e he
    rcases hlt i hi with hi | rfl
    · rw [hL i hi] at he; rw [hfe i hi]
      rcases occ_snoc.1 he with h | h
      · exact I.fe_min i hi e h
      · have := (I.fe_occ i hi).le; omega
    · rw [hLn] at he; rw [hfen]; have := he.length_le; simpa using this
  · intro i hi w hw
    rcases hlt i hi with hi | rfl
    · rw [hL i hi] at hw ⊢; exact I.longest i hi w hw.of_snoc
    · rw [hLn] at hw ⊢; exact (hw.suffix_iff).2 (List.suffix_refl _)
  · intro w hw
    by_cases hs : Sub s w
    · obtain ⟨v, hv, he⟩ := I.cover w hs
      exact ⟨v, by omega, by rw [hL v hv]; exact key w v hv hs he⟩
    · rcases sub_snoc.1 hw with h | h
      · exact absurd h hs
      · exact ⟨n, by omega, by rw [hLn]; exact eqv_new h hs⟩
  · intro i j hi hj hij
    rcases hlt i hi with hi | rfl <;> rcases hlt j hj with hj | rfl
    · rw [hL i hi, hL j hj] at hij; exact I.inj i j hi hj hij
    · rw [hL i hi, hLn] at hij
      have := I.length_le hi; rw [hij] at this; simp at this; omega
    · rw [hL j hj, hLn] at hij
      have := I.length_le hj; rw [← hij] at this; simp at this; omega
    · rfl
  · intro i hi d j hj
    rcases hlt i hi with hi | rfl
    · rw [hL i hi]
      by_cases hc : d = c ∧ L i <:+ s ∧ (L q).length ≤ (L i).length
      · obtain ⟨rfl, h1, h2⟩ := hc
        rw [htr1 i hi h1 h2] at hj
        cases hj
        refine ⟨by omega, ?_⟩
        rw [hLn]
        have hsuf := suffix_snoc_iff.2 ⟨h1, (rfl : d = d)⟩
        exact eqv_new hsuf (hmax _ hsuf (by simp; omega))
      · rw [htr2 i hi d hc] at hj
        obtain ⟨h1, h2⟩ := I.tr_some i hi d j hj
        refine ⟨by omega, ?_⟩
        rw [hL j h1]
        exact key _ j h1 (h2.sub_iff.2 (I.sub h1)) h2
    · rw [htrn] at hj; cases hj
  · intro i hi d hd
    rcases hlt i hi with hi | rfl
    · rw [hL i hi]
      by_cases hc : d = c ∧ L i <:+ s ∧ (L q).length ≤ (L i).length
      · obtain ⟨rfl, h1, h2⟩ := hc
        rw [htr1 i hi h1 h2] at hd; cases hd
      · rw [htr2 i hi d hc] at hd
        have hns := I.tr_none i hi d hd
        intro h
        rcases sub_snoc.1 h with h | h
        · exact hns h
        · obtain ⟨h1, rfl⟩ := suffix_snoc_iff.1 h
          have hlen : ¬ (L q).length ≤ (L i).length := fun hle => hc ⟨rfl, h1, hle⟩
          have : L i ++ [d] <:+ L q :=
            List.suffix_of_suffix_length_le h hqs (by simp; omega)
          exact hns ((I.sub hq).of_suffix this)
    · rw [hLn]
      intro h; have := h.length_le; simp at this
  · intro i hi j hj
    rcases hlt i hi with hi | rfl
    · rw [hlk i hi] at hj
      obtain ⟨h1, h2, h3, h4⟩ := I.lk_some i hi j hj
      rw [hL i hi, hL j h1]
      exact ⟨by omega, h2, h3, fun w hw hl =>
        key w i hi ((I.sub hi).of_suffix hw) (h4 w hw hl)⟩
    · rw [hlkn] at hj; cases hj
      rw [hLn, hL q hq]
      refine ⟨by omega, hqs, ?_, ?_⟩
      · have := I.length_le hq; simp; omega
      · intro w hw hl; exact eqv_new hw (hmax w hw hl)
  · intro i hi h
    rcases hlt i hi with hi | rfl
    · rw [hL i hi]; rw [hlk i hi] at h; exact I.lk_none i hi h
    · rw [hlkn] at h; cases h

/-- Extending with a split: `z` is the longest suffix of `s ++ [c]` occurring in `s`; it lies
strictly inside the class of state `q`; the clone is state `n + 1`. -/
theorem step_clone (I : SAInv s n tr lk fe last L) (c : α) (q : Nat) (hq : q < n)
    (z : List α) (hzs : z <:+ s ++ [c]) (_hz0 : z ≠ [])
    (hmax : ∀ w, w <:+ s ++ [c] → z.length < w.length → ¬ Sub s w)
    (hzq : Eqv s z (L q)) (hzlen : z.length < (L q).length)
    (tr' : Nat → α → Option Nat) (lk' : Nat → Option Nat) (fe' : Nat → Nat) (L' : Nat → List α)
    (htr1 : ∀ i, i < n → L i <:+ s → z.length ≤ (L i).length → tr' i c = some n)
    (htr2 : ∀ i, i < n → ∀ d, ¬ (d = c ∧ L i <:+ s ∧ z.length ≤ (L i).length) →
      L i ++ [d] <:+ z → tr i d = some q → tr' i d = some (n + 1))
    (htr3 : ∀ i, i < n → ∀ d, ¬ (d = c ∧ L i <:+ s ∧ z.length ≤ (L i).length) →
      ¬ (L i ++ [d] <:+ z ∧ tr i d = some q) → tr' i d = tr i d)
    (htrn : ∀ d, tr' n d = none)
    (htrc : ∀ d, tr' (n + 1) d = tr' q d)
    (hlk : ∀ i, i < n → i ≠ q → lk' i = lk i) (hlkq : lk' q = some (n + 1))
    (hlkn : lk' n = some (n + 1)) (hlkc : lk' (n + 1) = lk q)
    (hfe : ∀ i, i < n → fe' i = fe i) (hfen : fe' n = s.length + 1) (hfec : fe' (n + 1) = fe q)
    (hL : ∀ i, i < n → L' i = L i) (hLn : L' n = s ++ [c]) (hLc : L' (n + 1) = z) :
    SAInv (s ++ [c]) (n + 2) tr' lk' fe' n L' := by
  have hzL : z <:+ L q := I.longest q hq z hzq
  have hzsub : Sub s z := hzq.sub_iff.2 (I.sub hq)
  have key1 : ∀ w v, v < n → Sub s w → Eqv s w (L v) → ¬ (v = q ∧ w.length ≤ z.length) →
      Eqv (s ++ [c]) w (L v) := by
    intro w v hv hs he hne
    refine he.snoc ⟨?_, fun h => (I.longest v hv _ he).trans h⟩
    intro hw
    have hwl : w.length ≤ z.length := Nat.le_of_not_lt fun h => hmax w hw h hs
    have hwz : w <:+ z := List.suffix_of_suffix_length_le hw hzs hwl
    obtain ⟨e, hz⟩ := hzsub
    have hve : Occ s (L v) e := (he e).1 (hz.of_suffix hwz)
    rcases hve.suffix_total hz with h | h
    · exact h.trans hzs
    · have h1 : Eqv s z (L v) := Eqv.sandwich hwz h he
      have h2 : q = v := I.eq_of_eqv hq hv (hzq.symm.trans h1)
      exact absurd ⟨h2.symm, hwl⟩ hne
  have key2 : ∀ w, Eqv s w (L q) → w.length ≤ z.length → Eqv (s ++ [c]) w z ∧ w <:+ z := by
    intro w he hl
    have hwz : w <:+ z :=
      List.suffix_of_suffix_length_le (I.longest q hq w he) hzL hl
    exact ⟨(he.trans hzq.symm).snoc ⟨fun _ => hzs, fun _ => hwz.trans hzs⟩, hwz⟩
  have hlt : ∀ i, i < n + 2 → i < n ∨ i = n ∨ i = n + 1 := by intro i hi; omega
  have hzl : z.length ≤ s.length := hzsub.length_le
  refine
    { last_lt := by omega
      lastL := hLn
      zero_lt := by omega
      rootL := by rw [hL 0 I.zero_lt, I.rootL]
      fe_occ := ?_
      fe_min := ?_
      longest := ?_
      cover := ?_
      inj := ?_
      tr_some := ?_
      tr_none := ?_
      lk_some := ?_
      lk_none := ?_ }
  · intro i hi
    rcases hlt i hi with hi | rfl | rfl
    · rw [hL i hi, hfe i hi]; exact (I.fe_occ i hi).snoc
    · rw [hLn, hfen]; have := occ_self (s := s ++ [c]); simpa using this
    · rw [hLc, hfec]; exact ((hzq _).2 (I.fe_occ q hq)).snoc
  · intro i hi e he
    rcases hlt i hi with hi | rfl | rfl
    · rw [hL i hi] at he; rw [hfe i hi]
      rcases occ_snoc.1 he with h | h
      · exact I.fe_min i hi e h
      · have := (I.fe_occ i hi).le; omega
    · rw [hLn] at he; rw [hfen]; have := he.length_le; simpa using this
    · rw [hLc] at he; rw [hfec]
      rcases occ_snoc.1 he with h | h
      · exact I.fe_min q hq e ((hzq e).1 h)
      · have := (I.fe_occ q hq).le; omega
  · intro i hi w hw
    rcases hlt i hi with hi | rfl | rfl
    · rw [hL i hi] at hw ⊢; exact I.longest i hi w hw.of_snoc
    · rw [hLn] at hw ⊢; exact (hw.suffix_iff).2 (List.suffix_refl _)
    · rw [hLc] at hw ⊢
      have h1 : w <:+ s ++ [c] := hw.suffix_iff.2 hzs
      have h2 : Sub s w := (hw.of_snoc.sub_iff).2 hzsub
      exact List.suffix_of_suffix_length_le h1 hzs
        (Nat.le_of_not_lt fun h => hmax w h1 h h2)
  · intro w hw
    by_cases hs : Sub s w
    · obtain ⟨v, hv, he⟩ := I.cover w hs
      by_cases hc : v = q ∧ w.length ≤ z.length
      · obtain ⟨rfl, hl⟩ := hc
        exact ⟨n + 1, by omega, by rw [hLc]; exact (key2 w he hl).1⟩
      · exact ⟨v, by omega, by rw [hL v hv]; exact key1 w v hv hs he hc⟩
    · rcases sub_snoc.1 hw with h | h
      · exact absurd h hs
      · exact ⟨n, by omega, by rw [hLn]; exact eqv_new h hs⟩
  · have hz_ne : ∀ i, i < n → L i ≠ z := by
      intro i hi h
      have : i = q := I.eq_of_eqv hi hq (by rw [h]; exact hzq)
      subst this; rw [h] at hzlen; omega
    intro i j hi hj hij
    rcases hlt i hi with hi | rfl | rfl <;> rcases hlt j hj with hj | rfl | rfl
    · rw [hL i hi, hL j hj] at hij; exact I.inj i j hi hj hij
    · rw [hL i hi, hLn] at hij
      have := I.length_le hi; rw [hij] at this; simp at this; omega
    · rw [hL i hi, hLc] at hij; exact absurd hij (hz_ne i hi)
    · rw [hL j hj, hLn] at hij
      have := I.length_le hj; rw [← hij] at this; simp at this; omega
    · rfl
    · rw [hLn, hLc] at hij; rw [← hij] at hzl; simp at hzl; omega
    · rw [hL j hj, hLc] at hij; exact absurd hij.symm (hz_ne j hj)
    · rw [hLn, hLc] at hij; rw [hij] at hzl; simp at hzl; omega
    · rfl
  · -- tr_some
    have old : ∀ i, i < n → ∀ d j, tr' i d = some j → j < n + 2 ∧ Eqv (s ++ [c]) (L i ++ [d]) (L' j) := by
      intro i hi d j hj
      by_cases hc : d = c ∧ L i <:+ s ∧ z.length ≤ (L i).length
      · obtain ⟨rfl, h1, h2⟩ := hc
        rw [htr1 i hi h1 h2] at hj
        cases hj
        refine ⟨by omega, ?_⟩
        rw [hLn]
        have hsuf := suffix_snoc_iff.2 ⟨h1, (rfl : d = d)⟩
        exact eqv_new hsuf (hmax _ hsuf (by simp; omega))
      · by_cases hr : L i ++ [d] <:+ z ∧ tr i d = some q
        · rw [htr2 i hi d hc hr.1 hr.2] at hj
          cases hj
          refine ⟨by omega, ?_⟩
          rw [hLc]
          exact (key2 _ (I.tr_some i hi d q hr.2).2 hr.1.length_le).1
        · rw [htr3 i hi d hc hr] at hj
          obtain ⟨h1, h2⟩ := I.tr_some i hi d j hj
          refine ⟨by omega, ?_⟩
          rw [hL j h1]
          refine key1 _ j h1 (h2.sub_iff.2 (I.sub h1)) h2 ?_
          rintro ⟨rfl, hl⟩
          exact hr ⟨(key2 _ h2 hl).2, hj⟩
    intro i hi d j hj
    rcases hlt i hi with hi | rfl | rfl
    · rw [hL i hi]; exact old i hi d j hj
    · rw [htrn] at hj; cases hj
    · rw [htrc] at hj
      rw [hLc]
      by_cases hc : d = c ∧ L q <:+ s ∧ z.length ≤ (L q).length
      · obtain ⟨rfl, h1, h2⟩ := hc
        rw [htr1 q hq h1 h2] at hj
        cases hj
        refine ⟨by omega, ?_⟩
        rw [hLn]
        have hsuf := suffix_snoc_iff.2 ⟨hzL.trans h1, (rfl : d = d)⟩
        exact eqv_new hsuf (hmax _ hsuf (by simp))
      · have hr : ¬ (L q ++ [d] <:+ z ∧ tr q d = some q) := by
          rintro ⟨h, _⟩; have := h.length_le; simp at this; omega
        rw [htr3 q hq d hc hr] at hj
        obtain ⟨h1, h2⟩ := I.tr_some q hq d j hj
        refine ⟨by omega, ?_⟩
        rw [hL j h1]
        have h3 := (hzq.concat d).trans h2
        refine key1 _ j h1 (h3.sub_iff.2 (I.sub h1)) h3 ?_
        rintro ⟨_, hl⟩
        simp at hl; omega
  · -- tr_none
    intro i hi d hd
    rcases hlt i hi with hi | rfl | rfl
    · rw [hL i hi]
      by_cases hc : d = c ∧ L i <:+ s ∧ z.length ≤ (L i).length
      · obtain ⟨rfl, h1, h2⟩ := hc
        rw [htr1 i hi h1 h2] at hd; cases hd
      · by_cases hr : L i ++ [d] <:+ z ∧ tr i d = some q
        · rw [htr2 i hi d hc hr.1 hr.2] at hd; cases hd
        · rw [htr3 i hi d hc hr] at hd
          have hns := I.tr_none i hi d hd
          intro h
          rcases sub_snoc.1 h with h | h
          · exact hns h
          · obtain ⟨h1, rfl⟩ := suffix_snoc_iff.1 h
            have hlen : ¬ z.length ≤ (L i).length := fun hle => hc ⟨rfl, h1, hle⟩
            have : L i ++ [d] <:+ z :=
              List.suffix_of_suffix_length_le h hzs (by simp; omega)
            exact hns (hzsub.of_suffix this)
    · rw [hLn]
      intro h; have := h.length_le; simp at this
    · rw [hLc]
      rw [htrc] at hd
      by_cases hc : d = c ∧ L q <:+ s ∧ z.length ≤ (L q).length
      · obtain ⟨rfl, h1, h2⟩ := hc
        rw [htr1 q hq h1 h2] at hd; cases hd
      · have hr : ¬ (L q ++ [d] <:+ z ∧ tr q d = some q) := by
          rintro ⟨h, _⟩; have := h.length_le; simp at this; omega
        rw [htr3 q hq d hc hr] at hd
        have hns := I.tr_none q hq d hd
        intro h
        rcases sub_snoc.1 h with h | h
        · exact hns ((hzq.concat d).sub_iff.1 h)
        · obtain ⟨h1, rfl⟩ := suffix_snoc_iff.1 h
          exact hc ⟨rfl, hzq.suffix_iff.1 h1, by omega⟩
  · -- lk_some
    intro i hi j hj
    rcases hlt i hi with hi | rfl | rfl
    · by_cases hiq : i = q
      · subst hiq
        rw [hlkq] at hj; cases hj
        rw [hLc, hL i hi]
        refine ⟨by omega, hzL, hzlen, ?_⟩
        intro w hw hl
        have hzw : z <:+ w := List.suffix_of_suffix_length_le hzL hw (by omega)
        refine key1 w i hi ((I.sub hi).of_suffix hw) (Eqv.sandwich hzw hw hzq) ?_
        rintro ⟨_, h⟩; omega
      · rw [hlk i hi hiq] at hj
        obtain ⟨h1, h2, h3, h4⟩ := I.lk_some i hi j hj
        rw [hL i hi, hL j h1]
        exact ⟨by omega, h2, h3, fun w hw hl =>
          key1 w i hi ((I.sub hi).of_suffix hw) (h4 w hw hl) (fun h => hiq h.1)⟩
    · rw [hlkn] at hj; cases hj
      rw [hLn, hLc]
      refine ⟨by omega, hzs, ?_, ?_⟩
      · simp; omega
      · intro w hw hl; exact eqv_new hw (hmax w hw hl)
    · rw [hlkc] at hj
      obtain ⟨h1, h2, h3, h4⟩ := I.lk_some q hq j hj
      rw [hLc, hL j h1]
      have hlt' : (L j).length < z.length := by
        apply Nat.lt_of_not_le
        intro hle
        have hzj : z <:+ L j := List.suffix_of_suffix_length_le hzL h2 hle
        have := I.eq_of_eqv h1 hq (Eqv.sandwich hzj h2 hzq)
        subst this; omega
      refine ⟨by omega, List.suffix_of_suffix_length_le h2 hzL (by omega), hlt', ?_⟩
      intro w hw hl
      exact (key2 w (h4 w (hw.trans hzL) hl) hw.length_le).1
  · -- lk_none
    intro i hi h
    rcases hlt i hi with hi | rfl | rfl
    · by_cases hiq : i = q
      · subst hiq; rw [hlkq] at h; cases h
      · rw [hL i hi]; rw [hlk i hi hiq] at h; exact I.lk_none i hi h
    · rw [hlkn] at h; cases h
    · rw [hlkc] at h
      have := I.lk_none q hq h
      rw [this] at hzlen; simp at hzlen

end SAInv

end Gaspra
