import Verif.Proofs.SASize
import Verif.Model.Cost

/-!
# The number of steps of the suffix automaton
-/

set_option linter.unusedSectionVars false
set_option linter.unusedSimpArgs false
set_option linter.unusedVariables false

namespace Gaspra

variable {α : Type _} [DecidableEq α]

/-! ## Leaving out the count -/

theorem addLoopC_fst (c : α) (N : Nat) : ∀ (f : Nat) (h : Heap α) (prev cur : Option Nat),
    (addLoopC c N f h prev cur).map Prod.fst = addLoop c N f h prev cur := by
  intro f
  induction f with
  | zero => intro h prev cur; cases cur <;> simp [addLoopC, addLoop]
  | succ f ih =>
    intro h prev cur
    cases cur with
    | none => simp [addLoopC, addLoop]
    | some u =>
      simp only [addLoopC, addLoop]
      cases h[u]? with
      | none => rfl
      | some nd =>
        dsimp only
        cases dget nd.transitions c with
        | some _ => rfl
        | none =>
          dsimp only
          rw [← ih]
          cases addLoopC c N f _ _ _ <;> rfl

theorem redirectLoopC_fst (c : α) (q N : Nat) : ∀ (f : Nat) (h : Heap α) (cur : Option Nat),
    (redirectLoopC c q N f h cur).map Prod.fst = redirectLoop c q N f h cur := by
  intro f
  induction f with
  | zero => intro h cur; cases cur <;> simp [redirectLoopC, redirectLoop]
  | succ f ih =>
    intro h cur
    cases cur with
    | none => simp [redirectLoopC, redirectLoop]
    | some u =>
      simp only [redirectLoopC, redirectLoop]
      cases h[u]? with
      | none => rfl
      | some nd =>
        dsimp only
        split
        · rw [← ih]
          cases redirectLoopC c q N f _ _ <;> rfl
        · rfl

theorem insertNodeC_fst (c : α) (p q : Nat) (h : Heap α) :
    (insertNodeC c p q h).map Prod.fst = insertNode c p q h := by
  unfold insertNodeC insertNode
  cases h[p]? with
  | none => rfl
  | some pn =>
    cases h[q]? with
    | none => rfl
    | some qn =>
      dsimp only
      rw [← redirectLoopC_fst]
      cases redirectLoopC c _ _ _ _ _ <;> rfl

theorem extendC_fst (c : α) (last : Nat) (h : Heap α) :
    (extendC c last h).map Prod.fst = extend c last h := by
  unfold extendC extend
  cases h[last]? with
  | none => rfl
  | some ln =>
    dsimp only
    rw [← addLoopC_fst]
    cases addLoopC c _ _ _ _ _ with
    | none => rfl
    | some r =>
      obtain ⟨⟨h2, prev, cur⟩, n⟩ := r
      cases cur with
      | none => rfl
      | some cur =>
        simp only [Option.map_some]
        cases h2[cur]? with
        | none => rfl
        | some cn =>
          dsimp only
          cases dget cn.transitions c with
          | none => rfl
          | some q =>
            dsimp only
            cases h2[q]? with
            | none => rfl
            | some qn =>
              dsimp only
              split
              · rfl
              · rw [← insertNodeC_fst]
                cases insertNodeC c cur q h2 <;> rfl

theorem extendAllC_fst : ∀ (ts : List α) (last : Nat) (h : Heap α),
    (extendAllC ts last h).map Prod.fst = extendAll ts last h
  | [], _, _ => rfl
  | t :: ts, last, h => by
    simp only [extendAllC, extendAll]
    rw [← extendC_fst]
    cases extendC t last h with
    | none => rfl
    | some r =>
      simp only [Option.map_some]
      rw [← extendAllC_fst]
      cases extendAllC ts _ _ <;> rfl

theorem markTerminalsC_fst : ∀ (f : Nat) (h : Heap α) (cur : Option Nat),
    (markTerminalsC f h cur).map Prod.fst = markTerminals f h cur
  | 0, h, cur => by cases cur <;> simp [markTerminalsC, markTerminals]
  | f + 1, h, none => by simp [markTerminalsC, markTerminals]
  | f + 1, h, some u => by
    simp only [markTerminalsC, markTerminals]
    cases h[u]? with
    | none => rfl
    | some nd =>
      dsimp only
      rw [← markTerminalsC_fst]
      cases markTerminalsC f _ _ <;> rfl

theorem buildC_fst (s : List α) : (buildC s).map Prod.fst = build s := by
  unfold buildC build
  rw [← extendAllC_fst]
  cases extendAllC s 0 [{}] with
  | none => rfl
  | some r =>
    obtain ⟨⟨h, last⟩, n⟩ := r
    simp only [Option.map_some]
    cases h[last]? with
    | none => rfl
    | some ln =>
      dsimp only
      rw [← markTerminalsC_fst]
      cases markTerminalsC _ _ _ <;> rfl

theorem lcsClimbC_fst (h : Heap α) (c : α) : ∀ (f cur len : Nat),
    (lcsClimbC h c f cur len).map Prod.fst = lcsClimb h c f cur len
  | 0, _, _ => rfl
  | f + 1, cur, len => by
    simp only [lcsClimbC, lcsClimb]
    cases h[cur]? with
    | none => rfl
    | some nd =>
      dsimp only
      cases dget nd.transitions c with
      | some _ => rfl
      | none =>
        dsimp only
        cases nd.link with
        | none => rfl
        | some l =>
          dsimp only
          cases h[l]? with
          | none => rfl
          | some ln =>
            dsimp only
            rw [← lcsClimbC_fst h c f]
            cases lcsClimbC h c f _ _ <;> rfl

theorem lcsStepC_fst (h : Heap α) (st : LcsState) (pos : Nat) (c : α) :
    (lcsStepC h st pos c).map Prod.fst = lcsStep h st pos c := by
  unfold lcsStepC lcsStep
  rw [← lcsClimbC_fst]
  cases lcsClimbC h c _ _ _ with
  | none => rfl
  | some r =>
    obtain ⟨⟨nxt, cur, len⟩, n⟩ := r
    simp only [Option.map_some]
    cases nxt <;> dsimp only <;> split <;> rfl

theorem lcsLoopC_fst (h : Heap α) : ∀ (s : List α) (st : LcsState) (pos : Nat),
    (lcsLoopC h st pos s).map Prod.fst = lcsLoop h st pos s
  | [], _, _ => rfl
  | t :: ts, st, pos => by
    simp only [lcsLoopC, lcsLoop]
    rw [← lcsStepC_fst]
    cases lcsStepC h st pos t with
    | none => rfl
    | some r =>
      simp only [Option.map_some]
      rw [← lcsLoopC_fst h ts]
      cases lcsLoopC h _ _ ts <;> rfl

theorem saFindLcsC_fst (h : Heap α) (s : List α) :
    (saFindLcsC h s).map Prod.fst = saFindLcs h s := by
  unfold saFindLcsC saFindLcs
  rw [← lcsLoopC_fst]
  cases lcsLoopC h _ _ s <;> rfl

theorem findLcsC_fst (a b : List α) : (findLcsC a b).map Prod.fst = findLcs a b := by
  unfold findLcsC findLcs
  rw [← buildC_fst]
  cases buildC a with
  | none => rfl
  | some r =>
    simp only [Option.map_some]
    rw [← saFindLcsC_fst]
    cases saFindLcsC _ b <;> rfl

/-! ## Counting transitions -/

/-- The number of transitions. -/
def edgeCount (h : Heap α) : Nat := (h.map fun nd => nd.transitions.length).sum

theorem edgeCount_append (h : Heap α) (nd : Node α) :
    edgeCount (h ++ [nd]) = edgeCount h + nd.transitions.length := by
  simp [edgeCount]

theorem edgeCount_set : ∀ {h : Heap α} {u : Nat} {nd : Node α} (_ : h[u]? = some nd) (nd' : Node α),
    edgeCount (h.set u nd') + nd.transitions.length = edgeCount h + nd'.transitions.length
  | [], u, nd, hu, _ => by simp at hu
  | x :: h, 0, nd, hu, nd' => by
    simp at hu
    subst hu
    simp [edgeCount]; omega
  | x :: h, u + 1, nd, hu, nd' => by
    simp at hu
    have := edgeCount_set hu nd'
    simp only [edgeCount, List.set_cons_succ, List.map_cons, List.sum_cons] at this ⊢
    omega

theorem dset_length {κ β : Type _} [DecidableEq κ] : ∀ (d : List (κ × β)) (k : κ) (v : β),
    (dset d k v).length = if (dget d k).isSome then d.length else d.length + 1
  | [], k, v => by simp [dset, dget]
  | (k', v') :: d, k, v => by
    simp only [dset, dget]
    by_cases h : k' = k
    · simp [h]
    · have := dset_length d k v
      simp only [h, if_false, List.length_cons, this]
      split <;> rfl

theorem edgeCount_setLink (h : Heap α) (i : Nat) (l : Option Nat) :
    edgeCount (setLink h i l) = edgeCount h := by
  unfold setLink
  cases hi : h[i]? with
  | none => rfl
  | some nd =>
    have := edgeCount_set hi { nd with link := l }
    dsimp only at this ⊢
    omega

theorem addLoopC_edges (c : α) (N : Nat) : ∀ (f : Nat) (h : Heap α) (prev cur : Option Nat) (h' : Heap α)
    (r : Option Nat × Option Nat) (n : Nat), addLoopC c N f h prev cur = some ((h', r), n) →
    edgeCount h' = edgeCount h + n ∧ SameShape h h' := by
  intro f
  induction f with
  | zero =>
    intro h prev cur h' r n hc
    cases cur with
    | none => simp [addLoopC] at hc; obtain ⟨⟨rfl, rfl⟩, rfl⟩ := hc; exact ⟨rfl, SameShape.refl _⟩
    | some u => simp [addLoopC] at hc
  | succ f ih =>
    intro h prev cur h' r n hc
    cases cur with
    | none => simp [addLoopC] at hc; obtain ⟨⟨rfl, rfl⟩, rfl⟩ := hc; exact ⟨rfl, SameShape.refl _⟩
    | some u =>
      simp only [addLoopC] at hc
      cases hu : h[u]? with
      | none => simp [hu] at hc
      | some nd =>
        simp only [hu] at hc
        cases hd : dget nd.transitions c with
        | some _ =>
          simp [hd] at hc; obtain ⟨⟨rfl, rfl⟩, rfl⟩ := hc; exact ⟨rfl, SameShape.refl _⟩
        | none =>
          simp only [hd] at hc
          generalize hr : addLoopC c N f _ _ _ = res at hc
          cases res with
          | none => simp at hc
          | some x =>
            obtain ⟨⟨h2, r2⟩, m⟩ := x
            simp at hc
            obtain ⟨⟨rfl, rfl⟩, rfl⟩ := hc
            obtain ⟨h3, h4⟩ := ih _ _ _ _ _ _ hr
            have h5 := edgeCount_set hu { nd with transitions := dset nd.transitions c N }
            simp only [dset_length, hd] at h5
            refine ⟨?_, (sameShape_set hu _).trans h4⟩
            simp at h5
            omega

theorem redirectLoopC_edges (c : α) (q N : Nat) : ∀ (f : Nat) (h : Heap α) (cur : Option Nat) (h' : Heap α)
    (n : Nat), redirectLoopC c q N f h cur = some (h', n) →
    edgeCount h' = edgeCount h ∧ SameShape h h' := by
  intro f
  induction f with
  | zero =>
    intro h cur h' n hc
    cases cur with
    | none => simp [redirectLoopC] at hc; obtain ⟨rfl, rfl⟩ := hc; exact ⟨rfl, SameShape.refl _⟩
    | some u => simp [redirectLoopC] at hc
  | succ f ih =>
    intro h cur h' n hc
    cases cur with
    | none => simp [redirectLoopC] at hc; obtain ⟨rfl, rfl⟩ := hc; exact ⟨rfl, SameShape.refl _⟩
    | some u =>
      simp only [redirectLoopC] at hc
      cases hu : h[u]? with
      | none => simp [hu] at hc
      | some nd =>
        simp only [hu] at hc
        by_cases hd : dget nd.transitions c = some q
        · rw [if_pos hd] at hc
          generalize hr : redirectLoopC c q N f _ _ = res at hc
          cases res with
          | none => simp at hc
          | some x =>
            obtain ⟨h2, m⟩ := x
            simp at hc
            obtain ⟨rfl, rfl⟩ := hc
            obtain ⟨h3, h4⟩ := ih _ _ _ _ hr
            have h5 := edgeCount_set hu { nd with transitions := dset nd.transitions c N }
            simp only [dset_length, hd] at h5
            refine ⟨?_, (sameShape_set hu _).trans h4⟩
            simp at h5
            omega
        · rw [if_neg hd] at hc
          simp at hc; obtain ⟨rfl, rfl⟩ := hc; exact ⟨rfl, SameShape.refl _⟩

/-! ## Rounds of the redirecting loop -/

theorem redirectLoopC_count {s : List α} {N q M : Nat} {tr : Nat → α → Option Nat}
    {lk : Nat → Option Nat} {fe : Nat → Nat} {last : Nat} {L : Nat → List α} {c : α}
    (I : SAInv s N tr lk fe last L) :
    ∀ (f : Nat) (h : Heap α) (u : Nat) (h' : Heap α) (n : Nat), u < N →
      (∀ i, i < N → L i <:+ L u → lkOf h i = lk i ∧ trOf h i c = tr i c) →
      redirectLoopC c q M f h (some u) = some (h', n) →
      n = 0 ∨ ∃ v, v < N ∧ tr v c = some q ∧ (L v).length + n ≤ (L u).length + 1 ∧
        (n ≤ 1 ∨ ∃ l, lk u = some l ∧ (L v).length + n ≤ (L l).length + 2) := by
  intro f
  induction f with
  | zero => intro h u h' n _ _ hc; simp [redirectLoopC] at hc
  | succ f ih =>
    intro h u h' n hu hh hc
    obtain ⟨hl, ht⟩ := hh u hu (List.suffix_refl _)
    simp only [redirectLoopC] at hc
    cases hnd : h[u]? with
    | none => simp [hnd] at hc
    | some nd =>
      simp only [hnd] at hc
      rw [lkOf_some hnd] at hl
      rw [trOf_some hnd] at ht
      by_cases hd : dget nd.transitions c = some q
      · rw [if_pos hd] at hc
        right
        have hS1 := sameShape_set hnd (dset nd.transitions c M)
        have hS2 := trOf_set hnd c M
        generalize h.set u { nd with transitions := dset nd.transitions c M } = S at hc hS1 hS2
        generalize hr : redirectLoopC c q M f _ _ = res at hc
        cases res with
        | none => simp at hc
        | some x =>
          obtain ⟨h2, m⟩ := x
          simp at hc
          obtain ⟨rfl, rfl⟩ := hc
          cases hlk : nd.link with
          | none =>
            rw [hlk] at hr
            have : m = 0 := by
              cases f <;> simp [redirectLoopC] at hr <;> exact hr.2.symm
            subst this
            exact ⟨u, hu, by rw [← ht, hd], by omega, .inl (by omega)⟩
          | some l =>
            rw [hlk] at hr hl
            obtain ⟨hlN, h3, h4, _⟩ := I.lk_some u hu l hl.symm
            have := ih _ l h2 m hlN (by
              intro i hi his
              have hne : ¬ u = i := by
                rintro rfl
                have := his.length_le; omega
              obtain ⟨h5, h6⟩ := hh i hi (his.trans h3)
              refine ⟨by rw [hS1.lk]; exact h5, ?_⟩
              rw [hS2, if_neg (by rintro ⟨h7, _⟩; exact hne h7)]
              exact h6) hr
            rcases this with rfl | ⟨v, hv1, hv2, hv3, _⟩
            · exact ⟨u, hu, by rw [← ht, hd], by omega, .inl (by omega)⟩
            · exact ⟨v, hv1, hv2, by omega, .inr ⟨l, hl.symm, by omega⟩⟩
      · rw [if_neg hd] at hc
        simp at hc
        exact .inl hc.2.symm

/-! ## The potential -/

/-- Length of the node two links above. -/
def phi (h : Heap α) (last : Nat) : Nat :=
  match lkOf h last with
  | none => 0
  | some a =>
    match lkOf h a with
    | none => 0
    | some b => lenOf h b

/-- The link of a target is at most one longer than the link of the source. -/
theorem SAInv.link_step {s : List α} {N : Nat} {tr : Nat → α → Option Nat}
    {lk : Nat → Option Nat} {fe : Nat → Nat} {last : Nat} {L : Nat → List α} {c : α}
    (I : SAInv s N tr lk fe last L) {p q b : Nat} (hp : p < N) (ht : tr p c = some q)
    (hb : lk q = some b) :
    (∀ v, v < N → tr v c = some q → (L b).length ≤ (L v).length) ∧
    ((L b).length ≤ 1 ∨ ∃ a, lk p = some a ∧ (L b).length ≤ (L a).length + 1) := by
  obtain ⟨hq, hpq⟩ := I.tr_some p hp c q ht
  obtain ⟨hbN, hb1, hb2, hb3⟩ := I.lk_some q hq b hb
  have key : ∀ w, Eqv s w (L q) → (L b).length < w.length := by
    intro w hw
    apply Nat.lt_of_not_le
    intro hle
    have h1 := I.longest q hq w hw
    have h2 : w <:+ L b := List.suffix_of_suffix_length_le h1 hb1 hle
    have := I.eq_of_eqv hbN hq (Eqv.sandwich h2 hb1 hw)
    subst this
    omega
  refine ⟨?_, ?_⟩
  · intro v hv htv
    have := key _ (I.tr_some v hv c q htv).2
    simp at this; omega
  · rcases List.eq_nil_or_concat (L b) with h | ⟨y, d, h⟩
    · left; simp [h]
    · rw [List.concat_eq_append] at h
      have h1 := key _ hpq
      have h2 : L b <:+ L p ++ [c] :=
        List.suffix_of_suffix_length_le hb1 (I.longest q hq _ hpq) (by omega)
      rw [h] at h2
      obtain ⟨h3, rfl⟩ := suffix_snoc_iff.1 h2
      cases hlp : lk p with
      | none =>
        left
        rw [I.lk_none p hp hlp] at h3
        have := h3.length_le
        rw [h]; simp at this ⊢; exact this
      | some a =>
        right
        refine ⟨a, rfl, ?_⟩
        apply Nat.le_of_not_lt
        intro hlt
        obtain ⟨_, _, _, h4⟩ := I.lk_some p hp a hlp
        have h5 := h4 y h3 (by rw [h] at hlt; simp at hlt; omega)
        have h6 := (h5.concat d).trans hpq
        have := key _ h6
        rw [h] at this; simp at this

theorem phi_bound {s : List α} {h : Heap α} {last : Nat} {L : Nat → List α} (H : HInv s h last L)
    {c : α} {p q a : Nat} (hp : p < h.length) (hps : L p <:+ s) (ht : trOf h p c = some q)
    (ha : lkOf h p = some a) : (L a).length ≤ phi h last := by
  have I := H.inv
  obtain ⟨hq, hpq⟩ := I.tr_some p hp c q ht
  obtain ⟨haN, ha1, ha2, _⟩ := I.lk_some p hp a ha
  have hne : p ≠ last := by
    rintro rfl
    have := (hpq.sub_iff.2 (I.sub hq)).length_le
    rw [I.lastL] at this
    simp at this
    omega
  unfold phi
  cases hl : lkOf h last with
  | none =>
    exfalso
    have := I.lk_none last I.last_lt hl
    rw [I.lastL] at this
    rw [this] at hps
    have := List.suffix_nil.1 hps
    rw [this] at ha2
    simp at ha2
  | some x =>
    obtain ⟨hxN, hx1, hx2, hx3⟩ := I.lk_some last I.last_lt x hl
    rw [I.lastL] at hx1 hx2 hx3
    have hpx : L p <:+ L x := by
      rcases List.suffix_or_suffix_of_suffix hps hx1 with h1 | h1
      · exact h1
      · by_cases hlt : (L x).length < (L p).length
        · exfalso
          apply hne
          apply I.eq_of_eqv hp I.last_lt
          rw [I.lastL]
          exact hx3 _ hps hlt
        · rw [h1.eq_of_length (by have := h1.length_le; omega)]
          exact List.suffix_refl _
    dsimp only
    by_cases hpx' : p = x
    · subst hpx'
      rw [ha]
      dsimp only
      rw [H.len a haN]
      exact Nat.le_refl _
    · cases hxl : lkOf h x with
      | none =>
        exfalso
        have := I.lk_none x hxN hxl
        rw [this] at hpx
        have := List.suffix_nil.1 hpx
        rw [this] at ha2
        simp at ha2
      | some b =>
        obtain ⟨hbN, hb1, hb2, hb3⟩ := I.lk_some x hxN b hxl
        dsimp only
        rw [H.len b hbN]
        have : (L p).length ≤ (L b).length := by
          apply Nat.le_of_not_lt
          intro hlt
          exact hpx' (I.eq_of_eqv hp hxN (hb3 _ hpx hlt))
        omega

theorem extendC_cost {s : List α} {h : Heap α} {last : Nat} {L : Nat → List α}
    (H : HInv s h last L) {c : α} {h' : Heap α} {new t : Nat}
    (he : extendC c last h = some ((h', new), t)) :
    t + h.length + edgeCount h + phi h' new ≤ h'.length + edgeCount h' + phi h last + 2 := by
  have I := H.inv
  obtain ⟨ln, hln⟩ := heap_get I.last_lt
  have hlen_last : ln.length = s.length := by
    rw [← lenOf_some hln, H.len last I.last_lt, I.lastL]
  simp only [extendC, hln] at he
  generalize hh1 : h ++ [({ length := ln.length + 1, firstEndpos := ln.length + 1 } : Node α)] = h1 at he
  have hh1len : h1.length = h.length + 1 := by rw [← hh1]; simp
  have hE1 : edgeCount h1 = edgeCount h := by rw [← hh1, edgeCount_append]; rfl
  have htr1 : ∀ i, i < h.length → ∀ d, trOf h1 i d = trOf h i d := by
    intro i hi d; rw [← hh1]; exact trOf_append_left h _ hi d
  have hlk1 : ∀ i, i < h.length → lkOf h1 i = lkOf h i := by
    intro i hi; rw [← hh1]; exact lkOf_append_left h _ hi
  have hlen1 : ∀ i, i < h.length → lenOf h1 i = lenOf h i := by
    intro i hi; rw [← hh1]; exact lenOf_append_left h _ hi
  have hstart : AddState s h.length (trOf h1) L c h1 (some last) := by
    refine ⟨?_, ?_, fun _ _ _ => rfl⟩
    · intro u hu; cases hu; exact ⟨I.last_lt, by rw [I.lastL]; exact List.suffix_refl _⟩
    · intro i hi his hlt
      have := hlt last rfl
      rw [I.lastL] at this
      have := his.length_le; omega
  obtain ⟨h2, prev, cur, hloop, hs2, ha, hprev, hcur⟩ :=
    addLoop_spec I htr1 hlk1 (by omega) (ln.length + 1) h1 none (some last)
      (SameShape.refl _) hstart
      (by intro u hu; cases hu; rw [I.lastL]; omega) (by simp)
  rw [← addLoopC_fst] at hloop
  cases hC : addLoopC c h.length (ln.length + 1) h1 none (some last) with
  | none => rw [hC] at hloop; simp at hloop
  | some x =>
    obtain ⟨x1, n⟩ := x
    rw [hC] at hloop
    simp only [Option.map_some, Option.some.injEq] at hloop
    subst hloop
    have hE2 := (addLoopC_edges _ _ _ _ _ _ _ _ _ hC).1
    rw [hC] at he
    have hlen2 : h2.length = h.length + 1 := by rw [hs2.length_eq, hh1len]
    have hlk2 : ∀ i, i < h.length → lkOf h2 i = lkOf h i := by
      intro i hi; rw [hs2.lk, hlk1 i hi]
    have hlenOf2 : ∀ i, i < h.length → lenOf h2 i = lenOf h i := by
      intro i hi; rw [hs2.len, hlen1 i hi]
    cases cur with
    | none =>
      simp only [Option.some.injEq, Prod.mk.injEq] at he
      obtain ⟨⟨rfl, rfl⟩, rfl⟩ := he
      rw [setLink_length, edgeCount_setLink, hprev rfl]
      have h0 : lkOf h 0 = none := by
        cases hl : lkOf h 0 with
        | none => rfl
        | some j =>
          have := (I.lk_some 0 I.zero_lt j hl).2.2.1
          rw [I.rootL] at this; simp at this
      have hz : phi (setLink h2 h.length (some 0)) h.length = 0 := by
        unfold phi
        rw [setLink_lk _ _ _ _ (by omega), if_pos rfl]
        dsimp only
        have := I.zero_lt
        rw [setLink_lk _ _ _ _ (by omega), if_neg (by omega), hlk2 0 I.zero_lt, h0]
      omega
    | some p =>
      obtain ⟨hp, hps⟩ := ha.cur_lt p rfl
      obtain ⟨q, hq⟩ := hcur p rfl
      obtain ⟨pn, hpn⟩ := heap_get (h := h2) (i := p) (by omega)
      have hold : ∀ i, i < h.length → L i <:+ L p → trOf h2 i c = trOf h i c := by
        intro i hi his
        rw [ha.rest, htr1 i hi]
        rintro ⟨_, _, _, h4⟩
        have := h4 p rfl; have := his.length_le; omega
      have hq' : trOf h p c = some q := by rw [← hold p hp (List.suffix_refl _)]; exact hq
      obtain ⟨hqlt, hpq⟩ := I.tr_some p hp c q hq'
      obtain ⟨qn, hqn⟩ := heap_get (h := h2) (i := q) (by omega)
      have hpnlen : pn.length = (L p).length := by
        rw [← lenOf_some hpn, hlenOf2 p hp, H.len p hp]
      have hqnlen : qn.length = (L q).length := by
        rw [← lenOf_some hqn, hlenOf2 q hqlt, H.len q hqlt]
      have hdq : dget pn.transitions c = some q := by rw [← trOf_some hpn]; exact hq
      simp only [hpn, hdq, hqn] at he
      -- the potential after the step, if the link of `q` is two links above the new node
      have hphi : ∀ b, lkOf h q = some b →
          (∀ v, v < h.length → trOf h v c = some q → lenOf h b ≤ (L v).length) ∧
          lenOf h b ≤ phi h last + 1 := by
        intro b hb
        obtain ⟨h1, h2⟩ := I.link_step hp hq' hb
        have hbN := (I.lk_some q hqlt b hb).1
        rw [H.len b hbN]
        refine ⟨h1, ?_⟩
        rcases h2 with h2 | ⟨a, ha, h2⟩
        · omega
        · have := phi_bound H hp hps hq' ha
          omega
      have hql : lkOf h q ≠ none := by
        intro hn
        have h1 := I.lk_none q hqlt hn
        have h2 := I.longest q hqlt _ hpq
        rw [h1] at h2
        simp at h2
      obtain ⟨b, hb⟩ := Option.ne_none_iff_exists'.1 hql
      have hbN := (I.lk_some q hqlt b hb).1
      obtain ⟨hphi1, hphi2⟩ := hphi b hb
      split at he
      · next heq =>
        simp only [Option.some.injEq, Prod.mk.injEq] at he
        obtain ⟨⟨rfl, rfl⟩, rfl⟩ := he
        rw [setLink_length, edgeCount_setLink]
        have hz : phi (setLink h2 h.length (some q)) h.length = lenOf h b := by
          unfold phi
          rw [setLink_lk _ _ _ _ (by omega), if_pos rfl]
          dsimp only
          rw [setLink_lk _ _ _ _ (by omega), if_neg (by omega), hlk2 q hqlt, hb]
          dsimp only
          rw [setLink_len, hlenOf2 b hbN]
        omega
      · next hne =>
        simp only [insertNodeC, hpn, hqn] at he
        generalize hh3 : h2 ++ [({ length := pn.length + 1, firstEndpos := qn.firstEndpos, link := qn.link, transitions := qn.transitions } : Node α)] = h3 at he
        have hh3len : h3.length = h.length + 2 := by rw [← hh3]; simp [hlen2]
        have hE3 : edgeCount h3 = edgeCount h2 + qn.transitions.length := by
          rw [← hh3, edgeCount_append]
        have hqn3 : h3[q]? = some qn := by
          rw [← hh3, getElem?_snoc, if_pos (by omega)]; exact hqn
        have hcl3 : h3[h.length + 1]? = some { length := pn.length + 1, firstEndpos := qn.firstEndpos, link := qn.link, transitions := qn.transitions } := by
          rw [← hh3, ← hlen2]; exact get_append_right _ _
        have hset : h3.set q { qn with link := some h2.length } = setLink h3 q (some h2.length) := by
          simp only [setLink, hqn3]
        rw [hset] at he
        generalize hh4 : setLink h3 q (some h2.length) = h4 at he
        have hh4len : h4.length = h.length + 2 := by rw [← hh4, setLink_length, hh3len]
        have hE4 : edgeCount h4 = edgeCount h3 := by rw [← hh4, edgeCount_setLink]
        have hlk4 : ∀ i, lkOf h4 i = if q = i then some (h.length + 1) else lkOf h3 i := by
          intro i; rw [← hh4, setLink_lk _ _ _ _ (by omega), hlen2]
        have hlk3 : ∀ i, i < h.length → lkOf h3 i = lkOf h i := by
          intro i hi
          rw [← hh3, lkOf_append_left _ _ (by omega), hlk2 i hi]
        have htr4 : ∀ i, i < h.length → ∀ d, trOf h4 i d = trOf h2 i d := by
          intro i hi d
          rw [← hh4, setLink_tr, ← hh3]; exact trOf_append_left h2 _ (by omega) d
        have hlenOf4 : ∀ i, i < h.length → lenOf h4 i = lenOf h i := by
          intro i hi
          rw [← hh4, setLink_len, ← hh3, lenOf_append_left _ _ (by omega), hlenOf2 i hi]
        have hzL : L p ++ [c] <:+ L q := I.longest q hqlt _ hpq
        have hpq_ne : ∀ i, i < h.length → L i <:+ L p → i ≠ q := by
          intro i _ hi heq; subst heq
          have := hi.length_le; have := hzL.length_le; simp at this; omega
        cases hR : redirectLoopC c q h2.length (pn.length + 1) h4 (some p) with
        | none => rw [hR] at he; simp at he
        | some x =>
          obtain ⟨h5, r⟩ := x
          rw [hR] at he
          simp only [Option.some.injEq, Prod.mk.injEq] at he
          obtain ⟨⟨rfl, rfl⟩, rfl⟩ := he
          obtain ⟨hE5, hs5⟩ := redirectLoopC_edges _ _ _ _ _ _ _ _ hR
          have hcount := redirectLoopC_count I _ _ p _ _ hp (by
            intro i hi his
            refine ⟨?_, ?_⟩
            · rw [hlk4, if_neg (by have := hpq_ne i hi his; omega), hlk3 i hi]
            · rw [htr4 i hi, hold i hi his]) hR
          have hh5len : h5.length = h.length + 2 := by rw [hs5.length_eq, hh4len]
          rw [setLink_length, edgeCount_setLink]
          have hz : phi (setLink h5 h.length (some h2.length)) h.length = lenOf h b := by
            unfold phi
            rw [setLink_lk _ _ _ _ (by omega), if_pos rfl]
            dsimp only
            rw [setLink_lk _ _ _ _ (by omega), if_neg (by omega), hs5.lk, hlk4, if_neg (by omega),
              hlen2, lkOf_some hcl3]
            dsimp only
            have : qn.link = some b := by rw [← lkOf_some hqn, hlk2 q hqlt, hb]
            rw [this]
            dsimp only
            rw [setLink_len, hs5.len, hlenOf4 b hbN]
          rw [hz, hh5len, hE5, hE4, hE3, hE2, hE1]
          have hr : r + lenOf h b ≤ phi h last + 2 := by
            rcases hcount with rfl | ⟨v, hv, hvq, hv1, hv2⟩
            · omega
            · have h6 := hphi1 v hv hvq
              rcases hv2 with hv2 | ⟨l, hl, hv2⟩
              · omega
              · have := phi_bound H hp hps hq' hl
                omega
          omega

theorem extendAllC_cost : ∀ (ts : List α) {s : List α} {h : Heap α} {last : Nat}
    {L : Nat → List α}, HInv s h last L → ∀ {h' : Heap α} {last' t : Nat},
    extendAllC ts last h = some ((h', last'), t) →
    t + h.length + edgeCount h ≤ h'.length + edgeCount h' + phi h last + 2 * ts.length
  | [], s, h, last, L, H, h', last', t, he => by
    simp only [extendAllC, Option.some.injEq, Prod.mk.injEq] at he
    obtain ⟨⟨rfl, rfl⟩, rfl⟩ := he
    simp only [List.length_nil]; omega
  | c :: ts, s, h, last, L, H, h', last', t, he => by
    simp only [extendAllC] at he
    cases hC : extendC c last h with
    | none => rw [hC] at he; simp at he
    | some x =>
      obtain ⟨⟨h1, l1⟩, n⟩ := x
      rw [hC] at he
      dsimp only at he
      cases hD : extendAllC ts l1 h1 with
      | none => rw [hD] at he; simp at he
      | some y =>
        obtain ⟨⟨h2, l2⟩, m⟩ := y
        rw [hD] at he
        simp only [Option.some.injEq, Prod.mk.injEq] at he
        obtain ⟨⟨rfl, rfl⟩, rfl⟩ := he
        have h3 := extendC_cost H hC
        obtain ⟨h1', L', h4, H', _⟩ := extend_spec H c
        have h5 := extendC_fst c last h
        rw [hC, h4] at h5
        simp only [Option.map_some, Option.some.injEq, Prod.mk.injEq] at h5
        obtain ⟨rfl, rfl⟩ := h5
        have h6 := extendAllC_cost ts H' hD
        simp only [List.length_cons]
        omega

theorem markTerminalsC_count : ∀ (f : Nat) (h : Heap α) (cur : Option Nat) (h' : Heap α) (n : Nat),
    markTerminalsC f h cur = some (h', n) →
    n ≤ f ∧ h'.length = h.length ∧ edgeCount h' = edgeCount h
  | 0, h, none, h', n, he => by
    simp [markTerminalsC] at he; obtain ⟨rfl, rfl⟩ := he; simp
  | 0, h, some u, h', n, he => by simp [markTerminalsC] at he
  | f + 1, h, none, h', n, he => by
    simp [markTerminalsC] at he; obtain ⟨rfl, rfl⟩ := he; simp
  | f + 1, h, some u, h', n, he => by
    simp only [markTerminalsC] at he
    cases hu : h[u]? with
    | none => rw [hu] at he; simp at he
    | some nd =>
      rw [hu] at he
      dsimp only at he
      generalize hr : markTerminalsC f _ _ = res at he
      cases res with
      | none => simp at he
      | some x =>
        obtain ⟨h2, m⟩ := x
        simp at he
        obtain ⟨rfl, rfl⟩ := he
        obtain ⟨h3, h4, h5⟩ := markTerminalsC_count f _ _ _ _ hr
        have h6 := edgeCount_set hu { nd with isTerminal := true }
        simp at h4 h6
        refine ⟨by omega, h4, by omega⟩

theorem edgeCount_addReverseLink (h : Heap α) (i : Nat) :
    edgeCount (addReverseLink h i) = edgeCount h := by
  unfold addReverseLink
  cases h[i]? with
  | none => rfl
  | some nd =>
    dsimp only
    cases nd.link with
    | none => rfl
    | some l =>
      dsimp only
      cases hl : h[l]? with
      | none => rfl
      | some ln =>
        have := edgeCount_set hl { ln with reverseLinks := ln.reverseLinks ++ [i] }
        dsimp only at this ⊢
        omega

theorem edgeCount_addReverseLinks (h : Heap α) : edgeCount (addReverseLinks h) = edgeCount h := by
  unfold addReverseLinks
  generalize List.range h.length = l
  induction l generalizing h with
  | nil => rfl
  | cons i l ih => simp only [List.foldl_cons]; rw [ih, edgeCount_addReverseLink]

theorem addReverseLinks_length (h : Heap α) : (addReverseLinks h).length = h.length := by
  unfold addReverseLinks
  generalize List.range h.length = l
  induction l generalizing h with
  | nil => rfl
  | cons i l ih =>
    simp only [List.foldl_cons]
    rw [ih]
    unfold addReverseLink
    split
    · rfl
    · split
      · rfl
      · split <;> simp

/-- Building takes a linear number of steps. -/
theorem buildC_cost (s : List α) : ∃ h t, buildC s = some (h, t) ∧ build s = some h ∧
    t ≤ 10 * s.length + 3 := by
  obtain ⟨h, last, L, hb, B, _, hn, _⟩ := build_spec s
  have hf := buildC_fst s
  cases hC : buildC s with
  | none => rw [hC, hb] at hf; simp at hf
  | some x =>
    obtain ⟨h', t⟩ := x
    rw [hC, hb] at hf
    simp only [Option.map_some, Option.some.injEq] at hf
    subst hf
    refine ⟨_, t, rfl, hb, ?_⟩
    unfold buildC at hC
    cases hE : extendAllC s 0 [{}] with
    | none => rw [hE] at hC; simp at hC
    | some y =>
      obtain ⟨⟨h1, l1⟩, n⟩ := y
      rw [hE] at hC
      dsimp only at hC
      have hcost := extendAllC_cost s (hInv_init (α := α)) hE
      have hE' := extendAllC_fst s 0 [{}]
      rw [hE] at hE'
      obtain ⟨h2, l2, L2, he2, H2, _⟩ := extendAll_spec s (hInv_init (α := α))
        (by intro nd hnd; simp at hnd; subst hnd; exact ⟨rfl, rfl, List.nodup_nil⟩)
      rw [he2] at hE'
      simp only [Option.map_some, Option.some.injEq, Prod.mk.injEq] at hE'
      obtain ⟨rfl, rfl⟩ := hE'
      obtain ⟨ln, hln⟩ := heap_get H2.inv.last_lt
      have hlnlen : ln.length = s.length := by
        rw [← lenOf_some hln, H2.len _ H2.inv.last_lt, H2.inv.lastL]; simp
      rw [hln] at hC
      dsimp only at hC
      cases hM : markTerminalsC (ln.length + 1) h1 (some l1) with
      | none => rw [hM] at hC; simp at hC
      | some z =>
        obtain ⟨h3, m⟩ := z
        rw [hM] at hC
        simp only [Option.some.injEq, Prod.mk.injEq] at hC
        obtain ⟨hh, rfl⟩ := hC
        obtain ⟨h4, h5, h6⟩ := markTerminalsC_count _ _ _ _ _ hM
        have h7 := edges_length_le B
        rw [edges_length] at h7
        rw [← hh] at h7 hn
        have h8 := edgeCount_addReverseLinks h3
        have h9 := addReverseLinks_length h3
        unfold edgeCount at h8 h6 hcost
        have hphi : phi [({} : Node α)] 0 = 0 := rfl
        rw [hphi] at hcost
        simp only [List.length_cons, List.length_nil, List.map_cons, List.map_nil,
          List.sum_cons, List.sum_nil] at hcost
        omega

/-! ## `find_lcs` -/

theorem lcsClimbC_count {s : List α} {h : Heap α} {last : Nat} {L : Nat → List α}
    (H : HInv s h last L) (c : α) :
    ∀ (f cur len : Nat) (w : List α) (nxt : Option Nat) (cur' len' n : Nat), cur < h.length →
      w.length = len → Eqv s w (L cur) →
      lcsClimbC h c f cur len = some ((nxt, cur', len'), n) → len' + n ≤ len := by
  have I := H.inv
  intro f
  induction f with
  | zero => intro cur len w nxt cur' len' n _ _ _ he; simp [lcsClimbC] at he
  | succ f ih =>
    intro cur len w nxt cur' len' n hc hw hE he
    obtain ⟨nd, hnd⟩ := heap_get hc
    simp only [lcsClimbC, hnd] at he
    cases hd : dget nd.transitions c with
    | some j =>
      simp [hd] at he
      omega
    | none =>
      simp only [hd] at he
      cases hl : nd.link with
      | none => simp [hl] at he; omega
      | some l =>
        simp only [hl] at he
        obtain ⟨hlN, h2, h3, _⟩ := I.lk_some cur hc l (by rw [lkOf_some hnd, hl])
        obtain ⟨ln, hln⟩ := heap_get hlN
        have hlen : ln.length = (L l).length := by rw [← lenOf_some hln, H.len l hlN]
        simp only [hln] at he
        generalize hr : lcsClimbC h c f l ln.length = res at he
        cases res with
        | none => simp at he
        | some x =>
          obtain ⟨⟨x1, x2, x3⟩, m⟩ := x
          simp at he
          obtain ⟨⟨rfl, rfl, rfl⟩, rfl⟩ := he
          have := ih l ln.length (L l) _ _ _ _ hlN hlen.symm (Eqv.refl _ _) hr
          have hlt : (L l).length < w.length := by
            apply Nat.lt_of_not_le
            intro hle
            have h4 : w <:+ L l :=
              List.suffix_of_suffix_length_le (I.longest cur hc w hE) h2 hle
            have := I.eq_of_eqv hlN hc (Eqv.sandwich h4 h2 hE)
            subst this
            omega
          omega

theorem lcsLoopC_cost {s : List α} {h : Heap α} {last : Nat} {L : Nat → List α}
    (B : Built s h last L) : ∀ (ts r : List α) (st : LcsState), LcsInv s h L r st →
    ∀ st' n, lcsLoopC h st r.length ts = some (st', n) → n ≤ st.curLen + 2 * ts.length
  | [], r, st, V, st', n, he => by
    simp [lcsLoopC] at he; omega
  | c :: ts, r, st, V, st', n, he => by
    simp only [lcsLoopC] at he
    cases hS : lcsStepC h st r.length c with
    | none => rw [hS] at he; simp at he
    | some x =>
      obtain ⟨st1, a⟩ := x
      rw [hS] at he
      dsimp only at he
      cases hT : lcsLoopC h st1 (r.length + 1) ts with
      | none => rw [hT] at he; simp at he
      | some y =>
        obtain ⟨st2, b⟩ := y
        rw [hT] at he
        simp only [Option.some.injEq, Prod.mk.injEq] at he
        obtain ⟨rfl, rfl⟩ := he
        obtain ⟨st1', h1, V'⟩ := lcsStep_spec B V c
        have h2 := lcsStepC_fst h st r.length c
        rw [hS, h1] at h2
        simp only [Option.map_some, Option.some.injEq] at h2
        subst h2
        have h3 := lcsLoopC_cost B ts (r ++ [c]) st1 V' st2 b (by simpa using hT)
        have h4 : a + st1.curLen ≤ st.curLen + 2 := by
          unfold lcsStepC at hS
          generalize hr : lcsClimbC h c (h.length + 1) st.current st.curLen = res at hS
          cases res with
          | none => simp at hS
          | some z =>
            obtain ⟨⟨nxt, cur, len⟩, m⟩ := z
            obtain ⟨w, _, hw2, hw3, _⟩ := V.cur
            have := lcsClimbC_count B.hinv c _ _ _ w _ _ _ _ V.cur_lt hw2 hw3 hr
            cases nxt <;> dsimp only at hS <;> split at hS <;>
              simp only [Option.some.injEq, Prod.mk.injEq] at hS <;>
              obtain ⟨rfl, rfl⟩ := hS <;> dsimp only <;> omega
        simp only [List.length_cons]
        omega

theorem lcsInv_start {s : List α} {h : Heap α} {last : Nat} {L : Nat → List α}
    (B : Built s h last L) : LcsInv s h L [] ⟨0, 0, 0, 0, 0⟩ := by
  have I := B.hinv.inv
  refine ⟨I.zero_lt, ⟨[], List.suffix_refl _, rfl, by rw [I.rootL]; exact Eqv.refl _ _, ?_⟩,
    ⟨[], rfl, by simp [Occ], by simp, by simp [Occ]⟩, ?_, ?_⟩
  · intro x hx _; simp at hx; simp [hx]
  · intro x e _ ho
    have h1 := ho.length_le
    have h2 := ho.le
    show x.length ≤ 0
    simp at h2; omega
  · intro x e _ ho _; simp

/-- `find_lcs` takes a linear number of steps. -/
theorem findLcsC_cost (a b : List α) : ∃ r t, findLcsC a b = some (r, t) ∧ findLcs a b = some r ∧
    t ≤ 10 * a.length + 2 * b.length + 3 := by
  obtain ⟨h, t1, hC, hb, ht1⟩ := buildC_cost a
  obtain ⟨h', last, L, hb', B, _⟩ := build_spec a
  rw [hb] at hb'
  cases hb'
  obtain ⟨i, j, n, w, hl, _⟩ := saFindLcs_spec B b
  have hf := saFindLcsC_fst h b
  cases hS : saFindLcsC h b with
  | none => rw [hS, hl] at hf; simp at hf
  | some x =>
    obtain ⟨r, t2⟩ := x
    have ht2 : t2 ≤ 2 * b.length := by
      unfold saFindLcsC at hS
      generalize hr : lcsLoopC h ⟨0, 0, 0, 0, 0⟩ 0 b = res at hS
      cases res with
      | none => simp at hS
      | some y =>
        obtain ⟨st, n⟩ := y
        simp only [Option.some.injEq, Prod.mk.injEq] at hS
        obtain ⟨_, rfl⟩ := hS
        have := lcsLoopC_cost B b [] _ (lcsInv_start B) st _ hr
        simpa using this
    have hfst := findLcsC_fst a b
    have hC2 : findLcsC a b = some (r, t1 + t2) := by simp only [findLcsC, hC, hS]
    rw [hC2] at hfst
    exact ⟨r, t1 + t2, hC2, hfst.symm, by omega⟩

end Gaspra
