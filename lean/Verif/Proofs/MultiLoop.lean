import Verif.Proofs.MultipleStrings

set_option linter.unusedSectionVars false
set_option linter.unusedSimpArgs false
set_option linter.unusedVariables false

/-! # The loop of `multiple_strings.find_lcs` -/

namespace Gaspra

variable {α : Type _} [DecidableEq α]
variable {ss : List (List α)} {h : Heap (α ⊕ Nat)} {last : Nat} {L : Nat → List (α ⊕ Nat)}

theorem mem_setAdd {β : Type _} [DecidableEq β] {s : List β} {x y : β} :
    y ∈ setAdd s x ↔ y ∈ s ∨ y = x := by
  unfold setAdd; split
  · next h => constructor
              · exact Or.inl
              · rintro (h1 | rfl)
                · exact h1
                · exact h
  · simp

theorem nodup_setAdd {β : Type _} [DecidableEq β] {s : List β} {x : β} (hs : s.Nodup) :
    (setAdd s x).Nodup := by
  unfold setAdd; split
  · exact hs
  · next h =>
    rw [List.nodup_append]
    exact ⟨hs, by simp, by rintro a ha b hb rfl; simp at hb; exact h (hb ▸ ha)⟩

theorem mem_setUnion {β : Type _} [DecidableEq β] : ∀ {t s : List β} {y : β},
    y ∈ setUnion s t ↔ y ∈ s ∨ y ∈ t
  | [], s, y => by simp [setUnion]
  | x :: t, s, y => by
    have := mem_setUnion (t := t) (s := setAdd s x) (y := y)
    simp only [setUnion, List.foldl_cons] at this ⊢
    rw [this, mem_setAdd]; simp [or_assoc]

theorem nodup_setUnion {β : Type _} [DecidableEq β] : ∀ {t s : List β}, s.Nodup → (setUnion s t).Nodup
  | [], s, h => h
  | x :: t, s, h => by
    have := nodup_setUnion (t := t) (nodup_setAdd (x := x) h)
    simpa [setUnion] using this

theorem updateShared_spec {shared : List (Nat × List (α ⊕ Nat))} :
    ∀ {trans : List ((α ⊕ Nat) × Nat)} {acc : List (α ⊕ Nat)}, acc.Nodup →
    (∀ a c, (Sum.inl a, c) ∈ trans → ∃ m, dget shared c = some m) →
    ∃ s, updateShared (fun t => t.isRight) shared trans acc = some s ∧ s.Nodup ∧
      ∀ t, t ∈ s ↔ t ∈ acc ∨ (∃ i c, t = Sum.inr i ∧ (Sum.inr i, c) ∈ trans) ∨
        ∃ a c m, (Sum.inl a, c) ∈ trans ∧ dget shared c = some m ∧ t ∈ m
  | [], acc, hn, _ => ⟨acc, rfl, hn, by simp⟩
  | (.inr i, c) :: trans, acc, hn, hk => by
    obtain ⟨s, h1, h2, h3⟩ := updateShared_spec (trans := trans) (nodup_setAdd (x := .inr i) hn)
      fun a c hc => hk a c (by simp [hc])
    refine ⟨s, by simpa [updateShared] using h1, h2, fun t => ?_⟩
    rw [h3, mem_setAdd]
    constructor
    · rintro ((h | rfl) | ⟨i', c', rfl, h⟩ | ⟨a, c', m, h, h', h''⟩)
      · exact Or.inl h
      · exact Or.inr (Or.inl ⟨i, c, rfl, by simp⟩)
      · exact Or.inr (Or.inl ⟨i', c', rfl, by simp [h]⟩)
      · exact Or.inr (Or.inr ⟨a, c', m, by simp [h], h', h''⟩)
    · rintro (h | ⟨i', c', rfl, h⟩ | ⟨a, c', m, h, h', h''⟩)
      · exact Or.inl (Or.inl h)
      · rcases List.mem_cons.1 h with e | h
        · cases e; exact Or.inl (Or.inr rfl)
        · exact Or.inr (Or.inl ⟨i', c', rfl, h⟩)
      · rcases List.mem_cons.1 h with e | h
        · cases e
        · exact Or.inr (Or.inr ⟨a, c', m, h, h', h''⟩)
  | (.inl a, c) :: trans, acc, hn, hk => by
    obtain ⟨m, hm⟩ := hk a c (by simp)
    obtain ⟨s, h1, h2, h3⟩ := updateShared_spec (trans := trans) (nodup_setUnion (t := m) hn)
      fun a c hc => hk a c (by simp [hc])
    refine ⟨s, by simpa [updateShared, hm] using h1, h2, fun t => ?_⟩
    rw [h3, mem_setUnion]
    constructor
    · rintro ((h | h) | ⟨i', c', rfl, h⟩ | ⟨a, c', m, h, h', h''⟩)
      · exact Or.inl h
      · exact Or.inr (Or.inr ⟨a, c, m, by simp, hm, h⟩)
      · exact Or.inr (Or.inl ⟨i', c', rfl, by simp [h]⟩)
      · exact Or.inr (Or.inr ⟨a, c', m, by simp [h], h', h''⟩)
    · rintro (h | ⟨i', c', rfl, h⟩ | ⟨a', c', m', h, h', h''⟩)
      · exact Or.inl (Or.inl h)
      · rcases List.mem_cons.1 h with e | h
        · cases e
        · exact Or.inr (Or.inl ⟨i', c', rfl, h⟩)
      · rcases List.mem_cons.1 h with e | h
        · cases e
          rw [hm] at h'; cases h'
          exact Or.inl (Or.inr h'')
        · exact Or.inr (Or.inr ⟨a', c', m', h, h', h''⟩)

/-- The strings sharing a node, from its transitions. -/
theorem shares_rec (B : Built (sepText 0 ss) h last L) {v : Nat} {nd : Node (α ⊕ Nat)}
    (hv : h[v]? = some nd) {i : Nat} :
    Shares (sepText 0 ss) (L v) i ↔ (∃ c, (Sum.inr i, c) ∈ nd.transitions) ∨
      ∃ a c, (Sum.inl a, c) ∈ nd.transitions ∧ Shares (sepText 0 ss) (L c) i := by
  have I := B.hinv.inv
  have hlt := (List.getElem?_eq_some_iff.1 hv).1
  have hk : (nd.transitions.map Prod.fst).Nodup := by
    have := B.keys v; simpa [transOf, hv] using this
  constructor
  · rintro ⟨x, hx⟩
    cases x with
    | nil =>
      cases ht : trOf h v (Sum.inr i) with
      | none => exact absurd (by simpa using hx) (I.tr_none v hlt _ ht)
      | some c =>
        rw [trOf_some hv] at ht
        exact Or.inl ⟨c, mem_of_dget ht⟩
    | cons a x =>
      have hx' : Sub (sepText 0 ss) ((L v ++ [Sum.inl a]) ++ (x.map Sum.inl ++ [Sum.inr i])) := by
        simpa using hx
      cases ht : trOf h v (Sum.inl a) with
      | none => exact absurd hx'.of_append_left (I.tr_none v hlt _ ht)
      | some c =>
        have e := (I.tr_some v hlt _ c ht).2
        rw [trOf_some hv] at ht
        refine Or.inr ⟨a, c, mem_of_dget ht, x, ?_⟩
        have := ((e.append (x.map Sum.inl ++ [Sum.inr i])).sub_iff).1 hx'
        simpa using this
  · rintro (⟨c, hc⟩ | ⟨a, c, hc, x, hx⟩)
    · refine ⟨[], ?_⟩
      have ht : trOf h v (Sum.inr i) = some c := by rw [trOf_some hv]; exact dget_of_mem hk hc
      obtain ⟨e1, e2⟩ := I.tr_some v hlt _ c ht
      have := e2.sub_iff.2 (I.sub e1)
      simpa using this
    · refine ⟨a :: x, ?_⟩
      have ht : trOf h v (Sum.inl a) = some c := by rw [trOf_some hv]; exact dget_of_mem hk hc
      obtain ⟨e1, e2⟩ := I.tr_some v hlt _ c ht
      have := ((e2.append (x.map Sum.inl ++ [Sum.inr i])).sub_iff).2 (by simpa using hx)
      simpa using this

theorem child_lt (B : Built (sepText 0 ss) h last L) {v : Nat} {nd : Node (α ⊕ Nat)}
    (hv : h[v]? = some nd) {t : α ⊕ Nat} {c : Nat} (hc : (t, c) ∈ nd.transitions) :
    c < h.length ∧ (L v).length < (L c).length := by
  have I := B.hinv.inv
  have hlt := (List.getElem?_eq_some_iff.1 hv).1
  have hk : (nd.transitions.map Prod.fst).Nodup := by
    have := B.keys v; simpa [transOf, hv] using this
  have ht : trOf h v t = some c := by rw [trOf_some hv]; exact dget_of_mem hk hc
  obtain ⟨e1, e2⟩ := I.tr_some v hlt _ c ht
  refine ⟨e1, ?_⟩
  have := (I.longest c e1 _ e2).length_le
  simp at this
  omega

/-- All strings share the node. -/
def FullNode (ss : List (List α)) (L : Nat → List (α ⊕ Nat)) (v : Nat) : Prop :=
  ∀ i, i < ss.length → Shares (sepText 0 ss) (L v) i

/-- Invariant of the loop. -/
structure MultiInv (ss : List (List α)) (h : Heap (α ⊕ Nat)) (L : Nat → List (α ⊕ Nat))
    (st : MultiState (α ⊕ Nat)) : Prop where
  known : ∀ {u s}, dget st.shared u = some s → u < h.length ∧ s.Nodup ∧
    ∀ t, t ∈ s ↔ ∃ i, t = Sum.inr i ∧ Shares (sepText 0 ss) (L u) i
  closed : ∀ {u nd t c}, dmem st.shared u = true → h[u]? = some nd → (t, c) ∈ nd.transitions →
    dmem st.shared c = true
  best_lt : st.bestNode < h.length
  best_len : st.maxLength = (L st.bestNode).length
  best_full : st.maxLength = 0 ∨ FullNode ss L st.bestNode
  best_max : ∀ {u}, dmem st.shared u = true → FullNode ss L u → (L u).length ≤ st.maxLength

theorem shared_length_le {v : Nat} {s : List (α ⊕ Nat)} (hs : s.Nodup)
    (hm : ∀ t, t ∈ s ↔ ∃ i, t = Sum.inr i ∧ Shares (sepText 0 ss) (L v) i) :
    s.length ≤ ss.length := by
  have hle := nodup_subset_length (l' := (List.range ss.length).map (Sum.inr : Nat → α ⊕ Nat)) hs (by
    intro t ht
    obtain ⟨i, rfl, hi⟩ := (hm t).1 ht
    exact List.mem_map.2 ⟨i, by simpa using shares_lt hi, rfl⟩)
  simpa using hle

theorem full_iff_length {v : Nat} {s : List (α ⊕ Nat)} (hs : s.Nodup)
    (hm : ∀ t, t ∈ s ↔ ∃ i, t = Sum.inr i ∧ Shares (sepText 0 ss) (L v) i) :
    s.length = ss.length ↔ FullNode ss L v := by
  have hr : ((List.range ss.length).map (Sum.inr : Nat → α ⊕ Nat)).Nodup := by
    refine List.Pairwise.map _ (fun a b hab e => hab (Sum.inr.inj e)) List.nodup_range
  have hsub : ∀ t ∈ s, t ∈ (List.range ss.length).map (Sum.inr : Nat → α ⊕ Nat) := by
    intro t ht
    obtain ⟨i, rfl, hi⟩ := (hm t).1 ht
    exact List.mem_map.2 ⟨i, by simpa using shares_lt hi, rfl⟩
  have hle := nodup_subset_length hs hsub
  simp only [List.length_map, List.length_range] at hle
  constructor
  · intro e i hi
    by_cases hi' : (Sum.inr i : α ⊕ Nat) ∈ s
    · obtain ⟨i', e', h'⟩ := (hm _).1 hi'
      cases e'; exact h'
    · exfalso
      have hin : (Sum.inr i : α ⊕ Nat) ∈ (List.range ss.length).map (Sum.inr : Nat → α ⊕ Nat) :=
        List.mem_map.2 ⟨i, by simpa using hi, rfl⟩
      have := nodup_subset_length (l' := ((List.range ss.length).erase i).map
        (Sum.inr : Nat → α ⊕ Nat)) hs (by
          intro t ht
          obtain ⟨j, hj, rfl⟩ := List.mem_map.1 (hsub t ht)
          have : j ≠ i := by rintro rfl; exact hi' ht
          exact List.mem_map.2 ⟨j, (List.mem_erase_of_ne this).2 hj, rfl⟩)
      rw [List.length_map, List.length_erase_of_mem (by simpa using hi), List.length_range] at this
      omega
  · intro hf
    have := nodup_subset_length hr (l' := s) (by
      intro t ht
      obtain ⟨i, hi, rfl⟩ := List.mem_map.1 ht
      exact (hm _).2 ⟨i, rfl, hf i (by simpa using hi)⟩)
    simp at this
    omega

/-! ### Termination -/

/-- The work left: for every node not yet known, its transitions and one more. -/
def potential (h : Heap (α ⊕ Nat)) (st : MultiState (α ⊕ Nat)) : Nat :=
  ((List.range h.length).map fun u =>
    if dmem st.shared u then 0 else (transOf h u).length + 1).sum

theorem sum_replace {f g : Nat → Nat} {v : Nat} : ∀ {l : List Nat}, l.Nodup → v ∈ l →
    (∀ u ∈ l, u ≠ v → f u = g u) → (l.map f).sum + g v = (l.map g).sum + f v
  | [], _, hv, _ => by simp at hv
  | a :: l, hn, hv, he => by
    simp only [List.nodup_cons] at hn
    simp only [List.map_cons, List.sum_cons]
    by_cases e : a = v
    · subst e
      have : l.map f = l.map g := by
        apply List.map_congr_left
        intro u hu
        exact he u (by simp [hu]) (by rintro rfl; exact hn.1 hu)
      rw [this]; omega
    · have hv' : v ∈ l := by
        rcases List.mem_cons.1 hv with h | h
        · exact absurd h.symm e
        · exact h
      have ih := sum_replace hn.2 hv' fun u hu => he u (by simp [hu])
      have := he a (by simp) e
      omega

theorem dmem_dset {κ β : Type _} [DecidableEq κ] {d : List (κ × β)} {k k' : κ} {v : β} :
    dmem (dset d k v) k' = true ↔ k' = k ∨ dmem d k' = true := by
  unfold dmem
  rw [dget_dset]
  split
  · next e => simp [e]
  · next e => have e' : ¬ k' = k := fun h => e h.symm
              simp [e']

theorem potential_dset {st : MultiState (α ⊕ Nat)} {v : Nat} {s : List (α ⊕ Nat)} {rest : List Nat}
    {ml bn : Nat} (hv : v < h.length) (hn : dmem st.shared v = false) :
    potential h ⟨rest, dset st.shared v s, ml, bn⟩ + ((transOf h v).length + 1) =
      potential h st := by
  have := sum_replace (f := fun u => if dmem (dset st.shared v s) u then 0 else
      (transOf h u).length + 1) (g := fun u => if dmem st.shared u then 0 else
      (transOf h u).length + 1) (v := v) (l := List.range h.length) List.nodup_range
      (by simpa using hv) (by
        intro u _ hu
        have : dmem (dset st.shared v s) u = dmem st.shared u := by
          unfold dmem; rw [dget_dset_ne _ _ (fun e => hu e.symm)]
        simp only [this])
  have h1 : dmem (dset st.shared v s) v = true := dmem_dset.2 (Or.inl rfl)
  simp only [h1, hn, if_true, Bool.false_eq_true, if_false] at this
  simpa [potential] using this

/-- The kind test of the separator-free model. -/
abbrev sumSep : Nat → α ⊕ Nat → Bool := fun _ t => t.isRight

/-- What processing the node(s) on top of the stack achieves. -/
structure Progress (ss : List (List α)) (h : Heap (α ⊕ Nat)) (L : Nat → List (α ⊕ Nat))
    (st st' : MultiState (α ⊕ Nat)) (bound : Nat) : Prop where
  inv : MultiInv ss h L st'
  mono : ∀ {u}, dmem st.shared u = true → dmem st'.shared u = true
  fresh : ∀ {u}, dmem st'.shared u = true → dmem st.shared u = true ∨ bound ≤ (L u).length

theorem potential_stack {st : MultiState (α ⊕ Nat)} {stk : List Nat} :
    potential h { st with stack := stk } = potential h st := rfl

theorem MultiInv.stack {st : MultiState (α ⊕ Nat)} (M : MultiInv ss h L st) (stk : List Nat) :
    MultiInv ss h L { st with stack := stk } :=
  ⟨M.known, M.closed, M.best_lt, M.best_len, M.best_full, M.best_max⟩

theorem processList (B : Built (sepText 0 ss) h last L) {b : Nat}
    (P : ∀ (v : Nat) (rest : List Nat) (st : MultiState (α ⊕ Nat)), v < h.length → b ≤ (L v).length →
      MultiInv ss h L st → ∃ steps st', (∀ f, multiLoop sumSep h ss.length (steps + f)
        { st with stack := v :: rest } = multiLoop sumSep h ss.length f { st' with stack := rest }) ∧
        Progress ss h L st st' b ∧ dmem st'.shared v = true ∧
        steps + potential h st' ≤ 1 + potential h st) :
    ∀ (cs rest : List Nat) (st : MultiState (α ⊕ Nat)),
      (∀ c ∈ cs, c < h.length ∧ b ≤ (L c).length) → MultiInv ss h L st →
      ∃ steps st', (∀ f, multiLoop sumSep h ss.length (steps + f)
        { st with stack := cs ++ rest } = multiLoop sumSep h ss.length f { st' with stack := rest }) ∧
        Progress ss h L st st' b ∧ (∀ c ∈ cs, dmem st'.shared c = true) ∧
        steps + potential h st' ≤ cs.length + potential h st
  | [], rest, st, _, M => ⟨0, st, by simp, ⟨M, id, Or.inl⟩, by simp, by simp⟩
  | c :: cs, rest, st, hcs, M => by
    obtain ⟨n1, st1, a1, a2, a3, a4⟩ := P c (cs ++ rest) st (hcs c (by simp)).1
      (hcs c (by simp)).2 M
    obtain ⟨n2, st2, b1, b2, b3, b4⟩ := processList B P cs rest st1
      (fun c hc => hcs c (by simp [hc])) a2.inv
    refine ⟨n1 + n2, st2, ?_, ⟨b2.inv, fun h => b2.mono (a2.mono h), ?_⟩, ?_, ?_⟩
    · intro f
      rw [Nat.add_assoc, List.cons_append, a1, b1]
    · intro u hu
      rcases b2.fresh hu with h | h
      · exact a2.fresh h
      · exact Or.inr h
    · intro c' hc'
      rcases List.mem_cons.1 hc' with rfl | hc'
      · exact b2.mono a3
      · exact b3 c' hc'
    · simp only [List.length_cons]; omega

theorem multiLoop_step (count f : Nat) (st : MultiState (α ⊕ Nat)) (top : Nat) (rest : List Nat) :
    multiLoop sumSep h count (f + 1) { st with stack := top :: rest } =
      (if dmem st.shared top then multiLoop sumSep h count f { st with stack := rest }
        else
          match h[top]? with
          | none => none
          | some nd =>
            if nd.transitions.all fun t => dmem st.shared t.2 then
              match updateShared (fun t => t.isRight) st.shared nd.transitions [] with
              | none => none
              | some s =>
                if s.length = count ∧ st.maxLength < nd.length then
                  multiLoop sumSep h count f ⟨rest, dset st.shared top s, nd.length, top⟩
                else multiLoop sumSep h count f
                  ⟨rest, dset st.shared top s, st.maxLength, st.bestNode⟩
            else
              multiLoop sumSep h count f { st with stack := ((nd.transitions.map Prod.snd).filter
                fun c => !dmem st.shared c).reverse ++ top :: rest }) := by
  rw [multiLoop]
  dsimp only
  by_cases h1 : dmem st.shared top = true
  · simp only [h1, if_true]
  · simp only [h1, if_false]
    cases h[top]? with
    | none => rfl
    | some nd =>
      dsimp only
      by_cases h2 : (nd.transitions.all fun t => dmem st.shared t.2) = true
      · simp only [h2, if_true]
        have e : updateShared (sumSep top) st.shared nd.transitions [] =
          updateShared (fun t => t.isRight) st.shared nd.transitions [] := rfl
        rw [e]
        cases updateShared (fun t => t.isRight) st.shared nd.transitions [] <;> rfl
      · simp only [h2]; rfl

/-- Computing a node whose children are known. -/
theorem compute_step (B : Built (sepText 0 ss) h last L) {v : Nat} {nd : Node (α ⊕ Nat)}
    (hv : h[v]? = some nd) {st : MultiState (α ⊕ Nat)} (M : MultiInv ss h L st)
    (hn : dmem st.shared v = false) (hch : ∀ t c, (t, c) ∈ nd.transitions → dmem st.shared c = true)
    (rest : List Nat) :
    ∃ st', (∀ f, multiLoop sumSep h ss.length (1 + f) { st with stack := v :: rest } =
        multiLoop sumSep h ss.length f { st' with stack := rest }) ∧
      Progress ss h L st st' (L v).length ∧ dmem st'.shared v = true ∧
      potential h st' + ((transOf h v).length + 1) = potential h st ∧
      ∃ s, updateShared (fun t => t.isRight) st.shared nd.transitions [] = some s ∧
        st' = (if s.length = ss.length ∧ st.maxLength < nd.length then
            ⟨rest, dset st.shared v s, nd.length, v⟩
          else ⟨rest, dset st.shared v s, st.maxLength, st.bestNode⟩) := by
  have hlt := (List.getElem?_eq_some_iff.1 hv).1
  have hlen : nd.length = (L v).length := by
    rw [← B.hinv.len v hlt, lenOf_some hv]
  have known : ∀ c, dmem st.shared c = true → ∃ m, dget st.shared c = some m := by
    intro c hc
    unfold dmem at hc
    exact Option.isSome_iff_exists.1 hc
  obtain ⟨s, u1, u2, u3⟩ := updateShared_spec (shared := st.shared) (trans := nd.transitions)
    (acc := []) (by simp) fun a c hc => known c (hch _ _ hc)
  have u3' : ∀ t, t ∈ s ↔ ∃ i, t = Sum.inr i ∧ Shares (sepText 0 ss) (L v) i := by
    intro t
    rw [u3]
    constructor
    · rintro (h | ⟨i, c, rfl, h⟩ | ⟨a, c, m, h, h', h''⟩)
      · simp at h
      · exact ⟨i, rfl, (shares_rec B hv).2 (Or.inl ⟨c, h⟩)⟩
      · obtain ⟨i, rfl, hi⟩ := ((M.known h').2.2 t).1 h''
        exact ⟨i, rfl, (shares_rec B hv).2 (Or.inr ⟨a, c, h, hi⟩)⟩
    · rintro ⟨i, rfl, hi⟩
      rcases (shares_rec B hv).1 hi with ⟨c, hc⟩ | ⟨a, c, hc, hi'⟩
      · exact Or.inr (Or.inl ⟨i, c, rfl, hc⟩)
      · obtain ⟨m, hm⟩ := known c (hch _ _ hc)
        exact Or.inr (Or.inr ⟨a, c, m, hc, hm, ((M.known hm).2.2 _).2 ⟨i, rfl, hi'⟩⟩)
  have hfull := full_iff_length u2 u3'
  have hall : (nd.transitions.all fun t => dmem st.shared t.2) = true := by
    rw [List.all_eq_true]
    rintro ⟨t, c⟩ hc
    exact hch t c hc
  have inv : ∀ ml bn, bn < h.length → ml = (L bn).length → (ml = 0 ∨ FullNode ss L bn) →
      st.maxLength ≤ ml → (FullNode ss L v → (L v).length ≤ ml) →
      MultiInv ss h L ⟨rest, dset st.shared v s, ml, bn⟩ := by
    intro ml bn c1 c2 c3 c4 c5
    refine ⟨?_, ?_, c1, c2, c3, ?_⟩
    · intro u s' hu
      simp only [dget_dset] at hu
      split at hu
      · next e => cases hu; subst e; exact ⟨hlt, u2, u3'⟩
      · exact M.known hu
    · intro u nd' t c hu hu' hc
      simp only at hu ⊢
      rw [dmem_dset] at hu ⊢
      rcases hu with rfl | hu
      · rw [hv] at hu'; cases hu'
        exact Or.inr (hch t c hc)
      · exact Or.inr (M.closed hu hu' hc)
    · intro u hu hf
      simp only at hu
      rw [dmem_dset] at hu
      rcases hu with rfl | hu
      · exact c5 hf
      · exact Nat.le_trans (M.best_max hu hf) c4
  have fin : ∀ ml bn, MultiInv ss h L ⟨rest, dset st.shared v s, ml, bn⟩ →
      Progress ss h L st ⟨rest, dset st.shared v s, ml, bn⟩ (L v).length := by
    intro ml bn hM
    refine ⟨hM, ?_, ?_⟩
    · intro u hu; exact dmem_dset.2 (Or.inr hu)
    · intro u hu
      rcases dmem_dset.1 hu with rfl | hu
      · exact Or.inr (Nat.le_refl _)
      · exact Or.inl hu
  by_cases hc : s.length = ss.length ∧ st.maxLength < nd.length
  · refine ⟨⟨rest, dset st.shared v s, nd.length, v⟩, ?_, fin _ _ (inv _ _ hlt hlen
      (Or.inr (hfull.1 hc.1)) (Nat.le_of_lt hc.2) fun _ => by omega), dmem_dset.2 (Or.inl rfl),
      potential_dset hlt hn, s, u1, (if_pos hc).symm⟩
    intro f
    rw [Nat.add_comm 1 f, multiLoop_step, if_neg (by simp [hn])]
    simp only [hv, hall, u1, if_true]
    rw [if_pos hc]
  · refine ⟨⟨rest, dset st.shared v s, st.maxLength, st.bestNode⟩, ?_, fin _ _ (inv _ _ M.best_lt
      M.best_len M.best_full (Nat.le_refl _) ?_), dmem_dset.2 (Or.inl rfl),
      potential_dset hlt hn, s, u1, (if_neg hc).symm⟩
    · intro f
      rw [Nat.add_comm 1 f, multiLoop_step, if_neg (by simp [hn])]
      simp only [hv, hall, u1, if_true]
      rw [if_neg hc]
    · intro hf
      have := hfull.2 hf
      have : ¬ st.maxLength < nd.length := fun h => hc ⟨this, h⟩
      omega

/-- Processing one node. -/
theorem processNode (B : Built (sepText 0 ss) h last L) : ∀ (k v : Nat) (rest : List Nat)
    (st : MultiState (α ⊕ Nat)), v < h.length → (sepText 0 ss).length ≤ (L v).length + k →
    MultiInv ss h L st → ∃ steps st', (∀ f, multiLoop sumSep h ss.length (steps + f)
      { st with stack := v :: rest } = multiLoop sumSep h ss.length f { st' with stack := rest }) ∧
      Progress ss h L st st' (L v).length ∧ dmem st'.shared v = true ∧
      steps + potential h st' ≤ 1 + potential h st := by
  intro k
  induction k with
  | zero =>
    intro v rest st hv hk M
    obtain ⟨nd, hnd⟩ := heap_get hv
    cases hm : dmem st.shared v with
    | true =>
      refine ⟨1, st, ?_, ⟨M, id, Or.inl⟩, hm, by omega⟩
      intro f
      rw [Nat.add_comm 1 f, multiLoop_step, if_pos hm]
    | false =>
      have hch : ∀ t c, (t, c) ∈ nd.transitions → dmem st.shared c = true := by
        intro t c hc
        obtain ⟨h1, h2⟩ := child_lt B hnd hc
        have := B.hinv.inv.length_le h1
        omega
      obtain ⟨st', a1, a2, a3, a4, _⟩ := compute_step B hnd M hm hch rest
      exact ⟨1, st', a1, a2, a3, by omega⟩
  | succ k ih =>
    intro v rest st hv hk M
    obtain ⟨nd, hnd⟩ := heap_get hv
    cases hm : dmem st.shared v with
    | true =>
      refine ⟨1, st, ?_, ⟨M, id, Or.inl⟩, hm, by omega⟩
      intro f
      rw [Nat.add_comm 1 f, multiLoop_step, if_pos hm]
    | false =>
      cases hall : nd.transitions.all fun t => dmem st.shared t.2 with
      | true =>
        have hch : ∀ t c, (t, c) ∈ nd.transitions → dmem st.shared c = true := by
          intro t c hc
          exact List.all_eq_true.1 hall (t, c) hc
        obtain ⟨st', a1, a2, a3, a4, _⟩ := compute_step B hnd M hm hch rest
        exact ⟨1, st', a1, a2, a3, by omega⟩
      | false =>
        let cs := ((nd.transitions.map Prod.snd).filter fun c => !dmem st.shared c).reverse
        have hcs : ∀ c ∈ cs, c < h.length ∧ (L v).length + 1 ≤ (L c).length := by
          intro c hc
          simp only [cs, List.mem_reverse, List.mem_filter] at hc
          obtain ⟨⟨t, c'⟩, hc', rfl⟩ := List.mem_map.1 hc.1
          exact child_lt B hnd hc'
        obtain ⟨n1, st1, b1, b2, b3, b4⟩ := processList B (b := (L v).length + 1) (by
          intro u rest' st0 hu hb M0
          obtain ⟨n0, st0', c1, c2, c3, c4⟩ := ih u rest' st0 hu (by omega) M0
          refine ⟨n0, st0', c1, ⟨c2.inv, c2.mono, ?_⟩, c3, c4⟩
          intro w hw
          rcases c2.fresh hw with h | h
          · exact Or.inl h
          · exact Or.inr (by omega)) cs (v :: rest) st hcs M
        have hm1 : dmem st1.shared v = false := by
          cases e : dmem st1.shared v with
          | false => rfl
          | true =>
            rcases b2.fresh e with h | h
            · rw [hm] at h; cases h
            · omega
        have hch : ∀ t c, (t, c) ∈ nd.transitions → dmem st1.shared c = true := by
          intro t c hc
          cases e : dmem st.shared c with
          | true => exact b2.mono e
          | false =>
            apply b3
            simp only [cs, List.mem_reverse, List.mem_filter]
            exact ⟨List.mem_map.2 ⟨(t, c), hc, rfl⟩, by simp [e]⟩
        obtain ⟨st2, a1, a2, a3, a4, _⟩ := compute_step B hnd b2.inv hm1 hch rest
        refine ⟨1 + (n1 + 1), st2, ?_, ⟨a2.inv, fun h => a2.mono (b2.mono h), ?_⟩, a3, ?_⟩
        · intro f
          have e : 1 + (n1 + 1) + f = (n1 + (1 + f)) + 1 := by omega
          rw [e, multiLoop_step, if_neg (by simp [hm])]
          simp only [hnd, hall, Bool.false_eq_true, if_false]
          rw [b1, a1]
        · intro u hu
          rcases a2.fresh hu with h | h
          · rcases b2.fresh h with h | h
            · exact Or.inl h
            · exact Or.inr (by omega)
          · exact Or.inr h
        · have hle : cs.length ≤ (transOf h v).length := by
            simp only [cs, List.length_reverse, transOf, hnd]
            refine Nat.le_trans (List.length_filter_le _ _) (by simp)
          omega

theorem potential_init (h : Heap (α ⊕ Nat)) (stk : List Nat) (ml bn : Nat) :
    potential h ⟨stk, [], ml, bn⟩ = (h.map fun nd => nd.transitions.length).sum + h.length := by
  have : (List.range h.length).map (fun u => (transOf h u).length + 1) =
      h.map fun nd => nd.transitions.length + 1 := by
    apply List.ext_getElem?
    intro i
    simp only [List.getElem?_map, List.getElem?_range]
    by_cases hi : i < h.length
    · simp [hi, transOf]
    · simp [hi]
  have e : potential h ⟨stk, [], ml, bn⟩ =
      ((List.range h.length).map fun u => (transOf h u).length + 1).sum := by
    simp [potential, dmem, dget]
  rw [e, this]
  clear e this
  induction h with
  | nil => rfl
  | cons nd h ih => simp only [List.map_cons, List.sum_cons, List.length_cons, ih]; omega

/-- The loop ends, with the best node. -/
theorem multiLoop_spec (B : Built (sepText 0 ss) h last L) :
    ∃ st, (∀ fuel, multiFuel h ≤ fuel →
      multiLoop sumSep h ss.length fuel ⟨[0], [], 0, 0⟩ = some st) ∧
      st.bestNode < h.length ∧ st.maxLength = (L st.bestNode).length ∧
      (st.maxLength = 0 ∨ FullNode ss L st.bestNode) ∧
      ∀ u, u < h.length → FullNode ss L u → (L u).length ≤ st.maxLength := by
  have I := B.hinv.inv
  have M0 : MultiInv ss h L (⟨[], [], 0, 0⟩ : MultiState (α ⊕ Nat)) :=
    ⟨by intro u s hu; simp [dget] at hu, by intro u nd t c hu; simp [dmem, dget] at hu, I.zero_lt,
      by simp [I.rootL], Or.inl rfl, by intro u hu; simp [dmem, dget] at hu⟩
  obtain ⟨n, st, h1, h2, h3, h4⟩ := processNode B (sepText 0 ss).length 0 [] _ I.zero_lt (by omega) M0
  rw [potential_init] at h4
  refine ⟨{ st with stack := [] }, ?_, h2.inv.best_lt, h2.inv.best_len, h2.inv.best_full, ?_⟩
  · intro fuel hle
    have hfuel : fuel = n + (fuel - n) := by unfold multiFuel at hle; omega
    rw [hfuel]
    have := h1 (fuel - n)
    simp only at this
    rw [this, multiLoop]
  · intro u hu hf
    refine h2.inv.best_max ?_ hf
    -- every node is reached from the root
    have reach : ∀ (w : List (α ⊕ Nat)) (v : Nat), dmem st.shared v = true → ∀ u,
        matchNode h v w = some u → dmem st.shared u = true := by
      intro w
      induction w with
      | nil => intro v hv u hu; simp [matchNode] at hu; subst hu; exact hv
      | cons t w ih =>
        intro v hv u hu
        simp only [matchNode] at hu
        cases hnd : h[v]? with
        | none => simp [hnd] at hu
        | some nd =>
          simp only [hnd] at hu
          cases ht : dget nd.transitions t with
          | none => simp [ht] at hu
          | some c =>
            simp only [ht] at hu
            exact ih c (h2.inv.closed hv hnd (mem_of_dget ht)) u hu
    obtain ⟨m1, m2⟩ := matchNode_root B.hinv (L u)
    cases hm : matchNode h 0 (L u) with
    | none => exact absurd (I.sub hu) (m2 hm)
    | some u' =>
      obtain ⟨hu', e⟩ := m1 u' hm
      have := I.eq_of_eqv hu hu' e
      subst this
      exact reach (L u) 0 h3 u hm

theorem allStartPositions_spec {β : Type _} [DecidableEq β] {s : List β} {h : Heap β} {last : Nat}
    {L : Nat → List β} (B : Built s h last L) {v : Nat} (hv : v < h.length) :
    ∃ ps, allStartPositions h v (L v).length = some ps ∧ ps.Pairwise (· < ·) ∧
      ∀ i, i ∈ ps ↔ OccursAt s (L v) i := by
  obtain ⟨ps, h1, h2, h3⟩ := saFindSubstringAll_spec B (L v)
  refine ⟨ps, ?_, h2, h3⟩
  unfold saFindSubstringAll at h1
  obtain ⟨m1, m2⟩ := matchNode_root B.hinv (L v)
  cases hm : matchNode h 0 (L v) with
  | none => exact absurd (B.hinv.inv.sub hv) (m2 hm)
  | some u =>
    obtain ⟨hu, e⟩ := m1 u hm
    have := B.hinv.inv.eq_of_eqv hv hu e
    subst this
    simpa [hm] using h1

theorem findLcsMultiple_spec {ss : List (List α)} (hne : ss ≠ []) :
    ∃ (ps : List Nat) (n : Nat) (w : List α), findLcsMultiple ss = some (ps, some n) ∧ w.length = n ∧ ps.length = ss.length ∧
      (∀ (k : Nat) s p, ss[k]? = some s → ps[k]? = some p →
        OccursAt s w p ∧ ∀ j, OccursAt s w j → p ≤ j) ∧
      ∀ x, (∀ s ∈ ss, Substring s x) → x.length ≤ n := by
  obtain ⟨h, last, L, hb, B, _⟩ := build_spec (sepText 0 ss)
  obtain ⟨st, l1, l2, l3, l4, l5⟩ := multiLoop_spec B
  obtain ⟨ps, p1, p2, p3⟩ := allStartPositions_spec B l2
  -- the word of the best node
  have hw : ∃ w : List α, L st.bestNode = w.map Sum.inl ∧ ∀ s ∈ ss, Substring s w := by
    rcases l4 with h0 | hf
    · refine ⟨[], ?_, fun s _ => ⟨0, [], s, by simp, rfl⟩⟩
      rw [List.map_nil]
      exact List.eq_nil_of_length_eq_zero (by omega)
    · obtain ⟨w, hw⟩ : ∃ w : List α, L st.bestNode = w.map Sum.inl := by
        apply eq_map_inl
        intro i hi
        have hlt : i < ss.length := by
          obtain ⟨v1, v2, e⟩ := List.append_of_mem hi
          obtain ⟨p, pre, post, h', _⟩ := sub_iff_substring.1 (B.hinv.inv.sub l2)
          obtain ⟨j, s, h1, h2, _⟩ := sepText_sep_pos (k := 0) (i := i) (pre := pre ++ v1)
            (post := v2 ++ post) (by rw [h', e]; simp)
          have := (List.getElem?_eq_some_iff.1 h2).1
          omega
        exact shares_no_sep (hf i hlt) hi
      refine ⟨w, hw, fun s hs => ?_⟩
      obtain ⟨i, hi⟩ := List.mem_iff_getElem?.1 hs
      have := hf i (List.getElem?_eq_some_iff.1 hi).1
      rw [hw] at this
      obtain ⟨s', h1, h2⟩ := shares_iff.1 this
      rw [hi] at h1; cases h1
      exact h2
  obtain ⟨w, hw, hsub⟩ := hw
  rw [hw] at p3 p1
  have hlen : st.maxLength = w.length := by rw [l3, hw]; simp
  have hstart : ∀ j s, ss[j]? = some s → ∃ p0, OccursAt s w p0 ∧ startOf ss j + p0 ∈ ps ∧
      p0 ≤ s.length := by
    intro j s hj
    obtain ⟨p0, hp0⟩ := hsub s (List.mem_iff_getElem?.2 ⟨j, hj⟩)
    have hle : p0 ≤ s.length := by
      obtain ⟨a, b, rfl, rfl⟩ := hp0; simp
    refine ⟨p0, hp0, ?_, hle⟩
    rw [p3, occursAt_string hj (by omega) (by omega)]
    have : startOf ss j + p0 - startOf ss j = p0 := by omega
    rw [this]; exact hp0
  have hmap : ∀ start, stringOffsets ps start (ss.map (·.map (Sum.inl : α → α ⊕ Nat))) =
      stringOffsets ps start ss := by
    have : ∀ (ss : List (List α)) start, stringOffsets ps start
        (ss.map (·.map (Sum.inl : α → α ⊕ Nat))) = stringOffsets ps start ss := by
      intro ss
      induction ss with
      | nil => intro start; rfl
      | cons s ss ih => intro start; simp only [List.map_cons, stringOffsets, List.length_map, ih]
    exact this ss
  obtain ⟨o1, o2⟩ := stringOffsets_spec p2 ss 0 (by
    intro j s hj
    obtain ⟨p0, _, h2, _⟩ := hstart j s hj
    exact ⟨_, h2, by omega⟩)
  refine ⟨stringOffsets ps 0 ss, w.length, w, ?_, rfl, o1, ?_, ?_⟩
  · have hss : ¬ ss.length = 0 := fun e => hne (List.eq_nil_of_length_eq_zero e)
    have l1' := l1 _ (Nat.le_refl _)
    simp only [findLcsMultiple, multiFindLcs, concatTokens_eq, hb, List.length_map, hss, if_false]
    simp only [List.length_map] at p1
    rw [l1']
    simp only [hlen, p1, hmap]
  · intro k s p hk hp
    obtain ⟨h1, h2⟩ := o2 k p hp
    simp only [Nat.zero_add] at h1 h2
    obtain ⟨p0, q1, q2, q3⟩ := hstart k s hk
    have hle := h2 _ q2 (by omega)
    have hocc := (p3 _).1 h1
    rw [occursAt_string hk (by omega) (by omega)] at hocc
    have e : startOf ss k + p - startOf ss k = p := by omega
    rw [e] at hocc
    refine ⟨hocc, ?_⟩
    intro j hj
    have hjl : j ≤ s.length := by
      obtain ⟨a, b, rfl, rfl⟩ := hj; simp
    have : startOf ss k + j ∈ ps := by
      rw [p3, occursAt_string hk (by omega) (by omega)]
      have : startOf ss k + j - startOf ss k = j := by omega
      rw [this]; exact hj
    have := h2 _ this (by omega)
    omega
  · intro x hx
    rw [← hlen]
    -- the node of `x`
    obtain ⟨s0, hs0⟩ : ∃ s0, s0 ∈ ss := by
      cases ss with
      | nil => exact absurd rfl hne
      | cons a r => exact ⟨a, by simp⟩
    have hxs : ∀ i, i < ss.length → Shares (sepText 0 ss) (x.map Sum.inl) i := by
      intro i hi
      refine shares_iff.2 ⟨ss[i], List.getElem?_eq_getElem hi, hx _ (List.getElem_mem hi)⟩
    have hsubx : Sub (sepText 0 ss) (x.map Sum.inl) := by
      obtain ⟨i, hi⟩ := List.mem_iff_getElem?.1 hs0
      obtain ⟨y, hy⟩ := hxs i (List.getElem?_eq_some_iff.1 hi).1
      rw [List.append_assoc] at hy
      exact hy.of_append_left
    obtain ⟨u, hu, e⟩ := B.hinv.inv.cover _ hsubx
    have hfu : FullNode ss L u := by
      intro i hi
      obtain ⟨y, hy⟩ := hxs i hi
      refine ⟨y, ?_⟩
      rw [List.append_assoc] at hy ⊢
      exact ((e.append _).sub_iff).1 hy
    have h1 := l5 u hu hfu
    have h2 := (B.hinv.inv.longest u hu _ e).length_le
    simp at h2
    omega

/-- The loop only looks at the kinds of the keys that are in the dictionaries. -/
theorem updateShared_congr {β : Type _} [DecidableEq β] {k1 k2 : β → Bool}
    {shared : List (Nat × List β)} : ∀ {trans : List (β × Nat)} {acc : List β},
    (∀ t c, (t, c) ∈ trans → k1 t = k2 t) →
    updateShared k1 shared trans acc = updateShared k2 shared trans acc
  | [], acc, _ => rfl
  | (t, c) :: trans, acc, hk => by
    have ih : ∀ acc, updateShared k1 shared trans acc = updateShared k2 shared trans acc :=
      fun acc => updateShared_congr fun t c hc => hk t c (by simp [hc])
    simp only [updateShared, hk t c (by simp), ih]

theorem multiLoop_congr {β : Type _} [DecidableEq β] {k1 k2 : Nat → β → Bool} {h : Heap β}
    {count : Nat} (hk : ∀ i nd t c, h[i]? = some nd → (t, c) ∈ nd.transitions → k1 i t = k2 i t) :
    ∀ (f : Nat) (st : MultiState β), multiLoop k1 h count f st = multiLoop k2 h count f st := by
  intro f
  induction f with
  | zero =>
    intro st
    rw [multiLoop, multiLoop]
  | succ f ih =>
    intro st
    rw [multiLoop, multiLoop]
    cases st.stack with
    | nil => rfl
    | cons top rest =>
      simp only [ih]
      cases hnd : h[top]? with
      | none => rfl
      | some nd =>
        simp only [updateShared_congr (hk top nd · · hnd)]

end Gaspra
