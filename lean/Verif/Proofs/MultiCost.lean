import Verif.Model.MultiCost
import Verif.Proofs.MultiLoop
import Verif.Proofs.SACost

set_option linter.unusedSectionVars false
set_option linter.unusedSimpArgs false
set_option linter.unusedVariables false

/-! # The steps of `multiple_strings.find_lcs` -/

namespace Gaspra

section
variable {β : Type _} [DecidableEq β]

theorem addSteps_fst {σ : Type _} (n : Nat) (r : Option (σ × Nat)) :
    (addSteps n r).map Prod.fst = r.map Prod.fst := by
  cases r <;> rfl

theorem addSteps_add {σ : Type _} (a b : Nat) (r : Option (σ × Nat)) :
    addSteps a (addSteps b r) = addSteps (a + b) r := by
  cases r <;> simp [addSteps, Nat.add_assoc]

theorem addSteps_zero {σ : Type _} (r : Option (σ × Nat)) : addSteps 0 r = r := by
  cases r <;> simp [addSteps]

theorem updateSharedC_fst (isSep : β → Bool) (shared : List (Nat × List β)) :
    ∀ (trans : List (β × Nat)) (acc : List β),
    (updateSharedC isSep shared trans acc).map Prod.fst = updateShared isSep shared trans acc
  | [], acc => rfl
  | (t, c) :: trans, acc => by
    simp only [updateSharedC, updateShared]
    split
    · rw [addSteps_fst, updateSharedC_fst]
    · cases dget shared c with
      | none => rfl
      | some m => simp only [addSteps_fst, updateSharedC_fst]

theorem multiLoopC_fst (isSep : Nat → β → Bool) (h : Heap β) (count : Nat) :
    ∀ (f : Nat) (st : MultiState β),
    (multiLoopC isSep h count f st).map Prod.fst = multiLoop isSep h count f st := by
  intro f
  induction f with
  | zero =>
    intro st
    unfold multiLoopC multiLoop
    cases st.stack <;> rfl
  | succ f ih =>
    intro st
    unfold multiLoopC multiLoop
    cases st.stack with
    | nil => rfl
    | cons top rest =>
      dsimp only
      split
      · rw [addSteps_fst, ih]
      · cases h[top]? with
        | none => rfl
        | some nd =>
          dsimp only
          split
          · rw [← updateSharedC_fst]
            cases updateSharedC (isSep top) st.shared nd.transitions [] with
            | none => rfl
            | some r =>
              obtain ⟨s, n⟩ := r
              dsimp only [Option.map_some]
              split
              · rw [addSteps_fst, ih]
              · rw [addSteps_fst, ih]
          · rw [addSteps_fst, ih]

theorem allStartPositionsC_fst (h : Heap β) (cur len : Nat) :
    (allStartPositionsC h cur len).map Prod.fst = allStartPositions h cur len := by
  unfold allStartPositionsC allStartPositions
  cases followReverse h (h.length + 1) [cur] [] <;> rfl

theorem stringOffsetsC_fst (ps : List Nat) : ∀ (ss : List (List β)) (start : Nat),
    (stringOffsetsC ps start ss).1 = stringOffsets ps start ss
  | [], _ => rfl
  | s :: ss, start => by
    simp only [stringOffsetsC, stringOffsets]
    cases ps.find? fun p => decide (start ≤ p) <;> simp only [stringOffsetsC_fst ps ss]

theorem multiFindLcsC_fst (sep : Nat → β) (isSep : Nat → β → Bool) (strings : List (List β)) :
    (multiFindLcsC sep isSep strings).map Prod.fst = multiFindLcs sep isSep strings := by
  unfold multiFindLcsC multiFindLcs
  rw [← buildC_fst]
  cases buildC (concatTokens sep strings) with
  | none => rfl
  | some r =>
    obtain ⟨h, n⟩ := r
    dsimp only [Option.map_some]
    split
    · rfl
    · rw [← multiLoopC_fst]
      cases multiLoopC isSep h strings.length (multiFuel h) ⟨[0], [], 0, 0⟩ with
      | none => rfl
      | some r =>
        obtain ⟨st, m⟩ := r
        dsimp only [Option.map_some]
        rw [← allStartPositionsC_fst]
        cases allStartPositionsC h st.bestNode st.maxLength with
        | none => rfl
        | some r =>
          obtain ⟨raw, k⟩ := r
          dsimp only [Option.map_some]
          rw [stringOffsetsC_fst]

theorem length_setAdd (s : List β) (x : β) : s.length ≤ (setAdd s x).length := by
  unfold setAdd; split <;> simp

theorem length_setUnion : ∀ (t s : List β), s.length ≤ (setUnion s t).length
  | [], s => Nat.le_refl _
  | x :: t, s => by
    have h1 := length_setUnion t (setAdd s x)
    have h2 := length_setAdd s x
    simp only [setUnion, List.foldl_cons] at h1 ⊢
    omega

theorem updateSharedC_cost {isSep : β → Bool} {shared : List (Nat × List β)} {K : Nat}
    (hk : ∀ {c m}, dget shared c = some m → m.length ≤ K) :
    ∀ {trans : List (β × Nat)} {acc s : List β},
    updateShared isSep shared trans acc = some s → s.length ≤ K →
    ∃ n, updateSharedC isSep shared trans acc = some (s, n) ∧ acc.length ≤ s.length ∧
      n ≤ trans.length * (2 * K + 1)
  | [], acc, s, e, _ => by
    simp only [updateShared, Option.some.injEq] at e
    subst e
    exact ⟨0, rfl, Nat.le_refl _, by simp⟩
  | (t, c) :: trans, acc, s, e, hs => by
    simp only [updateShared] at e
    simp only [updateSharedC]
    split at e
    · next h1 =>
      obtain ⟨n, a1, a2, a3⟩ := updateSharedC_cost hk e hs
      have := length_setAdd acc t
      refine ⟨1 + n, by simp [h1, a1, addSteps], by omega, ?_⟩
      simp only [List.length_cons, Nat.add_mul, Nat.one_mul]
      omega
    · next h1 =>
      cases hd : dget shared c with
      | none => rw [hd] at e; cases e
      | some m =>
        rw [hd] at e
        obtain ⟨n, a1, a2, a3⟩ := updateSharedC_cost hk e hs
        have := length_setUnion m acc
        have := hk hd
        refine ⟨1 + acc.length + m.length + n, by simp [h1, a1, addSteps], by omega, ?_⟩
        simp only [List.length_cons, Nat.add_mul, Nat.one_mul]
        omega

theorem lookedAt_le (start : Nat) : ∀ ps : List Nat, lookedAt start ps ≤ ps.length
  | [] => Nat.le_refl _
  | p :: ps => by
    have := lookedAt_le start ps
    simp only [lookedAt, List.length_cons]
    split <;> omega

theorem stringOffsetsC_cost (ps : List Nat) : ∀ (ss : List (List β)) (start : Nat),
    (stringOffsetsC ps start ss).2 ≤ ss.length * (ps.length + 1)
  | [], _ => Nat.zero_le _
  | s :: ss, start => by
    have ih := stringOffsetsC_cost ps ss (start + s.length + 1)
    have := lookedAt_le start ps
    simp only [stringOffsetsC, List.length_cons, Nat.add_mul, Nat.one_mul]
    split <;> simp only <;> omega

end

variable {α : Type _} [DecidableEq α]
variable {ss : List (List α)} {h : Heap (α ⊕ Nat)} {last : Nat} {L : Nat → List (α ⊕ Nat)}

/-- The steps left. -/
def potentialC (K : Nat) (h : Heap (α ⊕ Nat)) (st : MultiState (α ⊕ Nat)) : Nat :=
  ((List.range h.length).map fun u =>
    if dmem st.shared u then 0 else (transOf h u).length * (2 * K + 5) + 2).sum

theorem potentialC_dset {K : Nat} {st : MultiState (α ⊕ Nat)} {v : Nat} {s : List (α ⊕ Nat)}
    {rest : List Nat} {ml bn : Nat} (hv : v < h.length) (hn : dmem st.shared v = false) :
    potentialC K h ⟨rest, dset st.shared v s, ml, bn⟩ + ((transOf h v).length * (2 * K + 5) + 2) =
      potentialC K h st := by
  have := sum_replace (f := fun u => if dmem (dset st.shared v s) u then 0 else
      (transOf h u).length * (2 * K + 5) + 2) (g := fun u => if dmem st.shared u then 0 else
      (transOf h u).length * (2 * K + 5) + 2) (v := v) (l := List.range h.length) List.nodup_range
      (by simpa using hv) (by
        intro u _ hu
        have : dmem (dset st.shared v s) u = dmem st.shared u := by
          unfold dmem; rw [dget_dset_ne _ _ (fun e => hu e.symm)]
        simp only [this])
  have h1 : dmem (dset st.shared v s) v = true := dmem_dset.2 (Or.inl rfl)
  simp only [h1, hn, if_true, Bool.false_eq_true, if_false, Nat.add_zero] at this
  exact this

theorem potentialC_init (K : Nat) (h : Heap (α ⊕ Nat)) (stk : List Nat) (ml bn : Nat) :
    potentialC K h ⟨stk, [], ml, bn⟩ =
      (h.map fun nd => nd.transitions.length).sum * (2 * K + 5) + 2 * h.length := by
  have : (List.range h.length).map (fun u => (transOf h u).length * (2 * K + 5) + 2) =
      h.map fun nd => nd.transitions.length * (2 * K + 5) + 2 := by
    apply List.ext_getElem?
    intro i
    simp only [List.getElem?_map, List.getElem?_range]
    by_cases hi : i < h.length
    · simp [hi, transOf]
    · simp [hi]
  have e : potentialC K h ⟨stk, [], ml, bn⟩ =
      ((List.range h.length).map fun u => (transOf h u).length * (2 * K + 5) + 2).sum := by
    simp [potentialC, dmem, dget]
  rw [e, this]
  clear e this
  induction h with
  | nil => simp
  | cons nd h ih =>
    simp only [List.map_cons, List.sum_cons, List.length_cons, ih, Nat.add_mul]; omega

theorem processListC (B : Built (sepText 0 ss) h last L) {b : Nat}
    (P : ∀ (v : Nat) (rest : List Nat) (st : MultiState (α ⊕ Nat)), v < h.length → b ≤ (L v).length →
      MultiInv ss h L st → ∃ steps cost st', (∀ f, multiLoopC sumSep h ss.length (steps + f)
        { st with stack := v :: rest } =
          addSteps cost (multiLoopC sumSep h ss.length f { st' with stack := rest })) ∧
        Progress ss h L st st' b ∧ dmem st'.shared v = true ∧
        steps + potential h st' ≤ 1 + potential h st ∧
        cost + potentialC ss.length h st' ≤ 1 + potentialC ss.length h st) :
    ∀ (cs rest : List Nat) (st : MultiState (α ⊕ Nat)),
      (∀ c ∈ cs, c < h.length ∧ b ≤ (L c).length) → MultiInv ss h L st →
      ∃ steps cost st', (∀ f, multiLoopC sumSep h ss.length (steps + f)
        { st with stack := cs ++ rest } =
          addSteps cost (multiLoopC sumSep h ss.length f { st' with stack := rest })) ∧
        Progress ss h L st st' b ∧ (∀ c ∈ cs, dmem st'.shared c = true) ∧
        steps + potential h st' ≤ cs.length + potential h st ∧
        cost + potentialC ss.length h st' ≤ cs.length + potentialC ss.length h st
  | [], rest, st, _, M => ⟨0, 0, st, by simp [addSteps_zero], ⟨M, id, Or.inl⟩, by simp, by simp,
      by simp⟩
  | c :: cs, rest, st, hcs, M => by
    obtain ⟨n1, t1, st1, a1, a2, a3, a4, a5⟩ := P c (cs ++ rest) st (hcs c (by simp)).1
      (hcs c (by simp)).2 M
    obtain ⟨n2, t2, st2, b1, b2, b3, b4, b5⟩ := processListC B P cs rest st1
      (fun c hc => hcs c (by simp [hc])) a2.inv
    refine ⟨n1 + n2, t1 + t2, st2, ?_, ⟨b2.inv, fun h => b2.mono (a2.mono h), ?_⟩, ?_, ?_, ?_⟩
    · intro f
      rw [Nat.add_assoc, List.cons_append, a1, b1, addSteps_add]
    · intro u hu
      rcases b2.fresh hu with h | h
      · exact a2.fresh h
      · exact Or.inr h
    · intro c' hc'
      rcases List.mem_cons.1 hc' with rfl | hc'
      · exact b2.mono a3
      · exact b3 c' hc'
    · simp only [List.length_cons]; omega
    · simp only [List.length_cons]; omega

theorem multiLoopC_step (count f : Nat) (st : MultiState (α ⊕ Nat)) (top : Nat) (rest : List Nat) :
    multiLoopC sumSep h count (f + 1) { st with stack := top :: rest } =
      (if dmem st.shared top then addSteps 1 (multiLoopC sumSep h count f { st with stack := rest })
        else
          match h[top]? with
          | none => none
          | some nd =>
            if nd.transitions.all fun t => dmem st.shared t.2 then
              match updateSharedC (fun t => t.isRight) st.shared nd.transitions [] with
              | none => none
              | some (s, n) =>
                addSteps (1 + nd.transitions.length + n) (multiLoopC sumSep h count f
                  (if s.length = count ∧ st.maxLength < nd.length then
                    ⟨rest, dset st.shared top s, nd.length, top⟩
                  else ⟨rest, dset st.shared top s, st.maxLength, st.bestNode⟩))
            else
              addSteps (1 + 2 * nd.transitions.length) (multiLoopC sumSep h count f
                { st with stack := ((nd.transitions.map Prod.snd).filter
                    fun c => !dmem st.shared c).reverse ++ top :: rest })) := by
  rw [multiLoopC]
  dsimp only
  by_cases h1 : dmem st.shared top = true
  · simp only [h1, if_true]
  · simp only [h1, if_false]
    cases h[top]? with
    | none => rfl
    | some nd =>
      dsimp only
      by_cases h2 : (nd.transitions.all fun t => dmem st.shared t.2) = true
      · simp only [h2, if_true]
        have e : updateSharedC (sumSep top) st.shared nd.transitions [] =
          updateSharedC (fun t => t.isRight) st.shared nd.transitions [] := rfl
        rw [e]
        cases updateSharedC (fun t => t.isRight) st.shared nd.transitions [] with
        | none => rfl
        | some r =>
          obtain ⟨s, n⟩ := r
          dsimp only
          by_cases hc : s.length = count ∧ st.maxLength < nd.length
          · rw [if_pos hc, if_pos hc]
          · rw [if_neg hc, if_neg hc]
      · simp only [h2]; rfl

/-- Computing a node whose children are known. -/
theorem compute_stepC (B : Built (sepText 0 ss) h last L) {v : Nat} {nd : Node (α ⊕ Nat)}
    (hv : h[v]? = some nd) {st : MultiState (α ⊕ Nat)} (M : MultiInv ss h L st)
    (hn : dmem st.shared v = false) (hch : ∀ t c, (t, c) ∈ nd.transitions → dmem st.shared c = true)
    (rest : List Nat) :
    ∃ cost st', (∀ f, multiLoopC sumSep h ss.length (1 + f) { st with stack := v :: rest } =
        addSteps cost (multiLoopC sumSep h ss.length f { st' with stack := rest })) ∧
      Progress ss h L st st' (L v).length ∧ dmem st'.shared v = true ∧
      potential h st' + ((transOf h v).length + 1) = potential h st ∧
      cost ≤ 1 + (transOf h v).length * (2 * ss.length + 2) ∧
      potentialC ss.length h st' + ((transOf h v).length * (2 * ss.length + 5) + 2) =
        potentialC ss.length h st := by
  have hlt := (List.getElem?_eq_some_iff.1 hv).1
  obtain ⟨st', a1, a2, a3, a4, s, a5, a6⟩ := compute_step B hv M hn hch rest
  have hall : (nd.transitions.all fun t => dmem st.shared t.2) = true := by
    rw [List.all_eq_true]
    rintro ⟨t, c⟩ hc
    exact hch t c hc
  have hsh : st'.shared = dset st.shared v s := by rw [a6]; split <;> rfl
  have hstk : { st' with stack := rest } = st' := by rw [a6]; split <;> rfl
  have hK : ∀ {c m}, dget st.shared c = some m → m.length ≤ ss.length := by
    intro c m hm
    obtain ⟨_, k2, k3⟩ := M.known hm
    exact shared_length_le k2 k3
  have hs : s.length ≤ ss.length := by
    have : dget st'.shared v = some s := by rw [hsh, dget_dset]; simp
    obtain ⟨_, k2, k3⟩ := a2.inv.known this
    exact shared_length_le k2 k3
  obtain ⟨n, c1, _, c3⟩ := updateSharedC_cost (fun hm => hK hm) a5 hs
  refine ⟨1 + nd.transitions.length + n, st', ?_, a2, a3, a4, ?_, ?_⟩
  · intro f
    rw [Nat.add_comm 1 f, multiLoopC_step, if_neg (by simp [hn])]
    simp only [hv, hall, c1, if_true]
    rw [hstk, ← a6]
  · have e : (transOf h v).length = nd.transitions.length := by simp [transOf, hv]
    rw [e]
    have : nd.transitions.length * (2 * ss.length + 2) =
        nd.transitions.length * (2 * ss.length + 1) + nd.transitions.length :=
      Nat.mul_succ _ _
    omega
  · rw [← hstk, a6]
    split
    · exact potentialC_dset hlt hn
    · exact potentialC_dset hlt hn

/-- Processing one node. -/
theorem processNodeC (B : Built (sepText 0 ss) h last L) : ∀ (k v : Nat) (rest : List Nat)
    (st : MultiState (α ⊕ Nat)), v < h.length → (sepText 0 ss).length ≤ (L v).length + k →
    MultiInv ss h L st → ∃ steps cost st', (∀ f, multiLoopC sumSep h ss.length (steps + f)
      { st with stack := v :: rest } =
        addSteps cost (multiLoopC sumSep h ss.length f { st' with stack := rest })) ∧
      Progress ss h L st st' (L v).length ∧ dmem st'.shared v = true ∧
      steps + potential h st' ≤ 1 + potential h st ∧
      cost + potentialC ss.length h st' ≤ 1 + potentialC ss.length h st := by
  have known : ∀ (v : Nat) (rest : List Nat) (st : MultiState (α ⊕ Nat)), MultiInv ss h L st →
      dmem st.shared v = true → ∃ steps cost st',
        (∀ f, multiLoopC sumSep h ss.length (steps + f) { st with stack := v :: rest } =
          addSteps cost (multiLoopC sumSep h ss.length f { st' with stack := rest })) ∧
        Progress ss h L st st' (L v).length ∧ dmem st'.shared v = true ∧
        steps + potential h st' ≤ 1 + potential h st ∧
        cost + potentialC ss.length h st' ≤ 1 + potentialC ss.length h st := by
    intro v rest st M hm
    refine ⟨1, 1, st, ?_, ⟨M, id, Or.inl⟩, hm, by omega, by omega⟩
    intro f
    rw [Nat.add_comm 1 f, multiLoopC_step, if_pos hm]
  have ready : ∀ (v : Nat) (nd : Node (α ⊕ Nat)) (rest : List Nat) (st : MultiState (α ⊕ Nat)),
      h[v]? = some nd → MultiInv ss h L st → dmem st.shared v = false →
      (∀ t c, (t, c) ∈ nd.transitions → dmem st.shared c = true) → ∃ steps cost st',
        (∀ f, multiLoopC sumSep h ss.length (steps + f) { st with stack := v :: rest } =
          addSteps cost (multiLoopC sumSep h ss.length f { st' with stack := rest })) ∧
        Progress ss h L st st' (L v).length ∧ dmem st'.shared v = true ∧
        steps + potential h st' ≤ 1 + potential h st ∧
        cost + potentialC ss.length h st' ≤ 1 + potentialC ss.length h st := by
    intro v nd rest st hnd M hm hch
    obtain ⟨t, st', a1, a2, a3, a4, a5, a6⟩ := compute_stepC B hnd M hm hch rest
    refine ⟨1, t, st', a1, a2, a3, by omega, ?_⟩
    have : (transOf h v).length * (2 * ss.length + 5) =
        (transOf h v).length * (2 * ss.length + 2) + (transOf h v).length * 3 := by
      rw [← Nat.mul_add]
    omega
  intro k
  induction k with
  | zero =>
    intro v rest st hv hk M
    obtain ⟨nd, hnd⟩ := heap_get hv
    cases hm : dmem st.shared v with
    | true => exact known v rest st M hm
    | false =>
      refine ready v nd rest st hnd M hm ?_
      intro t c hc
      obtain ⟨h1, h2⟩ := child_lt B hnd hc
      have := B.hinv.inv.length_le h1
      omega
  | succ k ih =>
    intro v rest st hv hk M
    obtain ⟨nd, hnd⟩ := heap_get hv
    cases hm : dmem st.shared v with
    | true => exact known v rest st M hm
    | false =>
      cases hall : nd.transitions.all fun t => dmem st.shared t.2 with
      | true => exact ready v nd rest st hnd M hm fun t c hc => List.all_eq_true.1 hall (t, c) hc
      | false =>
        let cs := ((nd.transitions.map Prod.snd).filter fun c => !dmem st.shared c).reverse
        have hcs : ∀ c ∈ cs, c < h.length ∧ (L v).length + 1 ≤ (L c).length := by
          intro c hc
          simp only [cs, List.mem_reverse, List.mem_filter] at hc
          obtain ⟨⟨t, c'⟩, hc', rfl⟩ := List.mem_map.1 hc.1
          exact child_lt B hnd hc'
        obtain ⟨n1, t1, st1, b1, b2, b3, b4, b5⟩ := processListC B (b := (L v).length + 1) (by
          intro u rest' st0 hu hb M0
          obtain ⟨n0, t0, st0', c1, c2, c3, c4, c5⟩ := ih u rest' st0 hu (by omega) M0
          refine ⟨n0, t0, st0', c1, ⟨c2.inv, c2.mono, ?_⟩, c3, c4, c5⟩
          intro w hw
          rcases c2.fresh hw with h | h
          · exact Or.inl h
          · exact Or.inr (by omega)) cs (v :: rest) st hcs M
        have hm1 : dmem st1.shared v = false := by
          cases e : dmem st1.shared v with
          | false => rfl
          | true =>
            rcases b2.fresh e with h | h
            · rw [hm] at h; cases h
            · omega
        have hch : ∀ t c, (t, c) ∈ nd.transitions → dmem st1.shared c = true := by
          intro t c hc
          cases e : dmem st.shared c with
          | true => exact b2.mono e
          | false =>
            apply b3
            simp only [cs, List.mem_reverse, List.mem_filter]
            exact ⟨List.mem_map.2 ⟨(t, c), hc, rfl⟩, by simp [e]⟩
        obtain ⟨t2, st2, a1, a2, a3, a4, a5, a6⟩ := compute_stepC B hnd b2.inv hm1 hch rest
        have htr : (transOf h v).length = nd.transitions.length := by simp [transOf, hnd]
        have hle : cs.length ≤ (transOf h v).length := by
          simp only [cs, List.length_reverse, htr]
          refine Nat.le_trans (List.length_filter_le _ _) (by simp)
        refine ⟨1 + (n1 + 1), 1 + 2 * nd.transitions.length + (t1 + t2), st2, ?_,
          ⟨a2.inv, fun h => a2.mono (b2.mono h), ?_⟩, a3, ?_, ?_⟩
        · intro f
          have e : 1 + (n1 + 1) + f = (n1 + (1 + f)) + 1 := by omega
          rw [e, multiLoopC_step, if_neg (by simp [hm])]
          simp only [hnd, hall, Bool.false_eq_true, if_false]
          rw [b1, a1, addSteps_add, addSteps_add, Nat.add_assoc]
        · intro u hu
          rcases a2.fresh hu with h | h
          · rcases b2.fresh h with h | h
            · exact Or.inl h
            · exact Or.inr (by omega)
          · exact Or.inr h
        · omega
        · have : (transOf h v).length * (2 * ss.length + 5) =
              (transOf h v).length * (2 * ss.length + 2) + (transOf h v).length * 3 := by
            rw [← Nat.mul_add]
          omega

/-- The steps of the loop. -/
theorem multiLoopC_cost (B : Built (sepText 0 ss) h last L) :
    ∃ st t, multiLoopC sumSep h ss.length (multiFuel h) ⟨[0], [], 0, 0⟩ = some (st, t) ∧
      t ≤ (h.map fun nd => nd.transitions.length).sum * (2 * ss.length + 5) + 2 * h.length + 1 := by
  have I := B.hinv.inv
  have M0 : MultiInv ss h L (⟨[], [], 0, 0⟩ : MultiState (α ⊕ Nat)) :=
    ⟨by intro u s hu; simp [dget] at hu, by intro u nd t c hu; simp [dmem, dget] at hu, I.zero_lt,
      by simp [I.rootL], Or.inl rfl, by intro u hu; simp [dmem, dget] at hu⟩
  obtain ⟨n, t, st, h1, h2, h3, h4, h5⟩ :=
    processNodeC B (sepText 0 ss).length 0 [] _ I.zero_lt (by omega) M0
  rw [potential_init] at h4
  rw [potentialC_init] at h5
  refine ⟨{ st with stack := [] }, t, ?_, by omega⟩
  have hfuel : multiFuel h = n + (multiFuel h - n) := by unfold multiFuel; omega
  rw [hfuel]
  have := h1 (multiFuel h - n)
  simp only at this
  rw [this, multiLoopC]
  rfl

theorem sepText_length : ∀ (ss : List (List α)) (k : Nat),
    (sepText k ss).length = (ss.map fun s => s.length + 1).sum
  | [], k => rfl
  | s :: ss, k => by simp [sepText, sepText_length ss]; omega

theorem length_le_total : ∀ ss : List (List α), ss.length ≤ (ss.map fun s => s.length + 1).sum
  | [] => Nat.le_refl _
  | s :: ss => by
    have := length_le_total ss
    simp only [List.map_cons, List.sum_cons, List.length_cons]; omega

theorem nodup_lt_length {l : List Nat} {n : Nat} (hn : l.Nodup) (hl : ∀ x ∈ l, x < n) :
    l.length ≤ n := by
  have := nodup_subset_length (l' := List.range n) hn (by intro x hx; simpa using hl x hx)
  simpa using this

theorem allStartPositionsC_cost {β : Type _} [DecidableEq β] {s : List β} {h : Heap β} {last : Nat}
    {L : Nat → List β} (B : Built s h last L) {v : Nat} (hv : v < h.length) :
    ∃ ps t, allStartPositionsC h v (L v).length = some (ps, t) ∧ ps.Pairwise (· < ·) ∧
      ps.length ≤ s.length + 1 ∧ t ≤ 2 * h.length := by
  obtain ⟨ps, h1, h2, h3⟩ := allStartPositions_spec B hv
  obtain ⟨r, hr, hn, hmem⟩ := followReverse_spec B hv (h.length + 1) [v] [] (by simp)
    (by intro u hu; simp at hu; subst hu; exact ⟨hv, List.suffix_refl _⟩) (by simp)
    (by intro u hu; simp at hu; exact Or.inl hu) (by simp) (by simp)
  have hC : allStartPositionsC h v (L v).length = some (ps, 2 * r.length) := by
    unfold allStartPositions at h1
    unfold allStartPositionsC
    rw [hr] at h1 ⊢
    simp only [Option.some.injEq] at h1
    simp only [h1]
  refine ⟨ps, _, hC, h2, ?_, ?_⟩
  · refine nodup_lt_length (h2.imp fun h => Nat.ne_of_lt h) ?_
    intro x hx
    obtain ⟨pre, post, e, e'⟩ := (h3 x).1 hx
    have := congrArg List.length e
    simp at this
    omega
  · have := nodup_lt_length hn fun u hu => ((hmem u).1 hu).1
    omega

theorem findLcsMultipleC_cost {ss : List (List α)} (hne : ss ≠ []) :
    ∃ r t, findLcsMultipleC ss = some (r, t) ∧
      t ≤ (7 * ss.length + 44) * (ss.map fun s => s.length + 1).sum := by
  obtain ⟨h, n, hb, hb', hn⟩ := buildC_cost (sepText 0 ss)
  obtain ⟨h', last, L, hb'', B, h1, h2, h3⟩ := build_spec (sepText 0 ss)
  rw [hb'] at hb''; cases hb''
  obtain ⟨st', l1, l2, l3, l4, l5⟩ := multiLoop_spec B
  obtain ⟨st, m, m1, m2⟩ := multiLoopC_cost B
  have hst : st' = st := by
    have e := multiLoopC_fst sumSep h ss.length (multiFuel h) ⟨[0], [], 0, 0⟩
    rw [m1, l1 _ (Nat.le_refl _)] at e
    simpa using e.symm
  subst hst
  obtain ⟨ps, k, p1, p2, p3, p4⟩ := allStartPositionsC_cost B l2
  rw [← l3] at p1
  have hss : ¬ ss.length = 0 := fun e => hne (List.eq_nil_of_length_eq_zero e)
  have hC : findLcsMultipleC ss = some (((stringOffsetsC ps 0
      (ss.map (·.map (Sum.inl : α → α ⊕ Nat)))).1, some st'.maxLength),
      n + m + k + (stringOffsetsC ps 0 (ss.map (·.map (Sum.inl : α → α ⊕ Nat)))).2) := by
    have m1' : multiLoopC (fun _ (t : α ⊕ Nat) => t.isRight) h ss.length (multiFuel h)
      ⟨[0], [], 0, 0⟩ = some (st', m) := m1
    simp only [findLcsMultipleC, multiFindLcsC, concatTokens_eq, hb, List.length_map, hss, if_false]
    simp only [m1', p1]
  refine ⟨_, _, hC, ?_⟩
  have o := stringOffsetsC_cost ps (ss.map (·.map (Sum.inl : α → α ⊕ Nat))) 0
  rw [List.length_map] at o
  have he := edges_length_le B
  rw [edges_length] at he
  rw [sepText_length] at hn h1 h2 h3 p3 he
  generalize hN : (ss.map fun s => s.length + 1).sum = N at *
  have hKN : ss.length ≤ N := by
    rw [← hN]; exact length_le_total ss
  have e1 : (h.map fun nd => nd.transitions.length).sum * (2 * ss.length + 5) ≤
      (3 * N) * (2 * ss.length + 5) := Nat.mul_le_mul_right _ (by omega)
  have e2 : ss.length * (ps.length + 1) ≤ ss.length * (N + 2) := Nat.mul_le_mul_left _ (by omega)
  have e3 : (3 * N) * (2 * ss.length + 5) = 6 * (ss.length * N) + 15 * N := by
    rw [Nat.mul_add, Nat.mul_assoc, Nat.mul_left_comm N 2, Nat.mul_comm N]; omega
  have e4 : (7 * ss.length + 44) * N = 7 * (ss.length * N) + 44 * N := by
    rw [Nat.add_mul, Nat.mul_assoc]
  have e5 : ss.length * (N + 2) = ss.length * N + 2 * ss.length := by
    rw [Nat.mul_add, Nat.mul_comm _ 2]
  omega

theorem length_le_lookedAt {start : Nat} : ∀ {ps l : List Nat}, ps.Pairwise (· < ·) → l.Nodup →
    (∀ x ∈ l, x ∈ ps ∧ x < start) → l.length ≤ lookedAt start ps
  | [], l, _, _, hl => by
    cases l with
    | nil => exact Nat.le_refl _
    | cons x l => exact absurd (hl x (by simp)).1 (by simp)
  | p :: ps, l, hp, hn, hl => by
    obtain ⟨q1, q2⟩ := List.pairwise_cons.1 hp
    simp only [lookedAt]
    split
    · next hs =>
      cases l with
      | nil => simp
      | cons x l =>
        obtain ⟨h1, h2⟩ := hl x (by simp)
        rcases List.mem_cons.1 h1 with rfl | h1
        · omega
        · have := q1 x h1; omega
    · have := length_le_lookedAt (start := start) (l := l.erase p) q2 (hn.erase p) (by
        intro x hx
        obtain ⟨h1, h2⟩ := (List.Nodup.mem_erase_iff hn).1 hx
        obtain ⟨h3, h4⟩ := hl x h2
        rcases List.mem_cons.1 h3 with e | h3
        · exact absurd e h1
        · exact ⟨h3, h4⟩)
      have e : l.length ≤ (l.erase p).length + 1 := by
        rw [List.length_erase]; split <;> omega
      omega

theorem stringOffsets_length_le {β : Type _} (ps : List Nat) : ∀ (ss : List (List β)) (start : Nat),
    (stringOffsets ps start ss).length ≤ ss.length
  | [], _ => Nat.le_refl _
  | s :: ss, start => by
    have := stringOffsets_length_le ps ss (start + s.length + 1)
    simp only [stringOffsets, List.length_cons]
    split <;> simp <;> omega

/-- When every copy of a string is found at its start, the starts are positions. -/
theorem mem_of_stringOffsets {β : Type _} {ps : List Nat} {s : List β} : ∀ {k start : Nat},
    stringOffsets ps start (List.replicate k s) = List.replicate k 0 →
    ∀ j, j < k → start + j * (s.length + 1) ∈ ps
  | 0, _, _, j, hj => by omega
  | k + 1, start, e, j, hj => by
    simp only [List.replicate_succ, stringOffsets] at e
    cases hf : ps.find? fun p => decide (start ≤ p) with
    | none =>
      rw [hf] at e
      have := stringOffsets_length_le ps (List.replicate k s) (start + s.length + 1)
      have := congrArg List.length e
      simp at this
      simp at *
      omega
    | some p =>
      rw [hf] at e
      simp only [List.cons.injEq] at e
      have h1 := List.mem_of_find?_eq_some hf
      have h2 := List.find?_some hf
      simp only [decide_eq_true_eq] at h2
      have hp : p = start := by omega
      subst hp
      cases j with
      | zero => simpa using h1
      | succ j =>
        have := mem_of_stringOffsets e.2 j (by omega)
        rw [Nat.add_mul, Nat.one_mul]
        have e' : p + (j * (s.length + 1) + (s.length + 1)) =
          p + s.length + 1 + j * (s.length + 1) := by omega
        rw [e']; exact this

theorem stringOffsetsC_ge {β : Type _} [DecidableEq β] {ps : List Nat} {s : List β}
    (hp : ps.Pairwise (· < ·)) : ∀ {k i : Nat},
    (∀ j, j < i + k → j * (s.length + 1) ∈ ps) →
    2 * i * k + k * (k + 1) ≤
      2 * (stringOffsetsC ps (i * (s.length + 1)) (List.replicate k s)).2
  | 0, i, _ => by simp
  | k + 1, i, hm => by
    have ih := stringOffsetsC_ge hp (s := s) (k := k) (i := i + 1) (by
      intro j hj; exact hm j (by omega))
    have hl := length_le_lookedAt (start := i * (s.length + 1))
      (l := (List.range i).map (· * (s.length + 1))) hp (by
        refine List.Pairwise.map _ (fun a b hab e => hab ?_) List.nodup_range
        exact Nat.eq_of_mul_eq_mul_right (by omega) e) (by
        intro x hx
        obtain ⟨j, hj, rfl⟩ := List.mem_map.1 hx
        simp only [List.mem_range] at hj
        exact ⟨hm j (by omega), Nat.mul_lt_mul_of_pos_right hj (by omega)⟩)
    simp only [List.length_map, List.length_range] at hl
    have e : i * (s.length + 1) + s.length + 1 = (i + 1) * (s.length + 1) := by
      rw [Nat.add_mul]; omega
    simp only [List.replicate_succ, stringOffsetsC, e]
    have e1 : 2 * (i + 1) * k = 2 * i * k + 2 * k := by
      rw [Nat.mul_add, Nat.add_mul]
    have e2 : 2 * i * (k + 1) = 2 * i * k + 2 * i := by rw [Nat.mul_add, Nat.mul_one]
    have e3 : (k + 1) * (k + 1 + 1) = k * (k + 1) + 2 * (k + 1) := by
      rw [Nat.mul_comm (k + 1), Nat.add_mul, Nat.add_mul]; simp only [Nat.mul_add, Nat.one_mul, Nat.mul_one]; omega
    split <;> simp only <;> omega

end Gaspra
