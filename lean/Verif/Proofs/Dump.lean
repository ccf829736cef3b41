import Verif.Spec.Dump
import Verif.Proofs.SAQueries

/-!
# The dumps show the whole automaton, every node once
-/

set_option linter.unusedSectionVars false
set_option linter.unusedSimpArgs false
set_option linter.unusedVariables false

namespace Gaspra

variable {α : Type _} [DecidableEq α]

section
variable {s : List α} {h : Heap α} {last : Nat} {L : Nat → List α}

/-- Transitions lead to longer words. -/
theorem HInv.step_longer (H : HInv s h last L) {i j : Nat} {c : α} (hi : i < h.length)
    (ht : trOf h i c = some j) : j < h.length ∧ (L i).length < (L j).length := by
  obtain ⟨hj, he⟩ := H.inv.tr_some i hi c j ht
  have := (H.inv.longest j hj _ he).length_le
  simp at this
  exact ⟨hj, by omega⟩

theorem HInv.length_le (H : HInv s h last L) {i : Nat} (hi : i < h.length) :
    (L i).length ≤ s.length := (H.inv.sub hi).length_le

/-- Every node is reached from the root. -/
theorem HInv.reach (H : HInv s h last L) (S : Nat → Prop) (h0 : S 0)
    (hcl : ∀ i c j, i < h.length → S i → trOf h i c = some j → S j) :
    ∀ j, j < h.length → S j := by
  suffices ∀ k j, (L j).length = k → j < h.length → S j from fun j hj => this _ j rfl hj
  intro k
  induction k using Nat.strongRecOn with
  | ind k ih =>
    intro j hk hj
    rcases List.eq_nil_or_concat (L j) with hn | ⟨u, c, hu⟩
    · have := H.inv.inj j 0 hj H.inv.zero_lt (by rw [hn, H.inv.rootL])
      subst this; exact h0
    · have hs : Sub s (u ++ [c]) := by
        have := H.inv.sub hj; rw [hu] at this; simpa using this
      obtain ⟨i, hi, he⟩ := H.inv.cover u hs.of_append_left
      have he' := he.concat c
      cases ht : trOf h i c with
      | none => exact absurd (he'.sub_iff.1 hs) (H.inv.tr_none i hi c ht)
      | some j' =>
        obtain ⟨hj', he2⟩ := H.inv.tr_some i hi c j' ht
        have hlt := (H.step_longer hi ht).2
        have hjj : j = j' := H.inv.eq_of_eqv hj hj' (by
          have h3 := he'.trans he2
          have h4 : L j = u ++ [c] := by rw [hu]; simp
          rw [h4]; exact h3)
        subst hjj
        exact hcl i c j hi (ih _ (by omega) i rfl hi) ht

theorem Built.mem_trans (B : Built s h last L) {i j : Nat} {c : α} {nd : Node α}
    (hnd : h[i]? = some nd) : (c, j) ∈ nd.transitions ↔ trOf h i c = some j := by
  have hk : (nd.transitions.map Prod.fst).Nodup := by
    have := B.keys i
    simpa [transOf, hnd] using this
  rw [trOf_some hnd]
  constructor
  · exact fun hm => dget_of_mem hk hm
  · exact fun hd => mem_of_dget hd

end

/-! ## The dot file -/

theorem sum_filter_remove {g : Nat → Nat} {a : Nat} {P : List Nat} (ha : a ∉ P) :
    ∀ {l : List Nat}, l.Nodup → a ∈ l →
    ((l.filter (fun x => x ∉ P)).map g).sum =
      g a + ((l.filter (fun x => x ∉ a :: P)).map g).sum
  | [], _, hm => by simp at hm
  | b :: l, hn, hm => by
    rw [List.nodup_cons] at hn
    by_cases hb : b = a
    · subst hb
      have : l.filter (fun x => decide (x ∉ b :: P)) = l.filter (fun x => decide (x ∉ P)) := by
        apply List.filter_congr
        intro x hx
        have : x ≠ b := fun e => hn.1 (e ▸ hx)
        simp [this]
      rw [List.filter_cons, List.filter_cons, this]
      simp [ha]
    · have hm' : a ∈ l := by
        rcases List.mem_cons.1 hm with h | h
        · exact absurd h.symm hb
        · exact h
      have ih := sum_filter_remove (g := g) ha hn.2 hm'
      rw [List.filter_cons, List.filter_cons]
      by_cases hbp : b ∈ P
      · simpa [hbp] using ih
      · simp only [hbp, hb, not_false_eq_true, decide_true, if_true, List.map_cons, List.sum_cons,
          List.mem_cons, or_self, ih]
        omega

/-- Number of transitions of a node. -/
def outDeg (h : Heap α) (i : Nat) : Nat := (transOf h i).length

theorem transitionCount_eq (h : Heap α) :
    transitionCount h = ((List.range h.length).map (outDeg h)).sum := by
  unfold transitionCount
  congr 1
  apply List.ext_getElem?
  intro i
  simp only [List.getElem?_map]
  by_cases hi : i < h.length
  · obtain ⟨nd, hnd⟩ := heap_get hi
    rw [List.getElem?_range hi, hnd]
    simp [outDeg, transOf, hnd]
  · rw [List.getElem?_eq_none (by omega), List.getElem?_eq_none (by simp; omega)]
    rfl

theorem dotLoop_spec {s : List α} {h : Heap α} {last : Nat} {L : Nat → List α}
    (B : Built s h last L) : ∀ (f : Nat) (queue processed : List Nat),
    (∀ u ∈ queue, u < h.length) → processed.Nodup →
    queue.length + (((List.range h.length).filter (fun x => x ∉ processed)).map (outDeg h)).sum ≤ f →
    ∃ order, dotLoop h f queue processed = some (order.flatMap (dotBlock h)) ∧
      (order ++ processed).Nodup ∧ (∀ u ∈ order, u < h.length) ∧
      (∀ u ∈ queue, u ∈ order ++ processed) ∧
      (∀ u ∈ order, ∀ c v, trOf h u c = some v → v ∈ order ++ processed) := by
  intro f
  induction f with
  | zero =>
    intro queue processed hq hn hf
    have : queue = [] := List.eq_nil_of_length_eq_zero (by omega)
    subst this
    exact ⟨[], by simp [dotLoop], by simpa using hn, by simp, by simp, by simp⟩
  | succ f ih =>
    intro queue processed hq hn hf
    cases queue with
    | nil => exact ⟨[], by simp [dotLoop], by simpa using hn, by simp, by simp, by simp⟩
    | cons cur queue =>
      have hc := hq cur (by simp)
      by_cases hm : cur ∈ processed
      · obtain ⟨order, h1, h2, h3, h4, h5⟩ := ih queue processed
          (fun u hu => hq u (by simp [hu])) hn (by simp only [List.length_cons] at hf; omega)
        refine ⟨order, by simp only [dotLoop, hm, if_true]; exact h1, h2, h3, ?_, h5⟩
        intro u hu
        rcases List.mem_cons.1 hu with rfl | hu
        · simp [hm]
        · exact h4 u hu
      · obtain ⟨nd, hnd⟩ := heap_get hc
        have hdeg : outDeg h cur = nd.transitions.length := by simp [outDeg, transOf, hnd]
        have hsum := sum_filter_remove (g := outDeg h) hm List.nodup_range (List.mem_range.2 hc)
        obtain ⟨order, h1, h2, h3, h4, h5⟩ := ih ((nd.transitions.map Prod.snd).reverse ++ queue)
          (cur :: processed)
          (by
            intro u hu
            rcases List.mem_append.1 hu with hu | hu
            · obtain ⟨⟨c, v⟩, hx, rfl⟩ := List.mem_map.1 (List.mem_reverse.1 hu)
              exact (B.hinv.step_longer hc ((B.mem_trans hnd).1 hx)).1
            · exact hq u (by simp [hu]))
          (List.nodup_cons.2 ⟨hm, hn⟩)
          (by
            simp only [List.length_append, List.length_reverse, List.length_map, List.length_cons] at hf ⊢
            omega)
        have hp : List.Perm ((cur :: order) ++ processed) (order ++ cur :: processed) :=
          List.perm_middle.symm
        refine ⟨cur :: order, ?_, hp.nodup_iff.2 h2, ?_, ?_, ?_⟩
        · simp only [dotLoop, hm, if_false, hnd, h1, List.flatMap_cons]
        · intro u hu
          rcases List.mem_cons.1 hu with rfl | hu
          · exact hc
          · exact h3 u hu
        · intro u hu
          rw [hp.mem_iff]
          rcases List.mem_cons.1 hu with rfl | hu
          · simp
          · exact h4 u (by simp [hu])
        · intro u hu c v ht
          rw [hp.mem_iff]
          rcases List.mem_cons.1 hu with rfl | hu
          · refine h4 v (List.mem_append_left _ ?_)
            exact List.mem_reverse.2 (List.mem_map.2 ⟨(c, v), (B.mem_trans hnd).2 ht, rfl⟩)
          · exact h5 u hu c v ht

theorem perm_range {l : List Nat} {n : Nat} (hn : l.Nodup) (h : ∀ i, i ∈ l ↔ i < n) :
    l.Perm (List.range n) :=
  (List.perm_ext_iff_of_nodup hn List.nodup_range).2 fun a => by simp [h]

theorem dotDump_order {s : List α} {h : Heap α} {last : Nat} {L : Nat → List α}
    (B : Built s h last L) : ∃ order : List Nat, order.Perm (List.range h.length) ∧
      dotDump h = some (order.flatMap (dotBlock h)) := by
  obtain ⟨order, h1, h2, h3, h4, h5⟩ := dotLoop_spec B (transitionCount h + 1) [0] []
    (by simp [B.hinv.inv.zero_lt]) List.nodup_nil (by
      rw [transitionCount_eq, List.filter_eq_self.2 (by simp)]
      simp only [List.length_cons, List.length_nil]
      omega)
  simp only [List.append_nil] at h2 h4 h5
  refine ⟨order, perm_range h2 fun i => ⟨h3 i, fun hi => ?_⟩, h1⟩
  exact B.hinv.reach (· ∈ order) (h4 0 (by simp)) (fun i c j _ hi ht => h5 i hi c j ht) i hi

theorem dotBlock_edge {s : List α} {h : Heap α} {last : Nat} {L : Nat → List α}
    (B : Built s h last L) {order : List Nat} (ho : order.Perm (List.range h.length)) (u v : Nat)
    (t : α) : .edge u v t ∈ order.flatMap (dotBlock h) ↔ trOf h u t = some v := by
  simp only [List.mem_flatMap]
  constructor
  · rintro ⟨x, hx, hm⟩
    unfold dotBlock at hm
    split at hm
    · simp at hm
    · rename_i nd hnd
      rcases List.mem_append.1 hm with hm | hm
      · split at hm <;> simp at hm
      · obtain ⟨⟨a, b⟩, hy, he⟩ := List.mem_map.1 hm
        simp only [DotLine.edge.injEq] at he
        obtain ⟨rfl, rfl, rfl⟩ := he
        exact (B.mem_trans hnd).1 hy
  · intro ht
    cases hnd : h[u]? with
    | none => simp [trOf, hnd] at ht
    | some nd =>
      refine ⟨u, ho.mem_iff.2 (List.mem_range.2 (List.getElem?_eq_some_iff.1 hnd).1), ?_⟩
      simp only [dotBlock, hnd]
      exact List.mem_append_right _ (List.mem_map.2 ⟨(t, v), (B.mem_trans hnd).2 ht, rfl⟩)

theorem dotBlock_terminal {h : Heap α} {order : List Nat}
    (ho : order.Perm (List.range h.length)) (u : Nat) :
    .terminal u ∈ order.flatMap (dotBlock h) ↔ termOf h u = true := by
  simp only [List.mem_flatMap]
  constructor
  · rintro ⟨x, hx, hm⟩
    unfold dotBlock at hm
    split at hm
    · simp at hm
    · rename_i nd hnd
      rcases List.mem_append.1 hm with hm | hm
      · split at hm
        · simp at hm; subst hm; simpa [termOf, hnd]
        · simp at hm
      · simp at hm
  · intro ht
    cases hnd : h[u]? with
    | none => simp [termOf, hnd] at ht
    | some nd =>
      refine ⟨u, ho.mem_iff.2 (List.mem_range.2 (List.getElem?_eq_some_iff.1 hnd).1), ?_⟩
      have : nd.isTerminal = true := by simpa [termOf, hnd] using ht
      simp [dotBlock, hnd, this]

/-- Paths of the drawing are walks. -/
theorem drawn_iff {s : List α} {h : Heap α} {last : Nat} {L : Nat → List α}
    (B : Built s h last L) {order : List Nat} (ho : order.Perm (List.range h.length)) (v : Nat) :
    ∀ (w : List α) (u : Nat), u < h.length →
      (Drawn (order.flatMap (dotBlock h)) u w v ↔ matchNode h u w = some v) := by
  intro w
  induction w with
  | nil =>
    intro u hu
    simp only [matchNode, Option.some.injEq]
    constructor
    · intro hd; cases hd; rfl
    · rintro rfl; exact .here _
  | cons t w ih =>
    intro u hu
    obtain ⟨nd, hnd⟩ := heap_get hu
    simp only [matchNode, hnd]
    constructor
    · intro hd
      cases hd with
      | step e r =>
        have ht := (dotBlock_edge B ho _ _ _).1 e
        have := (B.hinv.step_longer hu ht).1
        rw [trOf_some hnd] at ht
        rw [ht]
        exact (ih _ this).1 r
    · intro hm
      cases hd : dget nd.transitions t with
      | none => rw [hd] at hm; cases hm
      | some x =>
        rw [hd] at hm
        have ht : trOf h u t = some x := by rw [trOf_some hnd, hd]
        exact .step ((dotBlock_edge B ho _ _ _).2 ht)
          ((ih _ (B.hinv.step_longer hu ht).1).2 hm)

end Gaspra
