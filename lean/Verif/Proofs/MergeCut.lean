import Verif.Proofs.MergeLocal

/-!
# Streams made of edits, cut at a kept token
-/

set_option linter.unusedSectionVars false
set_option linter.unusedSimpArgs false
set_option linter.unusedVariables false

namespace Gaspra

variable {α : Type _} [DecidableEq α]

/-- The fragments of a text starting at position `k` with the given edits. -/
def streamOf : Nat → List α → List (Edit α) → List (Fragment α)
  | _, seg, [] => copyOf seg
  | k, seg, e :: es =>
    copyOf (seg.take (e.start - k)) ++
      .change e.insert ((seg.drop (e.start - k)).take (e.stop - e.start))
        ((seg.drop (e.start - k)).take (e.stop - e.start)).length ::
      streamOf e.stop (seg.drop (e.stop - k)) es

/-- Valid edits of a text at positions `k .. k + n - 1`. -/
structure VE (k n : Nat) (es : List (Edit α)) : Prop where
  apart : es.Pairwise fun e e' => e.stop < e'.start
  range : ∀ e ∈ es, k ≤ e.start ∧ e.start ≤ e.stop ∧ e.stop ≤ k + n
  real : ∀ e ∈ es, e.start < e.stop ∨ e.insert ≠ []

theorem ValidEdits.ve {n : Nat} {es : List (Edit α)} (h : ValidEdits n es) : VE 0 n es :=
  ⟨h.apart, fun e he => ⟨Nat.zero_le _, (h.range e he).1, by have := (h.range e he).2; omega⟩, h.real⟩

theorem VE.valid {n : Nat} {es : List (Edit α)} (h : VE 0 n es) : ValidEdits n es :=
  ⟨h.apart, fun e he => ⟨(h.range e he).2.1, by have := (h.range e he).2.2; omega⟩, h.real⟩

theorem VE.tail {k n : Nat} {e : Edit α} {es : List (Edit α)} (h : VE k n (e :: es)) :
    VE e.stop (k + n - e.stop) es ∧ ∀ e' ∈ es, e.stop < e'.start := by
  have h1 := List.pairwise_cons.1 h.apart
  have hr := h.range e (by simp)
  refine ⟨⟨h1.2, ?_, fun e' he' => h.real e' (by simp [he'])⟩, h1.1⟩
  intro e' he'
  have := h.range e' (by simp [he'])
  have := h1.1 e' he'
  omega

theorem FS_streamOf : ∀ (es : List (Edit α)) (k : Nat) (seg : List α), VE k seg.length es →
    FS true true seg (streamOf k seg es) ∧
      ((∀ e ∈ es, k < e.start) → FS true false seg (streamOf k seg es)) := by
  intro es
  induction es with
  | nil =>
    intro k seg _
    have : ∀ h, FS true h seg (copyOf seg) := by
      intro h
      unfold copyOf
      split
      · rename_i e; subst e; exact .nil
      · rename_i e; simpa using FS.copy (h := h) (p := []) e .nil
    exact ⟨this _, fun _ => this _⟩
  | cons e es ih =>
    intro k seg H
    obtain ⟨T, ap⟩ := H.tail
    have hr := H.range e (by simp)
    have hreal := H.real e (by simp)
    have hlen : (seg.drop (e.stop - k)).length = k + seg.length - e.stop := by simp; omega
    have hd : ((seg.drop (e.start - k)).take (e.stop - e.start)).length = e.stop - e.start := by
      simp; omega
    have T' := (ih e.stop (seg.drop (e.stop - k)) (by rw [hlen]; exact T)).2 ap
    have hne : e.insert ≠ [] ∨ (seg.drop (e.start - k)).take (e.stop - e.start) ≠ [] := by
      rcases hreal with h | h
      · right
        intro c
        rw [c] at hd
        simp at hd
        omega
      · exact .inl h
    have S : ∀ c, FS c true (seg.drop (e.start - k)) (.change e.insert
        ((seg.drop (e.start - k)).take (e.stop - e.start))
        ((seg.drop (e.start - k)).take (e.stop - e.start)).length :: streamOf e.stop (seg.drop (e.stop - k)) es) := by
      intro c
      have := FS.change (c := c) hne T'
      have e1 : (seg.drop (e.start - k)).take (e.stop - e.start) ++ seg.drop (e.stop - k) = seg.drop (e.start - k) := by
        rw [show seg.drop (e.stop - k) = (seg.drop (e.start - k)).drop (e.stop - e.start) by
          rw [List.drop_drop]; congr 1; omega]
        exact List.take_append_drop _ _
      rwa [e1] at this
    have L : k < e.start → ∀ h, FS true h seg (streamOf k seg (e :: es)) := by
      intro hk h
      have hw : seg.take (e.start - k) ≠ [] := by
        intro c
        have := congrArg List.length c
        rw [List.length_take, List.length_nil] at this
        omega
      have := FS.copy (h := h) hw (S false)
      rw [List.take_append_drop] at this
      rw [streamOf, copyOf, if_neg hw]
      exact this
    refine ⟨?_, fun h => L (h e (by simp)) _⟩
    by_cases hk : k < e.start
    · exact L hk _
    · have h0 : e.start - k = 0 := by omega
      have := S true
      rw [streamOf]
      rw [h0] at this ⊢
      simpa [copyOf] using this

theorem streamOf_fedits : ∀ (F : List (Fragment α)) (c h : Bool) (p : List α) (k : Nat), FS c h p F →
    streamOf k p (fedits k F) = F := by
  intro F
  induction F with
  | nil => intro c h p k H; have := H.inv_nil; subst this; simp [fedits, streamOf, copyOf]
  | cons f F ih =>
    intro c h p k H
    cases H with
    | change hne hF =>
      rename_i i d p
      have h1 := ih _ _ _ (k + d.length) hF
      rw [fedits, streamOf]
      have e2 : k + d.length - k = d.length := by omega
      simp [copyOf, e2, h1]
    | copy hw hF =>
      rename_i w p
      have hc : copyOf w = [.copy w w.length] := by rw [copyOf, if_neg hw]
      cases hF with
      | nil => simp [fedits, streamOf, hc]
      | change hne hF' =>
        rename_i i d p F
        have h1 := ih _ _ _ (k + w.length) (FS.change (c := false) hne hF')
        rw [fedits] at h1
        have h2 : streamOf (k + w.length + d.length) p (fedits (k + w.length + d.length) F) = F := by
          rw [streamOf] at h1
          simp [copyOf, List.take_append, List.drop_append] at h1
          have e3 : k + w.length + d.length - (k + w.length) = d.length := by omega
          simpa [e3] using h1
        rw [fedits, fedits]
        rw [streamOf]
        have e1 : k + w.length - k = w.length := by omega
        have e2 : k + w.length + d.length - (k + w.length) = d.length := by omega
        have e3 : k + w.length + d.length - k = w.length + d.length := by omega
        simp only [e1, e2, e3]
        have l1 : (w ++ (d ++ p)).drop (w.length + d.length) = p := by
          rw [← List.append_assoc, ← List.length_append]; exact List.drop_left
        rw [l1, h2]
        simp [hc]

theorem fedits_streamOf : ∀ (es : List (Edit α)) (k : Nat) (seg : List α), VE k seg.length es →
    fedits k (streamOf k seg es) = es := by
  intro es
  induction es with
  | nil =>
    intro k seg _
    simp only [streamOf, copyOf]
    split <;> simp [fedits]
  | cons e es ih =>
    intro k seg H
    obtain ⟨T, ap⟩ := H.tail
    have hr := H.range e (by simp)
    have hlen : (seg.drop (e.stop - k)).length = k + seg.length - e.stop := by simp; omega
    have hd : ((seg.drop (e.start - k)).take (e.stop - e.start)).length = e.stop - e.start := by
      simp; omega
    have T' := ih e.stop (seg.drop (e.stop - k)) (by rw [hlen]; exact T)
    have hcp : ∀ r : List (Fragment α), fedits k (copyOf (seg.take (e.start - k)) ++ r) = fedits e.start r := by
      intro r
      unfold copyOf
      split
      · rename_i c
        have := congrArg List.length c
        rw [List.length_take, List.length_nil] at this
        have : k = e.start := by omega
        simp [this]
      · simp only [List.cons_append, List.nil_append, fedits]
        congr 1
        simp
        omega
    rw [streamOf, hcp, fedits, hd, show e.start + (e.stop - e.start) = e.stop by omega, T']

theorem streamOf_shift (c : Nat) : ∀ (es : List (Edit α)) (k : Nat) (seg : List α),
    (∀ e ∈ es, k + c ≤ e.start ∧ e.start ≤ e.stop) → es.Pairwise (fun e e' => e.stop < e'.start) →
    streamOf k seg (es.map fun e => ⟨e.start - c, e.stop - c, e.insert⟩) = streamOf (k + c) seg es := by
  intro es
  induction es with
  | nil => intros; rfl
  | cons e es ih =>
    intro k seg h ap
    have hr := h e (by simp)
    have a := List.pairwise_cons.1 ap
    simp only [List.map_cons, streamOf]
    rw [ih (e.stop - c) _ (by
      intro e' he'
      have := a.1 e' he'
      have := h e' (by simp [he'])
      omega) a.2]
    rw [show e.start - c - k = e.start - (k + c) by omega, show e.stop - c - (e.start - c) = e.stop - e.start by omega,
      show e.stop - c - k = e.stop - (k + c) by omega, show e.stop - c + c = e.stop by omega]

theorem streamOf_cut (t : α) (g : Nat) : ∀ (es : List (Edit α)) (k : Nat) (seg : List α), VE k seg.length es →
    k ≤ g → seg[g - k]? = some t → (∀ e ∈ es, g < e.start ∨ e.stop ≤ g) →
    CutAt t (streamOf k seg es) (streamOf k (seg.take (g - k)) (es.filter fun e => e.stop ≤ g))
      (streamOf (g + 1) (seg.drop (g + 1 - k)) (es.filter fun e => g < e.start)) := by
  have split3 : ∀ (seg : List α) (n : Nat), seg[n]? = some t → seg = seg.take n ++ t :: seg.drop (n + 1) := by
    intro seg n h
    obtain ⟨hn, h⟩ := List.getElem?_eq_some_iff.1 h
    rw [← h, List.getElem_cons_drop, List.take_append_drop]
  intro es
  induction es with
  | nil =>
    intro k seg _ hk hg _
    have := split3 _ _ hg
    refine ⟨[], seg.take (g - k), seg.drop (g - k + 1), [], ?_, by simp [streamOf], ?_⟩
    · rw [← this]
      simp only [streamOf, List.nil_append, copyOf]
      rw [if_neg]
      intro c
      simp [c] at hg
    · rw [show g - k + 1 = g + 1 - k by omega]
      simp [streamOf]
  | cons e es ih =>
    intro k seg H hk hg hdel
    obtain ⟨T, ap⟩ := H.tail
    have hr := H.range e (by simp)
    obtain ⟨hn, hgt⟩ := List.getElem?_eq_some_iff.1 hg
    have hlen : (seg.drop (e.stop - k)).length = k + seg.length - e.stop := by simp; omega
    rcases hdel e (by simp) with h | h
    · have f1 : (e :: es).filter (fun e => e.stop ≤ g) = [] := by
        rw [List.filter_eq_nil_iff]
        intro e' he'
        rcases List.mem_cons.1 he' with rfl | he'
        · simp; omega
        · have := ap e' he'
          have := T.range e' he'
          simp; omega
      have f2 : (e :: es).filter (fun e => g < e.start) = e :: es := by
        rw [List.filter_eq_self]
        intro e' he'
        rcases List.mem_cons.1 he' with rfl | he'
        · simp; omega
        · have := ap e' he'
          simp; omega
      rw [f1, f2]
      have d1 : seg.take (e.start - k) = seg.take (g - k) ++ t :: (seg.drop (g + 1 - k)).take (e.start - (g + 1)) := by
        have s := split3 (seg.take (e.start - k)) (g - k) (by rw [List.getElem?_take_of_lt (by omega)]; exact hg)
        rw [s, List.take_take, Nat.min_eq_left (by omega), List.drop_take]
        rw [show g - k + 1 = g + 1 - k by omega, show e.start - k - (g + 1 - k) = e.start - (g + 1) by omega]
      refine ⟨[], seg.take (g - k), (seg.drop (g + 1 - k)).take (e.start - (g + 1)),
        .change e.insert (((seg.drop (g + 1 - k)).drop (e.start - (g + 1))).take (e.stop - e.start))
          (((seg.drop (g + 1 - k)).drop (e.start - (g + 1))).take (e.stop - e.start)).length ::
          streamOf e.stop ((seg.drop (g + 1 - k)).drop (e.stop - (g + 1))) es, ?_, by simp [streamOf], ?_⟩
      rotate_left
      · rw [streamOf]
      · rw [streamOf, copyOf, if_neg (by rw [d1]; simp), d1]
        simp only [List.drop_drop, List.nil_append, List.cons_append]
        rw [show g + 1 - k + (e.start - (g + 1)) = e.start - k by omega,
          show g + 1 - k + (e.stop - (g + 1)) = e.stop - k by omega]
    · have f1 : (e :: es).filter (fun e => e.stop ≤ g) = e :: es.filter (fun e => e.stop ≤ g) := by
        simp [h]
      have f2 : (e :: es).filter (fun e => g < e.start) = es.filter (fun e => g < e.start) := by
        rw [List.filter_cons, if_neg]
        simp; omega
      obtain ⟨G', u, v, H', c1, c2, c3⟩ := ih e.stop (seg.drop (e.stop - k)) (by rw [hlen]; exact T) h
        (by rw [List.getElem?_drop, show e.stop - k + (g - e.stop) = g - k by omega]; exact hg)
        (fun e' he' => hdel e' (by simp [he']))
      rw [f1, f2]
      refine ⟨copyOf (seg.take (e.start - k)) ++ .change e.insert ((seg.drop (e.start - k)).take (e.stop - e.start))
        ((seg.drop (e.start - k)).take (e.stop - e.start)).length :: G', u, v, H', ?_, ?_, ?_⟩
      · rw [streamOf, c1]
        simp
      · rw [streamOf]
        have x1 : (seg.take (g - k)).drop (e.stop - k) = (seg.drop (e.stop - k)).take (g - e.stop) := by
          rw [List.drop_take]; congr 1; omega
        have x2 : (seg.take (g - k)).take (e.start - k) = seg.take (e.start - k) := by
          rw [List.take_take, Nat.min_eq_left (by omega)]
        have x3 : ((seg.take (g - k)).drop (e.start - k)).take (e.stop - e.start) =
            (seg.drop (e.start - k)).take (e.stop - e.start) := by
          rw [List.drop_take, List.take_take, Nat.min_eq_left (by omega)]
        rw [x1, x2, x3, c2]
        simp
      · rw [← c3, List.drop_drop]
        congr 2
        omega

/-- The merge of two sets of edits of a text, spelled out. -/
def mergeOf (seg : List α) (es0 es1 : List (Edit α)) : List (α ⊕ (List α × List α)) :=
  match mergeLoop ((streamOf 0 seg es0).length + (streamOf 0 seg es1).length) (streamOf 0 seg es0)
    (streamOf 0 seg es1) false with
  | some L => grouped [] [] (flats L)
  | none => []

theorem mergeOf_eq {fuel : Nat} {seg : List α} {es0 es1 : List (Edit α)} {L : List (MFragment α)}
    (v0 : ValidEdits seg.length es0) (v1 : ValidEdits seg.length es1)
    (h : mergeLoop fuel (streamOf 0 seg es0) (streamOf 0 seg es1) false = some L) :
    mergeOf seg es0 es1 = grouped [] [] (flats L) := by
  obtain ⟨L', h', _⟩ := mergeLoop_general _ 0 seg _ _ false ⟨_, _, (FS_streamOf es0 0 seg v0.ve).1⟩
    ⟨_, _, (FS_streamOf es1 0 seg v1.ve).1⟩ (Nat.le_refl _)
  have := mergeLoop_unique h h'
  subst this
  simp only [mergeOf, h']

theorem mergeOf_run {seg : List α} {es0 es1 : List (Edit α)}
    (v0 : ValidEdits seg.length es0) (v1 : ValidEdits seg.length es1) :
    ∃ fuel L, mergeLoop fuel (streamOf 0 seg es0) (streamOf 0 seg es1) false = some L ∧
      mergeOf seg es0 es1 = grouped [] [] (flats L) := by
  obtain ⟨L', h', _⟩ := mergeLoop_general _ 0 seg _ _ false ⟨_, _, (FS_streamOf es0 0 seg v0.ve).1⟩
    ⟨_, _, (FS_streamOf es1 0 seg v1.ve).1⟩ (Nat.le_refl _)
  exact ⟨_, L', h', mergeOf_eq v0 v1 h'⟩

theorem FS.ve : ∀ {F : List (Fragment α)} {c h : Bool} {p : List α} {k : Nat}, FS c h p F →
    VE k p.length (fedits k F) ∧ (h = false → ∀ e ∈ fedits k F, k < e.start) := by
  intro F
  induction F with
  | nil =>
    intro c h p k H
    have := H.inv_nil; subst this
    exact ⟨⟨by simp [fedits], by simp [fedits], by simp [fedits]⟩, by simp [fedits]⟩
  | cons f F ih =>
    intro c h p k H
    cases H with
    | copy hw hF =>
      rename_i w p
      obtain ⟨a, b⟩ := ih (k := k + w.length) hF
      have := List.length_pos_iff.2 hw
      rw [fedits]
      refine ⟨⟨a.apart, fun e he => ?_, a.real⟩, fun _ e he => ?_⟩
      · have := a.range e he
        simp; omega
      · have := a.range e he
        omega
    | change hne hF =>
      rename_i i d p
      obtain ⟨a, b⟩ := ih (k := k + d.length) hF
      rw [fedits]
      refine ⟨⟨List.pairwise_cons.2 ⟨b rfl, a.apart⟩, ?_, ?_⟩, by simp⟩
      · intro e he
        rcases List.mem_cons.1 he with rfl | he
        · simp
        · have := a.range e he
          simp; omega
      · intro e he
        rcases List.mem_cons.1 he with rfl | he
        · rcases hne with h | h
          · exact .inr h
          · left
            have := List.length_pos_iff.2 h
            simp; omega
        · exact a.real e he

theorem valid_of_diff {parent b : List α} {d : List (DiffItem α)}
    (h : diffTokenSequences parent b = some d) : ValidEdits parent.length (editsOf 0 d) := by
  obtain ⟨cs, hc, hd, ⟨_, _, hF⟩, hs, ha⟩ := merge_setup parent b
  have e0 : cs.asDiffStream parent = d := by rw [h] at hd; simpa using hd.symm
  subst e0
  have := (FS.ve (k := 0) hF).1
  rw [fedits_map] at this
  exact this.valid

theorem ValidEdits.before {n g : Nat} {es : List (Edit α)} (h : ValidEdits n es) (hg : g ≤ n) :
    ValidEdits g (editsBefore g es) := by
  refine ⟨h.apart.sublist List.filter_sublist, ?_, ?_⟩
  · intro e he
    have := List.mem_filter.1 he
    simp at this
    exact ⟨(h.range e this.1).1, this.2⟩
  · intro e he
    exact h.real e (List.mem_filter.1 he).1

theorem ValidEdits.after {n g : Nat} {es : List (Edit α)} (h : ValidEdits n es) :
    ValidEdits (n - (g + 1)) (editsAfter g es) := by
  have key : ∀ e ∈ es.filter (fun e => g < e.start), g < e.start ∧ e ∈ es := by
    intro e he
    have := List.mem_filter.1 he
    simp at this
    exact ⟨this.2, this.1⟩
  refine ⟨?_, ?_, ?_⟩
  · rw [editsAfter, List.pairwise_map]
    refine List.Pairwise.imp_of_mem ?_ (h.apart.sublist List.filter_sublist)
    intro a b ha hb hab
    have ka := key a ha
    have := h.range a ka.2
    have := key b hb
    simp only
    omega
  · intro e he
    obtain ⟨e', he', rfl⟩ := List.mem_map.1 he
    have := key e' he'
    have := h.range e' this.2
    simp only
    omega
  · intro e he
    obtain ⟨e', he', rfl⟩ := List.mem_map.1 he
    have := key e' he'
    have hr := h.range e' this.2
    simp only
    rcases h.real e' this.2 with h | h
    · left; omega
    · exact .inr h

theorem mergeOf_merge {parent b0 b1 : List α} {d0 d1 out : List (DiffItem α)} {kind : Kind}
    (h0 : diffTokenSequences parent b0 = some d0) (h1 : diffTokenSequences parent b1 = some d1)
    (h : mergeTokenSequence kind parent b0 b1 = .ok out) :
    spell out = mergeOf parent (editsOf 0 d0) (editsOf 0 d1) := by
  have h' := merge_kind h
  have v0 := valid_of_diff h0
  have v1 := valid_of_diff h1
  obtain ⟨cs0, hc0, hd0, ⟨_, _, hF0⟩, hs0, ha0⟩ := merge_setup parent b0
  obtain ⟨cs1, hc1, hd1, ⟨_, _, hF1⟩, hs1, ha1⟩ := merge_setup parent b1
  have e0 : cs0.asDiffStream parent = d0 := by rw [h0] at hd0; simpa using hd0.symm
  have e1 : cs1.asDiffStream parent = d1 := by rw [h1] at hd1; simpa using hd1.symm
  subst e0 e1
  obtain ⟨merged, m1, _⟩ := mergeLoop_general _ 0 parent _ _ false ⟨_, _, hF0⟩ ⟨_, _, hF1⟩ (Nat.le_refl _)
  rw [merge_eq hc0 hc1 hs0 hs1 m1] at h'
  rw [consolidate_spells h']
  symm
  refine mergeOf_eq v0 v1 (fuel := ((cs0.asDiffStream parent).map toFrag).length +
      ((cs1.asDiffStream parent).map toFrag).length) ?_
  rw [← fedits_map, ← fedits_map, streamOf_fedits _ _ _ _ _ hF0, streamOf_fedits _ _ _ _ _ hF1]
  exact m1

theorem kept_edit {g : Nat} {es : List (Edit α)} (h : deletes es g = false) :
    ∀ e ∈ es, g < e.start ∨ e.stop ≤ g := by
  intro e he
  simp only [deletes, List.any_eq_false] at h
  have := h e he
  simp at this
  omega

theorem mergeOf_cut {seg : List α} {es0 es1 : List (Edit α)} (v0 : ValidEdits seg.length es0)
    (v1 : ValidEdits seg.length es1) {g : Nat} (hg : g < seg.length) (k0 : deletes es0 g = false)
    (k1 : deletes es1 g = false) :
    mergeOf seg es0 es1 = mergeOf (seg.take g) (editsBefore g es0) (editsBefore g es1) ++ .inl seg[g] ::
      mergeOf (seg.drop (g + 1)) (editsAfter g es0) (editsAfter g es1) := by
  have cut : ∀ es : List (Edit α), ValidEdits seg.length es → deletes es g = false →
      CutAt seg[g] (streamOf 0 seg es) (streamOf 0 (seg.take g) (editsBefore g es))
        (streamOf 0 (seg.drop (g + 1)) (editsAfter g es)) := by
    intro es v k
    have := streamOf_cut seg[g] g es 0 seg v.ve (Nat.zero_le _) (by simp) (kept_edit k)
    rw [editsAfter, streamOf_shift (g + 1) _ 0 _ ?_ (v.apart.sublist List.filter_sublist)]
    · simpa [editsBefore] using this
    · intro e he
      have := List.mem_filter.1 he
      simp at this
      have := v.range e this.1
      omega
  have lt : (seg.take g).length = g := by simp; omega
  have ld : (seg.drop (g + 1)).length = seg.length - (g + 1) := by simp
  have b0 : ValidEdits (seg.take g).length (editsBefore g es0) := by rw [lt]; exact v0.before (by omega)
  have b1 : ValidEdits (seg.take g).length (editsBefore g es1) := by rw [lt]; exact v1.before (by omega)
  have a0 : ValidEdits (seg.drop (g + 1)).length (editsAfter g es0) := by rw [ld]; exact v0.after
  have a1 : ValidEdits (seg.drop (g + 1)).length (editsAfter g es1) := by rw [ld]; exact v1.after
  obtain ⟨fuel, L, m, e⟩ := mergeOf_run v0 v1
  obtain ⟨fl, fr, outL, outR, l1, r1, r2⟩ := mergeLoop_cut (t := seg[g]) fuel (seg.take g) _ _ _ _ _ _ false L
    ⟨_, _, (FS_streamOf _ 0 _ b0.ve).1⟩ ⟨_, _, (FS_streamOf _ 0 _ b1.ve).1⟩ (cut es0 v0 k0) (cut es1 v1 k1) m
  rw [e, r2, grouped_token, mergeOf_eq b0 b1 l1, mergeOf_eq a0 a1 r1]

theorem mergeOf_clean {seg : List α} {es0 es1 : List (Edit α)} (v0 : ValidEdits seg.length es0)
    (v1 : ValidEdits seg.length es1) (hc : ∀ e0 ∈ es0, ∀ e1 ∈ es1, e0.Compatible e1) :
    mergeOf seg es0 es1 = (mergedText seg es0 es1).map .inl := by
  have e0 := fedits_streamOf es0 0 seg v0.ve
  have e1 := fedits_streamOf es1 0 seg v1.ve
  obtain ⟨frs, m1, m2⟩ := clean_spec _ 0 seg _ _ _ _ _ _ (FS_streamOf _ 0 _ v0.ve).1 (FS_streamOf _ 0 _ v1.ve).1
    (by rw [e0, e1]; exact hc) (Nat.le_refl _)
  rw [mergeOf_eq v0 v1 m1]
  rw [e0, e1] at m2
  rw [show mergedText seg es0 es1 = MT 0 seg es0 es1 from rfl, ← m2]
  clear m1 m2
  induction frs with
  | nil => simp [flats, grouped, emit_nil]
  | cons f frs ih =>
    rw [List.map_cons, grouped_input, ih]
    simp [emit_nil]

theorem weave_keep_append (keep : Nat → Bool) : ∀ (a b : List α) (k : Nat),
    weave (fun _ => []) keep k (a ++ b) = weave (fun _ => []) keep k a ++ weave (fun _ => []) keep (k + a.length) b := by
  intro a
  induction a with
  | nil => intros; simp [weave]
  | cons t a ih =>
    intro b k
    simp only [List.cons_append, weave, ih, List.length_cons]
    rw [show k + 1 + a.length = k + (a.length + 1) by omega]
    simp

theorem weave_keep_congr {keep keep' : Nat → Bool} : ∀ (a : List α) (k k' : Nat),
    (∀ i < a.length, keep (k + i) = keep' (k' + i)) →
    weave (fun _ => []) keep k a = weave (fun _ => []) keep' k' a := by
  intro a
  induction a with
  | nil => intros; rfl
  | cons t a ih =>
    intro k k' h
    have h0 := h 0 (by simp)
    simp only [Nat.add_zero] at h0
    simp only [weave, h0]
    rw [ih (k + 1) (k' + 1)]
    intro i hi
    have := h (i + 1) (by simpa using hi)
    rw [show k + 1 + i = k + (i + 1) by omega, show k' + 1 + i = k' + (i + 1) by omega]
    exact this

theorem deletes_before {es : List (Edit α)} {g i : Nat} (k : deletes es g = false) (h : i < g) :
    deletes (editsBefore g es) i = deletes es i := by
  have := kept_edit k
  rw [Bool.eq_iff_iff]
  simp only [deletes, List.any_eq_true, editsBefore, List.mem_filter]
  constructor
  · rintro ⟨e, ⟨he, _⟩, p⟩
    exact ⟨e, he, p⟩
  · rintro ⟨e, he, p⟩
    refine ⟨e, ⟨he, ?_⟩, p⟩
    have := this e he
    simp at p ⊢
    omega

theorem deletes_after {es : List (Edit α)} {g i : Nat} (k : deletes es g = false) :
    deletes (editsAfter g es) i = deletes es (g + 1 + i) := by
  have := kept_edit k
  rw [Bool.eq_iff_iff]
  simp only [deletes, List.any_eq_true, editsAfter, List.mem_map, List.mem_filter]
  constructor
  · rintro ⟨e, ⟨e', ⟨he, q⟩, rfl⟩, p⟩
    refine ⟨e', he, ?_⟩
    simp at p q ⊢
    omega
  · rintro ⟨e, he, p⟩
    have := this e he
    refine ⟨_, ⟨e, ⟨he, ?_⟩, rfl⟩, ?_⟩
    · simp at p ⊢; omega
    · simp at p ⊢; omega

theorem kept_of_valid : ∀ (n : Nat) (text : List α) (es0 es1 : List (Edit α)), text.length ≤ n →
    ValidEdits text.length es0 → ValidEdits text.length es1 →
    (keptByBoth text es0 es1).Sublist (unchanged (mergeOf text es0 es1)) := by
  intro n
  induction n with
  | zero =>
    intro text es0 es1 hn _ _
    have : text = [] := List.eq_nil_of_length_eq_zero (by omega)
    subst this
    exact List.nil_sublist _
  | succ n ih =>
    intro text es0 es1 hn v0 v1
    by_cases hex : ∃ g, g < text.length ∧ deletes es0 g = false ∧ deletes es1 g = false
    · obtain ⟨g, hg, k0, k1⟩ := hex
      have lt : (text.take g).length = g := by simp; omega
      have ld : (text.drop (g + 1)).length = text.length - (g + 1) := by simp
      have L := ih (text.take g) (editsBefore g es0) (editsBefore g es1) (by omega)
        (by rw [lt]; exact v0.before (by omega)) (by rw [lt]; exact v1.before (by omega))
      have R := ih (text.drop (g + 1)) (editsAfter g es0) (editsAfter g es1) (by omega)
        (by rw [ld]; exact v0.after) (by rw [ld]; exact v1.after)
      rw [mergeOf_cut v0 v1 hg k0 k1]
      have e : keptByBoth text es0 es1 = keptByBoth (text.take g) (editsBefore g es0) (editsBefore g es1) ++
          text[g] :: keptByBoth (text.drop (g + 1)) (editsAfter g es0) (editsAfter g es1) := by
        have sp : text = text.take g ++ text[g] :: text.drop (g + 1) := by
          rw [List.getElem_cons_drop, List.take_append_drop]
        unfold keptByBoth
        conv => lhs; rw [sp]
        rw [weave_keep_append, lt, weave, Nat.zero_add]
        simp only [k0, k1, Bool.not_false, Bool.and_self, if_true, List.nil_append, List.singleton_append]
        congr 1
        · apply weave_keep_congr
          intro i hi
          simp only [Nat.zero_add]
          rw [deletes_before k0 (by omega), deletes_before k1 (by omega)]
        · congr 1
          apply weave_keep_congr
          intro i hi
          simp only [Nat.zero_add]
          rw [deletes_after k0, deletes_after k1]
      rw [e]
      simp only [unchanged, List.filterMap_append, List.filterMap_cons, Sum.getLeft?_inl] at L R ⊢
      exact L.append (R.cons_cons _)
    · have : keptByBoth text es0 es1 = [] := by
        have key : ∀ (a : List α) (k : Nat), (∀ i < a.length, ¬ (deletes es0 (k + i) = false ∧ deletes es1 (k + i) = false)) →
            weave (fun _ => []) (fun g => !deletes es0 g && !deletes es1 g) k a = [] := by
          intro a
          induction a with
          | nil => intros; rfl
          | cons t a ih' =>
            intro k h
            have h0 := h 0 (by simp)
            simp only [Nat.add_zero] at h0
            have hk : (!deletes es0 k && !deletes es1 k) = false := by
              cases x0 : deletes es0 k <;> cases x1 : deletes es1 k <;> simp_all
            simp only [weave, hk]
            rw [ih' (k + 1)]
            · simp
            · intro i hi
              have := h (i + 1) (by simpa using hi)
              rwa [show k + 1 + i = k + (i + 1) by omega]
        apply key
        intro i hi c
        simp only [Nat.zero_add] at c
        exact hex ⟨i, hi, c⟩
      rw [this]
      exact List.nil_sublist _

end Gaspra
