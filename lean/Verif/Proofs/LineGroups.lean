import Verif.Spec.LineGroups
import Verif.Props.LineTight

set_option linter.unusedSectionVars false
set_option linter.unusedVariables false
set_option linter.unusedSimpArgs false

/-! # Groups of a consolidated line diff -/

namespace Gaspra

/-! ## Counting changes -/

theorem countP_spell {α : Type _} (d : List (DiffItem α)) :
    (spell d).countP (fun x => x.isRight) = changeCount d := by
  induction d with
  | nil => rfl
  | cons x d ih =>
    cases x with
    | common f =>
      have e : spell (.common f :: d) = f.map Sum.inl ++ spell d := by simp [spell]
      rw [e, List.countP_append, ih, List.countP_map]
      simp [changeCount, DiffItem.isChange, Function.comp_def]
    | change a b =>
      have e : spell (.change a b :: d) = Sum.inr (a, b) :: spell d := by simp [spell]
      rw [e, List.countP_cons, ih]
      simp [changeCount, DiffItem.isChange, List.countP_cons]

theorem changeCount_append {α : Type _} (a b : List (DiffItem α)) :
    changeCount (a ++ b) = changeCount a + changeCount b := by
  simp [changeCount, List.countP_append]

theorem changeCount_pos {α : Type _} {Q : List (DiffItem α)} (h : ∃ x ∈ Q, x.isChange = true) :
    1 ≤ changeCount Q := by
  unfold changeCount
  exact List.countP_pos_iff.2 h

/-- A conflict with its parts. -/
def PartsOK (sp : Nat → Bool) (i : LineItem) : Prop :=
  (∃ t, i = .text t) ∨ ∃ Ps : List (List (DiffItem Nat)), Ps ≠ [] ∧
    i = conflictOf Ps.flatten ∧ ∀ Q ∈ Ps, WithinLines sp Q ∧ ∃ x ∈ Q, x.isChange = true

theorem PartsOK.changes {sp : Nat → Bool} : ∀ {items : List LineItem}, (∀ i ∈ items, PartsOK sp i) →
    conflictCount items ≤ changeCount (allPieces items)
  | [], _ => by simp [conflictCount]
  | i :: items, h => by
    have ih := PartsOK.changes (fun j hj => h j (List.mem_cons_of_mem _ hj))
    have e : allPieces (i :: items) = i.pieces ++ allPieces items := by simp [allPieces]
    rw [e, changeCount_append]
    unfold conflictCount at ih ⊢
    rw [List.countP_cons]
    rcases h i (by simp) with ⟨t, rfl⟩ | ⟨Ps, hne, rfl, hQ⟩
    · simp [LineItem.isChange]; omega
    · have : 1 ≤ changeCount (conflictOf Ps.flatten).pieces := by
        rw [conflictOf_pieces]
        obtain ⟨Q, Qs, rfl⟩ := List.exists_cons_of_ne_nil hne
        refine changeCount_pos ?_
        obtain ⟨x, hx, hx'⟩ := (hQ Q (by simp)).2
        exact ⟨x, by simp [hx], hx'⟩
      have : (conflictOf Ps.flatten).isChange = true := rfl
      rw [this]; simp only [if_true]; omega

/-! ## Consolidation -/

theorem conflict_change {P : List (DiffItem Nat)} (h : (conflictOf P).WholeLines) :
    ∃ x ∈ P, x.isChange = true := by
  obtain ⟨x, hx, hx'⟩ := h.2.1.1
  obtain ⟨y, hy, rfl⟩ := List.mem_map.1 hx
  exact ⟨y, hy, by cases y <;> simpa [onlyInto, DiffItem.isChange] using hx'⟩

theorem yieldChange_parts {sp : Nat → Bool} {Ps : List (List (DiffItem Nat))}
    (h : ∀ Q ∈ Ps, WithinLines sp Q ∧ ∃ x ∈ Q, x.isChange = true) :
    ∀ i ∈ yieldChange (Ps.flatten.map onlyInto) (Ps.flatten.map onlyFrom), PartsOK sp i := by
  intro i hi
  unfold yieldChange at hi
  split at hi
  · simp at hi
  · next hn =>
    rw [List.mem_singleton] at hi
    refine .inr ⟨Ps, ?_, hi, h⟩
    rintro rfl
    exact hn rfl

theorem consolidateLoop_parts {sp : Nat → Bool} : ∀ (items : List LineItem)
    (Ps : List (List (DiffItem Nat))),
    (∀ i ∈ items, (∃ t, i = .text t) ∨ ∃ P, i = conflictOf P ∧ WithinLines sp P ∧
      ∃ x ∈ P, x.isChange = true) →
    (∀ Q ∈ Ps, WithinLines sp Q ∧ ∃ x ∈ Q, x.isChange = true) →
    ∀ i ∈ consolidateLoop (Ps.flatten.map onlyInto) (Ps.flatten.map onlyFrom) items, PartsOK sp i
  | [], Ps, _, hP => yieldChange_parts hP
  | j :: items, Ps, h, hP => by
    rcases h j (by simp) with ⟨t, rfl⟩ | ⟨Q, rfl, hQ⟩
    · intro i hi
      rw [consolidateLoop, List.mem_append, List.mem_append] at hi
      rcases hi with (hi | hi) | hi
      · exact yieldChange_parts hP i hi
      · exact .inl ⟨t, List.mem_singleton.1 hi⟩
      · exact consolidateLoop_parts items [] (fun k hk => h k (by simp [hk])) (by simp) i
          (by simpa using hi)
    · have ih := consolidateLoop_parts items (Ps ++ [Q]) (fun k hk => h k (by simp [hk])) (by
        intro R hR
        rcases List.mem_append.1 hR with hR | hR
        · exact hP R hR
        · rw [List.mem_singleton.1 hR]; exact hQ)
      intro i hi
      refine ih i ?_
      simpa [conflictOf, consolidateLoop] using hi

/-- Consolidation does not reach across a text. -/
theorem consolidateLoop_text (t : PyStr) (B : List LineItem) : ∀ (A : List LineItem)
    (a b : List (DiffItem Nat)),
    consolidateLoop a b (A ++ .text t :: B) = consolidateLoop a b A ++ .text t :: consolidateLines B
  | [], a, b => by simp [consolidateLoop, consolidateLines]
  | .text s :: A, a, b => by
    simp only [List.cons_append, consolidateLoop, consolidateLoop_text t B A, List.append_assoc]
  | .change x y :: A, a, b => by
    simp only [List.cons_append, consolidateLoop, consolidateLoop_text t B A]

/-! ## Unchanged lines -/

/-- The first and last newline of a text. -/
theorem within_line {a l b h m r : PyStr} (e : a ++ [nl] ++ l ++ [nl] ++ b = h ++ [nl] ++ m ++ r)
    (hh : nl ∉ h) (hr : nl ∉ r) :
    ∃ x y, m = x ++ l ++ [nl] ++ y ∧ h ++ [nl] ++ x = a ++ [nl] := by
  -- `h` is the part of `a` before its first newline
  have e1 : ∃ x, a ++ [nl] = h ++ [nl] ++ x := by
    have : h ++ [nl] ++ (m ++ r) = (a ++ [nl]) ++ (l ++ [nl] ++ b) := by
      rw [← List.append_assoc, ← e]; simp
    rcases List.append_eq_append_iff.1 this with ⟨x, hx, _⟩ | ⟨x, hx, _⟩
    · exact ⟨x, hx⟩
    · rcases List.eq_nil_or_concat x with rfl | ⟨x, c, rfl⟩
      · exact ⟨[], by simpa using hx.symm⟩
      · exfalso
        have : h = a ++ [nl] ++ x := by
          have := congrArg List.dropLast hx
          simpa [← List.append_assoc] using this
        exact hh (by rw [this]; simp)
  obtain ⟨x, hx⟩ := e1
  have e2 : x ++ (l ++ [nl] ++ b) = m ++ r := by
    have : (h ++ [nl]) ++ (x ++ (l ++ [nl] ++ b)) = (h ++ [nl]) ++ (m ++ r) := by
      rw [← List.append_assoc, ← hx, ← List.append_assoc (h ++ [nl]), ← e]; simp
    exact List.append_cancel_left this
  have : (x ++ l ++ [nl]) ++ b = m ++ r := by rw [← e2]; simp
  rcases List.append_eq_append_iff.1 this with ⟨y, hy, _⟩ | ⟨y, hy, hb⟩
  · exact ⟨x, y, hy, hx.symm⟩
  · rcases List.eq_nil_or_concat y with rfl | ⟨y, c, rfl⟩
    · exact ⟨x, [], by simpa using hy.symm, hx.symm⟩
    · exfalso
      have hc : c = nl := by
        have := congrArg List.getLast? hy
        simpa [← List.append_assoc] using this.symm
      exact hr (by rw [hb, hc]; simp)

/-- The line is in a text of what is yielded for the piece. -/
theorem Cut.line {conf : Bool} {P : List (DiffItem Nat)} {a l b : PyStr} {st' : LineAcc}
    {P' : List (DiffItem Nat)} {out : List LineItem}
    (C : Cut conf P (a ++ [nl] ++ l ++ [nl] ++ b) st' P' out) (h : conf = true ∨ P = []) :
    ∃ A x y B, out = A ++ .text (x ++ l ++ [nl] ++ y) :: B ∧ Whole x ∧
      spell (allPieces A) ++ x.map Sum.inl = spell P ++ (a ++ [nl]).map Sum.inl := by
  rcases C.cases with ⟨h1, _⟩ | ⟨q, m, r, e, hq, hl, _, _, h1⟩
  · exact absurd (by simp) h1
  · obtain ⟨x, y, hm, hx⟩ := within_line e hq hl.1
    have hy : yieldText m = [.text (x ++ l ++ [nl] ++ y)] := by
      unfold yieldText
      rw [hm, if_neg (by simp)]
    have hw : Whole x := by
      rcases List.eq_nil_or_concat x with rfl | ⟨x, c, rfl⟩
      · exact .inl rfl
      · have := congrArg List.getLast? hx
        right; exact ⟨x, by
          have hc : c = nl := by simpa [← List.append_assoc] using this
          rw [hc]; simp⟩
    rcases h1 with ⟨_, rfl, rfl⟩ | ⟨hc, rfl, rfl⟩
    · refine ⟨[conflictOf (P ++ [.common (q ++ [nl])])], x, y, [], by rw [hy]; rfl, hw, ?_⟩
      rw [allPieces_conflict, ← hx]
      simp only [spell_append, spell_common, List.map_append, List.append_assoc]
      simp [allPieces, spell]
    · have hP : P = [] := by simpa [hc] using h
      subst hP
      refine ⟨[], q ++ [nl] ++ x, y, [], ?_, .inr ⟨a, hx⟩, by rw [hx]; rfl⟩
      unfold yieldText
      rw [hm, if_neg (by simp)]
      simp

theorem Stepped.line {sp : Nat → Bool} {st : LineAcc} {P : List (DiffItem Nat)} {a l b : PyStr}
    {st' : LineAcc} {P' : List (DiffItem Nat)} {out : List LineItem}
    (S : Stepped sp st P (.common (a ++ [nl] ++ l ++ [nl] ++ b)) st' P' out)
    (hb : ¬ Blank sp (a ++ [nl] ++ l ++ [nl] ++ b)) (h : st.inConflict = true ∨ P = []) :
    ∃ A x y B, out = A ++ .text (x ++ l ++ [nl] ++ y) :: B ∧ Whole x ∧
      spell (allPieces A) ++ x.map Sum.inl = spell P ++ (a ++ [nl]).map Sum.inl := by
  rcases S.cases with ⟨hk, rfl, rfl, _⟩ | ⟨f, out', e, _, _, _, rfl, C⟩ | ⟨f, e, _, _, C⟩
  · rcases hk with ⟨_, _, e⟩ | ⟨f, e, _, hf⟩
    · cases e
    · cases e; exact absurd hf hb
  · cases e
    obtain ⟨A, x, y, B, rfl, hw, hs⟩ := C.line (.inr rfl)
    refine ⟨conflictOf P :: A, x, y, B, rfl, hw, ?_⟩
    rw [allPieces_conflict, spell_append, List.append_assoc, hs]
    rfl
  · cases e
    exact C.line h

theorem TextsApart.append_left {α : Type _} : ∀ {a b : List (DiffItem α)}, TextsApart (a ++ b) → TextsApart a
  | [], _, _ => trivial
  | [_], _, _ => trivial
  | _ :: y :: a, b, h => ⟨h.1, TextsApart.append_left (a := y :: a) h.2⟩

/-- A text fragment comes at the start or after a change, so nothing but a conflict is held. -/
theorem lineLoop_conflict (sp : Nat → Bool) {g : PyStr} : ∀ (s : List (DiffItem Nat)) {st : LineAcc}
    {P : List (DiffItem Nat)}, st.Good → Holds st P → (∀ x ∈ s, truthy x = true) →
    TextsApart (s ++ [.common g]) → ((st.inConflict = true ∨ P = []) ∨ s ≠ []) →
    ((st.inConflict = true ∨ P = []) ∨ ∀ x ∈ s.head?, x.isChange = true) →
    (lineLoop sp st s).1.inConflict = true ∨ (lineLoop sp st s).1.into = []
  | [], st, P, G, H, _, _, h, _ => by
    rcases h with h | h
    · rcases h with h | h
      · exact .inl h
      · exact .inr (by rw [show (lineLoop sp st []).1 = st from rfl, H.1, h]; rfl)
    · exact absurd rfl h
  | x :: s, st, P, G, H, ht, ha, _, hp => by
    have hx := ht x (by simp)
    obtain ⟨P', S⟩ := handleFragment_step sp G H hx
    have G' := (handleFragment_ok sp G hx).good
    have e : (lineLoop sp st (x :: s)).1 = (lineLoop sp (handleFragment sp st x).1 s).1 := by
      simp only [lineLoop, hx, if_true]
    rw [e]
    cases x with
    | change a b =>
      have hc : (handleFragment sp st (.change a b)).1.inConflict = true := rfl
      refine lineLoop_conflict sp (g := g) s G' S.holds (fun y hy => ht y (by simp [hy])) ?_ (.inl (.inl hc)) (.inl (.inl hc))
      exact ha.tail
    | common f =>
      cases s with
      | nil => exact absurd ha.1 (by simp [DiffItem.isChange])
      | cons z s =>
        have hz : z.isChange = true := by simpa [DiffItem.isChange] using ha.1
        refine lineLoop_conflict sp (g := g) (z :: s) G' S.holds (fun y hy => ht y (by simp [hy])) ha.tail
          (.inr (by simp)) (.inr ?_)
        intro y hy
        simp only [List.head?_cons, Option.mem_def, Option.some.injEq] at hy
        rw [← hy]; exact hz

theorem toLineDiff_line (sp : Nat → Bool) {s s₁ s₂ : List (DiffItem Nat)} {a l b : PyStr}
    (h : TextsApart (fragments s))
    (hs : s = s₁ ++ .common (a ++ [nl] ++ l ++ [nl] ++ b) :: s₂)
    (hb : ¬ Blank sp (a ++ [nl] ++ l ++ [nl] ++ b)) :
    ∃ A x y B, (toLineDiff sp s).1 = A ++ .text (x ++ l ++ [nl] ++ y) :: B ∧ Whole x ∧
      spell (allPieces A) ++ x.map Sum.inl = spell s₁ ++ (a ++ [nl]).map Sum.inl := by
  generalize hg : a ++ [nl] ++ l ++ [nl] ++ b = g at hs hb
  have hgne : g ≠ [] := by rw [← hg]; simp
  have hf : fragments s = fragments s₁ ++ .common g :: fragments s₂ := by
    rw [hs]
    unfold fragments
    rw [List.filter_append, List.filter_cons_of_pos (by simpa using hgne)]
  have hta : TextsApart (fragments s₁ ++ [.common g]) := by
    rw [hf, show fragments s₁ ++ DiffItem.common g :: fragments s₂ =
      (fragments s₁ ++ [.common g]) ++ fragments s₂ by simp] at h
    exact h.append_left
  obtain ⟨P, H, hsp⟩ := lineLoop_spells sp (fragments s₁) LineAcc.Good.init Holds.nil
    (fragments_truthy s₁) hta.append_left (.inl (.inr rfl))
  have G := (lineLoop_good sp (fragments s₁) LineAcc.Good.init).1
  have hcf := lineLoop_conflict sp (g := g) (fragments s₁) LineAcc.Good.init Holds.nil
    (fragments_truthy s₁) hta (.inl (.inr rfl)) (.inl (.inr rfl))
  have htr : truthy (.common g) = true := by simpa [truthy] using hgne
  obtain ⟨P', S⟩ := handleFragment_step sp G H htr
  rw [← hg] at S
  rw [← hg] at hb
  obtain ⟨A, x, y, B, e, hw, hsp'⟩ := S.line hb (by
    rcases hcf with h | h
    · exact .inl h
    · right
      rw [H.1] at h
      simpa using h)
  rw [hg] at e
  refine ⟨(lineLoop sp {} (fragments s₁)).2 ++ A, x, y, ?_, ?_, hw, ?_⟩
  rotate_left
  · rw [toLineDiff_eq, if_neg (by rw [hf]; simp), lineLoop_fragments, hf, lineLoop_append]
    simp only [lineLoop, htr, if_true, e, List.append_assoc, List.cons_append]
    rfl
  · rw [allPieces_append, spell_append, List.append_assoc, hsp', ← List.append_assoc, ← spell_append,
      hsp, List.nil_append, spell_fragments]

/-- The consolidated line diff groups the pieces of the diff. -/
theorem consolidated_grouped (sp : Nat → Bool) {s : List (DiffItem Nat)} (h : TextsApart (fragments s)) :
    ∃ items, consolidatedLineDiff sp s = .ok items ∧ Grouped sp s items := by
  obtain ⟨d, h1, h2, _⟩ := C46_consolidated sp s
  obtain ⟨d', h1', h3⟩ := C75_consolidated sp s
  rw [h1] at h1'; cases h1'
  obtain ⟨e, he, ho⟩ := C75_order sp h
  have hd : d = consolidateLines (toLineDiff sp s).1 := by
    have hn := (C45_line_diff_texts sp s).1
    unfold consolidatedLineDiff at h1
    generalize toLineDiff sp s = r at h1 hn
    obtain ⟨items, e⟩ := r
    dsimp only at hn; subst hn
    cases h1; rfl
  have hp : ∀ i ∈ d, PartsOK sp i := by
    rw [hd]
    refine consolidateLoop_parts (sp := sp) _ [] ?_ (by simp)
    intro i hi
    rcases C75_conflicts sp s i hi with ⟨t, rfl⟩ | ⟨P, rfl, hw⟩
    · exact .inl ⟨t, rfl⟩
    · refine .inr ⟨P, rfl, hw, ?_⟩
      rcases C46_whole_lines sp s with ⟨_, e⟩ | ⟨_, _, e⟩
      · rw [e] at hi; simp [conflictOf] at hi
      · exact conflict_change (e _ hi)
  refine ⟨d, h1, ⟨e, he, by rw [h3, ho]⟩, hp, h2, ?_, ?_⟩
  · refine Nat.le_trans (PartsOK.changes hp) ?_
    rw [h3, ← countP_spell, ho, List.countP_append, countP_spell, countP_spell]
    simp [changeCount, DiffItem.isChange]
  · intro s₁ a l b s₂ hs hb
    obtain ⟨A, x, y, B, e1, e2, e3⟩ := toLineDiff_line sp h hs hb
    refine ⟨consolidateLines A, x, y, consolidateLines B, ?_, e2, ?_⟩
    · rw [hd, consolidateLines, e1, consolidateLoop_text]
      rfl
    · have := consolidateLoop_pieces A [] (fun i hi => by
        rcases C75_conflicts sp s i (by rw [e1]; simp [hi]) with h | ⟨P, h, _⟩
        · exact .inl h
        · exact .inr ⟨P, h⟩)
      have e4 : allPieces (consolidateLines A) = allPieces A := by simpa [consolidateLines] using this
      rw [e4, e3]

end Gaspra
