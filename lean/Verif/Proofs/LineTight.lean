import Verif.Spec.LineTight
import Verif.Proofs.DiffToLines

/-!
# How `to_line_diff` groups the pieces
-/

set_option linter.unusedSectionVars false
set_option linter.unusedSimpArgs false
set_option linter.unusedVariables false

namespace Gaspra

theorem conflictOf_pieces (P : List (DiffItem Nat)) : (conflictOf P).pieces = P := by
  unfold conflictOf LineItem.pieces
  dsimp only
  induction P with
  | nil => rfl
  | cons x P ih =>
    simp only [List.map_cons, List.zipWith_cons_cons, ih]
    cases x <;> rfl

theorem intoText_onlyInto (P : List (DiffItem Nat)) : intoText (P.map onlyInto) = intoText P := by
  induction P with
  | nil => rfl
  | cons x P ih =>
    have h1 : ∀ y (L : List (DiffItem Nat)), intoText (y :: L) = intoText [y] ++ intoText L := by
      intro y L; simp [intoText]
    rw [List.map_cons, h1, ih, h1 x]
    cases x <;> rfl

theorem fromText_onlyFrom (P : List (DiffItem Nat)) : fromText (P.map onlyFrom) = fromText P := by
  induction P with
  | nil => rfl
  | cons x P ih =>
    have h1 : ∀ y (L : List (DiffItem Nat)), fromText (y :: L) = fromText [y] ++ fromText L := by
      intro y L; simp [fromText]
    rw [List.map_cons, h1, ih, h1 x]
    cases x <;> rfl

/-- The pieces held by the accumulator. -/
def Holds (st : LineAcc) (P : List (DiffItem Nat)) : Prop :=
  st.into = P.map onlyInto ∧ st.frm = P.map onlyFrom

theorem Holds.add {st : LineAcc} {P : List (DiffItem Nat)} (h : Holds st P) (f : PyStr) :
    Holds (st.add f) (P ++ [.common f]) := by
  obtain ⟨h1, h2⟩ := h
  exact ⟨by simp [LineAcc.add, h1, onlyInto], by simp [LineAcc.add, h2, onlyFrom]⟩

theorem Holds.item {st : LineAcc} {P : List (DiffItem Nat)} (h : Holds st P) :
    LineItem.change st.into st.frm = conflictOf P := by
  rw [h.1, h.2]; rfl

theorem Holds.nil : Holds {} [] := ⟨rfl, rfl⟩

theorem isSpaceStr_iff (sp : Nat → Bool) (f : PyStr) : isSpaceStr sp f = true ↔ Blank sp f := by
  unfold isSpaceStr Blank
  rw [Bool.and_eq_true, List.all_eq_true]
  simp

/-- The piece of the last line, if any. -/
def lastPiece (l : PyStr) : List (DiffItem Nat) := if l = [] then [] else [.common l]

/-- The ways an unchanged piece is handled once blank pieces are out of the way, from a state with
pieces `P` to one with pieces `P'`. -/
structure Cut (conf : Bool) (P : List (DiffItem Nat)) (f : PyStr) (st' : LineAcc)
    (P' : List (DiffItem Nat)) (out : List LineItem) : Prop where
  holds : Holds st' P'
  cases :
    (nl ∉ f ∧ P' = P ++ [.common f] ∧ out = [] ∧ st'.inConflict = conf ∧ st'.finishable = false) ∨
    (∃ h m l, f = h ++ [nl] ++ m ++ l ∧ nl ∉ h ∧ (nl ∉ l ∧ Whole m) ∧ st'.inConflict = false ∧
      (l ≠ [] → st'.finishable = false) ∧
      ((conf = true ∧ P' = lastPiece l ∧ out = conflictOf (P ++ [.common (h ++ [nl])]) :: yieldText m) ∨
       (conf = false ∧ P' = P ++ lastPiece l ∧ out = yieldText (h ++ [nl] ++ m))))

theorem splitPhase_cut {st : LineAcc} (G : st.Good) {P : List (DiffItem Nat)} (H : Holds st P)
    (h : st.into = [] ∨ st.finishable = false) {f : PyStr} (hf : f ≠ []) :
    ∃ P', Cut st.inConflict P f (splitPhase st f).1 P' (splitPhase st f).2 := by
  unfold splitPhase
  dsimp only
  obtain ⟨hsp, _, _⟩ := pySplit_spec' f
  rcases split_cases f with ⟨h1, h2, h3⟩ | ⟨h1, h2, h3, h4⟩
  · rw [if_neg (by omega), h2]
    refine ⟨P ++ [.common f], H.add f, .inl ⟨h3, rfl, rfl, rfl, ?_⟩⟩
    simp [LineAcc.add, hf, endsNl_of_not_mem h3]
  · rw [if_pos h1]
    have hh : nl ∉ (pySplit nl f).headD [] := by
      generalize hps : pySplit nl f = ps at *
      cases ps with
      | nil => simp
      | cons q qs => exact hsp q (by simp)
    generalize hl : (pySplit nl f).getLastD [] = l at *
    generalize hj : joinWithNewline (pySplit nl f).dropLast = j at *
    generalize (pySplit nl f).headD [] = q at *
    have hm := joinWithNewline_whole (pySplit nl f).dropLast.tail
    generalize joinWithNewline (pySplit nl f).dropLast.tail = m at *
    have key : ∀ (st : LineAcc) (P : List (DiffItem Nat)), Holds st P → st.inConflict = false →
        Holds (if l.isEmpty = true then st else st.add l) (P ++ lastPiece l) ∧
        (if l.isEmpty = true then st else st.add l).inConflict = false ∧
        (l ≠ [] → (if l.isEmpty = true then st else st.add l).finishable = false) := by
      intro st P H hc
      by_cases hle : l = []
      · subst hle; simp [lastPiece, H, hc]
      · rw [if_neg (by simpa using hle), lastPiece, if_neg hle]
        refine ⟨H.add l, hc, fun _ => ?_⟩
        simp [LineAcc.add, hle, endsNl_of_not_mem h2]
    cases hc : st.inConflict with
    | true =>
      have hne : st.into ≠ [] := by
        intro h
        have := (G.empty h).2.2
        rw [hc] at this; cases this
      have hfin : st.finishable = false := h.resolve_left hne
      simp only [if_true]
      rw [finishConflict_open hfin]
      dsimp only
      obtain ⟨k1, k2, k3⟩ := key {} [] Holds.nil rfl
      refine ⟨_, k1, .inr ⟨q, m, l, ?_, hh, ⟨h2, hm⟩, k2, k3, .inl ⟨rfl, rfl, ?_⟩⟩⟩
      · rw [h3, h4]
      · rw [(H.add (q ++ [nl])).item]; rfl
    | false =>
      simp only [Bool.false_eq_true, if_false]
      obtain ⟨k1, k2, k3⟩ := key st P H hc
      refine ⟨_, k1, .inr ⟨q, m, l, ?_, hh, ⟨h2, hm⟩, k2, k3, .inr ⟨rfl, rfl, ?_⟩⟩⟩
      · rw [h3, h4]
      · rw [h4]

/-- One step. -/
structure Stepped (sp : Nat → Bool) (st : LineAcc) (P : List (DiffItem Nat)) (x : DiffItem Nat)
    (st' : LineAcc) (P' : List (DiffItem Nat)) (out : List LineItem) : Prop where
  holds : Holds st' P'
  cases :
    -- the piece is held
    (((∃ a b, x = .change a b) ∨ ∃ f, x = .common f ∧ st.inConflict = true ∧ Blank sp f) ∧
      P' = P ++ [x] ∧ out = [] ∧ st'.inConflict = true) ∨
    -- a conflict is closed before the piece
    (∃ f out', x = .common f ∧ ¬ Blank sp f ∧ st.inConflict = true ∧ st.finishable = true ∧
      out = conflictOf P :: out' ∧ Cut false [] f st' P' out') ∨
    (∃ f, x = .common f ∧ (st.inConflict = true → ¬ Blank sp f) ∧ (P = [] ∨ st.finishable = false) ∧
      Cut st.inConflict P f st' P' out)

theorem handleFragment_step (sp : Nat → Bool) {st : LineAcc} (G : st.Good) {P : List (DiffItem Nat)}
    (H : Holds st P) {x : DiffItem Nat} (hx : truthy x = true) :
    ∃ P', Stepped sp st P x (handleFragment sp st x).1 P' (handleFragment sp st x).2 := by
  cases x with
  | change a b =>
    refine ⟨P ++ [.change a b], ⟨?_, ?_⟩, .inl ⟨.inl ⟨a, b, rfl⟩, rfl, rfl, rfl⟩⟩
    · simp [handleFragment, LineAcc.addConflict, H.1, onlyInto]
    · simp [handleFragment, LineAcc.addConflict, H.2, onlyFrom]
  | common f =>
    have hf : f ≠ [] := by simpa [truthy] using hx
    rw [handleFragment_text]
    split
    · next h =>
      simp only [Bool.and_eq_true] at h
      exact ⟨_, H.add f, .inl ⟨.inr ⟨f, rfl, h.1, (isSpaceStr_iff sp f).1 h.2⟩, rfl, rfl, h.1⟩⟩
    · next hsp =>
      have hbl : st.inConflict = true → ¬ Blank sp f := by
        intro hc hb
        exact hsp (by rw [hc, (isSpaceStr_iff sp f).2 hb]; rfl)
      split
      · next h =>
        simp only [Bool.and_eq_true, LineAcc.isNonempty, Bool.not_eq_true', List.isEmpty_eq_false_iff] at h
        have hc : st.inConflict = true := by
          cases hc : st.inConflict with
          | true => rfl
          | false => have := G.notFin hc h.2.1; rw [h.1] at this; cases this
        rw [finishConflict_done h.1]
        dsimp only
        obtain ⟨P', C⟩ := splitPhase_cut LineAcc.Good.init Holds.nil (.inl rfl) hf
        refine ⟨P', C.holds, .inr (.inl ⟨f, _, rfl, hbl hc, hc, h.1, ?_, C⟩)⟩
        rw [H.item]; rfl
      · next h =>
        have hst : st.into = [] ∨ st.finishable = false := by
          by_cases he : st.into = []
          · exact .inl he
          · right
            simp only [Bool.and_eq_true, LineAcc.isNonempty, Bool.not_eq_true', List.isEmpty_eq_false_iff] at h
            cases hc : st.inConflict with
            | false => exact G.notFin hc he
            | true =>
              obtain ⟨_, x, hx, _⟩ := G.conf hc
              have : st.frm ≠ [] := List.ne_nil_of_mem hx
              cases hfi : st.finishable with
              | false => rfl
              | true => exact absurd ⟨hfi, he, this⟩ h
        obtain ⟨P', C⟩ := splitPhase_cut G H hst hf
        refine ⟨P', C.holds, .inr (.inr ⟨f, rfl, hbl, ?_, C⟩)⟩
        rcases hst with h | h
        · left; simpa [H.1] using h
        · right; exact h

/-- What `flush` yields. -/
theorem flush_cases {st : LineAcc} (G : st.Good) {P : List (DiffItem Nat)} (H : Holds st P) :
    (st.inConflict = true ∧ st.finishable = true ∧ st.flush.1 = [conflictOf P]) ∨
    (st.inConflict = true ∧ st.finishable = false ∧ st.flush.1 = [conflictOf (P ++ [.common [nl]])]) ∨
    (st.inConflict = false ∧ st.into = st.frm ∧ (∀ x ∈ P, ∃ s, x = .common s ∧ s ≠ []) ∧
      ((P = [] ∧ st.flush.1 = []) ∨
        (P ≠ [] ∧ st.finishable = false ∧ st.flush.1 = [.text (fromText P ++ [nl])]))) := by
  unfold LineAcc.flush
  cases hc : st.inConflict with
  | true =>
    simp only [if_true]
    cases hf : st.finishable with
    | true =>
      left
      simp only [if_true]
      rw [finishConflict_done hf, H.item]
      simp
    | false =>
      right; left
      simp only [Bool.false_eq_true, if_false]
      have := finishConflict_open hf []
      rw [List.nil_append] at this
      rw [this, (H.add [nl]).item]
      simp
  | false =>
    right; right
    simp only [Bool.false_eq_true, if_false]
    obtain ⟨t1, t2⟩ := G.text hc
    have hP : ∀ x ∈ P, ∃ s, x = .common s ∧ s ≠ [] := by
      intro x hx
      obtain ⟨s, e, hs⟩ := t2 (onlyFrom x) (by rw [H.2]; exact List.mem_map_of_mem hx)
      cases x with
      | common f => simp only [onlyFrom, DiffItem.common.injEq] at e; exact ⟨f, rfl, by rw [e]; exact hs⟩
      | change a b => simp [onlyFrom] at e
    refine ⟨trivial, t1, hP, ?_⟩
    cases P with
    | nil =>
      left
      have : st.frm = [] := H.2
      rw [this]
      exact ⟨rfl, rfl⟩
    | cons x l =>
      right
      have hfr : st.frm = onlyFrom x :: l.map onlyFrom := H.2
      have hne : st.into ≠ [] := by rw [t1, hfr]; simp
      refine ⟨by simp, G.notFin hc hne, ?_⟩
      obtain ⟨s, hs, hsne⟩ := t2 (onlyFrom x) (by rw [hfr]; simp)
      have htr : truthy (onlyFrom x) = true := by rw [hs]; simpa [truthy] using hsne
      have hj := joinStrs_texts st.frm t2 [nl]
      have ht := fromText_onlyFrom (x :: l)
      rw [← H.2] at ht
      rw [ht] at hj
      rw [hfr] at hj ⊢
      dsimp only
      rw [if_pos htr, hj]

/-! ## The loop -/

theorem lineLoop_inv (sp : Nat → Bool) (Inv : List (DiffItem Nat) → Prop) (Ok : LineItem → Prop)
    (hstep : ∀ {st : LineAcc} {P x st' P' out}, st.Good → Inv P → truthy x = true →
      Stepped sp st P x st' P' out → Inv P' ∧ ∀ i ∈ out, Ok i) :
    ∀ (s : List (DiffItem Nat)) {st : LineAcc} {P}, st.Good → Holds st P → Inv P →
      ∃ P', Holds (lineLoop sp st s).1 P' ∧ Inv P' ∧ ∀ i ∈ (lineLoop sp st s).2, Ok i
  | [], st, P, G, H, I => ⟨P, H, I, by simp [lineLoop]⟩
  | x :: s, st, P, G, H, I => by
    simp only [lineLoop]
    split
    · next h =>
      obtain ⟨P', S⟩ := handleFragment_step sp G H h
      obtain ⟨I', O⟩ := hstep G I h S
      obtain ⟨P'', H'', I'', O''⟩ := lineLoop_inv sp Inv Ok hstep s (handleFragment_ok sp G h).good S.holds I'
      refine ⟨P'', H'', I'', ?_⟩
      intro i hi
      rcases List.mem_append.1 hi with hi | hi
      · exact O i hi
      · exact O'' i hi
    · exact lineLoop_inv sp Inv Ok hstep s G H I

theorem snoc_split {P : List (DiffItem Nat)} {x : DiffItem Nat} {A B : List (DiffItem Nat)} {f : PyStr}
    (h : P ++ [x] = A ++ .common f :: B) :
    (B = [] ∧ A = P ∧ x = .common f) ∨ ∃ B', B = B' ++ [x] ∧ P = A ++ .common f :: B' := by
  rcases List.eq_nil_or_concat B with rfl | ⟨B', y, rfl⟩
  · left
    have := List.append_inj' h (by simp)
    exact ⟨rfl, this.1.symm, by simpa using this.2⟩
  · right
    rw [List.concat_eq_append] at h ⊢
    rw [← List.cons_append, ← List.append_assoc] at h
    have := List.append_inj' h rfl
    have hxy : x = y := by simpa using this.2
    subst hxy
    exact ⟨B', rfl, this.1⟩

/-- Unchanged pieces that are held are blank or have no newline. -/
def HeldOK (sp : Nat → Bool) (P : List (DiffItem Nat)) : Prop :=
  ∀ f, DiffItem.common f ∈ P → Blank sp f ∨ nl ∉ f

theorem HeldOK.within {sp : Nat → Bool} {P : List (DiffItem Nat)} (h : HeldOK sp P) : WithinLines sp P := by
  intro A f B e
  rcases h f (by rw [e]; simp) with h | h
  · exact .inl h
  · exact .inr ⟨fun hm => h (List.dropLast_subset _ hm), fun _ => h⟩

theorem HeldOK.withLast {sp : Nat → Bool} {P : List (DiffItem Nat)} (h : HeldOK sp P) {q : PyStr}
    (hq : nl ∉ q) : WithinLines sp (P ++ [.common (q ++ [nl])]) := by
  intro A f B e
  rcases snoc_split e with ⟨rfl, rfl, e'⟩ | ⟨B', rfl, e'⟩
  · right
    cases e'
    simpa using hq
  · rcases h f (by rw [e']; simp) with h | h
    · exact .inl h
    · exact .inr ⟨fun hm => h (List.dropLast_subset _ hm), fun _ => h⟩

theorem HeldOK.nil (sp : Nat → Bool) : HeldOK sp [] := by intro f h; simp at h

theorem HeldOK.snoc {sp : Nat → Bool} {P : List (DiffItem Nat)} (h : HeldOK sp P) {x : DiffItem Nat}
    (hx : ∀ f, x = .common f → Blank sp f ∨ nl ∉ f) : HeldOK sp (P ++ [x]) := by
  intro f hf
  rcases List.mem_append.1 hf with hf | hf
  · exact h f hf
  · exact hx f (List.mem_singleton.1 hf).symm

theorem HeldOK.last {sp : Nat → Bool} {P : List (DiffItem Nat)} (h : HeldOK sp P) {l : PyStr}
    (hl : nl ∉ l) : HeldOK sp (P ++ lastPiece l) := by
  unfold lastPiece
  split
  · simpa using h
  · exact h.snoc (by intro f e; cases e; exact .inr hl)

/-- A text, or a conflict of pieces as they should be. -/
def ItemOK (Q : List (DiffItem Nat) → Prop) (i : LineItem) : Prop :=
  (∃ s, i = .text s) ∨ ∃ P, i = conflictOf P ∧ Q P

theorem yieldText_ok (Q : List (DiffItem Nat) → Prop) (s : PyStr) : ∀ i ∈ yieldText s, ItemOK Q i := by
  intro i hi
  unfold yieldText at hi
  split at hi
  · simp at hi
  · simp at hi; exact .inl ⟨s, hi⟩

theorem Cut.within {sp : Nat → Bool} {conf : Bool} {P : List (DiffItem Nat)} {f : PyStr} {st' : LineAcc}
    {P' : List (DiffItem Nat)} {out : List LineItem} (C : Cut conf P f st' P' out) (h : HeldOK sp P) :
    HeldOK sp P' ∧ ∀ i ∈ out, ItemOK (WithinLines sp) i := by
  rcases C.cases with ⟨h1, rfl, rfl, _⟩ | ⟨q, m, l, e, hq, hl, _, _, h1⟩
  · exact ⟨h.snoc (by intro g e; cases e; exact .inr h1), by simp⟩
  · rcases h1 with ⟨_, rfl, rfl⟩ | ⟨_, rfl, rfl⟩
    · refine ⟨by simpa using (HeldOK.nil sp).last hl.1, ?_⟩
      intro i hi
      rcases List.mem_cons.1 hi with rfl | hi
      · exact .inr ⟨_, rfl, h.withLast hq⟩
      · exact yieldText_ok _ _ i hi
    · exact ⟨h.last hl.1, yieldText_ok _ _⟩

theorem lineLoop_within (sp : Nat → Bool) (s : List (DiffItem Nat)) {st : LineAcc} {P : List (DiffItem Nat)}
    (G : st.Good) (H : Holds st P) (h : HeldOK sp P) :
    ∃ P', Holds (lineLoop sp st s).1 P' ∧ HeldOK sp P' ∧
      ∀ i ∈ (lineLoop sp st s).2, ItemOK (WithinLines sp) i := by
  apply lineLoop_inv sp (HeldOK sp) (ItemOK (WithinLines sp)) ?_ s G H h
  intro st P x st' P' out G h hx S
  rcases S.cases with ⟨hk, rfl, rfl, _⟩ | ⟨f, out', rfl, _, _, _, rfl, C⟩ | ⟨f, rfl, _, _, C⟩
  · refine ⟨h.snoc ?_, by simp⟩
    intro f e
    subst e
    rcases hk with ⟨a, b, e⟩ | ⟨g, e, _, hb⟩
    · cases e
    · cases e; exact .inl hb
  · obtain ⟨h1, h2⟩ := C.within (HeldOK.nil sp)
    refine ⟨h1, ?_⟩
    intro i hi
    rcases List.mem_cons.1 hi with rfl | hi
    · exact .inr ⟨_, rfl, h.within⟩
    · exact h2 i hi
  · exact C.within h

/-! ## Pieces that stay together -/

/-- What is held in a conflict comes out in one item. -/
theorem held_comes_out (sp : Nat → Bool) : ∀ (s : List (DiffItem Nat)) {st : LineAcc}
    {P : List (DiffItem Nat)}, st.Good → Holds st P → st.inConflict = true →
    ∃ Q, P <+: Q ∧ conflictOf Q ∈ (lineLoop sp st s).2 ++ (lineLoop sp st s).1.flush.1
  | [], st, P, G, H, hc => by
    simp only [lineLoop, List.nil_append]
    rcases flush_cases G H with ⟨_, _, h⟩ | ⟨_, _, h⟩ | ⟨h, _⟩
    · exact ⟨P, List.prefix_refl _, by rw [h]; simp⟩
    · exact ⟨_, List.prefix_append P [.common [nl]], by rw [h]; simp⟩
    · rw [hc] at h; cases h
  | x :: s, st, P, G, H, hc => by
    simp only [lineLoop]
    split
    · next h =>
      obtain ⟨P', S⟩ := handleFragment_step sp G H h
      have G' := (handleFragment_ok sp G h).good
      have later : st.inConflict = (handleFragment sp st x).1.inConflict → P <+: P' →
          ∃ Q, P <+: Q ∧ conflictOf Q ∈
            (handleFragment sp st x).2 ++ (lineLoop sp (handleFragment sp st x).1 s).2 ++
              (lineLoop sp (handleFragment sp st x).1 s).1.flush.1 := by
        intro he hp
        obtain ⟨Q, q1, q2⟩ := held_comes_out sp s G' S.holds (by rw [← he, hc])
        exact ⟨Q, hp.trans q1, by rw [List.append_assoc]; exact List.mem_append_right _ q2⟩
      have now : ∀ Q, P <+: Q → conflictOf Q ∈ (handleFragment sp st x).2 →
          ∃ Q, P <+: Q ∧ conflictOf Q ∈
            (handleFragment sp st x).2 ++ (lineLoop sp (handleFragment sp st x).1 s).2 ++
              (lineLoop sp (handleFragment sp st x).1 s).1.flush.1 := by
        intro Q hp hq
        exact ⟨Q, hp, by rw [List.append_assoc]; exact List.mem_append_left _ hq⟩
      rcases S.cases with ⟨hk, hP, ho, hc'⟩ | ⟨f, out', _, _, _, _, ho, C⟩ | ⟨f, _, _, _, C⟩
      · exact later (by rw [hc, hc']) (by rw [hP]; exact List.prefix_append _ _)
      · exact now P (List.prefix_refl _) (by rw [ho]; simp)
      · rcases C.cases with ⟨_, hP, _, hc', _⟩ | ⟨q, m, l, _, _, _, _, _, h1⟩
        · exact later hc'.symm (by rw [hP]; exact List.prefix_append _ _)
        · rcases h1 with ⟨_, _, ho⟩ | ⟨hf, _, _⟩
          · exact now _ (List.prefix_append P [.common (q ++ [nl])]) (by rw [ho]; simp)
          · rw [hc] at hf; cases hf
    · exact held_comes_out sp s G H hc

/-- Blank pieces and changes are held. -/
theorem hold_blank (sp : Nat → Bool) (R : List (DiffItem Nat)) : ∀ (L : List (DiffItem Nat)) {st : LineAcc}
    {P : List (DiffItem Nat)}, st.Good → Holds st P → st.inConflict = true →
    (∀ f, DiffItem.common f ∈ L → Blank sp f) →
    ∃ st', st'.Good ∧ Holds st' (P ++ L) ∧ st'.inConflict = true ∧
      lineLoop sp st (L ++ R) = lineLoop sp st' R
  | [], st, P, G, H, hc, _ => ⟨st, G, by simpa using H, hc, rfl⟩
  | x :: L, st, P, G, H, hc, hL => by
    have hx : truthy x = true := by
      cases x with
      | change a b => rfl
      | common f => have := (hL f (by simp)).1; simpa [truthy] using this
    obtain ⟨P', S⟩ := handleFragment_step sp G H hx
    have G' := (handleFragment_ok sp G hx).good
    have nb : ∀ f, x = .common f → Blank sp f := fun f e => hL f (by rw [← e]; simp)
    have hS : P' = P ++ [x] ∧ (handleFragment sp st x).2 = [] ∧
        (handleFragment sp st x).1.inConflict = true := by
      rcases S.cases with ⟨hk, hP, ho, hc'⟩ | ⟨f, out', e, hb, _⟩ | ⟨f, e, hb, _⟩
      · exact ⟨hP, ho, hc'⟩
      · exact absurd (nb f e) hb
      · exact absurd (nb f e) (hb hc)
    obtain ⟨st', g1, g2, g3, g4⟩ := hold_blank sp R L G' S.holds hS.2.2
      (fun f hf => hL f (by simp [hf]))
    refine ⟨st', g1, by rw [hS.1] at g2; simpa using g2, g3, ?_⟩
    simp only [List.cons_append, lineLoop, hx, if_true]
    rw [g4, hS.2.1]
    rfl

theorem lineLoop_append (sp : Nat → Bool) : ∀ (a b : List (DiffItem Nat)) (st : LineAcc),
    lineLoop sp st (a ++ b) =
      ((lineLoop sp (lineLoop sp st a).1 b).1, (lineLoop sp st a).2 ++ (lineLoop sp (lineLoop sp st a).1 b).2)
  | [], b, st => by simp [lineLoop]
  | x :: a, b, st => by
    simp only [List.cons_append, lineLoop]
    split
    · rw [lineLoop_append sp a b]
      simp
    · exact lineLoop_append sp a b st

theorem holds_exists (sp : Nat → Bool) (s : List (DiffItem Nat)) :
    ∃ P, Holds (lineLoop sp {} s).1 P := by
  obtain ⟨P, h, _⟩ := lineLoop_inv sp (fun _ => True) (fun _ => True) (by intros; simp) s
    LineAcc.Good.init Holds.nil trivial
  exact ⟨P, h⟩

theorem together (sp : Nat → Bool) {s L : List (DiffItem Nat)} (hL : BlankBetween sp L) (h : L <:+: s) :
    ∃ Q, L <:+: Q ∧ conflictOf Q ∈ (lineLoop sp {} s).2 ++ (lineLoop sp {} s).1.flush.1 := by
  obtain ⟨A, R, rfl⟩ := h
  cases L with
  | nil => exact hL.elim
  | cons x L =>
    cases x with
    | common f => exact hL.elim
    | change a b =>
      obtain ⟨P, H⟩ := holds_exists sp A
      have G := (lineLoop_good sp A LineAcc.Good.init).1
      obtain ⟨P', S⟩ := handleFragment_step sp G H (x := .change a b) rfl
      have hP : P' = P ++ [.change a b] := by
        rcases S.cases with ⟨_, hP, _⟩ | ⟨f, out', e, _⟩ | ⟨f, e, _⟩
        · exact hP
        · cases e
        · cases e
      have G' := (handleFragment_ok sp G (x := .change a b) rfl).good
      obtain ⟨st', g1, g2, g3, g4⟩ := hold_blank sp R L G' S.holds rfl hL
      obtain ⟨Q, q1, q2⟩ := held_comes_out sp R g1 g2 g3
      refine ⟨Q, ?_, ?_⟩
      · obtain ⟨T, rfl⟩ := q1
        exact ⟨P, T, by rw [hP]; simp⟩
      · rw [List.append_assoc, lineLoop_append]
        have e : lineLoop sp (lineLoop sp {} A).1 (.change a b :: L ++ R) =
            lineLoop sp (handleFragment sp (lineLoop sp {} A).1 (.change a b)).1 (L ++ R) := by
          simp only [List.cons_append, lineLoop]
          rw [if_pos (show truthy (.change a b) = true from rfl)]
          rfl
        rw [e, g4]
        dsimp only
        rw [List.append_assoc]
        exact List.mem_append_right _ q2

/-! ## The pieces in order -/

theorem spell_append (a b : List (DiffItem Nat)) : spell (a ++ b) = spell a ++ spell b := by
  simp [spell]

theorem spell_common (f : PyStr) : spell [.common f] = f.map Sum.inl := by simp [spell]

theorem allPieces_append (a b : List LineItem) : allPieces (a ++ b) = allPieces a ++ allPieces b := by
  simp [allPieces]

theorem spell_yield (s : PyStr) : spell (allPieces (yieldText s)) = s.map Sum.inl := by
  unfold yieldText
  split
  · next h => simp [allPieces, List.isEmpty_iff.1 h, spell]
  · simp [allPieces, LineItem.pieces, spell]

theorem spell_last (l : PyStr) : spell (lastPiece l) = l.map Sum.inl := by
  unfold lastPiece
  split
  · next h => subst h; rfl
  · exact spell_common l

theorem allPieces_conflict (P : List (DiffItem Nat)) (out : List LineItem) :
    allPieces (conflictOf P :: out) = P ++ allPieces out := by
  simp [allPieces, conflictOf_pieces]

theorem Cut.spells {conf : Bool} {P : List (DiffItem Nat)} {f : PyStr} {st' : LineAcc}
    {P' : List (DiffItem Nat)} {out : List LineItem} (C : Cut conf P f st' P' out)
    (h : conf = true ∨ P = []) : spell (allPieces out ++ P') = spell (P ++ [.common f]) := by
  rcases C.cases with ⟨h1, rfl, rfl, _⟩ | ⟨q, m, l, e, hq, hl, _, _, h1⟩
  · simp [allPieces]
  · rcases h1 with ⟨_, rfl, rfl⟩ | ⟨hc, rfl, rfl⟩
    · rw [allPieces_conflict, e]
      simp only [spell_append, spell_last, spell_common, spell_yield]
      simp
    · have hP : P = [] := by simpa [hc] using h
      subst hP
      rw [e]
      simp only [spell_append, spell_last, spell_common, spell_yield, List.nil_append]
      simp

theorem Stepped.spells {sp : Nat → Bool} {st : LineAcc} {P : List (DiffItem Nat)} {x : DiffItem Nat}
    {st' : LineAcc} {P' : List (DiffItem Nat)} {out : List LineItem} (S : Stepped sp st P x st' P' out)
    (h : x.isChange = true ∨ st.inConflict = true ∨ P = []) :
    spell (allPieces out ++ P') = spell (P ++ [x]) := by
  rcases S.cases with ⟨hk, rfl, rfl, _⟩ | ⟨f, out', rfl, _, _, _, rfl, C⟩ | ⟨f, rfl, _, _, C⟩
  · simp [allPieces]
  · rw [allPieces_conflict, List.append_assoc, spell_append, C.spells (.inr rfl), ← spell_append]
    rfl
  · exact C.spells (by simpa [DiffItem.isChange] using h)

theorem lineLoop_spells (sp : Nat → Bool) : ∀ (s : List (DiffItem Nat)) {st : LineAcc}
    {P : List (DiffItem Nat)}, st.Good → Holds st P → (∀ x ∈ s, truthy x = true) → TextsApart s →
    ((st.inConflict = true ∨ P = []) ∨ ∀ x ∈ s.head?, x.isChange = true) →
    ∃ P', Holds (lineLoop sp st s).1 P' ∧
      spell (allPieces (lineLoop sp st s).2 ++ P') = spell (P ++ s)
  | [], st, P, G, H, _, _, _ => ⟨P, H, by simp [lineLoop, allPieces]⟩
  | x :: s, st, P, G, H, ht, ha, hp => by
    have hx := ht x (by simp)
    obtain ⟨P', S⟩ := handleFragment_step sp G H hx
    have G' := (handleFragment_ok sp G hx).good
    have hstep := S.spells (by
      rcases hp with h | h
      · exact .inr h
      · exact .inl (h x (by simp)))
    obtain ⟨P'', H'', e⟩ := lineLoop_spells sp s G' S.holds (fun y hy => ht y (by simp [hy])) ha.tail (by
      cases x with
      | change a b => left; left; rfl
      | common f =>
        right
        intro y hy
        cases s with
        | nil => simp at hy
        | cons z s =>
          simp only [List.head?_cons, Option.mem_def, Option.some.injEq] at hy
          subst hy
          simpa [DiffItem.isChange] using ha.1)
    refine ⟨P'', ?_, ?_⟩
    · simp only [lineLoop, hx, if_true]; exact H''
    · simp only [lineLoop, hx, if_true]
      rw [allPieces_append, List.append_assoc, spell_append, e, ← spell_append, ← List.append_assoc,
        spell_append, hstep, ← spell_append]
      simp

/-! ## Where conflicts stop -/

theorem StopsEarly.snoc {sp : Nat → Bool} {P : List (DiffItem Nat)} (h : StopsEarly sp P)
    {x : DiffItem Nat} (hx : ∀ f, x = .common f → P ≠ [] → Blank sp f ∨
      ¬ (Whole (intoText P) ∧ Whole (fromText P))) : StopsEarly sp (P ++ [x]) := by
  intro A f B e hA
  rcases snoc_split e with ⟨rfl, rfl, e'⟩ | ⟨B', rfl, e'⟩
  · exact hx f e' hA
  · exact h A f B' e' hA

theorem StopsEarly.last (sp : Nat → Bool) (l : PyStr) : StopsEarly sp (lastPiece l) := by
  unfold lastPiece
  split
  · intro A f B e; simp at e
  · intro A f B e hA
    cases A with
    | nil => exact absurd rfl hA
    | cons y A => simp at e

theorem StopsEarly.nil (sp : Nat → Bool) : StopsEarly sp [] := by intro A f B e; simp at e

/-- After an unchanged piece both sides end like the piece. -/
theorem Cut.ends {conf : Bool} {P : List (DiffItem Nat)} {f : PyStr} {st' : LineAcc}
    {P' : List (DiffItem Nat)} {out : List LineItem} (C : Cut conf P f st' P' out) (hf : f ≠ [])
    (h : conf = true ∨ P = []) :
    (Whole (intoText P') ↔ Whole f) ∧ (Whole (fromText P') ↔ Whole f) := by
  rcases C.cases with ⟨h1, rfl, rfl, _⟩ | ⟨q, m, l, e, hq, hl, _, _, h1⟩
  · rw [intoText_append', fromText_append', intoText_common, fromText_common, whole_append_right hf,
      whole_append_right hf]
    exact ⟨Iff.rfl, Iff.rfl⟩
  · have key : (Whole (intoText (lastPiece l)) ↔ Whole f) ∧ (Whole (fromText (lastPiece l)) ↔ Whole f) := by
      unfold lastPiece
      split
      · next hle =>
        subst hle
        have hw : Whole f := by
          rw [e, List.append_nil]
          exact Whole.append (.inr ⟨q, rfl⟩) hl.2
        exact ⟨⟨fun _ => hw, fun _ => .inl rfl⟩, ⟨fun _ => hw, fun _ => .inl rfl⟩⟩
      · next hle =>
        rw [intoText_common, fromText_common, e, whole_append_right hle]
        exact ⟨Iff.rfl, Iff.rfl⟩
    rcases h1 with ⟨_, rfl, rfl⟩ | ⟨hc, rfl, rfl⟩
    · exact key
    · have hP : P = [] := by simpa [hc] using h
      subst hP
      exact key

theorem Stepped.ends {sp : Nat → Bool} {st : LineAcc} {P : List (DiffItem Nat)} {f : PyStr}
    {st' : LineAcc} {P' : List (DiffItem Nat)} {out : List LineItem}
    (S : Stepped sp st P (.common f) st' P' out) (hf : f ≠ []) (h : st.inConflict = true ∨ P = []) :
    (Whole (intoText P') ↔ Whole f) ∧ (Whole (fromText P') ↔ Whole f) := by
  rcases S.cases with ⟨hk, rfl, rfl, _⟩ | ⟨g, out', e, _, _, _, rfl, C⟩ | ⟨g, e, _, _, C⟩
  · rw [intoText_append', fromText_append', intoText_common, fromText_common, whole_append_right hf,
      whole_append_right hf]
    exact ⟨Iff.rfl, Iff.rfl⟩
  · cases e; exact C.ends hf (.inr rfl)
  · cases e; exact C.ends hf h

theorem Cut.stops {sp : Nat → Bool} {conf : Bool} {P : List (DiffItem Nat)} {f : PyStr} {st' : LineAcc}
    {P' : List (DiffItem Nat)} {out : List LineItem} (C : Cut conf P f st' P' out) (h : StopsEarly sp P)
    (hP : conf = true ∨ P = []) (hw : P ≠ [] → ¬ (Whole (intoText P) ∧ Whole (fromText P))) :
    StopsEarly sp P' ∧ ∀ i ∈ out, ItemOK (StopsEarly sp) i := by
  rcases C.cases with ⟨h1, rfl, rfl, _⟩ | ⟨q, m, l, e, hq, hl, _, _, h1⟩
  · exact ⟨h.snoc (fun g _ hne => .inr (hw hne)), by simp⟩
  · rcases h1 with ⟨_, rfl, rfl⟩ | ⟨hc, rfl, rfl⟩
    · refine ⟨.last sp l, ?_⟩
      intro i hi
      rcases List.mem_cons.1 hi with rfl | hi
      · exact .inr ⟨_, rfl, h.snoc (fun g _ hne => .inr (hw hne))⟩
      · exact yieldText_ok _ _ i hi
    · have hP : P = [] := by simpa [hc] using hP
      subst hP
      exact ⟨by simpa using StopsEarly.last sp l, yieldText_ok _ _⟩

theorem lineLoop_stops (sp : Nat → Bool) : ∀ (s : List (DiffItem Nat)) {st : LineAcc}
    {P : List (DiffItem Nat)}, st.Good → Holds st P → (∀ x ∈ s, truthy x = true) → Alternating s →
    ((st.inConflict = true ∨ P = []) ∨ ∀ x ∈ s.head?, x.isChange = true) →
    (st.finishable = true ↔ Whole (intoText P) ∧ Whole (fromText P)) →
    ((Whole (intoText P) ↔ Whole (fromText P)) ∨ ∀ x ∈ s.head?, x.isChange = false) →
    StopsEarly sp P →
    ∃ P', Holds (lineLoop sp st s).1 P' ∧ StopsEarly sp P' ∧
      ((lineLoop sp st s).1.finishable = true ↔ Whole (intoText P') ∧ Whole (fromText P')) ∧
      ∀ i ∈ (lineLoop sp st s).2, ItemOK (StopsEarly sp) i
  | [], st, P, G, H, _, _, _, hI, _, h => ⟨P, H, h, by simpa [lineLoop] using hI, by simp [lineLoop]⟩
  | x :: s, st, P, G, H, ht, ha, hp, hI, hIF, h => by
    have hx := ht x (by simp)
    have K := handleFragment_ok sp G hx
    obtain ⟨P', S⟩ := handleFragment_step sp G H hx
    have hat : Alternating s := by
      cases s with
      | nil => trivial
      | cons y s => exact ha.2
    have hhead : ∀ y ∈ s.head?, x.isChange ≠ y.isChange := by
      intro y hy
      cases s with
      | nil => simp at hy
      | cons z s =>
        simp only [List.head?_cons, Option.mem_def, Option.some.injEq] at hy
        subst hy
        exact ha.1
    have hnot : P ≠ [] → st.finishable = false → ¬ (Whole (intoText P) ∧ Whole (fromText P)) := by
      intro _ hf hw
      rw [hI.2 hw] at hf; cases hf
    have goal : StopsEarly sp P' ∧ (∀ i ∈ (handleFragment sp st x).2, ItemOK (StopsEarly sp) i) ∧
        ((handleFragment sp st x).1.finishable = true ↔ Whole (intoText P') ∧ Whole (fromText P')) ∧
        ((handleFragment sp st x).1.inConflict = true ∨ x.isChange = false) ∧
        (x.isChange = true ∨ (Whole (intoText P') ↔ Whole (fromText P'))) := by
      cases x with
      | common f =>
        have hf : f ≠ [] := by simpa [truthy] using hx
        have hst : st.inConflict = true ∨ P = [] := hp.resolve_right (by
          intro h; have := h (.common f) (by simp); simp [DiffItem.isChange] at this)
        obtain ⟨e1, e2⟩ := S.ends hf hst
        have hst' : st.inConflict = true ∨ st.into = [] := by
          rcases hst with h | h
          · exact .inl h
          · right; rw [H.1, h]; rfl
        have efin : (handleFragment sp st (.common f)).1.finishable = true ↔ Whole f := by
          constructor
          · intro h; have := K.fin h rfl; rwa [intoText_common] at this
          · intro h; exact K.fin' rfl (by rwa [intoText_common]) hst'
        have main : StopsEarly sp P' ∧
            ∀ i ∈ (handleFragment sp st (.common f)).2, ItemOK (StopsEarly sp) i := by
          rcases S.cases with ⟨hk, hP, ho, _⟩ | ⟨g, out', e, _, _, _, ho, C⟩ | ⟨g, e, _, hfin, C⟩
          · rw [hP, ho]
            refine ⟨h.snoc ?_, by simp⟩
            intro g e _
            rcases hk with ⟨a, b, e'⟩ | ⟨k, e', _, hb⟩
            · cases e'
            · cases e'; cases e; exact .inl hb
          · obtain ⟨c1, c2⟩ := C.stops (sp := sp) (.nil sp) (.inr rfl) (by simp)
            refine ⟨c1, ?_⟩
            rw [ho]
            intro i hi
            rcases List.mem_cons.1 hi with rfl | hi
            · exact .inr ⟨_, rfl, h⟩
            · exact c2 i hi
          · refine C.stops h hst ?_
            intro hne
            exact hnot hne (hfin.resolve_left hne)
        exact ⟨main.1, main.2, by rw [efin, e1, e2, and_self], .inr rfl, .inr (by rw [e1, e2])⟩
      | change a b =>
        have hP : P' = P ++ [.change a b] := by
          rcases S.cases with ⟨_, hP, _⟩ | ⟨f, out', e, _⟩ | ⟨f, e, _⟩
          · exact hP
          · cases e
          · cases e
        have hIF' : Whole (intoText P) ↔ Whole (fromText P) :=
          hIF.resolve_right (by intro h; have := h (.change a b) (by simp); simp [DiffItem.isChange] at this)
        refine ⟨?_, by simp [handleFragment], ?_, .inl rfl, .inl rfl⟩
        · rw [hP]; exact h.snoc (fun f e => by cases e)
        · have e1 : intoText [DiffItem.change a b] = a := by simp [intoText]
          have e2 : fromText [DiffItem.change a b] = b := by simp [fromText]
          rw [hP, intoText_append', fromText_append', e1, e2]
          show ((if a.isEmpty = true then st.finishable else endsNl a) &&
            (if b.isEmpty = true then st.finishable else endsNl b)) = true ↔ _
          rw [Bool.and_eq_true]
          have side : ∀ (a I : PyStr), (st.finishable = true ↔ Whole I) →
              ((if a.isEmpty = true then st.finishable else endsNl a) = true ↔ Whole (I ++ a)) := by
            intro a I hI
            by_cases h : a = []
            · subst h; simpa using hI
            · rw [if_neg (by simpa using h), whole_append_right h, whole_iff_endsNl h]
          rw [side a (intoText P) (by rw [hI, ← hIF', and_self]),
            side b (fromText P) (by rw [hI, hIF', and_self])]
    obtain ⟨g1, g2, g3, g4, g5⟩ := goal
    obtain ⟨P'', k1, k2, k3, k4⟩ := lineLoop_stops sp s K.good S.holds (fun y hy => ht y (by simp [hy])) hat
      (by
        rcases g4 with g | g
        · exact .inl (.inl g)
        · right
          intro y hy
          have := hhead y hy
          rw [g] at this
          simpa using this.symm)
      g3
      (by
        rcases g5 with g | g
        · right
          intro y hy
          have := hhead y hy
          rw [g] at this
          simpa using this.symm
        · exact .inl g)
      g1
    refine ⟨P'', ?_, k2, ?_, ?_⟩
    · simp only [lineLoop, hx, if_true]; exact k1
    · simp only [lineLoop, hx, if_true]; exact k3
    · simp only [lineLoop, hx, if_true]
      intro i hi
      rcases List.mem_append.1 hi with hi | hi
      · exact g2 i hi
      · exact k4 i hi

end Gaspra
