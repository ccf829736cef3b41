import Verif.Spec.Markup
import Verif.Proofs.DiffToLines

set_option linter.unusedSectionVars false
set_option linter.unusedSimpArgs false
set_option linter.unusedVariables false

/-!
# Proofs about the display of diffs
-/

namespace Gaspra

/-! ## Lines -/

theorem linesOf_flatten : ∀ (s : PyStr), (linesOf s).flatten = s
  | [] => rfl
  | c :: s => by
    have ih := linesOf_flatten s
    simp only [linesOf]
    split
    · simp [ih]
    · split
      · next h => rw [h] at ih; simp at ih; simp [← ih]
      · next h => rw [h] at ih; simp at ih; simp [← ih]

theorem linesOf_append : ∀ (a : PyStr) (b : PyStr), Whole a → linesOf (a ++ b) = linesOf a ++ linesOf b
  | [], b, _ => rfl
  | c :: a, b, h => by
    simp only [List.cons_append, linesOf]
    by_cases ha : a = []
    · subst ha
      have hc : c = nl := by
        rcases h with h | ⟨t, ht⟩
        · cases h
        · cases t with
          | nil => simpa using ht
          | cons x t => simp at ht
      simp [hc, linesOf]
    · have hw : Whole a := (whole_append_right (s := [c]) ha).1 h
      have ih := linesOf_append a b hw
      split
      · rw [ih]; rfl
      · have hne : linesOf a ≠ [] := by
          intro hh
          have := linesOf_flatten a
          rw [hh] at this
          exact ha this.symm
        rw [ih]
        obtain ⟨l, ls, hl⟩ := List.exists_cons_of_ne_nil hne
        rw [hl]
        rfl

theorem linesOf_line {s : PyStr} (h : nl ∉ s) : linesOf (s ++ [nl]) = [s ++ [nl]] := by
  induction s with
  | nil => rfl
  | cons c s ih =>
    simp only [List.mem_cons, not_or] at h
    simp only [List.cons_append, linesOf, if_neg (fun e => h.1 (Eq.symm e)), ih h.2]

theorem whole_line (s : PyStr) : Whole (s ++ [nl]) := .inr ⟨s, rfl⟩

theorem start_line {n : PyStr} (h : nl ∉ n) : linesOf (startLine n) = [startLine n] := by
  unfold startLine
  apply linesOf_line
  simp only [List.mem_append, not_or]
  exact ⟨by decide +kernel, h⟩

theorem middle_line : linesOf middleLine = [middleLine] := by decide +kernel

theorem stop_line {n : PyStr} (h : nl ∉ n) : linesOf (stopLine n) = [stopLine n] := by
  unfold stopLine
  apply linesOf_line
  simp only [List.mem_append, not_or]
  exact ⟨by decide +kernel, h⟩

/-! ## Reading markers -/

section
variable (k : Bool) (n1 n2 : PyStr)

theorem resolve_outside : ∀ (ls rest : List PyStr), (∀ l ∈ ls, l ≠ startLine n1) →
    resolve k n1 n2 .outside (ls ++ rest) = ls ++ resolve k n1 n2 .outside rest
  | [], rest, _ => rfl
  | l :: ls, rest, h => by
    simp only [List.cons_append, resolve, if_neg (h l (by simp)),
      resolve_outside ls rest fun x hx => h x (by simp [hx])]

theorem resolve_first : ∀ (ls rest : List PyStr), (∀ l ∈ ls, l ≠ middleLine) →
    resolve k n1 n2 .first (ls ++ middleLine :: rest) =
      (if k then ls else []) ++ resolve k n1 n2 .second rest
  | [], rest, _ => by simp [resolve]
  | l :: ls, rest, h => by
    have ih := resolve_first ls rest fun x hx => h x (by simp [hx])
    simp only [List.cons_append, resolve, if_neg (h l (by simp)), ih]
    cases k <;> simp

theorem resolve_second : ∀ (ls rest : List PyStr), (∀ l ∈ ls, l ≠ stopLine n2) →
    resolve k n1 n2 .second (ls ++ stopLine n2 :: rest) =
      (if k then [] else ls) ++ resolve k n1 n2 .outside rest
  | [], rest, _ => by simp [resolve]
  | l :: ls, rest, h => by
    have ih := resolve_second ls rest fun x hx => h x (by simp [hx])
    simp only [List.cons_append, resolve, if_neg (h l (by simp)), ih]
    cases k <;> simp

end

theorem lineInto_cons (i : LineItem) (d : List LineItem) : lineInto (i :: d) = lineInto [i] ++ lineInto d := by
  rw [← lineInto_append]; rfl

theorem lineFrom_cons (i : LineItem) (d : List LineItem) : lineFrom (i :: d) = lineFrom [i] ++ lineFrom d := by
  rw [← lineFrom_append]; rfl

theorem gitText_cons (n1 n2 : PyStr) (i : LineItem) (d : List LineItem) :
    gitText n1 n2 (i :: d) = gitText n1 n2 [i] ++ gitText n1 n2 d := by
  simp [gitText]

theorem whole_item {i : LineItem} (h : i.WholeLines) : Whole (lineInto [i]) ∧ Whole (lineFrom [i]) := by
  cases i with
  | text s => exact ⟨by simpa [lineInto] using h.2, by simpa [lineFrom] using h.2⟩
  | change a b => exact ⟨by simpa [lineInto] using h.1.1, by simpa [lineFrom] using h.1.2⟩

/-- Reading back a marked line diff gives the lines of its two texts. -/
theorem resolve_gitText (k : Bool) {n1 n2 : PyStr} (h1 : nl ∉ n1) (h2 : nl ∉ n2) :
    ∀ (d : List LineItem), (∀ i ∈ d, i.WholeLines) → NoMarkers n1 n2 (lineInto d) →
      NoMarkers n1 n2 (lineFrom d) →
      resolve k n1 n2 .outside (linesOf (gitText n1 n2 d)) =
        linesOf (if k then lineInto d else lineFrom d)
  | [], _, _, _ => by cases k <;> rfl
  | i :: d, hw, hi, hf => by
    have w := hw i (by simp)
    obtain ⟨wi, wf⟩ := whole_item w
    rw [NoMarkers, lineInto_cons, linesOf_append _ _ wi] at hi
    rw [NoMarkers, lineFrom_cons, linesOf_append _ _ wf] at hf
    have ih := resolve_gitText k h1 h2 d (fun j hj => hw j (by simp [hj]))
      (fun l hl => hi l (List.mem_append_right _ hl)) (fun l hl => hf l (List.mem_append_right _ hl))
    have hi' : ∀ l ∈ linesOf (lineInto [i]), l ≠ startLine n1 ∧ l ≠ middleLine ∧ l ≠ stopLine n2 :=
      fun l hl => hi l (List.mem_append_left _ hl)
    have hf' : ∀ l ∈ linesOf (lineFrom [i]), l ≠ startLine n1 ∧ l ≠ middleLine ∧ l ≠ stopLine n2 :=
      fun l hl => hf l (List.mem_append_left _ hl)
    have goal : linesOf (if k then lineInto (i :: d) else lineFrom (i :: d)) =
        (if k then linesOf (lineInto [i]) else linesOf (lineFrom [i])) ++
          linesOf (if k then lineInto d else lineFrom d) := by
      cases k
      · simp only [Bool.false_eq_true, if_false]
        rw [lineFrom_cons, linesOf_append _ _ wf]
      · simp only [if_true]
        rw [lineInto_cons, linesOf_append _ _ wi]
    rw [goal, gitText_cons]
    cases i with
    | text s =>
      have e0 : gitText n1 n2 [.text s] = s := by simp [gitText]
      have e1 : lineInto [.text s] = s := by simp [lineInto]
      have e2 : lineFrom [.text s] = s := by simp [lineFrom]
      rw [e1] at hi'
      rw [e0, e1, e2, linesOf_append _ _ w.2, resolve_outside _ _ _ _ _ (fun l hl => (hi' l hl).1), ih]
      cases k <;> rfl
    | change a b =>
      have e0 : gitText n1 n2 [.change a b] =
          startLine n1 ++ (intoText a ++ (middleLine ++ (fromText b ++ stopLine n2))) := by
        simp [gitText]
      have e1 : lineInto [.change a b] = intoText a := by simp [lineInto]
      have e2 : lineFrom [.change a b] = fromText b := by simp [lineFrom]
      rw [e1] at hi'
      rw [e2] at hf'
      rw [e0, e1, e2]
      simp only [List.append_assoc]
      rw [linesOf_append (startLine n1) _ (whole_line _), start_line h1, linesOf_append _ _ w.1.1,
        linesOf_append middleLine _ (by decide +kernel), middle_line, linesOf_append _ _ w.1.2,
        linesOf_append (stopLine n2) _ (whole_line _), stop_line h2]
      show resolve k n1 n2 .outside (startLine n1 :: (linesOf (intoText a) ++ (middleLine ::
        (linesOf (fromText b) ++ (stopLine n2 :: linesOf (gitText n1 n2 d)))))) = _
      rw [resolve, if_pos rfl, resolve_first _ _ _ _ _ (fun l hl => (hi' l hl).2.1),
        resolve_second _ _ _ _ _ (fun l hl => (hf' l hl).2.2), ih]
      cases k <;> simp

/-! ## The display -/

theorem lit_append_nl (s : String) : lit (s ++ "\n") = lit s ++ [nl] := by
  simp [lit, nl]

theorem markupInner_plain_into : ∀ (l : List (DiffItem Nat)), (∀ x y, DiffItem.change x y ∈ l → y = []) →
    markupInner plainLevel1 id l = .ok (intoText l)
  | [], _ => rfl
  | x :: l, h => by
    have ih := markupInner_plain_into l fun x y hxy => h x y (by simp [hxy])
    have hx : markupInnerItem plainLevel1 id x = .ok (intoText [x]) := by
      cases x with
      | common s => simp [markupInnerItem, intoText]
      | change a b =>
        have hb := h a b (by simp)
        subst hb
        by_cases ha : a = []
        · subst ha; simp [markupInnerItem, intoText, plainLevel1]
        · simp [markupInnerItem, intoText, plainLevel1, ha, surround, always, lit]
    have e : intoText (x :: l) = intoText [x] ++ intoText l := by rw [← intoText_append']; rfl
    simp only [markupInner, hx, ih, e]

theorem markupInner_plain_from : ∀ (l : List (DiffItem Nat)), (∀ x y, DiffItem.change x y ∈ l → x = []) →
    markupInner plainLevel1 id l = .ok (fromText l)
  | [], _ => rfl
  | x :: l, h => by
    have ih := markupInner_plain_from l fun x y hxy => h x y (by simp [hxy])
    have hx : markupInnerItem plainLevel1 id x = .ok (fromText [x]) := by
      cases x with
      | common s => simp [markupInnerItem, fromText]
      | change a b =>
        have ha := h a b (by simp)
        subst ha
        by_cases hb : b = []
        · subst hb; simp [markupInnerItem, fromText, plainLevel1]
        · simp [markupInnerItem, fromText, plainLevel1, hb, surround, always, lit]
    have e : fromText (x :: l) = fromText [x] ++ fromText l := by rw [← fromText_append']; rfl
    simp only [markupInner, hx, ih, e]

theorem lit_nl : lit "\n" = [nl] := by decide +kernel
theorem lit_middle : lit "=======\n" = middleLine := by decide +kernel
theorem lit_empty : lit "" = [] := rfl

/-- The git display of a line diff of whole lines. -/
theorem markupStream_git (n1 n2 : PyStr) : ∀ (d : List LineItem),
    (∀ i ∈ d, i.WholeLines) ∨ d = [.text []] →
    ∃ out, markupStream gitLevel0 plainLevel1 n1 n2 id (d.map LineItem.toM) = (out, none) ∧
      out.flatten = gitText n1 n2 d := by
  intro d hd
  rcases hd with hd | rfl
  · induction d with
    | nil => exact ⟨[], rfl, rfl⟩
    | cons i d ih =>
      obtain ⟨out, h1, h2⟩ := ih fun j hj => hd j (by simp [hj])
      have w := hd i (by simp)
      cases i with
      | text s =>
        refine ⟨s :: out, ?_, ?_⟩
        · simp only [List.map_cons, LineItem.toM, markupStream, h1, id]
        · rw [gitText_cons, ← h2]; simp [gitText]
      | change a b =>
        obtain ⟨_, ⟨⟨x, hx, _⟩, ⟨y, hy, _⟩⟩, s1, s2⟩ := w
        have ha : a ≠ [] := List.ne_nil_of_mem hx
        have hb : b ≠ [] := List.ne_nil_of_mem hy
        have p1 : printSide (.seq a) gitLevel0.into (some n1) plainLevel1 id =
            ([startLine n1 ++ intoText a], none) := by
          simp only [printSide, MSide.truthy, List.isEmpty_eq_false_iff.2 ha, Bool.not_false, if_true,
            markupChangeItem, markupInner_plain_into a s1, surround, gitLevel0, showName, always,
            startLine, lit_nl, lit_empty, List.append_nil]
        have p2 : printSide (.seq b) gitLevel0.frm (some n2) plainLevel1 id =
            ([fromText b ++ stopLine n2], none) := by
          simp only [printSide, MSide.truthy, List.isEmpty_eq_false_iff.2 hb, Bool.not_false, if_true,
            markupChangeItem, markupInner_plain_from b s2, surround, gitLevel0, showName, always,
            stopLine, lit_nl, lit_empty, List.append_nil, List.nil_append]
        refine ⟨[startLine n1 ++ intoText a] ++ [middleLine] ++ [fromText b ++ stopLine n2] ++ out, ?_, ?_⟩
        · simp only [List.map_cons, LineItem.toM, markupStream, p1, p2, h1]
          have : gitLevel0.separator = middleLine := lit_middle
          rw [this]
        · rw [gitText_cons, ← h2]; simp [gitText]
  · exact ⟨[[]], rfl, rfl⟩

end Gaspra
