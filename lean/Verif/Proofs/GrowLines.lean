import Verif.Proofs.GrowStore
import Verif.Proofs.LineVersions
import Verif.Spec.GrowingText

set_option linter.unusedSectionVars false
set_option linter.unusedSimpArgs false
set_option linter.unusedVariables false

/-! # `LineTokenizer` on texts that only grow -/

namespace Gaspra

/-! ### The patch from a text to a part of it -/

section
variable {α : Type _} [DecidableEq α]

/-- Every item is a slice, and there are at most `n`. -/
def OnlySlices (n : Nat) (items : List (PatchItem α)) : Prop :=
  ∃ sl : List Slice, items = sl.map .slice ∧ sl.length ≤ n

theorem OnlySlices.append {n m : Nat} {a b : List (PatchItem α)} (ha : OnlySlices n a)
    (hb : OnlySlices m b) (s : Slice) : OnlySlices (n + m + 1) (a ++ .slice s :: b) := by
  obtain ⟨l, rfl, h1⟩ := ha
  obtain ⟨r, rfl, h2⟩ := hb
  exact ⟨l ++ s :: r, by simp, by simp; omega⟩

theorem OnlySlices.mono {n m : Nat} {a : List (PatchItem α)} (h : OnlySlices n a) (hn : n ≤ m) :
    OnlySlices m a := by
  obtain ⟨l, e, h1⟩ := h
  exact ⟨l, e, by omega⟩

theorem Valid.slices_nil {i j : Nat} {x : List α} {cs : Changeset α} (V : Valid i x j [] cs) :
    OnlySlices 0 (stripForward cs.asChangeStream) := by
  generalize hy : ([] : List α) = y at V
  cases V with
  | leaf h => subst hy; exact ⟨[], by rw [stripForward_leaf]; simp, by simp⟩
  | node hw hmax hf hfO hp hs =>
    have h := congrArg List.length hy
    have := List.length_pos_iff.2 hw
    simp at h; omega

/-- From a text to one that occurs in it. -/
theorem Valid.slices_infix {i j : Nat} {x y : List α} {cs : Changeset α} (V : Valid i x j y cs)
    (h : y <:+: x) : OnlySlices 1 (stripForward cs.asChangeStream) := by
  cases y with
  | nil => exact V.slices_nil.mono (Nat.zero_le _)
  | cons e y =>
    generalize hy : e :: y = z at V h
    cases V with
    | leaf hl =>
      subst hy
      exact absurd (List.mem_cons_self) (hl e (h.subset List.mem_cons_self))
    | @node _ _ x1 w x2 y1 y2 p s hw hmax hf hfO hp hs =>
      have := hmax _ ⟨by
        obtain ⟨l, r, e'⟩ := h
        exact ⟨l.length, l, r, e'.symm, rfl⟩, ⟨0, [], [], by simp, rfl⟩⟩
      simp only [List.length_append] at this
      have h1 : y1 = [] := List.length_eq_zero_iff.1 (by omega)
      have h2 : y2 = [] := List.length_eq_zero_iff.1 (by omega)
      subst h1; subst h2
      rw [stripForward_node]
      exact hp.slices_nil.append hs.slices_nil _

/-- At most `n` items: slices, and possibly the last element by itself. -/
def SlicesThen (n : Nat) (items : List (PatchItem α)) (e : α) : Prop :=
  OnlySlices n items ∨
    ∃ sl : List Slice, items = sl.map .slice ++ [.piece [e]] ∧ sl.length + 1 ≤ n

theorem Valid.slices_one {i j : Nat} {x : List α} {e : α} {cs : Changeset α}
    (V : Valid i x j [e] cs) : SlicesThen 1 (stripForward cs.asChangeStream) e := by
  by_cases he : e ∈ x
  · exact Or.inl (V.slices_infix (by
      obtain ⟨l, r, rfl⟩ := List.append_of_mem he
      exact ⟨l, r, by simp⟩))
  · generalize hy : [e] = y at V
    cases V with
    | leaf h => subst hy; exact Or.inr ⟨[], by rw [stripForward_leaf]; simp, by simp⟩
    | @node _ _ x1 w x2 y1 y2 p s hw hmax hf hfO hp hs =>
      exfalso
      obtain ⟨c, w', rfl⟩ := List.exists_cons_of_ne_nil hw
      have : c ∈ [e] := by rw [hy]; simp
      simp at this
      subst this
      exact he (by simp)

/-- From `P ++ A ++ M` to `A ++ [e]`, where `e` can only be the last token of the first text. -/
theorem Valid.slices_then {i j : Nat} {P A M : List α} {e : α} {cs : Changeset α} (hM : M ≠ [])
    (he : e ∉ P ++ A ++ M.dropLast) (V : Valid i (P ++ A ++ M) j (A ++ [e]) cs) :
    SlicesThen 2 (stripForward cs.asChangeStream) e := by
  cases hA : A with
  | nil =>
    subst hA
    rcases Valid.slices_one (by simpa using V) with h | ⟨sl, h1, h2⟩
    · exact Or.inl (h.mono (by omega))
    · exact Or.inr ⟨sl, h1, by omega⟩
  | cons c A' =>
    generalize hx : P ++ A ++ M = x at V
    generalize hy : A ++ [e] = y at V
    cases V with
    | leaf hl =>
      exfalso
      refine hl c ?_ ?_
      · rw [← hx, hA]; simp
      · rw [← hy, hA]; simp
    | @node _ _ x1 w x2 y1 y2 p s hw hmax hf hfO hp hs =>
      have hlen := hmax A ⟨⟨P.length, P, M, hx.symm, rfl⟩, ⟨0, [], [e], by simpa using hy.symm, rfl⟩⟩
      have hl := congrArg List.length hy
      simp only [List.length_append, List.length_singleton] at hl
      rw [stripForward_node]
      by_cases h1 : y1 = []
      · subst h1
        have hp' := hp.slices_nil
        by_cases h2 : y2 = []
        · subst h2
          exact Or.inl ((hp'.append hs.slices_nil _).mono (by omega))
        · have hpos := List.length_pos_iff.2 h2
          have hwA : A = w ∧ [e] = y2 := by
            rw [List.nil_append] at hy
            exact List.append_inj hy (by simp at hl; omega)
          rw [← hwA.2] at hs
          obtain ⟨l, hl', hll⟩ := hp'
          rcases hs.slices_one with ⟨r, hr, hrl⟩ | ⟨r, hr, hrl⟩
          · exact Or.inl ⟨l ++ ⟨i + x1.length, some (i + x1.length + w.length)⟩ :: r,
              by rw [hl', hr]; simp, by simp; omega⟩
          · exact Or.inr ⟨l ++ ⟨i + x1.length, some (i + x1.length + w.length)⟩ :: r,
              by rw [hl', hr]; simp, by simp; omega⟩
      · have hpos := List.length_pos_iff.2 h1
        have h2 : y2 = [] := List.length_eq_zero_iff.1 (by omega)
        subst h2
        have hy1 : y1.length = 1 := by simp at hl; omega
        obtain ⟨c', rfl⟩ := List.length_eq_one_iff.1 hy1
        have hc : c' = c := by
          rw [hA] at hy
          simp at hy
          exact hy.1.symm
        subst hc
        -- `w` ends in `e`, so it is at the end of the first text
        have hwe : ∃ w', w = w' ++ [e] := by
          rw [hA] at hy
          simp only [List.cons_append, List.append_nil, List.nil_append, List.cons.injEq] at hy
          exact ⟨A', hy.2.symm⟩
        obtain ⟨w', rfl⟩ := hwe
        have hx2 : x2 = [] := by
          refine Classical.byContradiction fun hx2 => he ?_
          have e1 : (P ++ A ++ M).dropLast = P ++ A ++ M.dropLast :=
            List.dropLast_append_of_ne_nil hM
          rw [← e1, hx, List.dropLast_append_of_ne_nil hx2]
          simp
        subst hx2
        have hc1 : c' ∈ x1 := by
          have hl2 := congrArg List.length hx
          have hMpos := List.length_pos_iff.2 hM
          simp only [List.length_append, List.length_singleton, List.append_nil] at hl2 hl
          have hAl : A.length = A'.length + 1 := by rw [hA]; simp
          have hx' : x1 ++ (w' ++ [e]) = (P ++ [c']) ++ (A' ++ M) := by
            rw [List.append_nil] at hx
            rw [← hx, hA]; simp
          have hpre : P ++ [c'] <+: x1 := by
            apply List.prefix_of_prefix_length_le (l₃ := x1 ++ (w' ++ [e]))
            · rw [hx']; exact List.prefix_append _ _
            · exact List.prefix_append _ _
            · simp; omega
          exact hpre.subset (by simp)
        have hp' := hp.slices_infix (by
          obtain ⟨l, r, rfl⟩ := List.append_of_mem hc1
          exact ⟨l, r, by simp⟩)
        exact Or.inl (hp'.append hs.slices_nil _)

end

/-! ### Lines of a grown text -/

/-- The tokens of `LineTokenizer`. -/
def byteLines (b : Bytes) : List Bytes := addSeps 10 (pySplit 10 b)

/-- A line with its newline. -/
def FullLine (p : Bytes) : Prop := ∃ q, p = q ++ [10] ∧ (10 : UInt8) ∉ q

theorem byteLines_line {q t : Bytes} (hq : (10 : UInt8) ∉ q) :
    byteLines (q ++ 10 :: t) = (q ++ [10]) :: byteLines t := by
  have hs : pySplit 10 (q ++ 10 :: t) = q :: pySplit 10 t := by
    induction q with
    | nil => simp [pySplit]
    | cons c q ih =>
      have hc : c ≠ 10 := by rintro rfl; exact hq (by simp)
      have := ih fun h => hq (by simp [h])
      simp only [List.cons_append, pySplit, if_neg hc, this]
  unfold byteLines
  rw [hs]
  obtain ⟨p, ps, e⟩ := List.exists_cons_of_ne_nil (pySplit_ne (10 : UInt8) t)
  rw [e]; rfl

theorem byteLines_append {init : List Bytes} (h : ∀ p ∈ init, FullLine p) (t : Bytes) :
    byteLines (init.flatten ++ t) = init ++ byteLines t := by
  induction init with
  | nil => rfl
  | cons p init ih =>
    obtain ⟨q, rfl, hq⟩ := h p (by simp)
    have e : ((q ++ [10]) :: init).flatten ++ t = q ++ 10 :: (init.flatten ++ t) := by simp
    rw [e, byteLines_line hq, ih fun p hp => h p (by simp [hp])]
    rfl

theorem byteLines_shape (b : Bytes) : ∃ init last, byteLines b = init ++ [last] ∧ (10 : UInt8) ∉ last ∧
    b = init.flatten ++ last ∧ ∀ p ∈ init, FullLine p := by
  obtain ⟨h1, init, last, h2, h3, h4⟩ := isLinesOf (10 : UInt8) b
  refine ⟨init, last, h2, h3, ?_, h4⟩
  rw [h2] at h1
  simpa using h1.symm

theorem FullLine.ne_last {p last : Bytes} (h : FullLine p) (hl : (10 : UInt8) ∉ last) :
    p ≠ last := by
  rintro rfl
  obtain ⟨q, rfl, _⟩ := h
  exact hl (by simp)

theorem EndsLine.lines {t : Bytes} (h : EndsLine t) : ∃ init : List Bytes, t = init.flatten ∧
    ∀ p ∈ init, FullLine p := by
  obtain ⟨init, last, h1, h2, h3, h4⟩ := byteLines_shape t
  refine ⟨init, ?_, h4⟩
  rcases h with rfl | ⟨s, hs⟩
  · have := congrArg List.length h3
    simp only [List.length_nil, List.length_append] at this
    exact (List.length_eq_zero_iff.1 (by omega)).symm
  · rcases List.eq_nil_or_concat last with rfl | ⟨l, c, rfl⟩
    · simpa using h3
    · rw [List.concat_eq_append] at h3 h2
      rw [hs, ← List.append_assoc] at h3
      have := (List.append_inj' h3 rfl).2
      simp at this
      subst this
      exact absurd (by simp) h2

theorem EndsLine.append {a b : Bytes} (ha : EndsLine a) (hb : EndsLine b) : EndsLine (a ++ b) := by
  rcases hb with rfl | ⟨s, rfl⟩
  · simpa using ha
  · exact Or.inr ⟨a ++ s, by simp⟩

theorem GrowsTo.trans {a b c : Bytes} (h1 : GrowsTo a b) (h2 : GrowsTo b c) : GrowsTo a c := by
  obtain ⟨f, k, hf, rfl⟩ := h1
  obtain ⟨f', k', hf', rfl⟩ := h2
  exact ⟨f' ++ f, k ++ k', hf'.append hf, by simp⟩

theorem GrowsTo.lines {old new : Bytes} (h : GrowsTo old new) :
    ∃ (P A M : List Bytes) (e : Bytes), byteLines new = P ++ A ++ M ∧ byteLines old = A ++ [e] ∧ M ≠ [] ∧
      e ∉ P ++ A ++ M.dropLast ∧ (10 : UInt8) ∉ e ∧ ∀ p ∈ A, FullLine p := by
  obtain ⟨front, back, hf, rfl⟩ := h
  obtain ⟨P, rfl, hP⟩ := hf.lines
  obtain ⟨A, e, h1, h2, h3, h4⟩ := byteLines_shape old
  obtain ⟨N, l, k1, k2, k3, k4⟩ := byteLines_shape (e ++ back)
  refine ⟨P, A, N ++ [l], e, ?_, h1, by simp, ?_, h2, h4⟩
  · rw [h3, List.append_assoc, byteLines_append hP, List.append_assoc, byteLines_append h4, k1,
      List.append_assoc]
  · intro hm
    rw [List.dropLast_concat] at hm
    simp only [List.mem_append] at hm
    rcases hm with (hm | hm) | hm
    · exact (hP e hm).ne_last h2 rfl
    · exact (h4 e hm).ne_last h2 rfl
    · exact (k4 e hm).ne_last h2 rfl

/-! ### Dropping the empty last line -/

/-- The tokens of a text, possibly without the empty last line. -/
def NearLines (ps : List Bytes) (b : Bytes) : Prop := ps = byteLines b ∨ ps ++ [[]] = byteLines b

theorem NearLines.flatten {ps : List Bytes} {b : Bytes} (h : NearLines ps b) : ps.flatten = b := by
  have : (byteLines b).flatten = b := addSeps_flatten 10 b
  rcases h with rfl | h
  · exact this
  · rw [← h] at this; simpa using this

/-- The slices taken one after another. -/
def takeSlices {α : Type _} (sl : List Slice) (l : List α) : List α := sl.flatMap (·.get l)

theorem Slice.get_snoc_nil (s : Slice) (ps : List Bytes) :
    (s.get ps).Sublist (s.get (ps ++ [[]])) ∧
      (s.get (ps ++ [[]])).filter (· ≠ []) = (s.get ps).filter (· ≠ []) := by
  have key : ∀ n, ∃ r : List Bytes, (ps ++ [[]]).drop n = ps.drop n ++ r ∧ r.Sublist [[]] := by
    intro n
    exact ⟨([[]] : List Bytes).drop (n - ps.length), List.drop_append, List.drop_sublist _ _⟩
  have fil : ∀ {r : List Bytes}, r.Sublist [[]] → r.filter (· ≠ []) = [] := by
    intro r hr
    rw [List.filter_eq_nil_iff]
    intro x hx
    have := hr.subset hx
    simp at this
    simp [this]
  unfold Slice.get
  split
  · obtain ⟨r, h1, h2⟩ := key s.start
    rw [h1]
    exact ⟨List.sublist_append_left _ _, by rw [List.filter_append, fil h2, List.append_nil]⟩
  · next n _ =>
    rw [List.take_append, List.drop_append]
    have h2 : ((([[]] : List Bytes).take (n - ps.length)).drop
        (s.start - (ps.take n).length)).Sublist [[]] :=
      (List.drop_sublist _ _).trans (List.take_sublist _ _)
    exact ⟨List.sublist_append_left _ _, by rw [List.filter_append, fil h2, List.append_nil]⟩

theorem takeSlices_snoc_nil (sl : List Slice) (ps : List Bytes) :
    (takeSlices sl ps).Sublist (takeSlices sl (ps ++ [[]])) ∧
      (takeSlices sl (ps ++ [[]])).filter (· ≠ []) = (takeSlices sl ps).filter (· ≠ []) := by
  induction sl with
  | nil => exact ⟨List.Sublist.refl _, rfl⟩
  | cons s sl ih =>
    obtain ⟨h1, h2⟩ := s.get_snoc_nil ps
    simp only [takeSlices, List.flatMap_cons, List.filter_append] at ih ⊢
    exact ⟨h1.append ih.1, by rw [h2, ih.2]⟩

theorem filter_full {A : List Bytes} (h : ∀ p ∈ A, FullLine p) : A.filter (· ≠ []) = A := by
  rw [List.filter_eq_self]
  intro p hp
  obtain ⟨q, rfl, _⟩ := h p hp
  simp

/-- Nothing but an empty last line can get lost. -/
theorem near_of_filter {A R : List Bytes} {e : Bytes} (hA : ∀ p ∈ A, FullLine p)
    (h1 : R.Sublist (A ++ [e])) (h2 : (A ++ [e]).filter (· ≠ []) = R.filter (· ≠ [])) :
    R = A ++ [e] ∨ (e = [] ∧ R = A) := by
  rw [List.filter_append, filter_full hA] at h2
  have hle : (R.filter (· ≠ [])).length ≤ R.length := List.length_filter_le _ _
  by_cases he : e = []
  · subst he
    have h2' : A = R.filter (· ≠ []) := by simpa using h2
    obtain ⟨R1, R2, rfl, h3, h4⟩ := List.sublist_append_iff.1 h1
    have hR2 : R2.filter (· ≠ []) = [] := by
      rw [List.filter_eq_nil_iff]
      intro x hx
      have := h4.subset hx
      simp at this
      simp [this]
    rw [List.filter_append, hR2, List.append_nil] at h2'
    have hl : A.length ≤ R1.length := by
      have := List.length_filter_le (fun x : Bytes => decide (x ≠ [])) R1
      rw [← h2'] at this
      exact this
    have hR1 : R1 = A := h3.eq_of_length_le hl
    subst hR1
    have : R2 = [] ∨ R2 = [[]] := by
      have hle := h4.length_le
      cases R2 with
      | nil => exact Or.inl rfl
      | cons x R2 =>
        have hx : x = [] := by simpa using h4.subset (List.mem_cons_self)
        have : R2 = [] := List.length_eq_zero_iff.1 (by simp at hle; simp [hle])
        subst this; subst hx
        exact Or.inr rfl
    rcases this with rfl | rfl
    · exact Or.inr ⟨rfl, by simp⟩
    · exact Or.inl rfl
  · have h2' : A ++ [e] = R.filter (· ≠ []) := by simpa [he] using h2
    left
    apply h1.eq_of_length_le
    rw [h2']; exact hle

/-! ### The delta -/

theorem line_den_inj {st : DictTok} (I : lineHom.Inv st) {t t' : Nat} {p : Bytes}
    (h : lineHom.den st t = some p) (h' : lineHom.den st t' = some p) : t = t' := by
  obtain ⟨I, hsrc⟩ := I
  have key : ∀ {t : Nat}, lineHom.den st t = some p → dget st.encoding (.bytes p) = some t := by
    intro t h
    change (st.table[t]?).map Text.theBytes = some p at h
    rw [I.num.dget_some]
    change st.table[t]? = _
    cases hq : st.table[t]? with
    | none => rw [hq] at h; simp at h
    | some q =>
      rw [hq] at h
      cases q with
      | bytes b => simp [Text.theBytes] at h; rw [h]
      | str s =>
        have := I.typ (List.mem_of_getElem? hq)
        rcases hsrc with e | e <;> rw [e] at this <;> simp [Text.type] at this
  have := (key h).symm.trans (key h')
  simpa using this

theorem relItems_slices {Tok P : Type _} (den : Tok → Option P) : ∀ sl : List Slice,
    RelItems den (sl.map .slice) (sl.map .slice)
  | [] => trivial
  | _ :: sl => ⟨rfl, relItems_slices den sl⟩

theorem relItems_slices_piece {Tok P : Type _} {den : Tok → Option P} {t : Tok} {p : P}
    (h : den t = some p) : ∀ sl : List Slice,
    RelItems den (sl.map .slice ++ [.piece [t]]) (sl.map .slice ++ [.piece [p]])
  | [] => ⟨by simp [h], trivial⟩
  | _ :: sl => ⟨rfl, relItems_slices_piece h sl⟩

theorem applyPatch_slices {α : Type _} (sl : List Slice) (r : List (PatchItem α)) (l : List α) :
    applyPatch (sl.map .slice ++ r) l = takeSlices sl l ++ applyPatch r l := by
  induction sl with
  | nil => rfl
  | cons s sl ih =>
    have e : applyPatch (.slice s :: (sl.map .slice ++ r)) l =
        s.get l ++ applyPatch (sl.map .slice ++ r) l := by simp [applyPatch, joinChanges]
    rw [List.map_cons, List.cons_append, e, ih]
    simp [takeSlices]

theorem applyPatch_slices' {α : Type _} (sl : List Slice) (l : List α) :
    applyPatch (sl.map .slice) l = takeSlices sl l := by
  have := applyPatch_slices sl [] l
  simpa [applyPatch, joinChanges] using this

theorem takeSlices_map {α β : Type _} (f : α → β) (sl : List Slice) (l : List α) :
    takeSlices sl (l.map f) = (takeSlices sl l).map f := by
  induction sl with
  | nil => rfl
  | cons s sl ih =>
    simp only [takeSlices, List.flatMap_cons, List.map_append] at ih ⊢
    rw [ih, get_map]

theorem encodeItems_slices {Tok S : Type _} (tk : TokOps Tok S) (st : S) : ∀ sl : List Slice,
    encodeItems tk st (sl.map .slice) = .ok (sl.map .slice, st)
  | [] => rfl
  | s :: sl => by
    simp only [List.map_cons, encodeItems, encodeItems_slices tk st sl]
    rfl

theorem encodeItems_slices_piece {Tok S : Type _} {tk : TokOps Tok S} {st st' : S} {b : Bytes}
    {toks : List Tok} (h : tk.encode st b = .ok (toks, st')) : ∀ sl : List Slice,
    encodeItems tk st (sl.map .slice ++ [.piece b]) = .ok (sl.map .slice ++ [.piece toks], st')
  | [] => by simp only [List.map_nil, List.nil_append, encodeItems, h]; rfl
  | s :: sl => by
    simp only [List.map_cons, List.cons_append, encodeItems, encodeItems_slices_piece h sl]
    rfl

/-- What `makeChangeset` gives for a grown text, on pieces. -/
theorem line_changeset {a b : Bytes} (h : GrowsTo b a) :
    ∃ (sl : List Slice) (A : List Bytes) (e : Bytes), byteLines b = A ++ [e] ∧ (10 : UInt8) ∉ e ∧
      (∀ p ∈ A, FullLine p) ∧ (∀ s ∈ sl, ∃ n, s.stop = some n ∧ s.start < n ∧
        n ≤ (byteLines a).length) ∧
      ((makeChangeset lineTokenizer.bytesOps a b = .ok (sl.map .slice) ∧
        takeSlices sl (byteLines a) = A ++ [e] ∧ sl.length ≤ 2) ∨
      (makeChangeset lineTokenizer.bytesOps a b = .ok (sl.map .slice ++ [.piece e]) ∧
        takeSlices sl (byteLines a) = A ∧ sl.length ≤ 1)) := by
  obtain ⟨P, A, M, e, ha, hb, hM, he, hn, hA⟩ := h.lines
  obtain ⟨ea, st1, a1, a2, a3, a4, a5⟩ := lineHom.encode_ok (b := a) lineHom.init_inv
  obtain ⟨eb, st2, b1, b2, b3, b4, b5⟩ := lineHom.encode_ok (b := b) a2
  have a4' := map_den_mono b5 a4
  obtain ⟨cs, h, V⟩ := findChangeset_spec ea eb
  have hsa : lineHom.split a = byteLines a := rfl
  have hsb : lineHom.split b = byteLines b := rfl
  rw [hsa, ha, List.map_append, List.map_append] at a4'
  rw [hsb, hb, List.map_append] at b4
  obtain ⟨eA, eM, ea1, ea2, ea3⟩ := List.map_eq_append_iff.1 a4'
  obtain ⟨eP, eA', ea4, ea5, ea6⟩ := List.map_eq_append_iff.1 ea2
  obtain ⟨eB, eE, eb1, eb2, eb3⟩ := List.map_eq_append_iff.1 b4
  subst ea1; subst ea4; subst eb1
  have hE : ∃ te, eE = [te] ∧ lineHom.den st2 te = some e := by
    cases eE with
    | nil => simp at eb3
    | cons te r =>
      cases r with
      | nil => exact ⟨te, rfl, by simpa using eb3⟩
      | cons _ _ => simp at eb3
  obtain ⟨te, rfl, hte⟩ := hE
  have hAB : eA' = eB := by
    have : ∀ {x y : List Nat} {ps : List Bytes}, x.map (lineHom.den st2) = ps.map some →
        y.map (lineHom.den st2) = ps.map some → x = y := by
      intro x
      induction x with
      | nil => intro y ps h1 h2; cases ps <;> cases y <;> simp at h1 h2 ⊢
      | cons t x ih =>
        intro y ps h1 h2
        cases ps with
        | nil => simp at h1
        | cons p ps =>
          cases y with
          | nil => simp at h2
          | cons t' y =>
            simp only [List.map_cons, List.cons.injEq] at h1 h2
            rw [line_den_inj b2 h1.1 h2.1, ih h1.2 h2.2]
    exact this ea6 eb2
  subst hAB
  have hMt : eM ≠ [] := by
    rintro rfl
    simp at ea3
    exact hM ea3
  have hnot : te ∉ eP ++ eA' ++ eM.dropLast := by
    intro hm
    apply he
    have hmap : (eP ++ eA' ++ eM.dropLast).map (lineHom.den st2) =
        (P ++ A ++ M.dropLast).map some := by
      simp only [List.map_append, ea5, ea6, List.map_dropLast, ea3]
    have := List.mem_map_of_mem (f := lineHom.den st2) hm
    rw [hmap, hte] at this
    obtain ⟨x, hx, hxe⟩ := List.mem_map.1 this
    cases hxe; exact hx
  have hwf := (V.patchForward (OccursAt.whole _) (OccursAt.whole _)).1
  have happ := V.applyPatchForward
  have hlen : (eP ++ eA' ++ eM).length = (byteLines a).length := by
    rw [ha]
    have := congrArg List.length (show (eP ++ eA' ++ eM).map (lineHom.den st2) =
      (P ++ A ++ M).map some by simp only [List.map_append, ea5, ea6, ea3])
    simpa using this
  have hmapa : (eP ++ eA' ++ eM).map (lineHom.den st2) = (byteLines a).map some := by
    rw [ha]; simp only [List.map_append, ea5, ea6, ea3]
  have made : ∀ Q, RelItems (lineHom.den st2) (stripForward cs.asChangeStream) Q →
      makeChangeset lineTokenizer.bytesOps a b = .ok (Q.map (textItem lineHom.text)) := by
    intro Q hQ
    have hd := HomTok.decodeItems_ok lineHom b2 b3 hQ
    simp only [makeChangeset, a1, bind, Except.bind, b1, h]
    exact hd
  rcases V.slices_then hMt hnot with ⟨sl, hsl, hsn⟩ | ⟨sl, hsl, hsn⟩
  · rw [hsl] at hwf happ made
    refine ⟨sl, A, e, hb, hn, hA, ?_, Or.inl ⟨?_, ?_, hsn⟩⟩
    · intro s hs
      obtain ⟨n, k1, k2, k3⟩ := hwf (.slice s) (List.mem_map.2 ⟨s, hs, rfl⟩)
      exact ⟨n, k1, k2, by omega⟩
    · rw [made _ (relItems_slices _ sl)]
      simp [textItem]
    · rw [applyPatch_slices'] at happ
      have := congrArg (List.map (lineHom.den st2)) happ
      rw [← takeSlices_map, hmapa, takeSlices_map, List.map_append, ea6] at this
      apply map_some_inj
      rw [this]; simp [hte]
  · rw [hsl] at hwf happ made
    refine ⟨sl, A, e, hb, hn, hA, ?_, Or.inr ⟨?_, ?_, by omega⟩⟩
    · intro s hs
      obtain ⟨n, k1, k2, k3⟩ := hwf (.slice s)
        (List.mem_append.2 (Or.inl (List.mem_map.2 ⟨s, hs, rfl⟩)))
      exact ⟨n, k1, k2, by omega⟩
    · rw [made _ (relItems_slices_piece hte sl)]
      simp [textItem, lineHom]
    · rw [applyPatch_slices] at happ
      have happ' : takeSlices sl (eP ++ eA' ++ eM) = eA' :=
        (List.append_inj' happ (by simp [applyPatch, joinChanges])).1
      have := congrArg (List.map (lineHom.den st2)) happ'
      rw [← takeSlices_map, hmapa, takeSlices_map, ea6] at this
      exact map_some_inj this

/-- Contents that `LineTokenizer` can store. -/
def LineFit (b : Bytes) : Prop := b.length + 1 < 2 ^ 64

/-- The tokens represent the text, possibly without its empty last line. -/
def LineRep (st : DictTok) (toks : List Nat) (b : Bytes) : Prop :=
  lineHom.Inv st ∧ lineHom.Ready st ∧
    ∃ ps, toks.map (lineHom.den st) = ps.map some ∧ NearLines ps b

/-- Taking slices of the lines of a text. -/
theorem NearLines.take {ps : List Bytes} {a : Bytes} (h : NearLines ps a) (sl : List Slice) :
    (takeSlices sl ps).Sublist (takeSlices sl (byteLines a)) ∧
      (takeSlices sl (byteLines a)).filter (· ≠ []) = (takeSlices sl ps).filter (· ≠ []) := by
  rcases h with rfl | h
  · exact ⟨List.Sublist.refl _, rfl⟩
  · rw [← h]; exact takeSlices_snoc_nil sl ps

theorem near_eq {A R : List Bytes} (hA : ∀ p ∈ A, FullLine p) (h1 : R.Sublist A)
    (h2 : A.filter (· ≠ []) = R.filter (· ≠ [])) : R = A := by
  rw [filter_full hA] at h2
  apply h1.eq_of_length_le
  rw [h2]; exact List.length_filter_le _ _

theorem line_delta {a b : Bytes} (h : GrowsTo b a) (ha : LineFit a) (hb : LineFit b) :
    ∃ items d, makeChangeset lineTokenizer.bytesOps a b = .ok items ∧
      serializeChangeset items = .ok d ∧ DeltaStep lineTokenizer.bytesOps LineRep a b d := by
  obtain ⟨sl, A, e, h1, h2, h3, h4, h5⟩ := line_changeset h
  have hfew : (byteLines a).length ≤ a.length + 1 := lineHom.few a
  unfold LineFit at ha hb
  have hslf : ∀ c ∈ sl.map (PatchItem.slice (α := UInt8)), c.Fits ∧ c.isNonempty = true := by
    intro c hc
    obtain ⟨s, hs, rfl⟩ := List.mem_map.1 hc
    obtain ⟨n, k1, k2, k3⟩ := h4 s hs
    refine ⟨⟨by omega, n, k1, by omega⟩, ?_⟩
    simp only [PatchItem.isNonempty, k1]
    simp; omega
  have hel : e.length ≤ b.length := by
    have : (byteLines b).flatten = b := addSeps_flatten 10 b
    rw [h1] at this
    rw [← this]; simp
  -- serializing and reading back
  have ser : ∀ items : List (PatchItem UInt8), (∀ c ∈ items, c.Fits) →
      ∃ d, serializeChangeset items = .ok d ∧
        deserializeChangeset d = (items.filter (·.isNonempty), none) := by
    intro items hf
    refine ⟨encAll true items, by simpa [serializeChangeset] using serializeLoop_spec items true [] hf, ?_⟩
    exact (deserialize_spec items true _ _ hf (List.prefix_refl _) (Nat.le_refl _)).2.2 rfl
  have hfil : (sl.map (PatchItem.slice (α := UInt8))).filter (·.isNonempty) = sl.map .slice :=
    List.filter_eq_self.2 fun c hc => (hslf c hc).2
  rcases h5 with ⟨m1, m2, _⟩ | ⟨m1, m2, _⟩
  · obtain ⟨d, d1, d2⟩ := ser _ fun c hc => (hslf c hc).1
    refine ⟨_, d, m1, d1, ?_⟩
    rintro st toks ⟨r1, r2, ps, r3, r4⟩
    rw [hfil] at d2
    refine ⟨_, _, st, d2, encodeItems_slices _ st sl, r1, r2, takeSlices sl ps, ?_, ?_⟩
    · rw [applyPatch_slices', ← takeSlices_map, r3, takeSlices_map]
    · obtain ⟨k1, k2⟩ := r4.take sl
      rw [m2] at k1 k2
      rcases near_of_filter h3 k1 k2 with k | ⟨rfl, k⟩
      · exact Or.inl (by rw [k, h1])
      · exact Or.inr (by rw [k, h1])
  · obtain ⟨d, d1, d2⟩ := ser (sl.map .slice ++ [.piece e]) (by
      intro c hc
      rcases List.mem_append.1 hc with hc | hc
      · exact (hslf c hc).1
      · simp at hc; subst hc
        show e.length < 2 ^ 64
        omega)
    refine ⟨_, d, m1, d1, ?_⟩
    rintro st toks ⟨r1, r2, ps, r3, r4⟩
    rw [List.filter_append, hfil] at d2
    have hR : takeSlices sl ps = A := by
      obtain ⟨k1, k2⟩ := r4.take sl
      rw [m2] at k1 k2
      exact near_eq h3 k1 k2
    by_cases hee : e = []
    · subst hee
      have d2' : deserializeChangeset d = (sl.map .slice, none) := by
        rw [d2]; simp [PatchItem.isNonempty]
      refine ⟨_, _, st, d2', encodeItems_slices _ st sl, r1, r2, takeSlices sl ps, ?_, ?_⟩
      · rw [applyPatch_slices', ← takeSlices_map, r3, takeSlices_map]
      · exact Or.inr (by rw [hR, h1])
    · have d2' : deserializeChangeset d = (sl.map .slice ++ [.piece e], none) := by
        rw [d2]; simp [PatchItem.isNonempty, hee]
      obtain ⟨te, st', g1, g2, g3, g4, g5⟩ := lineHom.encode_ok (b := e) r1
      have hse : lineHom.split e = [e] := by
        show byteLines e = [e]
        obtain ⟨init, last, l1, l2, l3, l4⟩ := byteLines_shape e
        cases init with
        | nil => simp at l3; rw [l1, l3]; rfl
        | cons p init =>
          obtain ⟨q, rfl, _⟩ := l4 p (by simp)
          exact absurd (by rw [l3]; simp) h2
      rw [hse] at g4
      refine ⟨_, _, st', d2', encodeItems_slices_piece g1 sl, g2, g3, A ++ [e], ?_, ?_⟩
      · rw [applyPatch_slices, List.map_append, ← takeSlices_map, map_den_mono g5 r3,
          takeSlices_map, hR]
        have : applyPatch [PatchItem.piece te] toks = te := by simp [applyPatch, joinChanges]
        rw [this, g4]; simp
      · exact Or.inl h1.symm

/-- `LineTokenizer` stores texts that only grow. -/
def lineDelta : DeltaTok lineTokenizer.bytesOps GrowsTo LineFit where
  Rep := LineRep
  trans := GrowsTo.trans
  start {b} _ := by
    obtain ⟨toks, st, a1, a2, a3, a4, _⟩ := lineHom.encode_ok (b := b) lineHom.init_inv
    exact ⟨toks, st, a1, a2, a3, _, a4, Or.inl rfl⟩
  fin := by
    rintro st toks b ⟨r1, r2, ps, r3, r4⟩
    rw [lineHom.decode_ok r1 r2 r3]
    have := r4.flatten
    rw [← this]
    simp [lineHom, List.flatMap_def]
  delta := line_delta

end Gaspra
