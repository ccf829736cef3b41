import Verif.Spec.Rich
import Verif.Proofs.PieceMerge
import Verif.Props.Display

set_option linter.unusedSectionVars false
set_option linter.unusedSimpArgs false
set_option linter.unusedVariables false

/-! # Proofs about the output on the console -/

namespace Gaspra

theorem render_escaped (st : List PyStr) (r : PyStr) : ∀ (s : PyStr), 92 ∉ s →
    render st none (richEscape s ++ r) = styled st s ++ render st none r
  | [], _ => rfl
  | c :: s, h => by
    have hs : 92 ∉ s := fun h' => h (by simp [h'])
    have hc : c ≠ 92 := fun h' => h (by simp [h'])
    have ih := render_escaped st r s hs
    rw [richEscape_cons]
    by_cases hb : c = 91
    · subst hb
      simp only [if_true, List.cons_append, List.nil_append]
      rw [render, ih]; rfl
    · rw [if_neg hb]
      simp only [List.cons_append, List.nil_append]
      rw [render.eq_4 _ _ _ (by intro rest' e; exact absurd e hc), if_neg hb, ih]
      rfl

theorem render_tag (name : String) (h1 : 93 ∉ lit name) (h2 : lit name ≠ lit "/") (st : List PyStr) (r : PyStr) :
    render st none (lit "[" ++ lit name ++ lit "]" ++ r) = render (lit name :: st) none r := by
  have key : ∀ (n t : PyStr), 93 ∉ n → t ++ n ≠ lit "/" →
      render st (some t) (n ++ 93 :: r) = render ((t ++ n) :: st) none r := by
    intro n
    induction n with
    | nil => intro t _ ht; simp only [List.nil_append, List.append_nil] at ht ⊢; rw [render, if_pos rfl, if_neg ht]
    | cons c n ih =>
      intro t hn ht
      have hc : c ≠ 93 := fun h => hn (by simp [h])
      rw [List.cons_append, render, if_neg hc, ih (t ++ [c]) (fun h => hn (by simp [h])) (by simpa using ht)]
      simp
  have := key (lit name) [] h1 (by simpa using h2)
  rw [List.nil_append] at this
  rw [← this]
  show render st none (91 :: _) = _
  rw [render.eq_4 _ _ _ (by intro rest' e; simp at e), if_pos rfl]
  congr 1
  simp [lit]

theorem render_close (st : List PyStr) (x : PyStr) (r : PyStr) :
    render (x :: st) none (lit "[/]" ++ r) = render st none r := rfl

theorem render_close_nil (st : List PyStr) (x : PyStr) :
    render (x :: st) none (lit "[/]") = [] := rfl

theorem open_green4 (st : List PyStr) (r : PyStr) :
    render st none (lit "[green4]" ++ r) = render (lit "green4" :: st) none r := rfl
theorem open_dark_red (st : List PyStr) (r : PyStr) :
    render st none (lit "[dark_red]" ++ r) = render (lit "dark_red" :: st) none r := rfl
theorem open_light_green (st : List PyStr) (r : PyStr) :
    render st none (lit "[light_green]" ++ r) = render (lit "light_green" :: st) none r := rfl
theorem open_pink1 (st : List PyStr) (r : PyStr) :
    render st none (lit "[pink1]" ++ r) = render (lit "pink1" :: st) none r := rfl

theorem styled_nil (st : List PyStr) : styled st [] = [] := rfl

theorem markupInner_colored (st : List PyStr) (r : PyStr) : ∀ (l : List (DiffItem Nat)),
    (∀ x ∈ l, 92 ∉ x.tokens) → ∃ s, markupInner coloredLevel1 richEscape l = .ok s ∧
      render st none (s ++ r) = (l.flatMap fun
        | .common s => styled st s
        | .change a b => styled (lit "light_green" :: st) a ++ styled (lit "pink1" :: st) b) ++
          render st none r
  | [], _ => ⟨[], rfl, rfl⟩
  | x :: l, h => by
    obtain ⟨s, h1, h2⟩ := markupInner_colored st r l fun y hy => h y (by simp [hy])
    have hx := h x (by simp)
    cases x with
    | common p =>
      refine ⟨richEscape p ++ s, ?_, ?_⟩
      · simp only [markupInner, markupInnerItem, h1]
      · rw [List.append_assoc, render_escaped _ _ _ (by simpa [DiffItem.tokens] using hx), h2]
        simp
    | change a b =>
      have ha : 92 ∉ a := fun h' => hx (by simp [DiffItem.tokens, h'])
      have hb : 92 ∉ b := fun h' => hx (by simp [DiffItem.tokens, h'])
      refine ⟨(if a.isEmpty then [] else lit "[light_green]" ++ richEscape a ++ lit "[/]") ++
        (if b.isEmpty then [] else lit "[pink1]" ++ richEscape b ++ lit "[/]") ++ s, ?_, ?_⟩
      · simp only [markupInner, markupInnerItem, h1]
        cases a <;> cases b <;> simp [surround, coloredLevel1, always]
      · have key : ∀ (a : PyStr) (tag nm : PyStr) (r' : PyStr), 92 ∉ a →
            (∀ r, render st none (tag ++ r) = render (nm :: st) none r) →
            render st none ((if a.isEmpty then [] else tag ++ richEscape a ++ lit "[/]") ++ r') =
              styled (nm :: st) a ++ render st none r' := by
          intro a tag nm r' ha ht
          cases a with
          | nil => rfl
          | cons c a =>
            simp only [List.isEmpty_cons, Bool.false_eq_true, if_false, List.append_assoc]
            rw [ht, render_escaped _ _ _ ha, render_close]
        rw [List.append_assoc, List.append_assoc, key a _ _ _ ha (open_light_green st),
          key b _ _ _ hb (open_pink1 st), h2]
        simp

theorem printSide_colored {side : MSide} (hs : side.NoBackslash) (n : PyStr) (colour : PyStr) (tag : String)
    (ht : ∀ r, render [] none (lit tag ++ r) = render [colour] none r) :
    ∃ out, printSide side (.entry (always tag) (always "[/]")) (some n) coloredLevel1 richEscape = (out, none) ∧
      renderAll out = shownSide colour side := by
  unfold printSide
  by_cases htr : side.truthy = true
  · rw [if_pos htr]
    cases side with
    | str s =>
      refine ⟨[lit tag ++ richEscape s ++ lit "[/]"], rfl, ?_⟩
      have := render_escaped [colour] (lit "[/]") s hs
      simp only [renderAll, List.flatMap_cons, List.flatMap_nil, List.append_nil, shownSide]
      rw [List.append_assoc, ht, this, render_close_nil, List.append_nil]
    | seq l =>
      obtain ⟨s, h1, h2⟩ := markupInner_colored [colour] (lit "[/]") l hs
      refine ⟨[lit tag ++ s ++ lit "[/]"], ?_, ?_⟩
      · simp only [markupChangeItem, surround, h1]; rfl
      · simp only [renderAll, List.flatMap_cons, List.flatMap_nil, List.append_nil, shownSide]
        rw [List.append_assoc, ht, h2, render_close_nil, List.append_nil]
        rfl
  · rw [if_neg htr]
    refine ⟨[], rfl, ?_⟩
    cases side with
    | str s =>
      cases s with
      | nil => rfl
      | cons c s => simp [MSide.truthy] at htr
    | seq s =>
      cases s with
      | nil => rfl
      | cons c s => simp [MSide.truthy] at htr

theorem markupStream_colored (n1 n2 : PyStr) : ∀ (stream : List MItem), (∀ i ∈ stream, i.NoBackslash) →
    ∃ out, markupStream coloredLevel0 coloredLevel1 n1 n2 richEscape stream = (out, none) ∧
      renderAll out = stream.flatMap shownItem
  | [], _ => ⟨[], rfl, rfl⟩
  | .text s :: rest, h => by
    obtain ⟨out, h1, h2⟩ := markupStream_colored n1 n2 rest fun i hi => h i (by simp [hi])
    refine ⟨richEscape s :: out, by simp only [markupStream, h1], ?_⟩
    have := render_escaped [] [] s (h (.text s) (by simp))
    rw [List.append_nil] at this
    simp only [renderAll, List.flatMap_cons, this] at h2 ⊢
    rw [h2]
    simp [shownItem, render]
  | .change a b :: rest, h => by
    obtain ⟨out, h1, h2⟩ := markupStream_colored n1 n2 rest fun i hi => h i (by simp [hi])
    obtain ⟨ha, hb⟩ := h (.change a b) (by simp)
    obtain ⟨o1, p1, q1⟩ := printSide_colored ha n1 (lit "green4") "[green4]" (open_green4 [])
    obtain ⟨o2, p2, q2⟩ := printSide_colored hb n2 (lit "dark_red") "[dark_red]" (open_dark_red [])
    refine ⟨o1 ++ [[]] ++ o2 ++ out, ?_, ?_⟩
    · simp only [markupStream]
      rw [show coloredLevel0.into = .entry (always "[green4]") (always "[/]") from rfl,
        show coloredLevel0.frm = .entry (always "[dark_red]") (always "[/]") from rfl, p1]
      dsimp only
      rw [p2]
      dsimp only
      rw [h1]
      rfl
    · simp only [renderAll, List.flatMap_append, List.flatMap_cons, List.flatMap_nil] at q1 q2 h2 ⊢
      rw [q1, q2, h2]
      simp [shownItem, render]

/-! ## The texts shown -/

theorem without_append (c : PyStr) (a b : Shown) : without c (a ++ b) = without c a ++ without c b := by
  simp [without]

theorem without_flatMap {β : Type _} (c : PyStr) (f : β → Shown) (l : List β) :
    without c (l.flatMap f) = l.flatMap fun x => without c (f x) := by
  induction l with
  | nil => rfl
  | cons x l ih => simp only [List.flatMap_cons, without_append, ih]

theorem without_styled (c : PyStr) (st : List PyStr) (s : PyStr) :
    without c (styled st s) = if st.getLast? = some c then [] else s := by
  unfold without styled
  by_cases h : st.getLast? = some c
  · rw [if_pos h]
    simp [h]
  · rw [if_neg h, List.filter_eq_self.2, List.map_map]
    · simp [Function.comp_def]
    · intro x hx
      obtain ⟨y, _, rfl⟩ := List.mem_map.1 hx
      simpa using h

/-- The text of a side. -/
def MSide.chars : MSide → PyStr
  | .str s => s
  | .seq l => l.flatMap DiffItem.tokens

theorem without_side (c colour : PyStr) (side : MSide) :
    without c (shownSide colour side) = if colour = c then [] else side.chars := by
  cases side with
  | str s => simp [shownSide, without_styled, MSide.chars]
  | seq l =>
    simp only [shownSide, without_flatMap, MSide.chars]
    by_cases h : colour = c
    · rw [if_pos h]
      simp only [List.flatMap_eq_nil_iff]
      intro x _
      cases x <;> simp [without_append, without_styled, h]
    · rw [if_neg h]
      congr 1
      funext x
      cases x <;> simp [without_append, without_styled, h, DiffItem.tokens]

theorem green_ne_red : lit "green4" ≠ lit "dark_red" := by decide

theorem without_item (i : MItem) :
    without (lit "dark_red") (shownItem i) = (match i with | .text s => s | .change a _ => a.chars) ∧
    without (lit "green4") (shownItem i) = (match i with | .text s => s | .change _ b => b.chars) := by
  cases i with
  | text s => simp [shownItem, without_styled]
  | change a b =>
    simp [shownItem, without_append, without_side, green_ne_red, green_ne_red.symm]

theorem without_plain (d : List (DiffItem Nat)) :
    without (lit "dark_red") ((d.map DiffItem.toM).flatMap shownItem) = intoText d ∧
    without (lit "green4") ((d.map DiffItem.toM).flatMap shownItem) = fromText d := by
  induction d with
  | nil => exact ⟨rfl, rfl⟩
  | cons x d ih =>
    simp only [List.map_cons, List.flatMap_cons, without_append, ih.1, ih.2, without_item]
    cases x <;> simp [DiffItem.toM, MSide.chars, intoText, fromText]

theorem chars_into {a : List (DiffItem Nat)} (h : ∀ x y, DiffItem.change x y ∈ a → y = []) :
    a.flatMap DiffItem.tokens = intoText a := by
  induction a with
  | nil => rfl
  | cons x a ih =>
    have ih := ih fun u v huv => h u v (by simp [huv])
    have hx := fun u v (e : DiffItem.change u v = x) => h u v (by simp [e])
    cases x with
    | common p => simp [DiffItem.tokens, intoText] at ih ⊢; exact ih
    | change u v =>
      have := hx u v rfl
      subst this
      simp [DiffItem.tokens, intoText] at ih ⊢; exact ih

theorem chars_from {a : List (DiffItem Nat)} (h : ∀ x y, DiffItem.change x y ∈ a → x = []) :
    a.flatMap DiffItem.tokens = fromText a := by
  induction a with
  | nil => rfl
  | cons x a ih =>
    have ih := ih fun u v huv => h u v (by simp [huv])
    have hx := fun u v (e : DiffItem.change u v = x) => h u v (by simp [e])
    cases x with
    | common p => simp [DiffItem.tokens, fromText] at ih ⊢; exact ih
    | change u v =>
      have := hx u v rfl
      subst this
      simp [DiffItem.tokens, fromText] at ih ⊢; exact ih

theorem without_lines (d : List LineItem) (h : ∀ i ∈ d, i.WholeLines) :
    without (lit "dark_red") ((d.map LineItem.toM).flatMap shownItem) = lineInto d ∧
    without (lit "green4") ((d.map LineItem.toM).flatMap shownItem) = lineFrom d := by
  induction d with
  | nil => exact ⟨rfl, rfl⟩
  | cons x d ih =>
    have ih := ih fun i hi => h i (by simp [hi])
    have hx := h x (by simp)
    simp only [List.map_cons, List.flatMap_cons, without_append, ih.1, ih.2, without_item]
    cases x with
    | text s => simp [LineItem.toM, lineInto, lineFrom]
    | change a b =>
      simp [LineItem.toM, lineInto, lineFrom, MSide.chars, chars_into hx.2.2.1, chars_from hx.2.2.2]

theorem plain_noBackslash {d : List (DiffItem Nat)} (h1 : 92 ∉ intoText d) (h2 : 92 ∉ fromText d) :
    ∀ i ∈ d.map DiffItem.toM, i.NoBackslash := by
  intro i hi
  obtain ⟨x, hx, rfl⟩ := List.mem_map.1 hi
  cases x with
  | common s =>
    exact fun h => h1 (List.mem_flatMap.2 ⟨_, hx, h⟩)
  | change a b =>
    exact ⟨fun h => h1 (List.mem_flatMap.2 ⟨_, hx, h⟩), fun h => h2 (List.mem_flatMap.2 ⟨_, hx, h⟩)⟩

theorem lines_noBackslash {d : List LineItem} (hw : ∀ i ∈ d, i.WholeLines) (h1 : 92 ∉ lineInto d)
    (h2 : 92 ∉ lineFrom d) : ∀ i ∈ d.map LineItem.toM, i.NoBackslash := by
  intro i hi
  obtain ⟨x, hx, rfl⟩ := List.mem_map.1 hi
  have hwx := hw x hx
  cases x with
  | text s => exact fun h => h1 (List.mem_flatMap.2 ⟨_, hx, h⟩)
  | change a b =>
    refine ⟨fun y hy h => h1 (List.mem_flatMap.2 ⟨_, hx, ?_⟩), fun y hy h => h2 (List.mem_flatMap.2 ⟨_, hx, ?_⟩)⟩
    · show 92 ∈ intoText a
      rw [← chars_into hwx.2.2.1]
      exact List.mem_flatMap.2 ⟨y, hy, h⟩
    · show 92 ∈ fromText b
      rw [← chars_from hwx.2.2.2]
      exact List.mem_flatMap.2 ⟨y, hy, h⟩

/-! ## Whole runs -/

/-- Console output shows the two texts, up to an end of line at the end that is only added when
lines are shown. -/
structure ConsoleOutput (showLines : Bool) (out : List PyStr) (first second : PyStr) : Prop where
  shown : ∃ e, (e = [] ∨ showLines = true ∧ e = [nl]) ∧
    (showLines = true → e = [] → Whole first ∧ Whole second) ∧
    without (lit "dark_red") (renderAll out) = first ++ e ∧
    without (lit "green4") (renderAll out) = second ++ e

theorem display_console (sp : Nat → Bool) {args : Args} (h : args.Console) {d : List (DiffItem Nat)}
    (ha : TextsApart d) (hi : 92 ∉ intoText d) (hf : 92 ∉ fromText d) (b0 b1 : PyStr) :
    ∃ out, displayChanges sp (coloredLevel0, coloredLevel1) args (d.map (DiffItem.toItem Text.str), none)
        b0 b1 [] = (out, none) ∧ ConsoleOutput args.showLines out (intoText d) (fromText d) := by
  have hesc : getEscape args = richEscape := by unfold getEscape; rw [h.output]
  by_cases hs : args.showLines = true
  · obtain ⟨items, h1, _, h2⟩ := C46_consolidated sp d
    obtain ⟨items', j1, j2, j3⟩ := C45_consolidated_texts sp d
    rw [h1] at j1
    cases j1
    obtain ⟨e, e1, e2, e3, e4⟩ := (C45_line_diff_texts sp d).2 ha.fragments
    rw [e2] at j2
    rw [e3] at j3
    have key : (∀ i ∈ items.map LineItem.toM, i.NoBackslash) ∧
        without (lit "dark_red") ((items.map LineItem.toM).flatMap shownItem) = lineInto items ∧
        without (lit "green4") ((items.map LineItem.toM).flatMap shownItem) = lineFrom items := by
      rcases h2 with rfl | h2
      · refine ⟨?_, by decide, by decide⟩
        intro i hi
        simp only [List.map_cons, List.map_nil, List.mem_singleton] at hi
        subst hi
        exact List.not_mem_nil
      · refine ⟨lines_noBackslash h2 ?_ ?_, without_lines items h2⟩
        · rw [j2, List.mem_append]
          rintro (h | h)
          · exact hi h
          · rcases e1 with rfl | rfl
            · simp at h
            · simp [nl] at h
        · rw [j3, List.mem_append]
          rintro (h | h)
          · exact hf h
          · rcases e1 with rfl | rfl
            · simp at h
            · simp [nl] at h
    obtain ⟨out, o1, o2⟩ := markupStream_colored (basename b0) (basename b1) _ key.1
    refine ⟨out, ?_, ⟨e, ?_, fun _ => e4, ?_, ?_⟩⟩
    · simp only [displayChanges, filterMap_strItem, toDisplay, hs, Bool.true_or, if_true, h1, display,
        markupChanges, hesc, o1, basename_nil, List.isEmpty_nil, List.nil_append]
    · rcases e1 with e1 | e1
      · exact .inl e1
      · exact .inr ⟨hs, e1⟩
    · rw [o2, key.2.1, j2]
    · rw [o2, key.2.2, j3]
  · obtain ⟨out, o1, o2⟩ := markupStream_colored (basename b0) (basename b1) _ (plain_noBackslash hi hf)
    have hs' : args.showLines = false := by simpa using hs
    refine ⟨out, ?_, ⟨[], .inl rfl, fun h => absurd h hs, ?_, ?_⟩⟩
    · simp only [displayChanges, filterMap_strItem, toDisplay, hs', h.git, Bool.or_self,
        Bool.false_eq_true, if_false, display, markupChanges, hesc, o1, basename_nil,
        List.isEmpty_nil, if_true, List.nil_append]
    · rw [o2, (without_plain d).1, List.append_nil]
    · rw [o2, (without_plain d).2, List.append_nil]

theorem console_style {args : Args} (h : args.Console) (b : Bool) (hs : args.strikeout = false ∨ b = false) :
    getMarkupStyle args b {} = ({}, coloredLevel0, coloredLevel1) := by
  have ht : args.toFile = false := by unfold Args.toFile; rw [h.output]
  rcases hs with hs | rfl <;> simp [getMarkupStyle, h.git, ht, *]

theorem diffRun_console {S : Type _} {tk : Tokenizer (List Nat) S} {Good : PyStr → Prop}
    (H : DiffAlternates tk Good) (sp : Nat → Bool) {args : Args} (h : args.Console)
    (hs : args.strikeout = false) (on mn : PyStr) {o m : PyStr} (ho : Good o) (hm : Good m)
    (bo : 92 ∉ o) (bm : 92 ∉ m) :
    ∃ out, diffRun tk sp args {} on mn o m = ({}, out, none) ∧ ConsoleOutput args.showLines out m o := by
  obtain ⟨d, h1, h2, rfl, rfl⟩ := H [] o m ho hm (by intro y hy; simp at hy)
  obtain ⟨out, o1, o2⟩ := display_console sp h h2.textsApart bm bo (getEscape args mn) (getEscape args on)
  refine ⟨out, ?_, o2⟩
  have h1' : (tokDiff tk tk.init (.str (fromText d)) (.str (intoText d))).2 =
    .ok (d.map (DiffItem.toItem .str), none) := h1
  simp only [diffRun, console_style h true (.inl hs), h1', o1]

/-- A merge run without diffs displays the merge of the pieces. -/
theorem mergeRun_display {S : Type _} {tk : Tokenizer (List Nat) S} (sp : Nat → Bool) {args : Args}
    (hd : args.diff = false) (t : Tables) (pn cn on : PyStr) {p c o : PyStr}
    {qp qc qo : List PyStr} (T : ThreePieces tk p c o qp qc qo) :
    ∃ d, mergeTokenSequence .tuple qp qc qo = .ok d ∧ TextsApart (d.map DiffItem.joined) ∧
      mergeRun tk sp args t pn cn on p c o = ((getMarkupStyle args false t).1,
        displayChanges sp (getMarkupStyle args false t).2 args
          ((d.map DiffItem.joined).map (DiffItem.toItem Text.str), none) cn on []) := by
  obtain ⟨ep, ec, eo, s1, s2, s3, g, Dom, t1, t2, t3, H, ⟨e1, e2, e3⟩, ⟨rfl, rfl, rfl⟩, inj⟩ := T
  obtain ⟨d, _, m1, _⟩ := C22_no_exception ep ec eo
  have hn := C17_merge_normal_form m1
  obtain ⟨d0, d0h, _⟩ := C12_diff_normal_form ep ec
  obtain ⟨d1, d1h, _⟩ := C12_diff_normal_form ep eo
  have ht := (C19_tokens m1 d0h d1h).1
  have hdom : ∀ x ∈ d, ∀ t ∈ x.tokens, Dom t := by
    intro x hx t htx
    rcases ht t ⟨x, hx, htx⟩ with h | h
    · exact e2 t h
    · exact e3 t h
  refine ⟨d.map (DiffItem.rename g), ?_, ?_, ?_⟩
  · rw [merge_renameOn .tuple inj, m1]; rfl
  · rw [← map_spell_eq_joined]
    rcases hn with rfl | ⟨_, hn⟩
    · trivial
    · exact mergeNormal_apart g hn
  · rw [← map_spell_eq_joined]
    simp only [mergeRun, t1, t2, t3, hd, Bool.false_eq_true, if_false, mergeItems, m1,
      decodeChanges_spell H hdom]

end Gaspra
