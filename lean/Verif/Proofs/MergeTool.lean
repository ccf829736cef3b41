import Verif.Proofs.Markup
import Verif.Props.Lines

set_option linter.unusedSectionVars false
set_option linter.unusedSimpArgs false
set_option linter.unusedVariables false

/-!
# Proofs about the command line tools
-/

namespace Gaspra

/-! ## Git-compatible output into a file -/

/-- Git-compatible markers into a file, no strikeout. -/
structure Args.GitFile (args : Args) : Prop where
  git : args.gitCompatible = true
  named : (args.output.getD []).isEmpty = false
  strike : args.strikeout = false

/-- `arguments.output` is true exactly if it is a name that is not empty. -/
theorem Args.toFile_eq (args : Args) : args.toFile = !(args.output.getD []).isEmpty := by
  unfold Args.toFile
  cases args.output <;> rfl

theorem Args.GitFile.file {args : Args} (h : args.GitFile) : args.toFile = true := by
  rw [args.toFile_eq, h.named]; rfl

theorem filterMap_strItem (d : List (DiffItem Nat)) :
    (d.map (DiffItem.toItem Text.str)).filterMap strItem = d := by
  induction d with
  | nil => rfl
  | cons x d ih =>
    cases x <;> simp only [List.map_cons, DiffItem.toItem, List.filterMap_cons, strItem, ih]

theorem Args.GitFile.escape {args : Args} (h : args.GitFile) : getEscape args = id := by
  have := h.file
  unfold Args.toFile at this
  unfold getEscape
  split at this
  · cases this
  · next s e => simp only [e]

theorem Args.GitFile.style {args : Args} (h : args.GitFile) (b : Bool) :
    getMarkupStyle args b {} = ({}, gitLevel0, plainLevel1) := by
  simp [getMarkupStyle, h.strike, h.git, h.file]

theorem basename_nil : basename [] = [] := rfl

/-- Displaying decoded changes with git markers. -/
theorem display_git (sp : Nat → Bool) {args : Args} (h : args.GitFile) (d : List (DiffItem Nat))
    (b0 b1 : PyStr) :
    ∃ items out, consolidatedLineDiff sp d = .ok items ∧
      ((∀ i ∈ items, i.WholeLines) ∨ items = [.text []]) ∧
      displayChanges sp (gitLevel0, plainLevel1) args (d.map (DiffItem.toItem Text.str), none) b0 b1 [] =
        (out, none) ∧
      out.flatten = gitText (basename b0) (basename b1) items := by
  obtain ⟨items, h1, _, h2⟩ := C46_consolidated sp d
  obtain ⟨out, h3, h4⟩ := markupStream_git (basename b0) (basename b1) items h2.symm
  refine ⟨items, out, h1, h2.symm, ?_, h4⟩
  simp only [displayChanges, filterMap_strItem, toDisplay, h.git, Bool.or_true, if_true, h1, display,
    markupChanges, h.escape, h3, basename_nil, List.isEmpty_nil, List.nil_append]

/-- Git-style output and the two texts it stands for. -/
structure GitOutput (n1 n2 : PyStr) (out : List PyStr) (first second : PyStr) : Prop where
  /-- What is written consists of whole lines. -/
  whole : Whole out.flatten
  /-- Choosing the first or second side of every conflict gives the two texts. -/
  resolved : nl ∉ n1 → nl ∉ n2 → NoMarkers n1 n2 first → NoMarkers n1 n2 second →
    resolveText true n1 n2 out.flatten = first ∧ resolveText false n1 n2 out.flatten = second
  /-- Nothing is written but characters of the texts, the names and the markers. -/
  chars : ∀ x ∈ out.flatten, x ∈ first ∨ x ∈ second ∨ x ∈ n1 ∨ x ∈ n2 ∨ x ∈ lit "<=> \n"

theorem mem_marker {x : Nat} {s t : PyStr} (h : x ∈ s ++ t ++ [nl]) (hs : ∀ y ∈ s, y ∈ lit "<=> \n") :
    x ∈ t ∨ x ∈ lit "<=> \n" := by
  simp only [List.mem_append, List.mem_singleton] at h
  rcases h with (h | h) | h
  · exact .inr (hs x h)
  · exact .inl h
  · subst h; right; decide

theorem gitText_chars (n1 n2 : PyStr) : ∀ (d : List LineItem), ∀ x ∈ gitText n1 n2 d,
    x ∈ lineInto d ∨ x ∈ lineFrom d ∨ x ∈ n1 ∨ x ∈ n2 ∨ x ∈ lit "<=> \n"
  | [], x, h => by simp [gitText] at h
  | i :: d, x, h => by
    rw [gitText_cons, List.mem_append] at h
    have more : x ∈ lineInto d ∨ x ∈ lineFrom d → x ∈ lineInto (i :: d) ∨ x ∈ lineFrom (i :: d) := by
      intro h
      simp only [lineInto, lineFrom, List.flatMap_cons, List.mem_append] at h ⊢
      rcases h with h | h
      · exact .inl (.inr h)
      · exact .inr (.inr h)
    rcases h with h | h
    · cases i with
      | text s =>
        left
        simp only [gitText, List.flatMap_cons, List.flatMap_nil, List.append_nil] at h
        exact List.mem_append.2 (.inl h)
      | change a b =>
        simp only [gitText, List.flatMap_cons, List.flatMap_nil, List.append_nil] at h
        rw [List.mem_append, List.mem_append, List.mem_append, List.mem_append] at h
        rcases h with (((h | h) | h) | h) | h
        · rcases mem_marker h (by decide) with h | h
          · exact .inr (.inr (.inl h))
          · exact .inr (.inr (.inr (.inr h)))
        · exact .inl (List.mem_append.2 (.inl h))
        · exact .inr (.inr (.inr (.inr ((by decide : ∀ y ∈ middleLine, y ∈ lit "<=> \n") x h))))
        · exact .inr (.inl (List.mem_append.2 (.inl h)))
        · rcases mem_marker h (by decide) with h | h
          · exact .inr (.inr (.inr (.inl h)))
          · exact .inr (.inr (.inr (.inr h)))
    · rcases gitText_chars n1 n2 d x h with h | h | h
      · rcases more (.inl h) with h | h
        · exact .inl h
        · exact .inr (.inl h)
      · rcases more (.inr h) with h | h
        · exact .inl h
        · exact .inr (.inl h)
      · exact .inr (.inr h)

theorem gitText_whole (n1 n2 : PyStr) : ∀ (d : List LineItem), (∀ i ∈ d, i.WholeLines) →
    Whole (gitText n1 n2 d)
  | [], _ => .inl rfl
  | i :: d, h => by
    rw [gitText_cons]
    apply Whole.append _ (gitText_whole n1 n2 d fun j hj => h j (by simp [hj]))
    cases i with
    | text s => simpa [gitText] using (h (.text s) (by simp)).2
    | change a b =>
      right
      refine ⟨startLine n1 ++ intoText a ++ middleLine ++ fromText b ++ (lit ">>>>>>> " ++ n2), ?_⟩
      simp [gitText, stopLine]

theorem gitOutput_of {n1 n2 : PyStr} {items : List LineItem} {out : List PyStr}
    (h : (∀ i ∈ items, i.WholeLines) ∨ items = [.text []]) (ho : out.flatten = gitText n1 n2 items) :
    GitOutput n1 n2 out (lineInto items) (lineFrom items) := by
  rcases h with h | rfl
  · refine ⟨by rw [ho]; exact gitText_whole n1 n2 items h, ?_, by rw [ho]; exact gitText_chars n1 n2 items⟩
    intro h1 h2 m1 m2
    unfold resolveText
    rw [ho, resolve_gitText true h1 h2 items h m1 m2, resolve_gitText false h1 h2 items h m1 m2]
    simp only [if_true, Bool.false_eq_true, if_false, linesOf_flatten, and_self]
  · rw [show gitText n1 n2 [.text []] = [] from rfl] at ho
    refine ⟨by rw [ho]; left; rfl, ?_, by rw [ho]; intro x hx; simp at hx⟩
    intro _ _ _ _
    rw [ho]
    exact ⟨rfl, rfl⟩

/-- The whole diff run, for any tokenizer whose diffs are faithful. -/
theorem diffRun_git {S : Type _} {tk : Tokenizer (List Nat) S} {Good : PyStr → Prop}
    (H : DiffAlternates tk Good) (sp : Nat → Bool) {args : Args} (h : args.GitFile)
    (on mn : PyStr) {o m : PyStr} (ho : Good o) (hm : Good m) :
    ∃ out e, (e = [] ∨ e = [nl]) ∧ diffRun tk sp args {} on mn o m = ({}, out, none) ∧
      (e = [] → Whole m ∧ Whole o) ∧ GitOutput (basename mn) (basename on) out (m ++ e) (o ++ e) := by
  obtain ⟨d, h1, h2, h3, h4⟩ := H [] o m ho hm (by intro y hy; simp at hy)
  obtain ⟨items, out, i1, i2, i3, i4⟩ := display_git sp h d mn on
  obtain ⟨items', j1, j2, j3⟩ := C45_consolidated_texts sp d
  rw [i1] at j1
  cases j1
  obtain ⟨e, e1, e2, e3, e4⟩ := (C45_line_diff_texts sp d).2 h2.textsApart.fragments
  refine ⟨out, e, e1, ?_, by rw [← h3, ← h4]; exact e4, ?_⟩
  · have h1' : (tokDiff tk tk.init (.str o) (.str m)).2 = .ok (d.map (DiffItem.toItem .str), none) := h1
    simp only [diffRun, h.style, h.escape, h1', id, i3]
  · rw [← h3, ← h4, ← e2, ← e3, ← j2, ← j3]
    exact gitOutput_of i2 i4

/-! ## Encoding three texts -/

/-- Three texts are encoded one after the other; afterwards the tokens decode one by one, and
equal texts have equal tokens. -/
def ThreeStrs {S : Type _} (tk : Tokenizer (List Nat) S) (p c o : PyStr) : Prop :=
  ∃ (ep ec eo : List Nat) (s1 s2 s3 : S) (g : Nat → PyStr) (Dom : Nat → Prop),
    tk.encode tk.init (.str p) = (s1, .ok ep) ∧ tk.encode s1 (.str c) = (s2, .ok ec) ∧
    tk.encode s2 (.str o) = (s3, .ok eo) ∧ DecodeHom tk s3 Text.str g Dom ∧
    ((∀ t ∈ ep, Dom t) ∧ (∀ t ∈ ec, Dom t) ∧ ∀ t ∈ eo, Dom t) ∧
    (ep.flatMap g = p ∧ ec.flatMap g = c ∧ eo.flatMap g = o) ∧
    (p = c → ep = ec) ∧ (p = o → ep = eo) ∧ (c = o → ec = eo)

theorem DictLike.three {encode : DictTok → Text → DictTok × Except PyErr (List Nat)} {Good : Text → Prop}
    {pieces : Text → List Text} (D : DictLike encode Good pieces) {tk : Tokenizer (List Nat) DictTok}
    (he : tk.encode = encode) (hdec : tk.decode = DictTok.decode) (hinit : tk.init = .new)
    {p c o : PyStr} (hp : Good (.str p)) (hc : Good (.str c)) (ho : Good (.str o)) :
    ThreeStrs tk p c o := by
  obtain ⟨ep, a1, a2, a3, a4, a5⟩ := D.encode_good DictInv.new hp rfl
  obtain ⟨ec, b1, b2, b3, b4, b5⟩ := D.encode_good a2.inv hc (by rw [a3]; rfl)
  obtain ⟨eo, c1, c2, c3, c4, c5⟩ := D.encode_good b2.inv ho (by rw [b3]; rfl)
  have pair : ∀ {β γ : Type _} (r : β × γ) {v : γ}, r.2 = v → r = (r.1, v) := by
    intro β γ r v h; rw [← h]
  have p3 := table_map (b2.trans c2).tab a5
  have q3 := table_map c2.tab b5
  have H := dict_hom_str c2.inv c4 c3 (tk := tk) hdec
  have dec : ∀ {e : List Nat} {x : PyStr}, Good (.str x) →
      e.map (fun i => (encode (encode (encode DictTok.new (.str p)).1 (.str c)).1 (.str o)).1.table[i]?) =
        (pieces (.str x)).map some →
      (e.flatMap fun t => ((encode (encode (encode DictTok.new (.str p)).1 (.str c)).1
        (.str o)).1.table[t]?.getD (.bytes [])).theStr) = x := by
    intro e x hx hm
    have h1 := c2.inv.decode (x := .str x) c4 c3 (D.spells _ hx) hm
    have h2 := H e (dict_in_table hm)
    rw [hdec, h1] at h2
    simpa using h2.symm
  have inj : ∀ {e f : List Nat}, e.map (fun i => (encode (encode (encode DictTok.new (.str p)).1
      (.str c)).1 (.str o)).1.table[i]?) = f.map (fun i => (encode (encode (encode DictTok.new (.str p)).1
      (.str c)).1 (.str o)).1.table[i]?) → (∀ t ∈ e, t < (encode (encode (encode DictTok.new (.str p)).1
      (.str c)).1 (.str o)).1.table.length) → e = f := by
    intro e
    induction e with
    | nil => intro f h _; cases f with
      | nil => rfl
      | cons x f => simp at h
    | cons t e ih =>
      intro f h hl
      cases f with
      | nil => simp at h
      | cons u f =>
        simp only [List.map_cons, List.cons.injEq] at h
        have ht := hl t (by simp)
        have hx : _ = some _ := List.getElem?_eq_getElem ht
        have hy := h.1.symm.trans hx
        rw [(c2.inv.table_inj hx hy).2 rfl, ih h.2 fun v hv => hl v (by simp [hv])]
  refine ⟨ep, ec, eo, (encode .new (.str p)).1, (encode (encode .new (.str p)).1 (.str c)).1, _, _, _,
    ?_, ?_, ?_, H,
    ⟨dict_in_table p3, dict_in_table q3, dict_in_table c5⟩,
    ⟨dec hp p3, dec hc q3, dec ho c5⟩, ?_, ?_, ?_⟩
  · rw [he, hinit]; exact pair _ a1
  · rw [he]; exact pair _ b1
  · rw [he]; exact pair _ c1
  · rintro rfl; exact inj (p3.trans q3.symm) (dict_in_table p3)
  · rintro rfl; exact inj (p3.trans c5.symm) (dict_in_table p3)
  · rintro rfl; exact inj (q3.trans c5.symm) (dict_in_table q3)

theorem charTokenizer_str {src : Option SrcType} {x : PyStr} (h : WellEncoded (.str x))
    (hw : wrongType src (.str x) = false) :
    charTokenizer.encode src (.str x) = (some .str, .ok x) :=
  charEncode_good h hw

theorem char_three {p c o : PyStr} (hp : WellEncoded (.str p)) (hc : WellEncoded (.str c))
    (ho : WellEncoded (.str o)) : ThreeStrs charTokenizer p c o := by
  exact ⟨p, c, o, some .str, some .str, some .str, _, _,
    charTokenizer_str hp rfl, charTokenizer_str hc rfl, charTokenizer_str ho rfl, char_hom_str,
    ⟨hp, hc, ho⟩, ⟨by simp, by simp, by simp⟩, id, id, id⟩

/-! ## Merging -/

/-- Replace tokens by text. -/
def DiffItem.spell (g : Nat → PyStr) : DiffItem Nat → DiffItem Nat
  | .common p => .common (p.flatMap g)
  | .change a b => .change (a.flatMap g) (b.flatMap g)

theorem decodeChanges_spell {S : Type _} {tk : Tokenizer (List Nat) S} {st : S} {g : Nat → PyStr}
    {Dom : Nat → Prop} (H : DecodeHom tk st Text.str g Dom) : ∀ {d : List (DiffItem Nat)},
    (∀ x ∈ d, ∀ t ∈ x.tokens, Dom t) →
    decodeChanges tk st (d.map (DiffItem.toItem id)) =
      ((d.map (DiffItem.spell g)).map (DiffItem.toItem Text.str), none)
  | [], _ => rfl
  | .common p :: d, h => by
    have ih := decodeChanges_spell H (d := d) fun x hx => h x (by simp [hx])
    have h1 := H p (h (.common p) (by simp))
    simp only [List.map_cons, DiffItem.toItem, decodeChanges, id, h1, ih, DiffItem.spell]
  | .change a b :: d, h => by
    have ih := decodeChanges_spell H (d := d) fun x hx => h x (by simp [hx])
    have h0 := h (.change a b) (by simp)
    have h1 := H a fun t ht => h0 t (by simp [DiffItem.tokens, ht])
    have h2 := H b fun t ht => h0 t (by simp [DiffItem.tokens, ht])
    simp only [List.map_cons, DiffItem.toItem, decodeChanges, id, h1, h2, ih, DiffItem.spell]

theorem mergeNormal_apart : ∀ {d : List (DiffItem Nat)} (g : Nat → PyStr), MergeNormal d →
    TextsApart (d.map (DiffItem.spell g))
  | [], _, _ => trivial
  | [_], _, _ => trivial
  | x :: y :: d, g, h => by
    refine ⟨?_, mergeNormal_apart (d := y :: d) g h.2.2⟩
    have := h.2.1
    cases x <;> cases y <;> simp [DiffItem.spell, DiffItem.isChange] at this ⊢

/-- A merge run without diffs. -/
theorem mergeRun_git {S : Type _} {tk : Tokenizer (List Nat) S} (sp : Nat → Bool) {args : Args}
    (h : args.GitFile) (hd : args.diff = false) (pn cn on : PyStr) {p c o : PyStr}
    {ep ec eo : List Nat} {s1 s2 s3 : S} {g : Nat → PyStr} {Dom : Nat → Prop}
    (h1 : tk.encode tk.init (.str p) = (s1, .ok ep)) (h2 : tk.encode s1 (.str c) = (s2, .ok ec))
    (h3 : tk.encode s2 (.str o) = (s3, .ok eo)) (H : DecodeHom tk s3 Text.str g Dom)
    (hc : ∀ t ∈ ec, Dom t) (ho : ∀ t ∈ eo, Dom t) :
    ∃ d out items, mergeTokenSequence .tuple ep ec eo = .ok d ∧
      TextsApart (d.map (DiffItem.spell g)) ∧
      mergeRun tk sp args {} pn cn on p c o = ({}, out, none) ∧
      consolidatedLineDiff sp (d.map (DiffItem.spell g)) = .ok items ∧
      ((∀ i ∈ items, i.WholeLines) ∨ items = [.text []]) ∧
      out.flatten = gitText (basename cn) (basename on) items := by
  obtain ⟨d, _, m1, _⟩ := C22_no_exception ep ec eo
  have hn := C17_merge_normal_form m1
  obtain ⟨d0, d0h, _⟩ := C12_diff_normal_form ep ec
  obtain ⟨d1, d1h, _⟩ := C12_diff_normal_form ep eo
  have ht := (C19_tokens m1 d0h d1h).1
  have hdom : ∀ x ∈ d, ∀ t ∈ x.tokens, Dom t := by
    intro x hx t htx
    rcases ht t ⟨x, hx, htx⟩ with h | h
    · exact hc t h
    · exact ho t h
  obtain ⟨items, out, i1, i2, i3, i4⟩ := display_git sp h (d.map (DiffItem.spell g)) cn on
  refine ⟨d, out, items, m1, ?_, ?_, i1, i2, i4⟩
  · rcases hn with rfl | ⟨_, hn⟩
    · trivial
    · exact mergeNormal_apart g hn
  · simp only [mergeRun, h1, h2, h3, hd, Bool.false_eq_true, if_false, mergeItems, m1, h.style,
      decodeChanges_spell H hdom, i3]

/-- The line diff of a single text has no conflict. -/
theorem consolidated_single (sp : Nat → Bool) (n1 n2 s : PyStr) : ∃ items,
    consolidatedLineDiff sp [.common s] = .ok items ∧
    gitText n1 n2 items = s ++ (if Whole s then [] else [nl]) := by
  have htext : ∀ (l : List PyStr), consolidateLines (l.map .text) = l.map .text := by
    intro l
    induction l with
    | nil => rfl
    | cons x l ih =>
      simp only [consolidateLines, List.map_cons, consolidateLoop, yieldChange, List.isEmpty_nil,
        Bool.and_self, if_true, List.nil_append] at ih ⊢
      rw [ih]; rfl
  have hgit : ∀ (l : List PyStr), gitText n1 n2 (l.map .text) = lineInto (l.map .text) := by
    intro l
    induction l with
    | nil => rfl
    | cons x l ih =>
      rw [List.map_cons, gitText_cons, lineInto_cons, ih]
      simp [gitText, lineInto]
  have hyield : ∀ s, ∃ l : List PyStr, yieldText s = l.map .text := by
    intro s
    unfold yieldText
    split
    · exact ⟨[], rfl⟩
    · exact ⟨[s], rfl⟩
  have hshape : ∃ l : List PyStr, (toLineDiff sp [.common s]) = (l.map .text, none) := by
    rw [toLineDiff_eq]
    by_cases hs : s = []
    · subst hs; exact ⟨[[]], rfl⟩
    · have hf : fragments [.common s] = [.common s] := by
        unfold fragments
        rw [List.filter_cons_of_pos (by simpa using hs)]
        rfl
      have ht : truthy (.common s) = true := by simpa [truthy] using hs
      rw [hf, if_neg (by simp)]
      simp only [lineLoop, ht, if_true, List.append_nil]
      have hh : handleFragment sp {} (.common s) = splitPhase {} s := by
        rw [handleFragment_text]; rfl
      rw [hh]
      have G := (splitPhase_ok LineAcc.Good.init (.inl rfl) hs).good
      have h1 : (splitPhase {} s).1.inConflict = false := by
        unfold splitPhase
        dsimp only
        split
        · simp only [Bool.false_eq_true, if_false]
          split <;> rfl
        · rfl
      have h2 : ∃ l : List PyStr, (splitPhase {} s).2 = l.map .text := by
        unfold splitPhase
        dsimp only
        split
        · simp only [Bool.false_eq_true, if_false]
          exact hyield _
        · exact ⟨[], rfl⟩
      have h3 : ∃ l : List PyStr, (splitPhase {} s).1.flush.1 = l.map .text := by
        generalize (splitPhase {} s).1 = st at h1 G
        unfold LineAcc.flush
        rw [h1]
        simp only [Bool.false_eq_true, if_false]
        split
        · exact ⟨[], rfl⟩
        · split
          · split
            · next s' _ => exact ⟨[s'], rfl⟩
            · exact ⟨[], rfl⟩
          · exact ⟨[], rfl⟩
      obtain ⟨l2, h2⟩ := h2
      obtain ⟨l3, h3⟩ := h3
      refine ⟨l2 ++ l3, ?_⟩
      rw [h2, h3, List.map_append]
  obtain ⟨l, hl⟩ := hshape
  refine ⟨l.map .text, by simp only [consolidatedLineDiff, hl, htext], ?_⟩
  rw [hgit]
  have hAlt : Alternating (fragments [.common s]) := by
    unfold fragments
    rw [List.filter_cons]
    split <;> trivial
  have := (C45_newline_exact sp hAlt).1
  rw [hl] at this
  rw [this]
  simp only [finalNewline, intoText_common, fromText_common, and_self]

end Gaspra
