import Verif.Proofs.Rename
import Verif.Proofs.MergeTool

/-!
# Tokenized diffs and merges are diffs and merges of the pieces
-/

set_option linter.unusedSectionVars false
set_option linter.unusedSimpArgs false
set_option linter.unusedVariables false

namespace Gaspra

theorem spell_eq_joined (g : Nat → PyStr) (x : DiffItem Nat) : x.spell g = (x.rename g).joined := by
  cases x <;> simp [DiffItem.spell, DiffItem.rename, DiffItem.joined, List.flatMap]

theorem map_spell_eq_joined (g : Nat → PyStr) (d : List (DiffItem Nat)) :
    d.map (DiffItem.spell g) = (d.map (DiffItem.rename g)).map DiffItem.joined := by
  rw [List.map_map]
  exact List.map_congr_left fun x _ => spell_eq_joined g x

/-- The pieces of tokens, as strings. -/
def tableStr (st : DictTok) (t : Nat) : PyStr := (st.table[t]?.getD (.bytes [])).theStr

theorem tableStr_map {st : DictTok} : ∀ {e : List Nat} {qs : List PyStr},
    e.map (fun i => st.table[i]?) = (qs.map Text.str).map some → e.map (tableStr st) = qs
  | [], [], _ => rfl
  | [], q :: qs, h => by simp at h
  | t :: e, [], h => by simp at h
  | t :: e, q :: qs, h => by
    simp only [List.map_cons, List.cons.injEq] at h
    simp only [List.map_cons, tableStr_map h.2]
    simp only [tableStr, h.1, Option.getD_some, Text.theStr]

theorem tableStr_inj {st : DictTok} (I : DictInv st) (hs : st.src = some .str) {l : List Nat}
    (hl : ∀ t ∈ l, t < st.table.length) : KeepsApart (tableStr st) l := by
  intro x hx y hy e
  have h1 : st.table[x]? = some _ := List.getElem?_eq_getElem (hl x hx)
  have h2 : st.table[y]? = some _ := List.getElem?_eq_getElem (hl y hy)
  refine (I.table_inj h1 h2).2 ?_
  simp only [tableStr, h1, h2, Option.getD_some] at e
  have t1 := I.typ (List.getElem_mem (hl x hx))
  have t2 := I.typ (List.getElem_mem (hl y hy))
  rw [hs] at t1 t2
  generalize st.table[x]'(hl x hx) = a at *
  generalize st.table[y]'(hl y hy) = b at *
  cases a with
  | bytes _ => simp [Text.type] at t1
  | str a =>
    cases b with
    | bytes _ => simp [Text.type] at t2
    | str b => simp only [Text.theStr] at e; rw [e]

/-- Three texts are encoded one after the other; afterwards the tokens stand for the pieces. -/
def ThreePieces {S : Type _} (tk : Tokenizer (List Nat) S) (p c o : PyStr) (qp qc qo : List PyStr) : Prop :=
  ∃ (ep ec eo : List Nat) (s1 s2 s3 : S) (g : Nat → PyStr) (Dom : Nat → Prop),
    tk.encode tk.init (.str p) = (s1, .ok ep) ∧ tk.encode s1 (.str c) = (s2, .ok ec) ∧
    tk.encode s2 (.str o) = (s3, .ok eo) ∧ DecodeHom tk s3 Text.str g Dom ∧
    ((∀ t ∈ ep, Dom t) ∧ (∀ t ∈ ec, Dom t) ∧ ∀ t ∈ eo, Dom t) ∧
    (ep.map g = qp ∧ ec.map g = qc ∧ eo.map g = qo) ∧ KeepsApart g (ep ++ ec ++ eo)

theorem DictLike.threePieces {encode : DictTok → Text → DictTok × Except PyErr (List Nat)}
    {Good : Text → Prop} {pieces : Text → List Text} (D : DictLike encode Good pieces)
    {tk : Tokenizer (List Nat) DictTok}
    (he : tk.encode = encode) (hdec : tk.decode = DictTok.decode) (hinit : tk.init = .new)
    {p c o : PyStr} (hp : Good (.str p)) (hc : Good (.str c)) (ho : Good (.str o))
    {qp qc qo : List PyStr} (ep : pieces (.str p) = qp.map .str) (ec : pieces (.str c) = qc.map .str)
    (eo : pieces (.str o) = qo.map .str) : ThreePieces tk p c o qp qc qo := by
  obtain ⟨tp, a1, a2, a3, a4, a5⟩ := D.encode_good DictInv.new hp rfl
  obtain ⟨tc, b1, b2, b3, b4, b5⟩ := D.encode_good a2.inv hc (by rw [a3]; rfl)
  obtain ⟨to, c1, c2, c3, c4, c5⟩ := D.encode_good b2.inv ho (by rw [b3]; rfl)
  have pair : ∀ {β γ : Type _} (r : β × γ) {v : γ}, r.2 = v → r = (r.1, v) := by
    intro β γ r v h; rw [← h]
  have p3 := table_map (b2.trans c2).tab a5
  have q3 := table_map c2.tab b5
  have H := dict_hom_str c2.inv c4 c3 (tk := tk) hdec
  have d1 := dict_in_table p3
  have d2 := dict_in_table q3
  have d3 := dict_in_table c5
  rw [ep] at p3
  rw [ec] at q3
  rw [eo] at c5
  refine ⟨tp, tc, to, (encode .new (.str p)).1, (encode (encode .new (.str p)).1 (.str c)).1, _, _, _,
    ?_, ?_, ?_, H, ⟨d1, d2, d3⟩, ⟨tableStr_map p3, tableStr_map q3, tableStr_map c5⟩, ?_⟩
  · rw [he, hinit]; exact pair _ a1
  · rw [he]; exact pair _ b1
  · rw [he]; exact pair _ c1
  · apply tableStr_inj c2.inv c3
    intro t ht
    simp only [List.mem_append] at ht
    rcases ht with (h | h) | h
    · exact d1 t h
    · exact d2 t h
    · exact d3 t h

theorem charThreePieces {p c o : PyStr} (hp : WellEncoded (.str p)) (hc : WellEncoded (.str c))
    (ho : WellEncoded (.str o)) : ThreePieces charTokenizer p c o (p.map ([·])) (c.map ([·]))
      (o.map ([·])) :=
  ⟨p, c, o, some .str, some .str, some .str, _, _,
    charTokenizer_str hp rfl, charTokenizer_str hc rfl, charTokenizer_str ho rfl, char_hom_str,
    ⟨hp, hc, ho⟩, ⟨rfl, rfl, rfl⟩, by intro x _ y _ e; simpa using e⟩

/-- The merge run in terms of pieces. -/
theorem mergeRun_pieces {S : Type _} {tk : Tokenizer (List Nat) S} (sp : Nat → Bool) {args : Args}
    (h : args.GitFile) (hd : args.diff = false) (pn cn on : PyStr) {p c o : PyStr}
    {qp qc qo : List PyStr} (T : ThreePieces tk p c o qp qc qo) :
    ∃ d out items, mergeTokenSequence .tuple qp qc qo = .ok d ∧
      TextsApart (d.map DiffItem.joined) ∧
      mergeRun tk sp args {} pn cn on p c o = ({}, out, none) ∧
      consolidatedLineDiff sp (d.map DiffItem.joined) = .ok items ∧
      ((∀ i ∈ items, i.WholeLines) ∨ items = [.text []]) ∧
      out.flatten = gitText (basename cn) (basename on) items := by
  obtain ⟨ep, ec, eo, s1, s2, s3, g, Dom, t1, t2, t3, H, ⟨d1, d2, d3⟩, ⟨rfl, rfl, rfl⟩, inj⟩ := T
  obtain ⟨d, out, items, h1, h2, h3, h4, h5, h6⟩ := mergeRun_git sp h hd pn cn on t1 t2 t3 H d2 d3
  refine ⟨d.map (DiffItem.rename g), out, items, ?_, ?_, h3, ?_, h5, h6⟩
  · rw [merge_renameOn .tuple inj, h1]; rfl
  · rw [← map_spell_eq_joined]; exact h2
  · rw [← map_spell_eq_joined]; exact h4

theorem mergeRun_pieces_resolved {S : Type _} {tk : Tokenizer (List Nat) S} (sp : Nat → Bool) {args : Args}
    (h : args.GitFile) (hd : args.diff = false) (pn cn on : PyStr) {p c o : PyStr}
    {qp qc qo : List PyStr} (T : ThreePieces tk p c o qp qc qo) :
    ∃ d out e, mergeTokenSequence .tuple qp qc qo = .ok d ∧ (e = [] ∨ e = [nl]) ∧
      mergeRun tk sp args {} pn cn on p c o = ({}, out, none) ∧
      (e = [] → Whole (intoText (d.map DiffItem.joined)) ∧ Whole (fromText (d.map DiffItem.joined))) ∧
      GitOutput (basename cn) (basename on) out (intoText (d.map DiffItem.joined) ++ e)
        (fromText (d.map DiffItem.joined) ++ e) := by
  obtain ⟨d, out, items, h1, h2, h3, h4, h5, h6⟩ := mergeRun_pieces sp h hd pn cn on T
  obtain ⟨items', j1, j2, j3⟩ := C45_consolidated_texts sp (d.map DiffItem.joined)
  rw [h4] at j1
  cases j1
  obtain ⟨e, e1, e2, e3, e4⟩ := (C45_line_diff_texts sp (d.map DiffItem.joined)).2 h2.fragments
  refine ⟨d, out, e, h1, e1, h3, e4, ?_⟩
  rw [← e2, ← e3, ← j2, ← j3]
  exact gitOutput_of h5 h6

theorem mergeRun_pieces_clean {S : Type _} {tk : Tokenizer (List Nat) S} (sp : Nat → Bool) {args : Args}
    (h : args.GitFile) (hd : args.diff = false) (pn cn on : PyStr) {p c o : PyStr}
    {qp qc qo m : List PyStr} (T : ThreePieces tk p c o qp qc qo)
    (hm : mergeTokenSequence .tuple qp qc qo = .ok [.common m]) :
    ∃ out, mergeRun tk sp args {} pn cn on p c o = ({}, out, none) ∧
      out.flatten = m.flatten ++ (if Whole m.flatten then [] else [nl]) := by
  obtain ⟨d, out, items, h1, h2, h3, h4, h5, h6⟩ := mergeRun_pieces sp h hd pn cn on T
  rw [hm] at h1
  cases h1
  obtain ⟨items', i1, i2⟩ := consolidated_single sp (basename cn) (basename on) m.flatten
  rw [show [DiffItem.common m].map DiffItem.joined = [.common m.flatten] from rfl, i1] at h4
  cases h4
  exact ⟨out, h3, by rw [h6, i2]⟩

/-! ## Diffs -/

theorem DictLike.diffPieces {encode : DictTok → Text → DictTok × Except PyErr (List Nat)}
    {Good : Text → Prop} {pieces : Text → List Text} (D : DictLike encode Good pieces)
    {tk : Tokenizer (List Nat) DictTok}
    (he : tk.encode = encode) (hdec : tk.decode = DictTok.decode) (hd : tk.diffSeq = diffInts)
    {st : DictTok} (I : DictInv st) {o m : PyStr} (ho : Good (.str o)) (hm : Good (.str m))
    (hw : wrongType st.src (.str o) = false) {qo qm : List PyStr}
    (po : pieces (.str o) = qo.map .str) (pm : pieces (.str m) = qm.map .str) :
    ∃ d, diffTokenSequences qo qm = some d ∧
      (tokDiff tk st (.str o) (.str m)).2 =
        .ok ((d.map DiffItem.joined).map (DiffItem.toItem Text.str), none) := by
  obtain ⟨eo, a1, a2, a3, a4, a5⟩ := D.encode_good I ho hw
  have hw2 : wrongType (encode st (.str o)).1.src (.str m) = false := by rw [a3]; rfl
  obtain ⟨em, b1, b2, b3, b4, b5⟩ := D.encode_good a2.inv hm hw2
  have a6 := table_map b2.tab a5
  have H := dict_hom_str b2.inv b4 b3 (tk := tk) hdec
  have d1 := dict_in_table a6
  have d2 := dict_in_table b5
  rw [po] at a6
  rw [pm] at b5
  have inj : KeepsApart (tableStr (encode (encode st (.str o)).1 (.str m)).1) (eo ++ em) := by
    apply tableStr_inj b2.inv b3
    intro t ht
    rcases List.mem_append.1 ht with h | h
    · exact d1 t h
    · exact d2 t h
  obtain ⟨d, hdiff, hi, hf⟩ := C09_diff_reconstructs eo em
  have hr := diff_renameOn inj
  rw [tableStr_map a6, tableStr_map b5, hdiff] at hr
  refine ⟨_, hr, ?_⟩
  have hdom : ∀ x ∈ d, ∀ t ∈ x.tokens, t < (encode (encode st (.str o)).1 (.str m)).1.table.length := by
    intro x hx t ht
    have : t ∈ intoText d ∨ t ∈ fromText d := by
      cases x with
      | common p =>
        left
        exact List.mem_flatMap.2 ⟨_, hx, by simpa [DiffItem.tokens] using ht⟩
      | change a b =>
        rcases (by simpa [DiffItem.tokens] using ht : t ∈ a ∨ t ∈ b) with h | h
        · left; exact List.mem_flatMap.2 ⟨_, hx, by simpa using h⟩
        · right; exact List.mem_flatMap.2 ⟨_, hx, by simpa using h⟩
    rw [hi, hf] at this
    rcases this with h | h
    · exact d2 t h
    · exact d1 t h
  have k2 := decodeChanges_spell H hdom
  have k1 : tk.diffSeq eo em = some (d.map (DiffItem.toItem id)) := by
    rw [hd, diffInts, hdiff]; rfl
  unfold tokDiff
  rw [he]
  clear H hdom inj hr a2 a3 a4 a5 a6 b2 b3 b4 b5 hw2 d1 d2
  change _ = _ at k2
  have e1 : encode st (.str o) = ((encode st (.str o)).1, .ok eo) := by rw [← a1]
  have e2 : encode (encode st (.str o)).1 (.str m) =
      ((encode (encode st (.str o)).1 (.str m)).1, .ok em) := by rw [← b1]
  rw [e1]
  dsimp only
  rw [e2]
  dsimp only
  simp only [k1]
  rw [k2]
  congr 3
  exact map_spell_eq_joined _ d

end Gaspra
