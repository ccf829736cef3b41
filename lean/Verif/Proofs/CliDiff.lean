import Verif.Proofs.Rich
import Verif.Props.Rename

set_option linter.unusedSectionVars false
set_option linter.unusedSimpArgs false
set_option linter.unusedVariables false

/-! # Proofs about diffs shown by the command line tools -/

namespace Gaspra

theorem alternating_joined : ∀ {d : List (DiffItem PyStr)}, Alternating d →
    Alternating (d.map DiffItem.joined)
  | [], _ => trivial
  | [_], _ => trivial
  | x :: y :: d, h => by
    refine ⟨?_, alternating_joined (d := y :: d) h.2⟩
    have := h.1
    cases x <;> cases y <;> simpa [DiffItem.joined, DiffItem.isChange] using this

/-- A diff of tokens, decoded, is the diff of the pieces. -/
theorem diff_decoded {S : Type _} {tk : Tokenizer (List Nat) S} {st : S} {g : Nat → PyStr}
    {Dom : Nat → Prop} (H : DecodeHom tk st Text.str g Dom) {eo em : List Nat}
    (d1 : ∀ t ∈ eo, Dom t) (d2 : ∀ t ∈ em, Dom t) (inj : KeepsApart g (eo ++ em)) :
    ∃ d d', diffTokenSequences eo em = some d ∧ diffTokenSequences (eo.map g) (em.map g) = some d' ∧
      decodeChanges tk st (d.map (DiffItem.toItem id)) =
        ((d'.map DiffItem.joined).map (DiffItem.toItem Text.str), none) := by
  obtain ⟨d, hdiff, hi, hf⟩ := C09_diff_reconstructs eo em
  have hr := diff_renameOn inj
  rw [hdiff] at hr
  refine ⟨d, _, hdiff, hr, ?_⟩
  have hdom : ∀ x ∈ d, ∀ t ∈ x.tokens, Dom t := by
    intro x hx t ht
    have : t ∈ intoText d ∨ t ∈ fromText d := by
      cases x with
      | common p =>
        left
        exact List.mem_flatMap.2 ⟨_, hx, by simpa [DiffItem.tokens] using ht⟩
      | change a b =>
        rcases (by simpa [DiffItem.tokens] using ht : t ∈ a ∨ t ∈ b) with h | h
        · left; exact List.mem_flatMap.2 ⟨_, hx, by simpa using h⟩
        · right; exact List.mem_flatMap.2 ⟨_, hx, by simpa using h⟩
    rw [hi, hf] at this
    rcases this with h | h
    · exact d2 t h
    · exact d1 t h
  rw [decodeChanges_spell H hdom, map_spell_eq_joined]

/-- `diff` of two texts in terms of pieces. -/
def DiffPieces {S : Type _} (tk : Tokenizer (List Nat) S) (o m : PyStr) (qo qm : List PyStr) : Prop :=
  ∃ d, diffTokenSequences qo qm = some d ∧
    (tokDiff tk tk.init (.str o) (.str m)).2 =
      .ok ((d.map DiffItem.joined).map (DiffItem.toItem Text.str), none)

theorem charDiffPieces {o m : PyStr} (ho : ValidStr o) (hm : ValidStr m) :
    DiffPieces charTokenizer o m (o.map ([·])) (m.map ([·])) := by
  obtain ⟨d, d', h1, h2, h3⟩ := diff_decoded char_hom_str (eo := o) (em := m) ho hm
    (by intro x _ y _ e; simpa using e)
  refine ⟨d', h2, ?_⟩
  unfold tokDiff
  rw [show charTokenizer.init = none from rfl, charTokenizer_str ho rfl]
  dsimp only
  rw [charTokenizer_str hm rfl]
  dsimp only
  rw [show charTokenizer.diffSeq o m = some (d.map (DiffItem.toItem id)) by
    show diffInts o m = _
    rw [diffInts, h1]; rfl]
  dsimp only
  rw [h3]

theorem diffCli_eq (cls sp : Nat → Bool) (args : Args) (t : Tables) (on mn : PyStr) {o m : PyStr}
    {qo qm : List PyStr} (ho : CliPieces cls args o qo) (hm : CliPieces cls args m qm) :
    ∃ (S : Type) (tk : Tokenizer (List Nat) S),
      diffCli cls sp args t on mn o m = diffRun tk sp args t on mn o m ∧ DiffPieces tk o m qo qm := by
  unfold CliPieces at ho hm
  unfold diffCli
  have first : ∀ x : Text, FirstCallLike x [] := by intro x y hy; simp at hy
  by_cases hw : args.words = true
  · rw [if_pos hw] at ho hm ⊢
    exact ⟨_, _, rfl, C67_symbol_diff (before := []) (first _) ho hm⟩
  · rw [if_neg hw] at ho hm ⊢
    by_cases hl : args.lines = true
    · rw [if_pos hl] at ho hm ⊢
      exact ⟨_, _, rfl, C67_line_diff (before := []) (first _) ho hm⟩
    · rw [if_neg hl] at ho hm ⊢
      obtain ⟨rfl, ho⟩ := ho
      obtain ⟨rfl, hm⟩ := hm
      exact ⟨_, _, rfl, charDiffPieces ho hm⟩

theorem diffCli_display (cls sp : Nat → Bool) (args : Args) (t : Tables) (on mn : PyStr) {o m : PyStr}
    {qo qm : List PyStr} (ho : CliPieces cls args o qo) (hm : CliPieces cls args m qm) :
    ∃ d, diffTokenSequences qo qm = some d ∧ Alternating (d.map DiffItem.joined) ∧
      diffCli cls sp args t on mn o m = ((getMarkupStyle args true t).1,
        displayChanges sp (getMarkupStyle args true t).2 args
          ((d.map DiffItem.joined).map (DiffItem.toItem Text.str), none)
          (getEscape args mn) (getEscape args on) []) := by
  obtain ⟨S, tk, h1, d, h2, h3⟩ := diffCli_eq cls sp args t on mn ho hm
  obtain ⟨d', h4, _, h5⟩ := C12_diff_normal_form qo qm
  rw [h2] at h4
  cases h4
  refine ⟨d, h2, alternating_joined h5, ?_⟩
  rw [h1]
  simp only [diffRun, h3]

/-! ## `gaspra-merge --diff` -/

theorem mergeCli_eq' (cls sp : Nat → Bool) (args : Args) (t : Tables) (pn cn on : PyStr) {p c o : PyStr}
    {qp qc qo : List PyStr} (hp : CliPieces cls args p qp) (hc : CliPieces cls args c qc)
    (ho : CliPieces cls args o qo) : ∃ (S : Type) (tk : Tokenizer (List Nat) S),
      mergeCli cls sp args t pn cn on p c o = mergeRun tk sp args t pn cn on p c o ∧
      ThreePieces tk p c o qp qc qo ∧ tk.diffSeq = diffInts := by
  unfold CliPieces at hp hc ho
  unfold mergeCli
  by_cases hw : args.words = true
  · rw [if_pos hw] at hp hc ho ⊢
    exact ⟨_, _, rfl, (symbolLike cls).threePieces rfl rfl rfl trivial trivial trivial
      (symbolTokens_of hp) (symbolTokens_of hc) (symbolTokens_of ho), rfl⟩
  · rw [if_neg hw] at hp hc ho ⊢
    by_cases hl : args.lines = true
    · rw [if_pos hl] at hp hc ho ⊢
      exact ⟨_, _, rfl, lineLike.threePieces rfl rfl rfl trivial trivial trivial
        (lineTokens_of hp) (lineTokens_of hc) (lineTokens_of ho), rfl⟩
    · rw [if_neg hl] at hp hc ho ⊢
      obtain ⟨rfl, hp⟩ := hp
      obtain ⟨rfl, hc⟩ := hc
      obtain ⟨rfl, ho⟩ := ho
      exact ⟨_, _, rfl, charThreePieces hp hc ho, rfl⟩

theorem KeepsApart.sub {α β : Type _} {f : α → β} {l l' : List α} (h : KeepsApart f l)
    (hs : ∀ x ∈ l', x ∈ l) : KeepsApart f l' :=
  fun x hx y hy => h x (hs x hx) y (hs y hy)

/-- The three parts of a run with `--diff`. -/
theorem mergeCli_diff (cls sp : Nat → Bool) {args : Args} (hd : args.diff = true) (t : Tables)
    (pn cn on : PyStr) {p c o : PyStr}
    {qp qc qo : List PyStr} (hp : CliPieces cls args p qp) (hc : CliPieces cls args c qc)
    (ho : CliPieces cls args o qo) :
    ∃ d0 d1 d, diffTokenSequences qp qc = some d0 ∧ diffTokenSequences qp qo = some d1 ∧
      mergeTokenSequence .tuple qp qc qo = .ok d ∧ TextsApart (d.map DiffItem.joined) ∧
      (let items := fun (d : List (DiffItem PyStr)) =>
        ((d.map DiffItem.joined).map (DiffItem.toItem Text.str), (none : Option PyErr))
      let style := getMarkupStyle args true t
      let style' := getMarkupStyle args false style.1
      mergeCli cls sp args t pn cn on p c o =
        match andThen (displayChanges sp style.2 args (items d0) cn pn cn)
            (displayChanges sp style.2 args (items d1) on pn on) with
        | (out, some e) => (style.1, out, some e)
        | (out, none) => (style'.1, andThen (out, none)
            (displayChanges sp style'.2 args (items d) cn on (lit "Merged")))) := by
  obtain ⟨S, tk, e, T, hdiff⟩ := mergeCli_eq' cls sp args t pn cn on hp hc ho
  have T' := T
  obtain ⟨ep, ec, eo, s1, s2, s3, g, Dom, t1, t2, t3, H, ⟨e1, e2, e3⟩, ⟨rfl, rfl, rfl⟩, inj⟩ := T
  obtain ⟨d0, d0', a1, a2, a3⟩ := diff_decoded H e1 e2 (inj.sub fun x hx => by
    simp only [List.mem_append] at hx ⊢; exact .inl hx)
  obtain ⟨d1, d1', b1, b2, b3⟩ := diff_decoded H e1 e3 (inj.sub fun x hx => by
    simp only [List.mem_append] at hx ⊢
    rcases hx with h | h
    · exact .inl (.inl h)
    · exact .inr h)
  obtain ⟨d, _, m1, _⟩ := C22_no_exception ep ec eo
  have hn := C17_merge_normal_form m1
  have ht := (C19_tokens m1 a1 b1).1
  have hdom : ∀ x ∈ d, ∀ t ∈ x.tokens, Dom t := by
    intro x hx t htx
    rcases ht t ⟨x, hx, htx⟩ with h | h
    · exact e2 t h
    · exact e3 t h
  refine ⟨d0', d1', d.map (DiffItem.rename g), a2, b2, ?_, ?_, ?_⟩
  · rw [merge_renameOn .tuple inj, m1]; rfl
  · rw [← map_spell_eq_joined]
    rcases hn with rfl | ⟨_, hn⟩
    · trivial
    · exact mergeNormal_apart g hn
  · rw [e]
    dsimp only
    rw [← map_spell_eq_joined]
    have k1 : tk.diffSeq ep ec = some (d0.map (DiffItem.toItem id)) := by
      rw [hdiff, diffInts, a1]; rfl
    have k2 : tk.diffSeq ep eo = some (d1.map (DiffItem.toItem id)) := by
      rw [hdiff, diffInts, b1]; rfl
    simp only [mergeRun, t1, t2, t3, hd, if_true, mergeItems, m1,
      decodeChanges_spell H hdom, k1, k2, a3, b3]
    generalize andThen (displayChanges sp _ args _ cn pn cn) (displayChanges sp _ args _ on pn on) = r
    obtain ⟨out, e⟩ := r
    cases e <;> rfl

theorem displayChanges_header {sp : Nat → Bool} {style : Style × Style} {args : Args}
    {items : List (Item Text)} {b0 b1 : PyStr} {out : List PyStr}
    (h : displayChanges sp style args (items, none) b0 b1 [] = (out, none)) (header : PyStr) :
    displayChanges sp style args (items, none) b0 b1 header =
      ((if (basename header).isEmpty then [] else [showHeader style.1 (basename header)]) ++ out, none) := by
  unfold displayChanges at h ⊢
  dsimp only at h ⊢
  split at h
  · simp at h
  · next stream he =>
    simp only [display, markupChanges, basename_nil, List.isEmpty_nil, if_true, List.nil_append] at h ⊢
    simp only [Prod.mk.injEq] at h
    rw [h.1, h.2]

end Gaspra
