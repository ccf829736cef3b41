import Verif.Model.OwnTokenizer
import Verif.Spec.OwnTokenizer
import Verif.Props.DBGuarantees

/-!
# C121: version stores with tokenizers of one's own
-/

set_option linter.unusedSectionVars false
set_option linter.unusedSimpArgs false
set_option linter.unusedVariables false

namespace Gaspra

section
variable {pieces : Text → List Text}

theorem pieceLike (h : StablePieces pieces) : DictLike (pieceEncode pieces) (fun _ => True) pieces where
  wrong := by intro st x h; simp [pieceEncode, h]
  good := by intro st x h _; simp [pieceEncode, h]
  bad := by intro st x _ h; exact absurd trivial h
  spells := fun x _ => h.lossless x

/-- The pieces of a text of bytes. -/
def bytePieces (pieces : Text → List Text) (b : Bytes) : List Bytes := (pieces (.bytes b)).map Text.theBytes

theorem bytePieces_eq (h : StablePieces pieces) (b : Bytes) :
    pieces (.bytes b) = (bytePieces pieces b).map .bytes ∧ (bytePieces pieces b).flatten = b := by
  obtain ⟨bs, h1, h2⟩ := h.lossless (.bytes b)
  have : bytePieces pieces b = bs := by
    rw [bytePieces, h1, List.map_map]
    exact (List.map_congr_left (fun _ _ => rfl)).trans (List.map_id' _)
  rw [this]
  exact ⟨h1, h2⟩

theorem bytePieces_ne (h : StablePieces pieces) {b p : Bytes} (hp : p ∈ bytePieces pieces b) : p ≠ [] := by
  rintro rfl
  obtain ⟨l, r, e⟩ := List.append_of_mem hp
  have h0 := (bytePieces_eq h b).1
  have h1 := h.again (l := l) (m := []) (r := [] :: r) (by rw [h0, e]; simp)
  have h2 := h.again (l := l) (m := [[]]) (r := r) (by rw [h0, e]; simp)
  rw [show ([[]] : List Bytes).flatten = ([] : List Bytes).flatten from rfl, h1] at h2
  simp at h2

/-- Such a tokenizer is lawful on all bytes. -/
def pieceLawful (h : StablePieces pieces) :
    LawfulTok (pieceTokenizer pieces).bytesOps Bytes (fun _ => True) where
  text p := p
  split := bytePieces pieces
  Inv st := DictInv st ∧ (st.src = none ∨ st.src = some .bytes)
  Ready st := st.decoding = some st.table ∧ st.src = some .bytes
  den st t := (st.table[t]?).map Text.theBytes
  init_inv := ⟨.new, Or.inl rfl⟩
  encode_ok := by
    rintro st b ⟨I, hst⟩ hb
    have hw : wrongType st.src (.bytes b) = false := by
      rcases hst with h | h <;> rw [h] <;> rfl
    obtain ⟨toks, h1, h2, h3, h4, h5⟩ := (pieceLike h).encode_good I (x := .bytes b) hb hw
    refine ⟨toks, (pieceEncode pieces st (.bytes b)).1, ?_, ⟨h2.inv, Or.inr h3⟩, ⟨h4, h3⟩, ?_, ?_⟩
    · simp only [Tokenizer.bytesOps, pieceTokenizer]
      generalize pieceEncode pieces st (.bytes b) = r at h1 ⊢
      obtain ⟨r1, r2⟩ := r
      simp only at h1
      subst h1; rfl
    · have := congrArg (List.map (Option.map Text.theBytes)) h5
      simp only [List.map_map] at this
      refine Eq.trans this ?_
      rw [bytePieces, List.map_map]
      apply List.map_congr_left
      intro p _; rfl
    · intro t p hp
      cases hq : st.table[t]? with
      | none => rw [hq] at hp; simp at hp
      | some q => rw [hq] at hp; rw [table_lookup h2.tab hq]; exact hp
  decode_ok := by
    rintro st toks ps ⟨I, _⟩ ⟨hd, hs⟩ h
    have hin : ∀ t ∈ toks, t < st.table.length := by
      intro t ht
      have : (st.table[t]?).map Text.theBytes ∈ ps.map some := by
        rw [← h]; exact List.mem_map.2 ⟨t, ht, rfl⟩
      obtain ⟨p, _, hp⟩ := List.mem_map.1 this
      cases hq : st.table[t]? with
      | none => rw [hq] at hp; simp at hp
      | some q => exact (List.getElem?_eq_some_iff.1 hq).1
    have := dict_hom_bytes I hd hs (tk := pieceTokenizer pieces) rfl toks hin
    simp only [Tokenizer.bytesOps, this]
    congr 1
    have e : toks.map (fun t => (st.table[t]?.getD (.bytes [])).theBytes) = ps := by
      apply map_some_inj
      rw [← h, List.map_map]
      apply List.map_congr_left
      intro t ht
      simp [List.getElem?_eq_getElem (hin t ht)]
    rw [List.flatMap_def, e, List.flatMap_def, List.map_id']
  split_text := by
    intro b _
    rw [List.flatMap_def, List.map_id']
    exact (bytePieces_eq h b).2
  text_ne := fun _ hp => bytePieces_ne h hp
  sub_ok := fun _ _ => trivial
  sub_split := by
    intro b l m r _ e
    rw [List.flatMap_def, List.map_id']
    have h1 := h.again (b := b) (l := l) (m := m) (r := r) (by rw [(bytePieces_eq h b).1, e])
    rw [bytePieces, h1, List.map_map]
    exact (List.map_congr_left (fun _ _ => rfl)).trans (List.map_id' _)

variable {τ : Type} [DecidableEq τ]

/-- C121.  With a tokenizer whose pieces are stable, additions never raise and every version is retrieved
exactly, however many deltas there are in between. -/
theorem C121_exact (hp : StablePieces pieces) {h : List (AddOp τ)} (G : GoodHistory h)
    (hc : ∀ a ∈ h, a.content.length < 2 ^ 64) :
    (∀ {h₁ a h₂}, h = h₁ ++ a :: h₂ →
      (versionsAdd (memoryTree τ) (pieceTokenizer pieces).bytesOps
        (runHistory (memoryTree τ) (pieceTokenizer pieces).bytesOps (emptyVersions τ) h₁)
        a.tag a.content a.base).2 = none) ∧
    ∀ a ∈ h, versionsGet (memoryTree τ) (pieceTokenizer pieces).bytesOps
      (runHistory (memoryTree τ) (pieceTokenizer pieces).bytesOps (emptyVersions τ) h) a.tag =
      .ok (some a.content) :=
  G.exact (pieceLawful hp) fun a ha => ⟨trivial, hc a ha⟩

/-- C121, the same in a database. -/
theorem C121_database (hp : StablePieces pieces) {h : List (AddOp τ)} (G : GoodHistory h)
    (hc : ∀ a ∈ h, a.content.length < 2 ^ 64) :
    storeErrors (collOps τ) (dbTree τ) (pieceTokenizer pieces).bytesOps (emptyDBStore τ) h =
      h.map (fun _ => none) ∧
    ∀ a ∈ h, allDBGet (pieceTokenizer pieces).bytesOps (allDBAfter (pieceTokenizer pieces).bytesOps h) a.tag =
      .ok (some a.content) := by
  constructor
  · rw [C104_same_errors _ G]
    exact runErrors_none fun e => (C121_exact hp G hc).1 e
  · intro a ha
    rw [((C104_same_store (pieceTokenizer pieces).bytesOps G.fresh).2.2 a.tag).1]
    exact (C121_exact hp G hc).2 a ha

end

/-! ### Lines -/

section
variable {β : Type _} [DecidableEq β]

/-- Lines that end with their only newline, the last one possibly without. -/
def FullLines (sep : β) (m : List (List β)) : Prop := ∀ p ∈ m, ∃ q, p = q ++ [sep] ∧ sep ∉ q

/-- The lines of a text without an empty last one. -/
def LinesCut (sep : β) (m : List (List β)) : Prop :=
  FullLines sep m ∨ ∃ m' x, m = m' ++ [x] ∧ FullLines sep m' ∧ x ≠ [] ∧ sep ∉ x

theorem filter_fullLines {sep : β} : ∀ {m : List (List β)}, FullLines sep m → m.filter (fun p => !p.isEmpty) = m := by
  intro m h
  rw [List.filter_eq_self]
  intro p hp
  obtain ⟨q, rfl, _⟩ := h p hp
  simp

/-- Only the last piece of the lines can be empty. -/
theorem cut_iff {sep : β} {b : List β} {ps : List (List β)} (h : IsLinesOf sep b ps) :
    LinesCut sep (ps.filter fun p => !p.isEmpty) ∧ (ps.filter fun p => !p.isEmpty).flatten = b := by
  obtain ⟨hf, init, last, rfl, hl, hi⟩ := h
  rw [List.filter_append, filter_fullLines (sep := sep) hi]
  cases last with
  | nil =>
    refine ⟨?_, by simpa using hf⟩
    simp only [List.isEmpty_nil, Bool.not_true, Bool.false_eq_true, not_false_eq_true, List.filter_cons_of_neg,
      List.filter_nil, List.append_nil]
    exact .inl hi
  | cons c last => exact ⟨.inr ⟨init, c :: last, by simp, hi, by simp, hl⟩, by simpa using hf⟩

theorem LinesCut.lines {sep : β} {m : List (List β)} (h : LinesCut sep m) :
    ∃ ps, IsLinesOf sep m.flatten ps ∧ ps.filter (fun p => !p.isEmpty) = m := by
  rcases h with h | ⟨m', x, rfl, h, hx, hs⟩
  · exact ⟨m ++ [[]], ⟨by simp, m, [], rfl, by simp, h⟩, by rw [List.filter_append, filter_fullLines h]; simp⟩
  · refine ⟨m' ++ [x], ⟨rfl, m', x, rfl, hs, h⟩, ?_⟩
    rw [List.filter_append, filter_fullLines h]
    cases x with
    | nil => exact absurd rfl hx
    | cons c x => simp

/-- Consecutive lines are lines. -/
theorem LinesCut.infix {sep : β} {l m r : List (List β)} (h : LinesCut sep (l ++ m ++ r)) : LinesCut sep m := by
  rcases h with h | ⟨m', x, e, h, hx, hs⟩
  · exact .inl fun p hp => h p (by simp [hp])
  · rcases List.eq_nil_or_concat r with rfl | ⟨r', y, rfl⟩
    · rcases List.eq_nil_or_concat m with rfl | ⟨m0, y, rfl⟩
      · exact .inl fun p hp => by simp at hp
      · rw [List.append_nil, List.concat_eq_append, ← List.append_assoc] at e
        obtain ⟨e1, e2⟩ := List.append_inj' e rfl
        cases e2
        exact .inr ⟨m0, x, by simp, fun p hp => h p (by rw [← e1]; simp [hp]), hx, hs⟩
    · rw [List.concat_eq_append, ← List.append_assoc] at e
      obtain ⟨e1, _⟩ := List.append_inj' e rfl
      exact .inl fun p hp => h p (by rw [← e1]; simp [hp])

end

theorem map_bytes_inj {a b : List Bytes} (h : a.map Text.bytes = b.map Text.bytes) : a = b :=
  (List.map_inj_right fun _ _ h => Text.bytes.inj h).1 h

/-- C121.  Lines without an empty last piece are stable. -/
theorem C121_cut_lines : StablePieces cutLines where
  lossless := by
    intro x
    cases x with
    | bytes b => exact ⟨_, rfl, (cut_iff (isLinesOf 10 b)).2⟩
    | str s => exact ⟨_, rfl, (cut_iff (isLinesOf nl s)).2⟩
  again := by
    intro b l m r h
    have h := map_bytes_inj h
    have hc := (cut_iff (isLinesOf 10 b)).1
    rw [h] at hc
    obtain ⟨ps, h1, h2⟩ := hc.infix.lines
    have := C39_lines_unique (isLinesOf 10 m.flatten) h1
    rw [cutLines, this, h2]

/-- C121.  `LineTokenizer` is such a tokenizer, and its pieces are not stable, as opposed to `cutLines`. -/
theorem C121_line_tokenizer : lineTokenizer = pieceTokenizer lineTokens ∧ ¬ StablePieces lineTokens ∧
    (∀ x, Spells x (lineTokens x)) ∧ ∀ b, lineTokens (.bytes b) = cutLines (.bytes b) ∨
      lineTokens (.bytes b) = cutLines (.bytes b) ++ [.bytes []] := by
  refine ⟨rfl, ?_, fun x => (isLines x).spells, ?_⟩
  · intro h
    have := h.again (b := [10]) (l := []) (m := [[10]]) (r := [[]]) (by decide +kernel)
    exact absurd this (by decide +kernel)
  · intro b
    obtain ⟨_, init, last, e, hl, hi⟩ := isLinesOf (10 : UInt8) b
    simp only [lineTokens, cutLines, e, List.filter_append, filter_fullLines (sep := (10 : UInt8)) hi]
    cases last with
    | nil => exact .inr (by simp)
    | cons c last => exact .inl (by simp)

/-- The history of `C43_whole_lines_wrong`, which `LineTokenizer` gets wrong. -/
example : ((linear ["a\n", "b\n", "a\nb\n", "b\n"]).map fun a =>
    versionsGet (memoryTree Nat) (pieceTokenizer cutLines).bytesOps
      (runHistory (memoryTree Nat) (pieceTokenizer cutLines).bytesOps (emptyVersions Nat)
        (linear ["a\n", "b\n", "a\nb\n", "b\n"])) a.tag) =
    (linear ["a\n", "b\n", "a\nb\n", "b\n"]).map fun a => .ok (some a.content) := by
  decide +kernel

end Gaspra
