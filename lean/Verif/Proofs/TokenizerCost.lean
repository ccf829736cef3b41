import Verif.Model.TokenizerCost
import Verif.Spec.Counting
import Verif.Proofs.Tokenizers

/-! # Lemmas about the steps of tokenizers -/

set_option linter.unusedSectionVars false
set_option linter.unusedSimpArgs false

namespace Gaspra

variable {β : Type _} [DecidableEq β]

theorem numberTokensC_eq : ∀ (l : List β) (enc : List (β × Nat)),
    numberTokensC enc l = (numberTokens enc l, l.length)
  | [], enc => rfl
  | t :: l, enc => by
    simp only [numberTokensC, numberTokens, List.length_cons]
    split <;> rw [numberTokensC_eq l]

theorem lookupTokensC_fst (enc : List (β × Nat)) : ∀ (l : List β),
    (lookupTokensC enc l).1 = lookupTokens enc l
  | [] => rfl
  | t :: l => by
    simp only [lookupTokensC, lookupTokens]
    rw [← lookupTokensC_fst enc l]
    cases dget enc t with
    | none => rfl
    | some i => cases (lookupTokensC enc l).1 <;> rfl

theorem lookupTokensC_snd (enc : List (β × Nat)) : ∀ (l : List β),
    lookupTokens enc l ≠ none → (lookupTokensC enc l).2 = l.length
  | [], _ => rfl
  | t :: l, h => by
    simp only [lookupTokensC]
    simp only [lookupTokens] at h
    cases h1 : dget enc t with
    | none => rw [h1] at h; exact absurd rfl h
    | some i =>
      rw [h1] at h
      have : lookupTokens enc l ≠ none := by
        intro e; rw [e] at h; exact absurd rfl h
      simp [lookupTokensC_snd enc l this]

theorem decodingC_eq : ∀ (enc : List (β × Nat)), decodingC enc = (enc.map Prod.fst, enc.length)
  | [] => rfl
  | (k, i) :: enc => by simp [decodingC, decodingC_eq enc]

theorem numberC_fst (st : DictTok) (pieces : List Text) :
    (st.numberC pieces).1 = st.number pieces := by
  simp only [DictTok.numberC, DictTok.number, numberTokensC_eq, decodingC_eq]
  rw [← lookupTokensC_fst]
  cases h : lookupTokensC (numberTokens st.encoding pieces) pieces with
  | mk r n => cases r <;> rfl

theorem lineEncodeC_fst (st : DictTok) (x : Text) : (lineEncodeC st x).1 = lineEncode st x := by
  simp only [lineEncodeC, lineEncode]
  split
  · rfl
  · exact numberC_fst _ _

theorem symbolEncodeC_fst (cls : Nat → Bool) (st : DictTok) (x : Text) :
    (symbolEncodeC cls st x).1 = symbolEncode cls st x := by
  simp only [symbolEncodeC, symbolEncode]
  split
  · rfl
  · cases x with
    | bytes b =>
      dsimp only
      cases utf8Decode b with
      | none => rfl
      | some s =>
        dsimp only
        cases encodeAll (symbols cls s) with
        | none => rfl
        | some ps => exact numberC_fst _ _
    | str s => exact numberC_fst _ _

/-- The keys after numbering. -/
theorem numberTokens_keys {enc : List (β × Nat)} (h : NumOK enc) (ts : List β) :
    NumOK (numberTokens enc ts) ∧
      ∀ p, p ∈ (numberTokens enc ts).map Prod.fst ↔ p ∈ enc.map Prod.fst ∨ p ∈ ts := by
  obtain ⟨a1, ⟨more, a2, a4⟩, a3⟩ := numberTokens_spec ts h
  refine ⟨a1, fun p => ⟨fun hp => ?_, ?_⟩⟩
  · rw [a2] at hp
    rcases List.mem_append.1 hp with hp | hp
    · exact Or.inl hp
    · exact Or.inr (a4 p hp)
  · rintro (hp | hp)
    · rw [a2]; exact List.mem_append_left _ hp
    · exact a3 p hp

theorem numberC_snd {st : DictTok} (h : NumOK st.encoding) (pieces : List Text) :
    (st.numberC pieces).2 = 2 * pieces.length + (numberTokens st.encoding pieces).length := by
  obtain ⟨a1, a2⟩ := numberTokens_keys h pieces
  obtain ⟨toks, b1, _⟩ := lookupTokens_spec a1 (ts := pieces) fun t ht => (a2 t).2 (Or.inr ht)
  have b2 := lookupTokensC_snd (numberTokens st.encoding pieces) pieces (by rw [b1]; simp)
  have b3 := lookupTokensC_fst (numberTokens st.encoding pieces) pieces
  rw [b1] at b3
  simp only [DictTok.numberC, numberTokensC_eq, decodingC_eq]
  cases h : lookupTokensC (numberTokens st.encoding pieces) pieces with
  | mk r n =>
    rw [h] at b2 b3
    dsimp only at b2 b3
    subst b2 b3
    dsimp only
    omega

theorem numberC_table {st : DictTok} (h : NumOK st.encoding) (pieces : List Text) :
    (st.numberC pieces).1.1.encoding = numberTokens st.encoding pieces ∧
      (st.numberC pieces).1.1.src = st.src := by
  rw [numberC_fst]
  unfold DictTok.number
  dsimp only
  split <;> exact ⟨rfl, rfl⟩

section
variable {encode : DictTok → Text → DictTok × Except PyErr (List Nat)} {Good : Text → Prop}
  {pieces : Text → List Text} (D : DictLike encode Good pieces)
  {encodeC : DictTok → Text → (DictTok × Except PyErr (List Nat)) × Nat}

/-- The dictionary after calls with accepted contents has the pieces of these as its keys. -/
theorem calls_keys (D : DictLike encode Good pieces) {t : SrcType} :
    ∀ (calls : List Text) {st : DictTok}, NumOK st.encoding →
    (st.src = none ∨ st.src = some t) → (∀ y ∈ calls, Good y ∧ y.type = t) →
    NumOK (calls.foldl (fun st y => (encode st y).1) st).encoding ∧
    ((calls.foldl (fun st y => (encode st y).1) st).src = none ∨
      (calls.foldl (fun st y => (encode st y).1) st).src = some t) ∧
    ∀ p, p ∈ (calls.foldl (fun st y => (encode st y).1) st).encoding.map Prod.fst ↔
      p ∈ st.encoding.map Prod.fst ∨ ∃ y ∈ calls, p ∈ pieces y
  | [], st, h, hs, _ => ⟨h, hs, fun p => by simp⟩
  | y :: calls, st, h, hs, hc => by
    obtain ⟨g1, g2⟩ := hc y (by simp)
    have hw : wrongType st.src y = false := by
      rcases hs with e | e <;> simp [wrongType, e, g2]
    have e := D.good st y hw g1
    obtain ⟨k1, k2⟩ := numberC_table (st := { st with src := some y.type }) h (pieces y)
    rw [numberC_fst, ← e] at k1 k2
    obtain ⟨a1, a2⟩ := numberTokens_keys h (pieces y)
    obtain ⟨i1, i2, i3⟩ := calls_keys D calls (st := (encode st y).1) (by rw [k1]; exact a1)
      (Or.inr (by rw [k2, g2])) fun z hz => hc z (by simp [hz])
    refine ⟨i1, i2, fun p => ?_⟩
    rw [List.foldl_cons, i3, k1]
    show p ∈ (numberTokens st.encoding (pieces y)).map Prod.fst ∨ _ ↔ _
    rw [a2]
    simp only [List.mem_cons, exists_eq_or_imp, or_assoc]

end

end Gaspra
