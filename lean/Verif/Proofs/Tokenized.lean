import Verif.Proofs.Patch
import Verif.Proofs.Serialize
import Verif.Spec.Versions

set_option linter.unusedSectionVars false
set_option linter.unusedSimpArgs false
set_option linter.unusedVariables false

/-! # Deltas through a tokenizer -/

namespace Gaspra

/-- What a tokenizer must satisfy for the version store to work: it cuts a text into nonempty
pieces, numbers them consistently, and cuts any run of consecutive pieces the same way again. -/
structure LawfulTok {Tok S : Type _} (tk : TokOps Tok S) (P : Type _) (Ok : Bytes → Prop) where
  text : P → Bytes
  split : Bytes → List P
  Inv : S → Prop
  Ready : S → Prop
  den : S → Tok → Option P
  init_inv : Inv tk.init
  encode_ok : ∀ {st b}, Inv st → Ok b → ∃ toks st', tk.encode st b = .ok (toks, st') ∧ Inv st' ∧
    Ready st' ∧ toks.map (den st') = (split b).map some ∧
    ∀ t p, den st t = some p → den st' t = some p
  decode_ok : ∀ {st : S} {toks : List Tok} {ps : List P}, Inv st → Ready st → toks.map (den st) = ps.map some →
    tk.decode st toks = .ok (ps.flatMap text)
  split_text : ∀ {b}, Ok b → (split b).flatMap text = b
  text_ne : ∀ {b p}, Ok b → p ∈ split b → text p ≠ []
  sub_ok : ∀ {b l m r}, Ok b → split b = l ++ m ++ r → Ok (m.flatMap text)
  sub_split : ∀ {b l m r}, Ok b → split b = l ++ m ++ r → split (m.flatMap text) = m

variable {Tok S P : Type _} [DecidableEq Tok] {tk : TokOps Tok S} {Ok : Bytes → Prop}

/-- A patch on pieces as a patch on bytes. -/
def textItem (text : P → Bytes) : PatchItem P → PatchItem UInt8
  | .slice sl => .slice sl
  | .piece p => .piece (p.flatMap text)

/-- Item by item, the tokens denote the pieces. -/
def RelItems (den : Tok → Option P) : List (PatchItem Tok) → List (PatchItem P) → Prop
  | [], [] => True
  | .slice s :: r, .slice s' :: r' => s = s' ∧ RelItems den r r'
  | .piece p :: r, .piece q :: r' => p.map den = q.map some ∧ RelItems den r r'
  | _, _ => False

theorem map_some_inj {α : Type _} {l l' : List α} (h : l.map some = l'.map some) : l = l' :=
  (List.map_inj_right (fun _ _ h => Option.some.inj h)).1 h

theorem relItems_apply {den : Tok → Option P} {v : List Tok} {w : List P}
    (hv : v.map den = w.map some) : ∀ {items : List (PatchItem Tok)} {Q : List (PatchItem P)},
    RelItems den items Q → (applyPatch items v).map den = (applyPatch Q w).map some
  | [], [], _ => by simp [applyPatch, joinChanges]
  | .slice s :: r, .slice s' :: r', ⟨h1, h2⟩ => by
    have ih := relItems_apply hv h2
    subst h1
    simp only [applyPatch, joinChanges, List.map_cons, List.flatten_cons, List.map_append] at ih ⊢
    rw [ih]
    congr 1
    simp only [Slice.get]
    split <;> simp [List.map_take, List.map_drop, hv]
  | .piece p :: r, .piece q :: r', ⟨h1, h2⟩ => by
    have ih := relItems_apply hv h2
    simp only [applyPatch, joinChanges, List.map_cons, List.flatten_cons, List.map_append] at ih ⊢
    rw [ih, h1]
  | [], .slice _ :: _, h => h.elim
  | [], .piece _ :: _, h => h.elim
  | .slice _ :: _, [], h => h.elim
  | .piece _ :: _, [], h => h.elim
  | .slice _ :: _, .piece _ :: _, h => h.elim
  | .piece _ :: _, .slice _ :: _, h => h.elim

theorem relItems_mono {den den' : Tok → Option P} (hm : ∀ t p, den t = some p → den' t = some p) :
    ∀ {items : List (PatchItem Tok)} {Q : List (PatchItem P)},
    RelItems den items Q → RelItems den' items Q
  | [], [], _ => trivial
  | .slice s :: r, .slice s' :: r', ⟨h1, h2⟩ => ⟨h1, relItems_mono hm h2⟩
  | .piece p :: r, .piece q :: r', ⟨h1, h2⟩ => ⟨by
      rw [← h1]
      apply List.map_congr_left
      intro t ht
      have : den t ∈ p.map den := List.mem_map_of_mem ht
      rw [h1] at this
      obtain ⟨x, _, hx⟩ := List.mem_map.1 this
      rw [← hx, hm t x hx.symm], relItems_mono hm h2⟩
  | [], .slice _ :: _, h => h.elim
  | [], .piece _ :: _, h => h.elim
  | .slice _ :: _, [], h => h.elim
  | .piece _ :: _, [], h => h.elim
  | .slice _ :: _, .piece _ :: _, h => h.elim
  | .piece _ :: _, .slice _ :: _, h => h.elim

theorem map_den_mono {den den' : Tok → Option P} (hm : ∀ t p, den t = some p → den' t = some p)
    {l : List Tok} {q : List P} (h : l.map den = q.map some) : l.map den' = q.map some := by
  have := relItems_mono hm (items := [.piece l]) (Q := [.piece q]) ⟨h, trivial⟩
  exact this.1

/-- Well-formed items on tokens denote well-formed items on pieces. -/
theorem relItems_exists {den : Tok → Option P} {ea eb : List Tok} {sa sb : List P}
    (ha : ea.map den = sa.map some) (hb : eb.map den = sb.map some) :
    ∀ (items : List (PatchItem Tok)), (∀ c ∈ items, c.WellFormed ea eb) →
    ∃ Q, RelItems den items Q ∧ ∀ c ∈ Q, c.WellFormed sa sb
  | [], _ => ⟨[], trivial, by simp⟩
  | .slice s :: r, h => by
    obtain ⟨Q, h1, h2⟩ := relItems_exists ha hb r fun c hc => h c (by simp [hc])
    refine ⟨.slice s :: Q, ⟨rfl, h1⟩, ?_⟩
    intro c hc
    rcases List.mem_cons.1 hc with rfl | hc
    · obtain ⟨e, h3, h4, h5⟩ := h (.slice s) (by simp)
      have : ea.length = sa.length := by simpa using congrArg List.length ha
      exact ⟨e, h3, h4, this ▸ h5⟩
    · exact h2 c hc
  | .piece p :: r, h => by
    obtain ⟨Q, h1, h2⟩ := relItems_exists ha hb r fun c hc => h c (by simp [hc])
    obtain ⟨h3, l, r', h4⟩ := h (.piece p) (by simp)
    rw [← h4, List.map_append, List.map_append] at hb
    obtain ⟨q1, q2, e1, e2, e3⟩ := List.map_eq_append_iff.1 hb.symm
    obtain ⟨q3, q4, e4, e5, e6⟩ := List.map_eq_append_iff.1 e2
    refine ⟨.piece q4 :: Q, ⟨e6.symm, h1⟩, ?_⟩
    intro c hc
    rcases List.mem_cons.1 hc with rfl | hc
    · refine ⟨?_, ⟨q3, q2, by rw [e1, e4]⟩⟩
      rintro rfl
      simp at e6
      exact h3 e6
    · exact h2 c hc

variable (L : LawfulTok tk P Ok)

theorem decodeItems_ok {st : S} (hi : L.Inv st) (hr : L.Ready st) :
    ∀ {items : List (PatchItem Tok)} {Q : List (PatchItem P)}, RelItems (L.den st) items Q →
    decodeItems tk st items = .ok (Q.map (textItem L.text))
  | [], [], _ => rfl
  | .slice s :: r, .slice s' :: r', ⟨h1, h2⟩ => by
    subst h1
    simp only [decodeItems, decodeItems_ok hi hr h2]
    rfl
  | .piece p :: r, .piece q :: r', ⟨h1, h2⟩ => by
    simp only [decodeItems, decodeItems_ok hi hr h2, L.decode_ok hi hr h1]
    rfl
  | [], .slice _ :: _, h => h.elim
  | [], .piece _ :: _, h => h.elim
  | .slice _ :: _, [], h => h.elim
  | .piece _ :: _, [], h => h.elim
  | .slice _ :: _, .piece _ :: _, h => h.elim
  | .piece _ :: _, .slice _ :: _, h => h.elim

theorem encodeItems_ok {b : Bytes} (hb : Ok b) {sa : List P} :
    ∀ {Q : List (PatchItem P)} {st : S}, L.Inv st →
    (∀ c ∈ Q, c.WellFormed sa (L.split b)) →
    ∃ items st', encodeItems tk st (Q.map (textItem L.text)) = .ok (items, st') ∧
      RelItems (L.den st') items Q ∧ L.Inv st' ∧ (L.Ready st → L.Ready st') ∧
      ∀ t p, L.den st t = some p → L.den st' t = some p
  | [], st, hi, _ => ⟨[], st, rfl, trivial, hi, id, fun _ _ h => h⟩
  | .slice s :: Q, st, hi, h => by
    obtain ⟨items, st', h1, h2, h3, h4, h5⟩ := encodeItems_ok hb (Q := Q) hi
      fun c hc => h c (by simp [hc])
    refine ⟨.slice s :: items, st', ?_, ⟨rfl, h2⟩, h3, h4, h5⟩
    simp only [List.map_cons, textItem, encodeItems, h1]
    rfl
  | .piece q :: Q, st, hi, h => by
    obtain ⟨hq, l, r, hlr⟩ := h (.piece q) (by simp)
    have ok := L.sub_ok hb hlr.symm
    have sp := L.sub_split hb hlr.symm
    obtain ⟨toks, st1, g1, g2, g3, g4, g5⟩ := L.encode_ok hi ok
    rw [sp] at g4
    obtain ⟨items, st', h1, h2, h3, h4, h5⟩ := encodeItems_ok hb (Q := Q) g2
      fun c hc => h c (by simp [hc])
    refine ⟨.piece toks :: items, st', ?_, ⟨map_den_mono h5 g4, h2⟩, h3, fun _ => h4 g3,
      fun t p hp => h5 t p (g5 t p hp)⟩
    simp only [List.map_cons, textItem, encodeItems, g1, h1]
    show (do
        let x ← encodeItems tk st1 (List.map (textItem L.text) Q)
        pure (PatchItem.piece toks :: x.1, x.2)) = _
    rw [h1]; rfl

/-- The items are a patch that leads from the text `a` to the text `b`. -/
def DeltaOK (a b : Bytes) (items : List (PatchItem UInt8)) : Prop :=
  ∃ Q : List (PatchItem P), items = Q.map (textItem L.text) ∧
    applyPatch Q (L.split a) = L.split b ∧ ∀ c ∈ Q, c.WellFormed (L.split a) (L.split b)

/-- The stored bytes are the serialization of such a patch. -/
def DeltaBytes (a b d : Bytes) : Prop :=
  ∃ items, deserializeChangeset d = (items, none) ∧ DeltaOK L a b items ∧
    makeChangeset tk a b = .ok items ∧ serializeChangeset items = .ok d

theorem makeChangeset_ok {a b : Bytes} (ha : Ok a) (hb : Ok b) :
    ∃ items, makeChangeset tk a b = .ok items ∧ DeltaOK L a b items := by
  obtain ⟨ea, st1, a1, a2, a3, a4, a5⟩ := L.encode_ok L.init_inv ha
  obtain ⟨eb, st2, b1, b2, b3, b4, b5⟩ := L.encode_ok a2 hb
  have a4' := map_den_mono b5 a4
  obtain ⟨cs, h, V⟩ := findChangeset_spec ea eb
  obtain ⟨hwf, _⟩ := V.patchForward (OccursAt.whole _) (OccursAt.whole _)
  obtain ⟨Q, h1, h2⟩ := relItems_exists a4' b4 _ hwf
  have h3 := relItems_apply a4' h1
  rw [V.applyPatchForward, b4] at h3
  refine ⟨Q.map (textItem L.text), ?_, Q, rfl, (map_some_inj h3).symm, h2⟩
  have hd := decodeItems_ok L b2 b3 h1
  simp only [makeChangeset, a1, bind, Except.bind, b1, h]
  exact hd

theorem length_le_flatMap {α β : Type _} (f : α → List β) : ∀ {l : List α},
    (∀ x ∈ l, f x ≠ []) → l.length ≤ (l.flatMap f).length
  | [], _ => by simp
  | a :: l, h => by
    have ih := length_le_flatMap f (l := l) fun x hx => h x (by simp [hx])
    have := List.length_pos_iff.2 (h a (by simp))
    simp only [List.flatMap_cons, List.length_cons, List.length_append]
    omega

theorem DeltaOK.fits {a b : Bytes} (ha : Ok a) (hb : Ok b) (hal : a.length < 2 ^ 64)
    (hbl : b.length < 2 ^ 64) {items : List (PatchItem UInt8)} (h : DeltaOK L a b items) :
    ∀ c ∈ items, c.Fits ∧ c.isNonempty = true := by
  obtain ⟨Q, rfl, _, hwf⟩ := h
  have hla : (L.split a).length ≤ a.length := by
    have := length_le_flatMap L.text (l := L.split a) fun x hx => L.text_ne ha hx
    rwa [L.split_text ha] at this
  intro c hc
  obtain ⟨c', hc', rfl⟩ := List.mem_map.1 hc
  cases c' with
  | slice sl =>
    obtain ⟨e, h1, h2, h3⟩ := hwf _ hc'
    refine ⟨⟨by omega, e, h1, by omega⟩, ?_⟩
    simp only [textItem, PatchItem.isNonempty, h1]
    simp; omega
  | piece q =>
    obtain ⟨h1, l, r, h2⟩ := hwf _ hc'
    have h3 : q.flatMap L.text <:+: b := by
      have := L.split_text hb
      rw [← h2, List.flatMap_append, List.flatMap_append] at this
      exact ⟨_, _, this⟩
    refine ⟨?_, ?_⟩
    · have := h3.length_le
      show (q.flatMap L.text).length < 2 ^ 64
      omega
    · have h4 : ∀ x ∈ q, L.text x ≠ [] := fun x hx => L.text_ne hb (by
        rw [← h2]; simp [hx])
      have := length_le_flatMap L.text h4
      have h5 := List.length_pos_iff.2 h1
      simp only [textItem, PatchItem.isNonempty, Bool.not_eq_true', List.isEmpty_eq_false_iff]
      intro e
      rw [e] at this
      simp only [List.length_nil] at this
      omega

theorem serializeDelta {a b : Bytes} (ha : Ok a) (hb : Ok b) (hal : a.length < 2 ^ 64)
    (hbl : b.length < 2 ^ 64) {items : List (PatchItem UInt8)} (h : DeltaOK L a b items)
    (hm : makeChangeset tk a b = .ok items) :
    ∃ d, serializeChangeset items = .ok d ∧ DeltaBytes L a b d := by
  have hf := h.fits L ha hb hal hbl
  have hs : serializeChangeset items = .ok (encAll true items) := by
    simpa [serializeChangeset] using serializeLoop_spec items true [] fun c hc => (hf c hc).1
  refine ⟨encAll true items, hs, items, ?_, h, hm, hs⟩
  · have := (deserialize_spec items true _ _ (fun c hc => (hf c hc).1) (List.prefix_refl _)
      (Nat.le_refl _)).2.2 rfl
    rw [List.filter_eq_self.2 fun c hc => (hf c hc).2] at this
    exact this

/-- The number of literally stored bytes does not exceed the length of the version. -/
theorem DeltaOK.literal_le {a b : Bytes} (hb : Ok b) {items : List (PatchItem UInt8)}
    (h : DeltaOK L a b items) : literalCount items ≤ b.length := by
  obtain ⟨Q, rfl, h1, h0⟩ := h
  have h2 := L.split_text hb
  rw [← h1] at h2
  rw [← h2]
  clear h0 h1 h2
  induction Q with
  | nil => simp [literalCount]
  | cons c Q ih =>
    cases c with
    | slice sl =>
      have e : applyPatch (.slice sl :: Q) (L.split a) =
        sl.get (L.split a) ++ applyPatch Q (L.split a) := by simp [applyPatch, joinChanges]
      rw [e, List.flatMap_append, List.length_append]
      simp only [List.map_cons, textItem, literalCount]; omega
    | piece p =>
      have e : applyPatch (.piece p :: Q) (L.split a) =
        p ++ applyPatch Q (L.split a) := by simp [applyPatch, joinChanges]
      rw [e, List.flatMap_append, List.length_append]
      simp only [List.map_cons, textItem, literalCount]; omega

/-- One step of `_retrieve_using_path`. -/
theorem retrieveStep {τ : Type _} [DecidableEq τ] {diffs : List (τ × Bytes)} {tag : τ}
    {a b d : Bytes} (hb : Ok b) (hd : dget diffs tag = some d) (hD : DeltaBytes L a b d) {st : S}
    {toks : List Tok} (hi : L.Inv st) (ht : toks.map (L.den st) = (L.split a).map some) :
    ∃ toks' st', retrieveLoop tk diffs st toks [tag] = .ok (toks', st') ∧ L.Inv st' ∧
      (L.Ready st → L.Ready st') ∧ toks'.map (L.den st') = (L.split b).map some := by
  obtain ⟨items, h1, ⟨Q, rfl, h2, h3⟩, _⟩ := hD
  obtain ⟨eitems, st', g1, g2, g3, g4, g5⟩ := encodeItems_ok L hb hi h3
  refine ⟨applyPatch eitems toks, st', ?_, g3, g4, ?_⟩
  · simp only [retrieveLoop, hd, h1, g1]
    rfl
  · rw [relItems_apply (map_den_mono g5 ht) g2, h2]

theorem retrieveLoop_append {τ : Type _} [DecidableEq τ] (diffs : List (τ × Bytes)) :
    ∀ (l l' : List τ) (st : S) (toks : List Tok),
    retrieveLoop tk diffs st toks (l ++ l') =
      match retrieveLoop tk diffs st toks l with
      | .error e => .error e
      | .ok (toks, st) => retrieveLoop tk diffs st toks l'
  | [], l', st, toks => by simp [retrieveLoop]
  | x :: l, l', st, toks => by
    simp only [List.cons_append, retrieveLoop]
    cases h : dget diffs x with
    | none => rfl
    | some d =>
      simp only
      cases h3 : encodeItems tk st (deserializeChangeset d).1 with
      | error e => rfl
      | ok r =>
        simp only [bind, Except.bind]
        cases h2 : (deserializeChangeset d).2 with
        | some e => rfl
        | none => exact retrieveLoop_append diffs l l' _ _

end Gaspra
