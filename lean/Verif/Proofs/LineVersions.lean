import Verif.Proofs.TokenizerDiff
import Verif.Proofs.TokenizedHistory
import Verif.Proofs.DeltaSize

set_option linter.unusedSectionVars false
set_option linter.unusedSimpArgs false
set_option linter.unusedVariables false

/-! # Stores whose tokenizer does not cut a piece the same way again -/

namespace Gaspra

/-- Less than `LawfulTok`: decoding undoes encoding piece by piece, but pieces may be empty and a
run of pieces may be cut in another way when it is encoded again. -/
structure HomTok {Tok S : Type _} (tk : TokOps Tok S) (P : Type _) where
  text : P → Bytes
  split : Bytes → List P
  Inv : S → Prop
  Ready : S → Prop
  den : S → Tok → Option P
  init_inv : Inv tk.init
  encode_ok : ∀ {st b}, Inv st → ∃ toks st', tk.encode st b = .ok (toks, st') ∧ Inv st' ∧
    Ready st' ∧ toks.map (den st') = (split b).map some ∧
    ∀ t p, den st t = some p → den st' t = some p
  decode_ok : ∀ {st : S} {toks : List Tok} {ps : List P}, Inv st → Ready st →
    toks.map (den st) = ps.map some → tk.decode st toks = .ok (ps.flatMap text)
  split_text : ∀ b, (split b).flatMap text = b
  few : ∀ b, (split b).length ≤ b.length + 1

variable {τ Tok S P : Type _} [DecidableEq τ] [DecidableEq Tok] {tk : TokOps Tok S}

section
variable (L : HomTok tk P)

theorem HomTok.decodeItems_ok {st : S} (hi : L.Inv st) (hr : L.Ready st) :
    ∀ {items : List (PatchItem Tok)} {Q : List (PatchItem P)}, RelItems (L.den st) items Q →
    decodeItems tk st items = .ok (Q.map (textItem L.text))
  | [], [], _ => rfl
  | .slice s :: r, .slice s' :: r', ⟨h1, h2⟩ => by
    subst h1
    simp only [decodeItems, HomTok.decodeItems_ok hi hr h2]
    rfl
  | .piece p :: r, .piece q :: r', ⟨h1, h2⟩ => by
    simp only [decodeItems, HomTok.decodeItems_ok hi hr h2, L.decode_ok hi hr h1]
    rfl
  | [], .slice _ :: _, h => h.elim
  | [], .piece _ :: _, h => h.elim
  | .slice _ :: _, [], h => h.elim
  | .piece _ :: _, [], h => h.elim
  | .slice _ :: _, .piece _ :: _, h => h.elim
  | .piece _ :: _, .slice _ :: _, h => h.elim

theorem HomTok.makeChangeset_ok (a b : Bytes) : ∃ Q : List (PatchItem P),
    makeChangeset tk a b = .ok (Q.map (textItem L.text)) ∧
    applyPatch Q (L.split a) = L.split b ∧ ∀ c ∈ Q, c.WellFormed (L.split a) (L.split b) := by
  obtain ⟨ea, st1, a1, a2, a3, a4, a5⟩ := L.encode_ok (b := a) L.init_inv
  obtain ⟨eb, st2, b1, b2, b3, b4, b5⟩ := L.encode_ok (b := b) a2
  have a4' := map_den_mono b5 a4
  obtain ⟨cs, h, V⟩ := findChangeset_spec ea eb
  obtain ⟨hwf, _⟩ := V.patchForward (OccursAt.whole _) (OccursAt.whole _)
  obtain ⟨Q, h1, h2⟩ := relItems_exists a4' b4 _ hwf
  have h3 := relItems_apply a4' h1
  rw [V.applyPatchForward, b4] at h3
  refine ⟨Q, ?_, (map_some_inj h3).symm, h2⟩
  have hd := HomTok.decodeItems_ok L b2 b3 h1
  simp only [makeChangeset, a1, bind, Except.bind, b1, h]
  exact hd

/-- Item by item, the tokens spell the bytes. -/
def SpellItems (text : P → Bytes) (den : Tok → Option P) :
    List (PatchItem Tok) → List (PatchItem UInt8) → Prop
  | [], [] => True
  | .slice s :: r, .slice s' :: r' => s = s' ∧ SpellItems text den r r'
  | .piece p :: r, .piece q :: r' =>
    (∃ ps : List P, p.map den = ps.map some ∧ ps.flatMap text = q) ∧ SpellItems text den r r'
  | _, _ => False

theorem HomTok.encodeItems_ok : ∀ (items : List (PatchItem UInt8)) {st : S}, L.Inv st →
    ∃ eitems st', encodeItems tk st items = .ok (eitems, st') ∧
      SpellItems L.text (L.den st') eitems items ∧ L.Inv st' ∧ (L.Ready st → L.Ready st') ∧
      ∀ t p, L.den st t = some p → L.den st' t = some p
  | [], st, hi => ⟨[], st, rfl, trivial, hi, id, fun _ _ h => h⟩
  | .slice s :: Q, st, hi => by
    obtain ⟨items, st', h1, h2, h3, h4, h5⟩ := HomTok.encodeItems_ok Q hi
    refine ⟨.slice s :: items, st', ?_, ⟨rfl, h2⟩, h3, h4, h5⟩
    simp only [encodeItems, h1]
    rfl
  | .piece q :: Q, st, hi => by
    obtain ⟨toks, st1, g1, g2, g3, g4, g5⟩ := L.encode_ok (b := q) hi
    obtain ⟨items, st', h1, h2, h3, h4, h5⟩ := HomTok.encodeItems_ok Q g2
    refine ⟨.piece toks :: items, st', ?_,
      ⟨⟨_, map_den_mono h5 g4, L.split_text q⟩, h2⟩, h3, fun _ => h4 g3,
      fun t p hp => h5 t p (g5 t p hp)⟩
    simp only [encodeItems, g1, h1]
    show (do
        let x ← encodeItems tk st1 Q
        pure (PatchItem.piece toks :: x.1, x.2)) = _
    rw [h1]; rfl

/-- What a patch with literal bytes makes of a list of pieces. -/
def patchText (text : P → Bytes) (w : List P) : List (PatchItem UInt8) → Bytes
  | [] => []
  | .slice s :: r => (s.get w).flatMap text ++ patchText text w r
  | .piece q :: r => q ++ patchText text w r

theorem get_map {α β : Type _} (f : α → β) (s : Slice) (l : List α) :
    s.get (l.map f) = (s.get l).map f := by
  unfold Slice.get
  split <;> simp [List.map_take, List.map_drop]

theorem spellItems_apply {text : P → Bytes} {den : Tok → Option P} {v : List Tok} {w : List P}
    (hv : v.map den = w.map some) : ∀ {items : List (PatchItem Tok)} {Q : List (PatchItem UInt8)},
    SpellItems text den items Q →
    ∃ ps : List P, (applyPatch items v).map den = ps.map some ∧ ps.flatMap text = patchText text w Q
  | [], [], _ => ⟨[], by simp [applyPatch, joinChanges], rfl⟩
  | .slice s :: r, .slice s' :: r', ⟨h1, h2⟩ => by
    obtain ⟨ps, i1, i2⟩ := spellItems_apply hv h2
    subst h1
    have e : applyPatch (.slice s :: r) v = s.get v ++ applyPatch r v := by
      simp [applyPatch, joinChanges]
    refine ⟨s.get w ++ ps, ?_, by simp [patchText, i2]⟩
    rw [e, List.map_append, List.map_append, i1, ← get_map, ← get_map, hv]
  | .piece p :: r, .piece q :: r', ⟨⟨pp, h1, h3⟩, h2⟩ => by
    obtain ⟨ps, i1, i2⟩ := spellItems_apply hv h2
    have e : applyPatch (.piece p :: r) v = p ++ applyPatch r v := by
      simp [applyPatch, joinChanges]
    refine ⟨pp ++ ps, ?_, by simp [patchText, i2, h3]⟩
    rw [e, List.map_append, List.map_append, i1, h1]
  | [], .slice _ :: _, h => h.elim
  | [], .piece _ :: _, h => h.elim
  | .slice _ :: _, [], h => h.elim
  | .piece _ :: _, [], h => h.elim
  | .slice _ :: _, .piece _ :: _, h => h.elim
  | .piece _ :: _, .slice _ :: _, h => h.elim

theorem patchText_filter {text : P → Bytes} {w : List P} : ∀ {Q : List (PatchItem P)},
    (∀ s, PatchItem.slice s ∈ Q → s.stop ≠ some s.start) →
    patchText text w ((Q.map (textItem text)).filter (·.isNonempty)) =
      (applyPatch Q w).flatMap text
  | [], _ => by simp [patchText, applyPatch, joinChanges]
  | .slice s :: r, h => by
    have ih := patchText_filter (text := text) (w := w) (Q := r) fun s hs => h s (by simp [hs])
    have e : applyPatch (.slice s :: r) w = s.get w ++ applyPatch r w := by
      simp [applyPatch, joinChanges]
    have hn : (PatchItem.slice s : PatchItem UInt8).isNonempty = true := by
      have := h s (by simp)
      simpa [PatchItem.isNonempty] using this
    rw [List.map_cons, textItem, List.filter_cons, if_pos hn, e, List.flatMap_append, patchText, ih]
  | .piece p :: r, h => by
    have ih := patchText_filter (text := text) (w := w) (Q := r) fun s hs => h s (by simp [hs])
    have e : applyPatch (.piece p :: r) w = p ++ applyPatch r w := by
      simp [applyPatch, joinChanges]
    rw [List.map_cons, textItem, List.filter_cons, e, List.flatMap_append]
    split
    · rw [patchText, ih]
    · next hn =>
      have : p.flatMap text = [] := by simpa [PatchItem.isNonempty] using hn
      rw [this, ih, List.nil_append]

include L in
/-- A version that is one delta away from its head is retrieved exactly. -/
theorem HomTok.one_delta {T : Type _} {v : Versions τ T} {r t : τ} {a b d : Bytes}
    (ha : a.length + 1 < 2 ^ 64) (hb : b.length < 2 ^ 64) (hr : dget v.headVersion r = some a)
    (hd : dget v.diffs t = some d) {items : List (PatchItem UInt8)}
    (hm : makeChangeset tk a b = .ok items) (hs : serializeChangeset items = .ok d) :
    retrieveUsingPath tk v [r, t] = .ok b := by
  obtain ⟨Q, q1, q2, q3⟩ := HomTok.makeChangeset_ok L a b
  rw [q1] at hm; cases hm
  have fits : ∀ c ∈ Q.map (textItem L.text), c.Fits := by
    intro c hc
    obtain ⟨c', hc', rfl⟩ := List.mem_map.1 hc
    cases c' with
    | slice sl =>
      obtain ⟨e, h1, h2, h3⟩ := q3 _ hc'
      have := L.few a
      exact ⟨by omega, e, h1, by omega⟩
    | piece q =>
      obtain ⟨h1, l, r, h2⟩ := q3 _ hc'
      have h3 : q.flatMap L.text <:+: b := by
        have := L.split_text b
        rw [← h2, List.flatMap_append, List.flatMap_append] at this
        exact ⟨_, _, this⟩
      have := h3.length_le
      show (q.flatMap L.text).length < 2 ^ 64
      omega
  have hs' : serializeChangeset (Q.map (textItem L.text)) = .ok (encAll true (Q.map (textItem L.text))) := by
    simpa [serializeChangeset] using serializeLoop_spec _ true [] fits
  rw [hs'] at hs; cases hs
  have hdes := (deserialize_spec _ true _ _ fits (List.prefix_refl _) (Nat.le_refl _)).2.2 rfl
  have hdes' : deserializeChangeset (encAll true (Q.map (textItem L.text))) =
    ((Q.map (textItem L.text)).filter (·.isNonempty), none) := hdes
  obtain ⟨ea, st1, a1, a2, a3, a4, a5⟩ := L.encode_ok (b := a) L.init_inv
  obtain ⟨eit, st2, b1, b2, b3, b4, b5⟩ := HomTok.encodeItems_ok L
    ((Q.map (textItem L.text)).filter (·.isNonempty)) a2
  obtain ⟨ps, c1, c2⟩ := spellItems_apply (map_den_mono b5 a4) b2
  have e : ps.flatMap L.text = b := by
    rw [c2, patchText_filter, q2, L.split_text]
    intro s hs
    obtain ⟨e, h1, h2, h3⟩ := q3 _ hs
    rw [h1]; intro h; cases h; omega
  simp only [retrieveUsingPath, hr, a1, bind, Except.bind, retrieveLoop, hd, hdes', b1,
    L.decode_ok b3 (b4 a3) c1, e]

include L in
/-- A head is retrieved exactly. -/
theorem HomTok.no_delta {T : Type _} {v : Versions τ T} {r : τ} {a : Bytes}
    (hr : dget v.headVersion r = some a) : retrieveUsingPath tk v [r] = .ok a := by
  obtain ⟨ea, st1, a1, a2, a3, a4, a5⟩ := L.encode_ok (b := a) L.init_inv
  simp only [retrieveUsingPath, hr, a1, bind, Except.bind, retrieveLoop, L.decode_ok a2 a3 a4,
    L.split_text]

end

theorem pySplit_length {β : Type _} [DecidableEq β] (sep : β) : ∀ l : List β,
    (pySplit sep l).length ≤ l.length + 1
  | [] => by simp [pySplit]
  | c :: l => by
    have ih := pySplit_length sep l
    simp only [pySplit]
    split
    · simp; omega
    · split <;> simp_all <;> omega

theorem addSeps_length {β : Type _} (sep : β) : ∀ l : List (List β),
    (addSeps sep l).length = l.length
  | [] => rfl
  | [p] => rfl
  | p :: q :: ps => by simp [addSeps, addSeps_length sep (q :: ps)]

/-- `LineTokenizer`. -/
def lineHom : HomTok lineTokenizer.bytesOps Bytes where
  text p := p
  split b := addSeps 10 (pySplit 10 b)
  Inv st := DictInv st ∧ (st.src = none ∨ st.src = some .bytes)
  Ready st := st.decoding = some st.table ∧ st.src = some .bytes
  den st t := (st.table[t]?).map Text.theBytes
  init_inv := ⟨.new, Or.inl rfl⟩
  encode_ok := by
    rintro st b ⟨I, hst⟩
    have hw : wrongType st.src (.bytes b) = false := by
      rcases hst with h | h <;> rw [h] <;> rfl
    obtain ⟨toks, h1, h2, h3, h4, h5⟩ := lineLike.encode_good I (x := .bytes b) trivial hw
    refine ⟨toks, (lineEncode st (.bytes b)).1, ?_, ⟨h2.inv, Or.inr h3⟩, ⟨h4, h3⟩, ?_, ?_⟩
    · simp only [Tokenizer.bytesOps, lineTokenizer]
      generalize lineEncode st (.bytes b) = r at h1 ⊢
      obtain ⟨r1, r2⟩ := r
      simp only at h1
      subst h1; rfl
    · have := congrArg (List.map (Option.map Text.theBytes)) h5
      simp only [List.map_map, lineTokens] at this
      refine Eq.trans this ?_
      apply List.map_congr_left
      intro p _; rfl
    · intro t p hp
      cases hq : st.table[t]? with
      | none => rw [hq] at hp; simp at hp
      | some q => rw [hq] at hp; rw [table_lookup h2.tab hq]; exact hp
  decode_ok := by
    rintro st toks ps ⟨I, _⟩ ⟨hd, hs⟩ h
    have hin : ∀ t ∈ toks, t < st.table.length := by
      intro t ht
      have : (st.table[t]?).map Text.theBytes ∈ ps.map some := by
        rw [← h]; exact List.mem_map.2 ⟨t, ht, rfl⟩
      obtain ⟨p, _, hp⟩ := List.mem_map.1 this
      cases hq : st.table[t]? with
      | none => rw [hq] at hp; simp at hp
      | some q => exact (List.getElem?_eq_some_iff.1 hq).1
    have := dict_hom_bytes I hd hs (tk := lineTokenizer) rfl toks hin
    simp only [Tokenizer.bytesOps, this]
    congr 1
    have e : toks.map (fun t => (st.table[t]?.getD (.bytes [])).theBytes) = ps := by
      apply map_some_inj
      rw [← h, List.map_map]
      apply List.map_congr_left
      intro t ht
      simp [List.getElem?_eq_getElem (hin t ht)]
    rw [List.flatMap_def, e, List.flatMap_def, List.map_id']
  split_text b := by
    rw [List.flatMap_def, List.map_id']
    exact addSeps_flatten 10 b
  few b := by
    rw [addSeps_length]
    exact pySplit_length 10 b

/-! ### Stores that differ in their tokenizer only -/

/-- Same tree and same heads. -/
structure Twin {T : Type _} (v w : Versions τ T) : Prop where
  heads : v.headVersion = w.headVersion
  tree : v.tree = w.tree

section
variable {T Tok' S' : Type _} [DecidableEq Tok'] {ops : TreeOps τ T} {tk' : TokOps Tok' S'}
  {v w : Versions τ T}

theorem Twin.addEdge (h : Twin v w) {p c : τ} {cs cs' : List (PatchItem UInt8)}
    (h1 : (Gaspra.addEdge ops v p c cs).2 = none) (h2 : (Gaspra.addEdge ops w p c cs').2 = none) :
    Twin (Gaspra.addEdge ops v p c cs).1 (Gaspra.addEdge ops w p c cs').1 := by
  obtain ⟨a, b, t⟩ := v
  obtain ⟨a', b', t'⟩ := w
  obtain ⟨g1, g2⟩ := h
  dsimp only at g1 g2
  subst g1 g2
  unfold Gaspra.addEdge at *
  cases hs : serializeChangeset cs with
  | error e => rw [hs] at h1; cases h1
  | ok d =>
    cases hs' : serializeChangeset cs' with
    | error e => rw [hs'] at h2; cases h2
    | ok d' =>
      rw [hs] at h1; rw [hs'] at h2
      dsimp only at *
      cases hp : ops.changeParent t c p with
      | mk t' e =>
        rw [hp] at h1 h2
        cases e with
        | some e => cases h1
        | none =>
          dsimp only
          split <;> exact ⟨rfl, rfl⟩

theorem Twin.addSplit (h : Twin v w) {x y : τ} {b : Bytes} {path : List τ}
    (h1 : (Gaspra.addSplit ops tk v x b y path).2 = none)
    (h2 : (Gaspra.addSplit ops tk' w x b y path).2 = none) :
    Twin (Gaspra.addSplit ops tk v x b y path).1 (Gaspra.addSplit ops tk' w x b y path).1 := by
  unfold Gaspra.addSplit at *
  cases hr : retrieveUsingPath tk v path with
  | error e => rw [hr] at h1; cases h1
  | ok c =>
    cases hr' : retrieveUsingPath tk' w path with
    | error e => rw [hr'] at h2; cases h2
    | ok c' =>
      rw [hr] at h1; rw [hr'] at h2
      dsimp only at *
      cases hm : makeChangeset tk b c with
      | error e => rw [hm] at h1; cases h1
      | ok cs =>
        cases hm' : makeChangeset tk' b c' with
        | error e => rw [hm'] at h2; cases h2
        | ok cs' =>
          rw [hm] at h1; rw [hm'] at h2
          dsimp only at *
          have key := h.addEdge (ops := ops) (p := x) (c := y) (cs := cs) (cs' := cs')
          generalize Gaspra.addEdge ops v x y cs = r at *
          generalize Gaspra.addEdge ops w x y cs' = q at *
          obtain ⟨r1, r2⟩ := r
          obtain ⟨q1, q2⟩ := q
          cases r2 with
          | some e => cases h1
          | none =>
            cases q2 with
            | some e => cases h2
            | none =>
              have k := key rfl rfl
              exact ⟨k.heads, by dsimp only; rw [k.tree]⟩

theorem Twin.addOldHead (h : Twin v w) {x y : τ} {b : Bytes}
    (h1 : (Gaspra.addOldHead ops tk v x b y).2 = none)
    (h2 : (Gaspra.addOldHead ops tk' w x b y).2 = none) :
    Twin (Gaspra.addOldHead ops tk v x b y).1 (Gaspra.addOldHead ops tk' w x b y).1 := by
  unfold Gaspra.addOldHead at *
  rw [h.heads] at *
  cases hg : dget w.headVersion y with
  | none => rw [hg] at h1; cases h1
  | some c =>
    rw [hg] at h1 h2
    dsimp only at *
    cases hm : makeChangeset tk b c with
    | error e => rw [hm] at h1; cases h1
    | ok cs =>
      cases hm' : makeChangeset tk' b c with
      | error e => rw [hm'] at h2; cases h2
      | ok cs' =>
        rw [hm] at h1; rw [hm'] at h2
        exact h.addEdge h1 h2

theorem Twin.add (h : Twin v w) {x : τ} {b : Bytes} {hd : Option τ}
    (h1 : (versionsAdd ops tk v x b hd).2 = none)
    (h2 : (versionsAdd ops tk' w x b hd).2 = none) :
    Twin (versionsAdd ops tk v x b hd).1 (versionsAdd ops tk' w x b hd).1 := by
  unfold versionsAdd at *
  dsimp only at *
  rw [h.tree] at *
  cases ha : ops.add w.tree x hd with
  | mk t e =>
    rw [ha] at h1 h2
    cases e with
    | some e => cases h1
    | none =>
      dsimp only at *
      cases hd with
      | none => exact ⟨by rw [h.heads], rfl⟩
      | some y =>
        dsimp only [Gaspra.addToHead] at *
        have k : Twin (⟨dset v.headVersion x b, v.diffs, t⟩ : Versions τ T)
          ⟨dset w.headVersion x b, w.diffs, t⟩ := ⟨by rw [h.heads], rfl⟩
        cases hg : ops.getSplit t y with
        | error e => rw [hg] at h1; cases h1
        | ok sp =>
          obtain ⟨sp, path⟩ := sp
          rw [hg] at h1 h2
          dsimp only at *
          split at h1
          · next hne =>
            rw [if_pos hne] at h2
            rw [if_pos hne, if_pos hne]
            have key := k.addSplit (ops := ops) (tk := tk) (tk' := tk') (x := x) (b := b) (y := sp)
              (path := path)
            generalize Gaspra.addSplit ops tk _ x b sp path = r at *
            generalize Gaspra.addSplit ops tk' _ x b sp path = q at *
            obtain ⟨r1, r2⟩ := r
            obtain ⟨q1, q2⟩ := q
            cases r2 with
            | some e => cases h1
            | none =>
              cases q2 with
              | some e => cases h2
              | none => exact (key rfl rfl).addOldHead h1 h2
          · next hne =>
            rw [if_neg hne] at h2
            rw [if_neg hne, if_neg hne]
            exact k.addOldHead h1 h2

/-- What a successful `_add_edge` does. -/
theorem addEdge_out {p c : τ} {cs : List (PatchItem UInt8)}
    (h : (addEdge ops v p c cs).2 = none) : ∃ d, serializeChangeset cs = .ok d ∧
      (addEdge ops v p c cs).1.diffs = dset v.diffs c d ∧
      ∀ y, y ≠ c → dget (addEdge ops v p c cs).1.headVersion y = dget v.headVersion y := by
  unfold Gaspra.addEdge at *
  cases hs : serializeChangeset cs with
  | error e => rw [hs] at h; cases h
  | ok d =>
    rw [hs] at h
    dsimp only at *
    cases hp : ops.changeParent v.tree c p with
    | mk t' e =>
      rw [hp] at h
      cases e with
      | some e => cases h
      | none =>
        refine ⟨d, rfl, ?_, ?_⟩
        · dsimp only; split <;> rfl
        · intro y hy
          dsimp only
          split
          · exact dget_ddel_ne hy _
          · rfl

/-- What a successful `add` with a base does to the deltas. -/
theorem versionsAdd_out {x y : τ} {b : Bytes} (hxy : x ≠ y)
    (h : (versionsAdd ops tk v x b (some y)).2 = none) :
    ∃ t sp path c cs d, ops.add v.tree x (some y) = (t, none) ∧ ops.getSplit t y = .ok (sp, path) ∧
      dget v.headVersion y = some c ∧ makeChangeset tk b c = .ok cs ∧
      serializeChangeset cs = .ok d ∧
      dget (versionsAdd ops tk v x b (some y)).1.diffs y = some d ∧
      ∀ z, z ≠ y → z ≠ sp → dget (versionsAdd ops tk v x b (some y)).1.diffs z = dget v.diffs z := by
  unfold versionsAdd at *
  dsimp only at *
  cases ha : ops.add v.tree x (some y) with
  | mk t e =>
    rw [ha] at h
    cases e with
    | some e => cases h
    | none =>
      dsimp only [Gaspra.addToHead] at *
      cases hg : ops.getSplit t y with
      | error e => rw [hg] at h; cases h
      | ok sp =>
        obtain ⟨sp, path⟩ := sp
        rw [hg] at h
        dsimp only at *
        have last : ∀ u : Versions τ T, (Gaspra.addOldHead ops tk u x b y).2 = none →
            ∃ c cs d, dget u.headVersion y = some c ∧ makeChangeset tk b c = .ok cs ∧
              serializeChangeset cs = .ok d ∧
              (Gaspra.addOldHead ops tk u x b y).1.diffs = dset u.diffs y d := by
          intro u hu
          unfold Gaspra.addOldHead at *
          cases hc : dget u.headVersion y with
          | none => rw [hc] at hu; cases hu
          | some c =>
            rw [hc] at hu
            dsimp only at *
            cases hm : makeChangeset tk b c with
            | error e => rw [hm] at hu; cases hu
            | ok cs =>
              rw [hm] at hu
              obtain ⟨d, d1, d2, d3⟩ := addEdge_out (ops := ops) hu
              exact ⟨c, cs, d, rfl, hm, d1, d2⟩
        by_cases hne : sp ≠ y
        · rw [if_pos hne] at h
          rw [if_pos hne]
          cases hr : retrieveUsingPath tk (⟨dset v.headVersion x b, v.diffs, t⟩ : Versions τ T) path with
          | error e => simp only [Gaspra.addSplit, hr] at h; cases h
          | ok c =>
            cases hm : makeChangeset tk b c with
            | error e => simp only [Gaspra.addSplit, hr, hm] at h; cases h
            | ok cs =>
              simp only [Gaspra.addSplit, hr, hm] at h ⊢
              have key := addEdge_out (ops := ops) (v := ⟨dset v.headVersion x b, v.diffs, t⟩)
                (p := x) (c := sp) (cs := cs)
              generalize Gaspra.addEdge ops _ x sp cs = r at *
              obtain ⟨r1, r2⟩ := r
              cases r2 with
              | some e => cases h
              | none =>
                obtain ⟨d, d1, d2, d3⟩ := key rfl
                dsimp only at *
                cases hcp : (ops.changeParent r1.tree sp x).2 with
                | some e => rw [hcp] at h; cases h
                | none =>
                  rw [hcp] at h
                  dsimp only at *
                  obtain ⟨c', cs', d', e1, e2, e3, e4⟩ := last _ h
                  dsimp only at e1
                  rw [d3 y (Ne.symm hne), dget_dset, if_neg hxy] at e1
                  refine ⟨t, sp, path, c', cs', d', rfl, hg, e1, e2, e3, ?_, ?_⟩
                  · rw [e4, dget_dset, if_pos rfl]
                  · intro z z1 z2
                    rw [e4, dget_dset, if_neg (Ne.symm z1), d2, dget_dset, if_neg (Ne.symm z2)]
        · rw [if_neg hne] at h
          rw [if_neg hne]
          obtain ⟨c, cs, d, e1, e2, e3, e4⟩ := last _ h
          dsimp only at e1
          rw [dget_dset, if_neg hxy] at e1
          refine ⟨t, sp, path, c, cs, d, rfl, hg, e1, e2, e3, ?_, ?_⟩
          · rw [e4, dget_dset, if_pos rfl]
          · intro z z1 z2
            rw [e4, dget_dset, if_neg (Ne.symm z1)]

end

/-! ### The newest two versions of every branch -/

theorem runErrors_snoc {T : Type _} (ops : TreeOps τ T) (a : AddOp τ) :
    ∀ (h : List (AddOp τ)) (v : Versions τ T), runErrors ops tk v (h ++ [a]) =
      runErrors ops tk v h ++
        [(versionsAdd ops tk (runHistory ops tk v h) a.tag a.content a.base).2]
  | [], v => rfl
  | o :: h, v => by
    simp only [List.cons_append, runErrors, runHistory, List.foldl_cons]
    rw [runErrors_snoc ops a h]
    rfl

theorem runErrors_snoc_none {T : Type _} (ops : TreeOps τ T) {a : AddOp τ} {h : List (AddOp τ)}
    {v : Versions τ T} (e : runErrors ops tk v (h ++ [a]) = (h ++ [a]).map fun _ => none) :
    runErrors ops tk v h = h.map (fun _ => none) ∧
      (versionsAdd ops tk (runHistory ops tk v h) a.tag a.content a.base).2 = none := by
  rw [runErrors_snoc, List.map_append] at e
  have hl : (runErrors ops tk v h).length = (h.map fun _ => (none : Option PyErr)).length := by
    have := congrArg List.length e
    simpa using this
  obtain ⟨e1, e2⟩ := List.append_inj e hl
  exact ⟨e1, by simpa using e2⟩

/-- The store after the history `h`, compared with the store without a tokenizer: same tree, same
heads, and the delta of the base of every head is the difference of the two contents. -/
structure NewestOK (tk : TokOps Tok S) (h : List (AddOp τ)) (w : Versions τ (MTree τ)) : Prop where
  twin : Twin (runHistory (memoryTree τ) nullTok (emptyVersions τ) h) w
  last : ∀ a ∈ h, ∀ b, a.base = some b → IsHead h a.tag → ∃ nb items d,
    dget w.tree b = some nb ∧ nb.parent = some a.tag ∧
    makeChangeset tk a.content (contentOf h b) = .ok items ∧ serializeChangeset items = .ok d ∧
    dget w.diffs b = some d

theorem GoodHistory.ok_none {h : List (AddOp τ)} (G : GoodHistory h)
    (hc : ∀ a ∈ h, a.content.length < 2 ^ 64) :
    HistoryOK nullLawful h (runHistory (memoryTree τ) nullTok (emptyVersions τ) h) :=
  G.fresh.ok nullLawful fun a ha => ⟨trivial, hc a ha⟩

theorem IsHead.old {h : List (AddOp τ)} {a : AddOp τ} {t : τ} (hh : IsHead (h ++ [a]) t)
    (ht : t ∈ addedTags h) : IsHead h t ∧ a.base ≠ some t :=
  ⟨⟨ht, fun o ho => hh.2 o (by simp [ho])⟩, hh.2 a (by simp)⟩

theorem BestPath.head?_eq {t : MTree τ} {x y : τ} {l : List τ} (h : BestPath t x l y) :
    l.head? = some x := by
  induction h with
  | start => rfl
  | next k1 k2 k3 ih => rw [List.head?_append, ih]; rfl

theorem GoodHistory.newest {h : List (AddOp τ)} (G : GoodHistory h)
    (hc : ∀ a ∈ h, a.content.length < 2 ^ 64)
    (he : runErrors (memoryTree τ) tk (emptyVersions τ) h = h.map fun _ => none) :
    NewestOK tk h (runHistory (memoryTree τ) tk (emptyVersions τ) h) := by
  induction G with
  | nil => exact ⟨⟨rfl, rfl⟩, by simp⟩
  | @snoc h a G h1 h2 ih =>
    obtain ⟨e1, e2⟩ := runErrors_snoc_none _ he
    have hc' : ∀ a ∈ h, a.content.length < 2 ^ 64 := fun o ho => hc o (by simp [ho])
    have N := ih hc' e1
    have H := G.ok_none hc'
    obtain ⟨hn1, hn2⟩ := G.heads
    have HS := H.step (a := a) h1 (by
      intro e; exact h1 (h2 _ e).1) trivial (hc a (by simp))
    have hnone : (versionsAdd (memoryTree τ) nullTok
        (runHistory (memoryTree τ) nullTok (emptyVersions τ) h) a.tag a.content a.base).2 = none := by
      rw [HS.2]
      cases hb : a.base with
      | none => rfl
      | some b => dsimp only; rw [if_pos (hn2.2 (h2 b hb))]
    have TW := N.twin.add hnone e2
    have base_old : ∀ o ∈ h, ∀ b, o.base = some b → ∃ nb, dget
        (runHistory (memoryTree τ) nullTok (emptyVersions τ) h).tree b = some nb ∧
        b ∈ addedTags h := by
      intro o ho b hb
      have hba : b ∈ addedTags h := by
        clear h2 h1 TW hnone HS hn1 hn2 H N e2 e1 hc' ih hc he
        induction G with
        | nil => cases ho
        | @snoc h a G k1 k2 ih =>
          rw [addedTags_snoc]
          rcases List.mem_append.1 ho with ho | ho
          · exact List.mem_append.2 (Or.inl (ih ho))
          · simp at ho; subst ho
            exact List.mem_append.2 (Or.inl (k2 b hb).1)
      obtain ⟨nb, h⟩ := H.dget_some.2 hba
      exact ⟨nb, h, hba⟩
    rw [runHistory_snoc]
    refine ⟨?_, ?_⟩
    · rw [runHistory_snoc]; exact TW
    · intro o ho b hb hh
      have hh0 := hh
      rcases List.mem_append.1 ho with ho | ho
      · -- an older head
        have hoa : o.tag ∈ addedTags h := List.mem_map.2 ⟨o, ho, rfl⟩
        obtain ⟨hh1, hh2⟩ := hh.old hoa
        obtain ⟨nb, items, d, n1, n2, n3, n4, n5⟩ := N.last o ho b hb hh1
        obtain ⟨nb0, b0, bmem⟩ := base_old o ho b hb
        have hba : b ≠ a.tag := by rintro rfl; exact h1 bmem
        rw [N.twin.tree] at b0
        have : nb = nb0 := by rw [n1] at b0; cases b0; rfl
        subst this
        obtain ⟨no, o1⟩ := H.dget_some.2 hoa
        have o2 : no.parent = none := (H.heads o1).2 (hn2.2 hh1)
        cases hab : a.base with
        | none =>
          refine ⟨nb, items, d, ?_, n2, ?_, n4, ?_⟩
          · show dget (mtAdd _ a.tag none) b = _
            rw [dget_mtAdd, if_neg (Ne.symm hba)]; exact n1
          · rw [contentOf_snoc_ne hba]; exact n3
          · exact n5
        | some c =>
          have hca : a.tag ≠ c := by
            rintro rfl; exact h1 (h2 _ hab).1
          have hoc : o.tag ≠ c := by rintro rfl; exact hh2 hab
          have hcH := h2 c hab
          obtain ⟨nc, c1⟩ := H.dget_some.2 hcH.1
          have c2 : nc.parent = none := (H.heads c1).2 (hn2.2 hcH)
          have hx := H.dget_none.2 h1
          -- the split is on the other branch
          have far : ∀ {path s}, BestPath (mtAdd
              (runHistory (memoryTree τ) nullTok (emptyVersions τ) h).tree a.tag (some c)) c path s →
              b ≠ s := by
            intro path s hp hs
            subst hs
            have T1 := H.store.tree.add hx (some c)
            have u1 := hp.upPath T1.toForest (.root (nd := nc)
              (by rw [dget_mtAdd, if_neg hca]; exact c1) c2)
            have hot : a.tag ≠ o.tag := by
              intro e; rw [e] at h1; exact h1 hoa
            have u2 : UpPath (mtAdd
              (runHistory (memoryTree τ) nullTok (emptyVersions τ) h).tree a.tag (some c)) b
              [b, o.tag] := .step (nd := nb)
                (by rw [dget_mtAdd, if_neg (Ne.symm hba), N.twin.tree]; exact n1) n2
                (.root (nd := no) (by rw [dget_mtAdd, if_neg hot]; exact o1) o2)
            have e := u1.unique u2
            simp at e
            have hpc := hp.head?_eq
            rw [show path = [o.tag, b] by rw [← List.reverse_reverse path, e]; rfl] at hpc
            simp at hpc
            exact hoc hpc
          rw [hab] at e2 hnone
          obtain ⟨t, sp, path, cc, cs, d', g1, g2, g3, g4, g5, g6, g7⟩ := versionsAdd_out hca e2
          have hbc : b ≠ c := by
            rintro rfl
            rw [← N.twin.tree, c1] at n1
            cases n1
            rw [c2] at n2; cases n2
          obtain ⟨v', a1, a2, a3, s', path', a4, a5, a6⟩ := H.store.add_head (content' :=
            contentOf (h ++ [a])) hx c1 c2 trivial (hc a (by simp)) (contentOf_snoc_self h1)
            (fun y hy => contentOf_snoc_ne hy)
          rw [hab, a1] at TW
          obtain ⟨nb', k1, k2⟩ := a6 (y := b) (nd := nb) (by rw [N.twin.tree]; exact n1)
          have hbs : b ≠ s' := far a4
          rw [if_neg (by simp [hbc, hbs])] at k2
          refine ⟨nb', items, d, ?_, k2.trans n2, ?_, n4, ?_⟩
          · rw [← TW.tree]; exact k1
          · rw [contentOf_snoc_ne hba]; exact n3
          · rw [g7 b hbc ?_]
            · exact n5
            · have g1' : t = mtAdd (runHistory (memoryTree τ) tk (emptyVersions τ) h).tree a.tag (some c) := by
                have : (mtAdd (runHistory (memoryTree τ) tk (emptyVersions τ) h).tree a.tag (some c),
                  (none : Option PyErr)) = (t, none) := g1
                cases this; rfl
              rw [← N.twin.tree] at g1'
              have T1 := H.store.tree.add hx (some c)
              obtain ⟨s, path2, q1, q2, q3⟩ := getSplit_spec T1 (x := c) (nd := nc)
                (by rw [dget_mtAdd, if_neg hca]; exact c1)
              have q1' : (memoryTree τ).getSplit t c = .ok (s, path2) := by rw [g1']; exact q1
              rw [g2] at q1'
              cases q1'
              exact far q2
      · -- the new version
        have hoe : o = a := by simpa using ho
        subst hoe
        have hca : o.tag ≠ b := by
          rintro rfl; exact h1 (h2 _ hb).1
        have hcH := h2 b hb
        obtain ⟨nc, c1⟩ := H.dget_some.2 hcH.1
        have c2 : nc.parent = none := (H.heads c1).2 (hn2.2 hcH)
        have hx := H.dget_none.2 h1
        rw [hb] at e2 hnone TW ⊢
        obtain ⟨t, sp, path, cc, cs, d', g1, g2, g3, g4, g5, g6, g7⟩ := versionsAdd_out hca e2
        obtain ⟨v', a1, a2, a3, s', path', a4, a5, a6⟩ := H.store.add_head (content' :=
            contentOf (h ++ [o])) hx c1 c2 trivial (hc o (by simp)) (contentOf_snoc_self h1)
            (fun y hy => contentOf_snoc_ne hy)
        rw [a1] at TW
        obtain ⟨nb', k1, k2⟩ := a6 (y := b) (nd := nc) c1
        rw [if_pos (Or.inl rfl)] at k2
        refine ⟨nb', cs, d', ?_, k2, ?_, g5, g6⟩
        · rw [← TW.tree]; exact k1
        · rw [contentOf_snoc_ne (Ne.symm hca)]
          rw [← N.twin.heads, (H.store.root c1 c2).1] at g3
          cases g3
          exact g4

/-- The newest version of a branch and its base are retrieved exactly. -/
theorem GoodHistory.newest_two (L : HomTok tk P) {h : List (AddOp τ)} (G : GoodHistory h)
    (hc : ∀ a ∈ h, a.content.length + 1 < 2 ^ 64)
    (he : runErrors (memoryTree τ) tk (emptyVersions τ) h = h.map fun _ => none)
    {a : AddOp τ} (ha : a ∈ h) (hh : IsHead h a.tag) :
    versionsGet (memoryTree τ) tk (runHistory (memoryTree τ) tk (emptyVersions τ) h) a.tag =
      .ok (some a.content) ∧
    ∀ o ∈ h, a.base = some o.tag →
      versionsGet (memoryTree τ) tk (runHistory (memoryTree τ) tk (emptyVersions τ) h) o.tag =
        .ok (some o.content) := by
  have hc' : ∀ a ∈ h, a.content.length < 2 ^ 64 := fun a ha => by have := hc a ha; omega
  have N := G.newest hc' he
  have H := G.ok_none hc'
  obtain ⟨na, a1⟩ := H.dget_some.2 hh.1
  have a2 : na.parent = none := (H.heads a1).2 (G.heads.2.2 hh)
  have a3 := (H.store.root a1 a2).1
  rw [contentOf_mem G.fresh.nodup ha, N.twin.heads] at a3
  rw [N.twin.tree] at a1
  have u1 : UpPath (runHistory (memoryTree τ) tk (emptyVersions τ) h).tree a.tag [a.tag] :=
    .root a1 a2
  constructor
  · have hp : (memoryTree τ).pathTo _ a.tag = .ok (some [a.tag]) := pathTo_spec u1
    unfold versionsGet
    rw [hp]
    simp only [L.no_delta a3]
  · intro o ho hb
    obtain ⟨nb, items, d, n1, n2, n3, n4, n5⟩ := N.last a ha o.tag hb hh
    have hp : (memoryTree τ).pathTo _ o.tag = .ok (some [a.tag, o.tag]) :=
      pathTo_spec (.step n1 n2 u1)
    rw [contentOf_mem G.fresh.nodup ho] at n3
    unfold versionsGet
    rw [hp]
    simp only [L.one_delta (hc a ha) (hc' o ho) a3 n5 n3 n4]

end Gaspra
