import Verif.Proofs.OtherTokenizer
import Verif.Proofs.Tokenizers

set_option linter.unusedSectionVars false
set_option linter.unusedVariables false

/-! # Stores do not tell two tokenizers apart that agree on their texts -/

namespace Gaspra

/-- Two tokenizers that encode the texts `Good` alike, decode alike, and decode to such texts. -/
structure SameTok {Tok S : Type _} (tk tk' : TokOps Tok S) (Good : Bytes → Prop) (Inv : S → Prop) :
    Prop where
  init : tk'.init = tk.init
  inv : Inv tk.init
  enc : ∀ {st b}, Inv st → Good b → tk'.encode st b = tk.encode st b
  keep : ∀ {st b toks st'}, Inv st → Good b → tk.encode st b = .ok (toks, st') → Inv st'
  dec : tk'.decode = tk.decode
  good : ∀ {st toks b}, Inv st → tk.decode st toks = .ok b → Good b

/-- All literals are good. -/
def GoodItems (Good : Bytes → Prop) (items : List (PatchItem UInt8)) : Prop :=
  ∀ p, .piece p ∈ items → Good p

/-- The texts in a store are good. -/
structure GoodStore {τ T : Type _} (Good : Bytes → Prop) (v : Versions τ T) : Prop where
  heads : ∀ x ∈ v.headVersion, Good x.2
  diffs : ∀ x ∈ v.diffs, GoodItems Good (deserializeChangeset x.2).1

section
variable {τ T Tok S : Type _} [DecidableEq τ] [DecidableEq Tok]
variable {tk tk' : TokOps Tok S} {Good : Bytes → Prop} {Inv : S → Prop}

theorem SameTok.encodeItems (H : SameTok tk tk' Good Inv) : ∀ {items : List (PatchItem UInt8)} {st : S},
    Inv st → GoodItems Good items →
    Gaspra.encodeItems tk' st items = Gaspra.encodeItems tk st items ∧
      ∀ r, Gaspra.encodeItems tk st items = .ok r → Inv r.2
  | [], st, hi, _ => ⟨rfl, by intro r h; cases h; exact hi⟩
  | .slice s :: rest, st, hi, hg => by
    obtain ⟨h1, h2⟩ := H.encodeItems (items := rest) hi fun p hp => hg p (by simp [hp])
    simp only [Gaspra.encodeItems, h1]
    refine ⟨trivial, ?_⟩
    cases h : Gaspra.encodeItems tk st rest with
    | error e => intro r hr; cases hr
    | ok x => intro r hr; cases hr; exact h2 x h
  | .piece p :: rest, st, hi, hg => by
    have hp : Good p := hg p (by simp)
    simp only [Gaspra.encodeItems, H.enc hi hp]
    cases h : tk.encode st p with
    | error e => exact ⟨rfl, by intro r hr; cases hr⟩
    | ok x =>
      obtain ⟨toks, st'⟩ := x
      obtain ⟨h1, h2⟩ := H.encodeItems (items := rest) (H.keep hi hp h) fun p hp => hg p (by simp [hp])
      simp only [bind, Except.bind, h1]
      refine ⟨trivial, ?_⟩
      cases h : Gaspra.encodeItems tk st' rest with
      | error e => intro r hr; cases hr
      | ok x => intro r hr; cases hr; exact h2 x h

theorem SameTok.decodeItems (H : SameTok tk tk' Good Inv) : ∀ {items : List (PatchItem Tok)} {st : S},
    Inv st → Gaspra.decodeItems tk' st items = Gaspra.decodeItems tk st items ∧
      ∀ r, Gaspra.decodeItems tk st items = .ok r → GoodItems Good r
  | [], st, hi => ⟨rfl, by intro r h; cases h; intro p hp; simp at hp⟩
  | .slice s :: rest, st, hi => by
    obtain ⟨h1, h2⟩ := H.decodeItems (items := rest) hi
    simp only [Gaspra.decodeItems, h1]
    refine ⟨trivial, ?_⟩
    cases h : Gaspra.decodeItems tk st rest with
    | error e => intro r hr; cases hr
    | ok x =>
      intro r hr
      cases hr
      intro p hp
      exact h2 _ h p (by simpa using hp)
  | .piece q :: rest, st, hi => by
    obtain ⟨h1, h2⟩ := H.decodeItems (items := rest) hi
    simp only [Gaspra.decodeItems, H.dec]
    cases h : tk.decode st q with
    | error e => exact ⟨rfl, by intro r hr; cases hr⟩
    | ok b =>
      simp only [bind, Except.bind, h1]
      refine ⟨trivial, ?_⟩
      cases h' : Gaspra.decodeItems tk st rest with
      | error e => intro r hr; cases hr
      | ok x =>
        intro r hr
        cases hr
        intro p hp
        rcases List.mem_cons.1 hp with e | hp
        · cases e; exact H.good hi h
        · exact h2 _ h' p hp

theorem SameTok.retrieveLoop (H : SameTok tk tk' Good Inv) {diffs : List (τ × Bytes)}
    (hd : ∀ x ∈ diffs, GoodItems Good (deserializeChangeset x.2).1) :
    ∀ (path : List τ) {st : S} {x : List Tok}, Inv st →
      Gaspra.retrieveLoop tk' diffs st x path = Gaspra.retrieveLoop tk diffs st x path ∧
        ∀ r, Gaspra.retrieveLoop tk diffs st x path = .ok r → Inv r.2
  | [], st, x, hi => ⟨rfl, by intro r h; cases h; exact hi⟩
  | t :: path, st, x, hi => by
    simp only [Gaspra.retrieveLoop]
    cases h : dget diffs t with
    | none => exact ⟨rfl, by intro r hr; cases hr⟩
    | some d =>
      have hg := hd _ (mem_of_dget h)
      dsimp only at hg ⊢
      generalize deserializeChangeset d = q at hg ⊢
      obtain ⟨items, err⟩ := q
      dsimp only at hg ⊢
      obtain ⟨h1, h2⟩ := H.encodeItems hi hg
      rw [h1]
      cases he : Gaspra.encodeItems tk st items with
      | error e => exact ⟨rfl, by intro r hr; cases hr⟩
      | ok y =>
        obtain ⟨enc, st'⟩ := y
        simp only [bind, Except.bind]
        cases err with
        | some e => exact ⟨rfl, by intro r hr; cases hr⟩
        | none => exact H.retrieveLoop hd path (h2 _ he)

theorem GoodStore.retrieve {v : Versions τ T} (A : GoodStore Good v) (H : SameTok tk tk' Good Inv)
    (path : List τ) :
    retrieveUsingPath tk' v path = retrieveUsingPath tk v path ∧
      ∀ b, retrieveUsingPath tk v path = .ok b → Good b := by
  cases path with
  | nil => exact ⟨rfl, by intro b h; cases h⟩
  | cons root rest =>
    simp only [retrieveUsingPath]
    cases h : dget v.headVersion root with
    | none => exact ⟨rfl, by intro b h; cases h⟩
    | some c =>
      have hc : Good c := A.heads _ (mem_of_dget h)
      dsimp only
      rw [H.init, H.enc H.inv hc]
      cases he : tk.encode tk.init c with
      | error e => exact ⟨rfl, by intro b h; cases h⟩
      | ok x =>
        obtain ⟨toks, st⟩ := x
        simp only [bind, Except.bind]
        obtain ⟨h1, h2⟩ := H.retrieveLoop A.diffs rest (x := toks) (H.keep H.inv hc he)
        rw [h1]
        cases hr : Gaspra.retrieveLoop tk v.diffs st toks rest with
        | error e => exact ⟨rfl, by intro b h; cases h⟩
        | ok y => exact ⟨by rw [H.dec], fun b hb => H.good (h2 _ hr) hb⟩

theorem SameTok.makeChangeset (H : SameTok tk tk' Good Inv) {a b : Bytes} (ha : Good a) (hb : Good b) :
    Gaspra.makeChangeset tk' a b = Gaspra.makeChangeset tk a b ∧
      ∀ cs, Gaspra.makeChangeset tk a b = .ok cs → GoodItems Good cs := by
  simp only [Gaspra.makeChangeset]
  rw [H.init, H.enc H.inv ha]
  cases he : tk.encode tk.init a with
  | error e => exact ⟨rfl, by intro b h; cases h⟩
  | ok x =>
    obtain ⟨ea, st⟩ := x
    have hi := H.keep H.inv ha he
    simp only [bind, Except.bind]
    rw [H.enc hi hb]
    cases he' : tk.encode st b with
    | error e => exact ⟨rfl, by intro b h; cases h⟩
    | ok x =>
      obtain ⟨eb, st'⟩ := x
      dsimp only
      cases findChangeset ea eb with
      | none => exact ⟨rfl, by intro b h; cases h⟩
      | some cs => exact H.decodeItems (H.keep hi hb he')

variable {ops : TreeOps τ T}

theorem GoodStore.addEdge {v : Versions τ T} (A : GoodStore Good v) (p c : τ)
    {cs : List (PatchItem UInt8)} (hcs : GoodItems Good cs) :
    GoodStore Good (Gaspra.addEdge ops v p c cs).1 := by
  unfold Gaspra.addEdge
  cases hs : serializeChangeset cs with
  | error e => exact A
  | ok d =>
    have hd : GoodItems Good (deserializeChangeset d).1 := by
      obtain ⟨d', k1, k2⟩ := C25_changeset_roundtrip cs (fits_of_serialize hs)
      rw [hs] at k1
      cases k1
      rw [k2]
      intro p hp
      exact hcs p (List.mem_filter.1 hp).1
    have A' : ∀ x ∈ dset v.diffs c d, GoodItems Good (deserializeChangeset x.2).1 := by
      intro x h
      rcases mem_dset h with e | h
      · rw [e]; exact hd
      · exact A.diffs _ h
    dsimp only
    cases ops.changeParent v.tree c p with
    | mk tree e =>
      cases e with
      | some e => exact ⟨A.heads, A'⟩
      | none =>
        dsimp only
        split
        · exact ⟨fun x h => A.heads _ (mem_of_ddel h), A'⟩
        · exact ⟨A.heads, A'⟩

theorem GoodStore.tree {v : Versions τ T} (A : GoodStore Good v) (t : T) :
    GoodStore Good { v with tree := t } := ⟨A.heads, A.diffs⟩

theorem GoodStore.addSplit {v : Versions τ T} (A : GoodStore Good v) (H : SameTok tk tk' Good Inv)
    (tag : τ) {c : Bytes} (hc : Good c) (split : τ) (path : List τ) :
    Gaspra.addSplit ops tk' v tag c split path = Gaspra.addSplit ops tk v tag c split path ∧
    GoodStore Good (Gaspra.addSplit ops tk v tag c split path).1 := by
  obtain ⟨h1, h2⟩ := A.retrieve H path
  simp only [Gaspra.addSplit, h1]
  cases h : retrieveUsingPath tk v path with
  | error e => exact ⟨rfl, A⟩
  | ok sv =>
    dsimp only
    obtain ⟨k1, k2⟩ := H.makeChangeset hc (h2 _ h)
    rw [k1]
    refine ⟨rfl, ?_⟩
    cases hm : Gaspra.makeChangeset tk c sv with
    | error e => exact A
    | ok cs =>
      dsimp only
      have := A.addEdge (ops := ops) tag split (k2 _ hm)
      generalize Gaspra.addEdge ops v tag split cs = r at this
      obtain ⟨v', e⟩ := r
      cases e with
      | some e => exact this
      | none => exact this.tree _

theorem GoodStore.addOldHead {v : Versions τ T} (A : GoodStore Good v) (H : SameTok tk tk' Good Inv)
    (tag : τ) {c : Bytes} (hc : Good c) (head : τ) :
    Gaspra.addOldHead ops tk' v tag c head = Gaspra.addOldHead ops tk v tag c head ∧
    GoodStore Good (Gaspra.addOldHead ops tk v tag c head).1 := by
  simp only [Gaspra.addOldHead]
  cases h : dget v.headVersion head with
  | none => exact ⟨rfl, A⟩
  | some hv =>
    dsimp only
    obtain ⟨k1, k2⟩ := H.makeChangeset hc (A.heads _ (mem_of_dget h))
    rw [k1]
    refine ⟨rfl, ?_⟩
    cases hm : Gaspra.makeChangeset tk c hv with
    | error e => exact A
    | ok cs => exact A.addEdge (ops := ops) tag head (k2 _ hm)

theorem GoodStore.add {v : Versions τ T} (A : GoodStore Good v) (H : SameTok tk tk' Good Inv)
    (tag : τ) {c : Bytes} (hc : Good c) (base : Option τ) :
    versionsAdd ops tk' v tag c base = versionsAdd ops tk v tag c base ∧
    GoodStore Good (versionsAdd ops tk v tag c base).1 := by
  have A1 : GoodStore Good { v with headVersion := dset v.headVersion tag c } := by
    refine ⟨fun x h => ?_, A.diffs⟩
    rcases mem_dset h with e | h
    · rw [e]; exact hc
    · exact A.heads _ h
  unfold versionsAdd
  dsimp only
  cases ops.add v.tree tag base with
  | mk tree e =>
    cases e with
    | some e => exact ⟨rfl, A1.tree _⟩
    | none =>
      cases base with
      | none => exact ⟨rfl, A1.tree _⟩
      | some head =>
        dsimp only
        have A2 := A1.tree tree
        generalize ({ headVersion := dset v.headVersion tag c, diffs := v.diffs, tree := tree } :
          Versions τ T) = w at A2
        unfold addToHead
        cases hs : ops.getSplit w.tree head with
        | error e => exact ⟨rfl, A2⟩
        | ok x =>
          obtain ⟨split, path⟩ := x
          dsimp only
          split
          · obtain ⟨h1, h2⟩ := A2.addSplit (ops := ops) H tag hc split path
            rw [h1]
            generalize Gaspra.addSplit ops tk w tag c split path = r at h2
            obtain ⟨w', e⟩ := r
            cases e with
            | some e => exact ⟨rfl, h2⟩
            | none => exact h2.addOldHead (ops := ops) H tag hc head
          · exact A2.addOldHead (ops := ops) H tag hc head

theorem GoodStore.get {v : Versions τ T} (A : GoodStore Good v) (H : SameTok tk tk' Good Inv) (tag : τ) :
    versionsGet ops tk' v tag = versionsGet ops tk v tag := by
  unfold versionsGet
  cases ops.pathTo v.tree tag with
  | error e => rfl
  | ok x =>
    cases x with
    | none => rfl
    | some path =>
      cases path with
      | nil => rfl
      | cons a path => dsimp only; rw [(A.retrieve H _).1]

end

/-! ### Word classes -/

section
variable {cls cls' : Nat → Bool} {A : Nat → Prop}

theorem spanClass_congr : ∀ {s : PyStr}, (∀ c ∈ s, cls' c = cls c) → spanClass cls' s = spanClass cls s
  | [], _ => rfl
  | c :: s, h => by
    have ht : ∀ d ∈ s, cls' d = cls d := fun d hd => h d (by simp [hd])
    simp only [spanClass, h c (by simp), spanClass_congr ht]

theorem mem_spanClass_snd : ∀ {s : PyStr} {c : Nat}, c ∈ (spanClass cls s).2 → c ∈ s
  | [], c, h => by simp [spanClass] at h
  | d :: s, c, h => by
    rw [spanClass] at h
    split at h
    · exact List.mem_cons_of_mem _ (mem_spanClass_snd h)
    · exact h

theorem symbolsAux_congr : ∀ (f : Nat) {s : PyStr}, (∀ c ∈ s, cls' c = cls c) →
    symbolsAux cls' f s = symbolsAux cls f s
  | _, [], _ => by simp [symbolsAux]
  | 0, _ :: _, _ => rfl
  | f + 1, c :: s, h => by
    have ht : ∀ d ∈ s, cls' d = cls d := fun d hd => h d (by simp [hd])
    simp only [symbolsAux, h c (by simp), spanClass_congr ht]
    rw [symbolsAux_congr f ht, symbolsAux_congr f fun d hd => ht d (mem_spanClass_snd hd)]

theorem symbols_congr {s : PyStr} (h : ∀ c ∈ s, cls' c = cls c) : symbols cls' s = symbols cls s :=
  symbolsAux_congr _ h

/-- The characters of a text are in `A`; nothing is said about bytes that are not UTF-8. -/
def Over (A : Nat → Prop) : Text → Prop
  | .bytes b => ∀ s, utf8Decode b = some s → ∀ c ∈ s, A c
  | .str s => ∀ c ∈ s, A c

theorem symbolEncode_congr (h : ∀ c, A c → cls' c = cls c) (st : DictTok) {x : Text} (hx : Over A x) :
    symbolEncode cls' st x = symbolEncode cls st x := by
  unfold symbolEncode
  split
  · rfl
  · cases x with
    | str s => dsimp only; rw [symbols_congr fun c hc => h c (hx c hc)]
    | bytes b =>
      dsimp only
      cases hd : utf8Decode b with
      | none => rfl
      | some s => dsimp only; rw [symbols_congr fun c hc => h c (hx s hd c hc)]

/-- A piece that is the UTF-8 form of characters of `A`. -/
def PieceOver (A : Nat → Prop) (p : Text) : Prop :=
  ∃ b s, p = .bytes b ∧ utf8Encode s = some b ∧ ∀ c ∈ s, A c

/-- The state of a `SymbolTokenizer` that has seen such texts only. -/
structure StateOver (A : Nat → Prop) (st : DictTok) : Prop where
  enc : ∀ p ∈ st.encoding, PieceOver A p.1
  dec : ∀ d, st.decoding = some d → ∀ p ∈ d, PieceOver A p

theorem mem_dset_key {κ β : Type _} [DecidableEq κ] {k : κ} {x : β} : ∀ {d : List (κ × β)} {y : κ × β},
    y ∈ dset d k x → y.1 = k ∨ y ∈ d
  | [], y, h => by
    rw [dset, List.mem_singleton] at h
    exact .inl (by rw [h])
  | (k', v') :: d, y, h => by
    rw [dset] at h
    split at h
    · rename_i e
      rcases List.mem_cons.1 h with rfl | h
      · first
          | exact .inl rfl
          | exact .inl e
      · exact .inr (by simp [h])
    · rcases List.mem_cons.1 h with rfl | h
      · exact .inr (by simp)
      · rcases mem_dset_key h with h | h
        · exact .inl h
        · exact .inr (by simp [h])

theorem numberTokens_over {β : Type _} [DecidableEq β] {P : β → Prop} : ∀ (ts : List β)
    {enc : List (β × Nat)}, (∀ p ∈ enc, P p.1) → (∀ t ∈ ts, P t) → ∀ p ∈ numberTokens enc ts, P p.1
  | [], enc, h, _ => h
  | t :: ts, enc, h, ht => by
    rw [numberTokens]
    split
    · exact numberTokens_over ts h fun t h => ht t (by simp [h])
    · refine numberTokens_over ts ?_ fun t h => ht t (by simp [h])
      intro p hp
      rcases mem_dset_key hp with e | hp
      · rw [e]; exact ht t (by simp)
      · exact h p hp

theorem number_over {st : DictTok} (I : StateOver A st) {ps : List Text} (hp : ∀ p ∈ ps, PieceOver A p) :
    StateOver A (st.number ps).1 := by
  have h := numberTokens_over (P := PieceOver A) ps I.enc hp
  unfold DictTok.number
  dsimp only
  cases lookupTokens (numberTokens st.encoding ps) ps with
  | none => exact ⟨h, I.dec⟩
  | some toks =>
    refine ⟨h, ?_⟩
    intro d hd p hp
    cases hd
    obtain ⟨x, hx, rfl⟩ := List.mem_map.1 hp
    exact h x hx

theorem encodeAll_over : ∀ {ss : List PyStr} {bs : List Bytes}, encodeAll ss = some bs →
    (∀ s ∈ ss, ∀ c ∈ s, A c) → ∀ b ∈ bs, PieceOver A (.bytes b)
  | [], bs, h, _ => by cases h; simp
  | s :: ss, bs, h, ha => by
    rw [encodeAll] at h
    cases hs : utf8Encode s with
    | none => simp [hs] at h
    | some b0 =>
      cases hr : encodeAll ss with
      | none => simp [hs, hr] at h
      | some r =>
        simp only [hs, hr, Option.some.injEq] at h
        subst h
        intro b hb
        rcases List.mem_cons.1 hb with rfl | hb
        · exact ⟨b, s, rfl, hs, ha s (by simp)⟩
        · exact encodeAll_over hr (fun s hs => ha s (by simp [hs])) b hb

theorem symbolEncode_over {st : DictTok} (I : StateOver A st) {b : Bytes} (hb : Over A (.bytes b)) :
    StateOver A (symbolEncode cls st (.bytes b)).1 := by
  unfold symbolEncode
  split
  · exact I
  · have I' : StateOver A { st with src := some (Text.bytes b).type } := ⟨I.enc, I.dec⟩
    dsimp only
    cases hd : utf8Decode b with
    | none => exact I'
    | some s =>
      dsimp only
      cases he : encodeAll (symbols cls s) with
      | none => exact I'
      | some ps =>
        refine number_over I' ?_
        intro p hp
        obtain ⟨q, hq, rfl⟩ := List.mem_map.1 hp
        refine encodeAll_over he ?_ q hq
        intro t ht c hc
        refine hb s hd c ?_
        rw [← (symbols_spec cls s).1]
        exact List.mem_flatten.2 ⟨t, ht, hc⟩

theorem joinTexts_over : ∀ {ps : List Text} {b : Bytes}, (∀ p ∈ ps, PieceOver A p) →
    joinTexts .bytes ps = .ok (.bytes b) → PieceOver A (.bytes b)
  | [], b, _, h => by
    cases h
    exact ⟨[], [], rfl, rfl, by simp⟩
  | p :: ps, b, hp, h => by
    obtain ⟨b0, s0, rfl, h1, h2⟩ := hp p (by simp)
    unfold joinTexts at h
    cases hr : joinTexts .bytes ps with
    | error e => simp [hr] at h
    | ok t =>
      cases t with
      | str s => simp [hr] at h
      | bytes r =>
        simp only [hr, Except.ok.injEq, Text.bytes.injEq] at h
        subst h
        obtain ⟨b1, s1, e, k1, k2⟩ := joinTexts_over (fun p h => hp p (by simp [h])) hr
        cases e
        refine ⟨_, s0 ++ s1, rfl, utf8Encode_append.2 ⟨_, _, h1, k1, rfl⟩, ?_⟩
        intro c hc
        rcases List.mem_append.1 hc with h | h
        · exact h2 c h
        · exact k2 c h

theorem mem_lookupDecoding {d : List Text} : ∀ {toks : List Nat} {ps : List Text},
    lookupDecoding d toks = some ps → ∀ p ∈ ps, p ∈ d
  | [], ps, h => by cases h; simp
  | t :: toks, ps, h => by
    rw [lookupDecoding] at h
    cases h1 : d[t]? with
    | none => simp [h1] at h
    | some q =>
      cases h2 : lookupDecoding d toks with
      | none => simp [h1, h2] at h
      | some r =>
        simp only [h1, h2, Option.some.injEq] at h
        subst h
        intro p hp
        rcases List.mem_cons.1 hp with rfl | hp
        · exact List.mem_of_getElem? h1
        · exact mem_lookupDecoding h2 p hp

theorem over_of_piece {b : Bytes} (h : PieceOver A (.bytes b)) : Over A (.bytes b) := by
  obtain ⟨b', s, e, h1, h2⟩ := h
  cases e
  intro s' hs
  rw [utf8_iff.2 h1] at hs
  cases hs
  exact h2

theorem joinTexts_str_ne : ∀ {ps : List Text} {b : Bytes}, joinTexts .str ps ≠ .ok (.bytes b)
  | [], b => by simp [joinTexts]
  | p :: ps, b => by
    unfold joinTexts
    cases p <;> cases hr : joinTexts .str ps with
      | error e => simp
      | ok t => cases t <;> simp

/-- Two word classes that agree on `A`. -/
theorem symbol_same (h : ∀ c, A c → cls' c = cls c) :
    SameTok (symbolTokenizer cls).bytesOps (symbolTokenizer cls').bytesOps
      (fun b => Over A (.bytes b)) (StateOver A) where
  init := rfl
  inv := ⟨by simp [Tokenizer.bytesOps, symbolTokenizer, DictTok.new],
    by simp [Tokenizer.bytesOps, symbolTokenizer, DictTok.new]⟩
  enc := by
    intro st b _ hb
    simp only [Tokenizer.bytesOps, symbolTokenizer]
    rw [symbolEncode_congr h st hb]
  keep := by
    intro st b toks st' hi hb he
    have := symbolEncode_over (cls := cls) hi hb
    simp only [Tokenizer.bytesOps, symbolTokenizer] at he
    generalize symbolEncode cls st (.bytes b) = r at he this
    obtain ⟨st1, r⟩ := r
    cases r with
    | error e => cases he
    | ok x => cases he; exact this
  dec := rfl
  good := by
    intro st toks b hi he
    simp only [Tokenizer.bytesOps, symbolTokenizer, DictTok.decode] at he
    cases hd : st.decoding with
    | none => simp [hd] at he
    | some d =>
      cases hl : lookupDecoding d toks with
      | none => simp [hd, hl] at he
      | some ps =>
        simp only [hd, hl] at he
        have hp : ∀ p ∈ ps, PieceOver A p := fun p hp => hi.dec d hd p (mem_lookupDecoding hl p hp)
        split at he
        · rename_i hj
          cases he
          split at hj
          · exact over_of_piece (joinTexts_over hp hj)
          · exact absurd hj joinTexts_str_ne
        · cases he
        · cases he

end
end Gaspra
