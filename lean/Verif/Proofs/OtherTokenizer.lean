import Verif.Proofs.TokenizedHistory
import Verif.Props.Serialize
import Verif.Props.Changesets
import Verif.Proofs.Rename
import Verif.Model.Tokenizers

set_option linter.unusedSectionVars false
set_option linter.unusedVariables false

/-! # `CharTokenizer` and `NullTokenizer` on ASCII -/

namespace Gaspra

/-- All bytes below 128. -/
def IsAscii (b : Bytes) : Prop := ∀ x ∈ b, x.toNat < 128

theorem IsAscii.nil : IsAscii [] := by intro x hx; simp at hx

theorem IsAscii.append {a b : Bytes} (ha : IsAscii a) (hb : IsAscii b) : IsAscii (a ++ b) := by
  intro x hx
  rcases List.mem_append.1 hx with h | h
  · exact ha x h
  · exact hb x h

theorem IsAscii.slice {b : Bytes} (h : IsAscii b) (s : Slice) : IsAscii (s.get b) := by
  intro x hx
  unfold Slice.get at hx
  apply h
  cases hs : s.stop with
  | none => rw [hs] at hx; exact List.mem_of_mem_drop hx
  | some e => rw [hs] at hx; exact List.mem_of_mem_take (List.mem_of_mem_drop hx)

theorem utf8DecodeAux_ascii : ∀ (b : Bytes) (f : Nat), b.length ≤ f → IsAscii b →
    utf8DecodeAux f b = some (b.map UInt8.toNat)
  | [], f, _, _ => by cases f <;> rfl
  | x :: b, 0, h, _ => by simp at h
  | x :: b, f + 1, h, ha => by
    have hx : x.toNat < 0x80 := ha x (by simp)
    simp only [List.length_cons] at h
    simp only [utf8DecodeAux, utf8Head, if_pos hx,
      utf8DecodeAux_ascii b f (by omega) fun y hy => ha y (by simp [hy]), List.map_cons]

theorem utf8Decode_ascii {b : Bytes} (h : IsAscii b) : utf8Decode b = some (b.map UInt8.toNat) :=
  utf8DecodeAux_ascii b _ (Nat.le_refl _) h

theorem charJoinBytes_ascii : ∀ {b : Bytes}, IsAscii b → charJoinBytes (b.map UInt8.toNat) = .ok b
  | [], _ => rfl
  | x :: b, h => by
    have hx : x.toNat < 0x80 := h x (by simp)
    have e : utf8EncodeCp x.toNat = some [x] := by
      have : isScalar x.toNat = true := by
        simp only [isScalar, Bool.or_eq_true, decide_eq_true_eq]
        left; omega
      simp [utf8EncodeCp, this, hx]
    rw [List.map_cons, charJoinBytes, if_pos (by omega), e]
    dsimp only
    rw [charJoinBytes_ascii fun y hy => h y (by simp [hy])]
    rfl

/-- The state of a `CharTokenizer` that has seen nothing but `bytes`. -/
def BytesState (st : Option SrcType) : Prop := st = none ∨ st = some .bytes

theorem charOps_encode {st : Option SrcType} (hs : BytesState st) {b : Bytes} (hb : IsAscii b) :
    charTokenizer.bytesOps.encode st b = .ok (b.map UInt8.toNat, some .bytes) := by
  have : wrongType st (.bytes b) = false := by rcases hs with rfl | rfl <;> rfl
  simp [Tokenizer.bytesOps, charTokenizer, charEncode, this, utf8Decode_ascii hb]

theorem charOps_decode {b : Bytes} (hb : IsAscii b) :
    charTokenizer.bytesOps.decode (some .bytes) (b.map UInt8.toNat) = .ok b := by
  simp [Tokenizer.bytesOps, charTokenizer, charDecode, charJoinBytes_ascii hb, Except.map]

/-- Tokens of a patch replaced one by one. -/
def PatchItem.via {α β : Type _} (f : α → β) : PatchItem α → PatchItem β
  | .slice s => .slice s
  | .piece p => .piece (p.map f)

/-- All literals are ASCII. -/
def AsciiItems (items : List (PatchItem UInt8)) : Prop := ∀ p, .piece p ∈ items → IsAscii p

theorem AsciiItems.tail {c : PatchItem UInt8} {rest : List (PatchItem UInt8)}
    (h : AsciiItems (c :: rest)) : AsciiItems rest := fun p hp => h p (by simp [hp])

theorem encodeItems_plain : ∀ (items : List (PatchItem UInt8)),
    encodeItems nullTok () items = .ok (items, ())
  | [] => rfl
  | .slice s :: rest => by simp [encodeItems, encodeItems_plain rest, bind, Except.bind, pure, Except.pure]
  | .piece p :: rest => by
    rw [encodeItems, show nullTok.encode () p = .ok (p, ()) from rfl]
    simp [encodeItems_plain rest, bind, Except.bind, pure, Except.pure]

theorem encodeItems_char : ∀ {items : List (PatchItem UInt8)}, AsciiItems items →
    encodeItems charTokenizer.bytesOps (some .bytes) items =
      .ok (items.map (PatchItem.via UInt8.toNat), some .bytes)
  | [], _ => rfl
  | .slice s :: rest, h => by
    simp [encodeItems, encodeItems_char h.tail, bind, Except.bind, pure, Except.pure, PatchItem.via]
  | .piece p :: rest, h => by
    rw [encodeItems, charOps_encode (.inr rfl) (h p (by simp))]
    simp [encodeItems_char h.tail, bind, Except.bind, pure, Except.pure, PatchItem.via]

theorem decodeItems_plain : ∀ (items : List (PatchItem UInt8)), decodeItems nullTok () items = .ok items
  | [] => rfl
  | .slice s :: rest => by simp [decodeItems, decodeItems_plain rest, bind, Except.bind, pure, Except.pure]
  | .piece p :: rest => by
    rw [decodeItems, show nullTok.decode () p = .ok p from rfl]
    simp [decodeItems_plain rest, bind, Except.bind, pure, Except.pure]

theorem decodeItems_char : ∀ {items : List (PatchItem UInt8)}, AsciiItems items →
    decodeItems charTokenizer.bytesOps (some .bytes) (items.map (PatchItem.via UInt8.toNat)) = .ok items
  | [], _ => rfl
  | .slice s :: rest, h => by
    simp [decodeItems, decodeItems_char h.tail, bind, Except.bind, pure, Except.pure, PatchItem.via]
  | .piece p :: rest, h => by
    simp only [List.map_cons, PatchItem.via]
    rw [decodeItems, charOps_decode (h p (by simp))]
    simp [decodeItems_char h.tail, bind, Except.bind, pure, Except.pure]

theorem applyPatch_via {α β : Type _} [DecidableEq α] [DecidableEq β] (f : α → β) : ∀ (items : List (PatchItem α)) (x : List α),
    applyPatch (items.map (PatchItem.via f)) (x.map f) = (applyPatch items x).map f
  | [], _ => rfl
  | c :: rest, x => by
    have ih := applyPatch_via f rest x
    simp only [applyPatch, joinChanges, List.map_cons, List.flatten_cons, List.map_append] at ih ⊢
    rw [ih]
    congr 1
    cases c with
    | slice s => exact Slice.get_rename f s x
    | piece p => rfl

theorem applyPatch_ascii : ∀ {items : List (PatchItem UInt8)} {x : Bytes}, AsciiItems items → IsAscii x →
    IsAscii (applyPatch items x)
  | [], _, _, _ => IsAscii.nil
  | c :: rest, x, h, hx => by
    have ih := applyPatch_ascii h.tail hx
    simp only [applyPatch, joinChanges, List.map_cons, List.flatten_cons] at ih ⊢
    refine IsAscii.append ?_ ih
    cases c with
    | slice s => exact hx.slice s
    | piece p => exact h p (by simp)

section
variable {τ T : Type _} [DecidableEq τ]

/-- What two retrievals with the two tokenizers have in common. -/
def SameToks (r : Except PyErr (List UInt8 × Unit)) (r' : Except PyErr (List Nat × Option SrcType)) :
    Prop :=
  (∃ e, r = .error e ∧ r' = .error e) ∨
  ∃ q, r = .ok (q, ()) ∧ r' = .ok (q.map UInt8.toNat, some .bytes) ∧ IsAscii q

/-- The texts in a store are ASCII. -/
structure AsciiStore (v : Versions τ T) : Prop where
  heads : ∀ x ∈ v.headVersion, IsAscii x.2
  diffs : ∀ x ∈ v.diffs, AsciiItems (deserializeChangeset x.2).1

theorem retrieveLoop_ascii {diffs : List (τ × Bytes)}
    (hd : ∀ x ∈ diffs, AsciiItems (deserializeChangeset x.2).1) :
    ∀ (path : List τ) {x : Bytes}, IsAscii x →
      SameToks (retrieveLoop nullTok diffs () x path)
        (retrieveLoop charTokenizer.bytesOps diffs (some .bytes) (x.map UInt8.toNat) path)
  | [], x, hx => .inr ⟨x, rfl, rfl, hx⟩
  | t :: path, x, hx => by
    simp only [retrieveLoop]
    cases h : dget diffs t with
    | none => exact .inl ⟨_, rfl, rfl⟩
    | some d =>
      have ha := hd _ (mem_of_dget h)
      dsimp only at ha ⊢
      generalize deserializeChangeset d = r at ha ⊢
      obtain ⟨items, err⟩ := r
      dsimp only at ha
      simp only [bind, Except.bind, encodeItems_plain, encodeItems_char ha]
      cases err with
      | some e => exact .inl ⟨_, rfl, rfl⟩
      | none =>
        dsimp only
        rw [applyPatch_via]
        exact retrieveLoop_ascii hd path (applyPatch_ascii ha hx)

theorem AsciiStore.retrieve {v : Versions τ T} (A : AsciiStore v) (path : List τ) :
    retrieveUsingPath charTokenizer.bytesOps v path = retrieveUsingPath nullTok v path ∧
      ∀ b, retrieveUsingPath nullTok v path = .ok b → IsAscii b := by
  cases path with
  | nil => exact ⟨rfl, by intro b h; cases h⟩
  | cons root rest =>
    simp only [retrieveUsingPath]
    cases h : dget v.headVersion root with
    | none => exact ⟨rfl, by intro b h; cases h⟩
    | some c =>
      have hc : IsAscii c := A.heads _ (mem_of_dget h)
      simp only [bind, Except.bind]
      rw [show charTokenizer.bytesOps.encode charTokenizer.bytesOps.init c =
        .ok (c.map UInt8.toNat, some .bytes) from charOps_encode (.inl rfl) hc]
      rw [show nullTok.encode nullTok.init c = .ok (c, ()) from rfl]
      dsimp only
      rcases retrieveLoop_ascii A.diffs rest hc with ⟨e, h1, h2⟩ | ⟨q, h1, h2, h3⟩
      · rw [h1, h2]
        exact ⟨rfl, by intro b h; cases h⟩
      · rw [h1, h2]
        dsimp only
        rw [charOps_decode h3]
        refine ⟨rfl, ?_⟩
        intro b hb
        cases hb
        exact h3

theorem stripForward_via {α β : Type _} (f : α → β) : ∀ (l : List (ChangeItem α)),
    stripForward (l.map (ChangeItem.rename f)) = (stripForward l).map (PatchItem.via f)
  | [] => rfl
  | c :: rest => by
    have ih := stripForward_via f rest
    cases c with
    | common a b =>
      simp only [List.map_cons, ChangeItem.rename, stripForward, List.filterMap_cons, PatchItem.via] at ih ⊢
      rw [ih]
    | change a b =>
      cases a with
      | nil =>
        simp only [List.map_cons, ChangeItem.rename, stripForward, List.filterMap_cons,
          List.map_nil, List.isEmpty_nil, if_true] at ih ⊢
        exact ih
      | cons x a =>
        simp only [List.map_cons, ChangeItem.rename, stripForward, List.filterMap_cons,
          List.isEmpty_cons, Bool.false_eq_true, if_false, PatchItem.via] at ih ⊢
        rw [ih]

theorem makeChangeset_ascii {a b : Bytes} (ha : IsAscii a) (hb : IsAscii b) :
    makeChangeset charTokenizer.bytesOps a b = makeChangeset nullTok a b ∧
      ∀ cs, makeChangeset nullTok a b = .ok cs → AsciiItems cs := by
  obtain ⟨cs, h, w, _⟩ := C55_patch_normal_form a b
  have hA : AsciiItems (stripForward cs.asChangeStream) := by
    intro p hp
    obtain ⟨_, l, r, e⟩ := w _ hp
    intro x hx
    exact hb x (by rw [← e]; simp [hx])
  have h2 : findChangeset (a.map UInt8.toNat) (b.map UInt8.toNat) = some (cs.rename UInt8.toNat) := by
    rw [findChangeset_rename (fun x y h => UInt8.toNat_inj.1 h), h]
    rfl
  have e1 : makeChangeset nullTok a b = .ok (stripForward cs.asChangeStream) := by
    unfold makeChangeset
    rw [show nullTok.encode nullTok.init a = .ok (a, ()) from rfl]
    simp only [bind, Except.bind]
    rw [show nullTok.encode () b = .ok (b, ()) from rfl]
    simp only [h]
    exact decodeItems_plain _
  refine ⟨?_, fun cs' hcs => ?_⟩
  · rw [e1]
    unfold makeChangeset
    rw [show charTokenizer.bytesOps.encode charTokenizer.bytesOps.init a =
        .ok (a.map UInt8.toNat, some .bytes) from charOps_encode (.inl rfl) ha]
    simp only [bind, Except.bind]
    rw [charOps_encode (.inr rfl) hb]
    simp only [h2, Changeset.asChangeStream_rename, stripForward_via]
    exact decodeItems_char hA
  · rw [e1] at hcs
    cases hcs
    exact hA

/-- What can be serialized fits. -/
theorem fits_of_serialize {cs : List (PatchItem UInt8)} {d : Bytes} (h : serializeChangeset cs = .ok d) :
    ∀ c ∈ cs, c.Fits := by
  suffices H : ∀ pre post : List (PatchItem UInt8), (∀ c ∈ pre, c.Fits) → cs = pre ++ post →
      ∀ c ∈ post, c.Fits from H [] cs (by simp) rfl
  intro pre post
  induction post generalizing pre with
  | nil => intro _ _ c hc; simp at hc
  | cons c post ih =>
    intro hp e
    have hc : c.Fits := by
      refine Classical.byContradiction fun hn => ?_
      obtain ⟨k1, k2⟩ := C25_refused pre post c hp hn
      rw [← e, h] at k1 k2
      by_cases hx : ∃ start, start < 2 ^ 64 ∧ c = .slice ⟨start, none⟩
      · obtain ⟨s, h1, h2⟩ := hx
        cases k1 s h1 h2
      · cases k2 fun s h1 h2 => hx ⟨s, h1, h2⟩
    intro c' hc'
    rcases List.mem_cons.1 hc' with rfl | h'
    · exact hc
    · refine ih (pre ++ [c]) ?_ (by simp [e]) c' h'
      intro x hx
      rcases List.mem_append.1 hx with h1 | h1
      · exact hp x h1
      · rw [List.mem_singleton.1 h1]; exact hc

theorem mem_dset {β : Type _} {k : τ} {x : β} : ∀ {d : List (τ × β)} {y : τ × β}, y ∈ dset d k x →
    y.2 = x ∨ y ∈ d
  | [], y, h => by
    rw [dset, List.mem_singleton] at h
    exact .inl (by rw [h])
  | (k', v') :: d, y, h => by
    rw [dset] at h
    split at h
    · rcases List.mem_cons.1 h with rfl | h
      · exact .inl rfl
      · exact .inr (by simp [h])
    · rcases List.mem_cons.1 h with rfl | h
      · exact .inr (by simp)
      · rcases mem_dset h with h | h
        · exact .inl h
        · exact .inr (by simp [h])

theorem mem_of_ddel {β : Type _} {k : τ} : ∀ {d : List (τ × β)} {y : τ × β}, y ∈ ddel d k → y ∈ d
  | [], y, h => by simp [ddel] at h
  | (k', v') :: d, y, h => by
    rw [ddel] at h
    split at h
    · simp [h]
    · rcases List.mem_cons.1 h with rfl | h
      · simp
      · simp [mem_of_ddel h]

variable {ops : TreeOps τ T}

theorem AsciiStore.addEdge {v : Versions τ T} (A : AsciiStore v) (p c : τ)
    {cs : List (PatchItem UInt8)} (hcs : AsciiItems cs) : AsciiStore (Gaspra.addEdge ops v p c cs).1 := by
  unfold Gaspra.addEdge
  cases hs : serializeChangeset cs with
  | error e => exact A
  | ok d =>
    have hd : AsciiItems (deserializeChangeset d).1 := by
      obtain ⟨d', k1, k2⟩ := C25_changeset_roundtrip cs (fits_of_serialize hs)
      rw [hs] at k1
      cases k1
      rw [k2]
      intro p hp
      exact hcs p (List.mem_filter.1 hp).1
    have A' : ∀ x ∈ dset v.diffs c d, AsciiItems (deserializeChangeset x.2).1 := by
      intro x h
      rcases mem_dset h with e | h
      · rw [e]; exact hd
      · exact A.diffs _ h
    dsimp only
    cases ops.changeParent v.tree c p with
    | mk tree e =>
      cases e with
      | some e => exact ⟨A.heads, A'⟩
      | none =>
        dsimp only
        split
        · exact ⟨fun x h => A.heads _ (mem_of_ddel h), A'⟩
        · exact ⟨A.heads, A'⟩

theorem AsciiStore.tree {v : Versions τ T} (A : AsciiStore v) (t : T) :
    AsciiStore { v with tree := t } := ⟨A.heads, A.diffs⟩

theorem AsciiStore.addSplit {v : Versions τ T} (A : AsciiStore v) (tag : τ) {c : Bytes} (hc : IsAscii c)
    (split : τ) (path : List τ) :
    Gaspra.addSplit ops charTokenizer.bytesOps v tag c split path =
      Gaspra.addSplit ops nullTok v tag c split path ∧
    AsciiStore (Gaspra.addSplit ops nullTok v tag c split path).1 := by
  obtain ⟨h1, h2⟩ := A.retrieve path
  simp only [Gaspra.addSplit, h1]
  cases h : retrieveUsingPath nullTok v path with
  | error e => exact ⟨rfl, A⟩
  | ok sv =>
    dsimp only
    obtain ⟨k1, k2⟩ := makeChangeset_ascii hc (h2 _ h)
    rw [k1]
    refine ⟨rfl, ?_⟩
    cases hm : makeChangeset nullTok c sv with
    | error e => exact A
    | ok cs =>
      dsimp only
      have := A.addEdge (ops := ops) tag split (k2 _ hm)
      generalize Gaspra.addEdge ops v tag split cs = r at this
      obtain ⟨v', e⟩ := r
      cases e with
      | some e => exact this
      | none => exact this.tree _

theorem AsciiStore.addOldHead {v : Versions τ T} (A : AsciiStore v) (tag : τ) {c : Bytes}
    (hc : IsAscii c) (head : τ) :
    Gaspra.addOldHead ops charTokenizer.bytesOps v tag c head =
      Gaspra.addOldHead ops nullTok v tag c head ∧
    AsciiStore (Gaspra.addOldHead ops nullTok v tag c head).1 := by
  simp only [Gaspra.addOldHead]
  cases h : dget v.headVersion head with
  | none => exact ⟨rfl, A⟩
  | some hv =>
    dsimp only
    obtain ⟨k1, k2⟩ := makeChangeset_ascii hc (A.heads _ (mem_of_dget h))
    rw [k1]
    refine ⟨rfl, ?_⟩
    cases hm : makeChangeset nullTok c hv with
    | error e => exact A
    | ok cs => exact A.addEdge (ops := ops) tag head (k2 _ hm)

theorem AsciiStore.add {v : Versions τ T} (A : AsciiStore v) (tag : τ) {c : Bytes} (hc : IsAscii c)
    (base : Option τ) :
    versionsAdd ops charTokenizer.bytesOps v tag c base = versionsAdd ops nullTok v tag c base ∧
    AsciiStore (versionsAdd ops nullTok v tag c base).1 := by
  have A1 : AsciiStore { v with headVersion := dset v.headVersion tag c } := by
    refine ⟨fun x h => ?_, A.diffs⟩
    rcases mem_dset h with e | h
    · rw [e]; exact hc
    · exact A.heads _ h
  unfold versionsAdd
  dsimp only
  cases ops.add v.tree tag base with
  | mk tree e =>
    cases e with
    | some e => exact ⟨rfl, A1.tree _⟩
    | none =>
      cases base with
      | none => exact ⟨rfl, A1.tree _⟩
      | some head =>
        dsimp only
        have A2 := A1.tree tree
        generalize ({ headVersion := dset v.headVersion tag c, diffs := v.diffs, tree := tree } :
          Versions τ T) = w at A2
        unfold addToHead
        cases hs : ops.getSplit w.tree head with
        | error e => exact ⟨rfl, A2⟩
        | ok x =>
          obtain ⟨split, path⟩ := x
          dsimp only
          split
          · obtain ⟨h1, h2⟩ := A2.addSplit (ops := ops) tag hc split path
            rw [h1]
            generalize Gaspra.addSplit ops nullTok w tag c split path = r at h2
            obtain ⟨w', e⟩ := r
            cases e with
            | some e => exact ⟨rfl, h2⟩
            | none => exact h2.addOldHead (ops := ops) tag hc head
          · exact A2.addOldHead (ops := ops) tag hc head

theorem AsciiStore.get {v : Versions τ T} (A : AsciiStore v) (tag : τ) :
    versionsGet ops charTokenizer.bytesOps v tag = versionsGet ops nullTok v tag := by
  unfold versionsGet
  cases ops.pathTo v.tree tag with
  | error e => rfl
  | ok x =>
    cases x with
    | none => rfl
    | some path =>
      cases path with
      | nil => rfl
      | cons a path => dsimp only; rw [(A.retrieve _).1]

/-- A version kept in full is read by any tokenizer that can read its text back. -/
theorem get_full {Tok S : Type _} [DecidableEq Tok] {tk : TokOps Tok S} {v : Versions τ T} {t : τ}
    {c : Bytes} (hp : ops.pathTo v.tree t = .ok (some [t])) (hh : dget v.headVersion t = some c)
    {toks : List Tok} {st : S} (he : tk.encode tk.init c = .ok (toks, st))
    (hd : tk.decode st toks = .ok c) : versionsGet ops tk v t = .ok (some c) := by
  simp [versionsGet, hp, retrieveUsingPath, hh, he, retrieveLoop, bind, Except.bind, hd]

end
end Gaspra
