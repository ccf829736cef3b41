import Verif.Props.Store
import Verif.Props.Refused
import Verif.Props.GrowLines
import Verif.Props.GrowSize
import Verif.Props.Manifest

/-!
# C104: what a store in a database guarantees with every tokenizer, and manifests in a database

The theorems about tokenizers, growing texts, sizes and manifests are about stores with a
`MemoryTree`.  Here they are carried over to stores whose three parts (`head_version`, `diffs` and
`tree`) are tables of a database.
-/

namespace Gaspra

variable {τ Tok S : Type} [DecidableEq τ] [DecidableEq Tok]

/-- The store after a history, with all its parts in the database. -/
abbrev allDBAfter (tk : TokOps Tok S) (h : List (AddOp τ)) : Store (Graph τ) (Coll τ Bytes) :=
  runStore (collOps τ) (dbTree τ) tk (emptyDBStore τ) h

/-- `get` of a store with all its parts in the database. -/
abbrev allDBGet (tk : TokOps Tok S) (s : Store (Graph τ) (Coll τ Bytes)) (x : τ) :
    Except PyErr (Option Bytes) := storeGet (collOps τ) (dbTree τ) tk s x

/-- C104.  With any tokenizer and after any history with fresh tags, a store in the database
answers as a store in memory, and its two tables hold the same rows as the two dictionaries. -/
theorem C104_same_store (tk : TokOps Tok S) {h : List (AddOp τ)} (F : FreshHistory h) :
    (allDBAfter tk h).headVersion = (memStoreAfter tk h).headVersion ∧
    (allDBAfter tk h).diffs = (memStoreAfter tk h).diffs ∧
    ∀ x, allDBGet tk (allDBAfter tk h) x = versionsGet (memoryTree τ) tk (memStoreAfter tk h) x ∧
      storeContains (dbTree τ) (allDBAfter tk h) x =
        versionsContains (memoryTree τ) (memStoreAfter tk h) x := by
  obtain ⟨L, _⟩ := runStore_like (collOps_like (τ := τ)) (ops := dbTree τ) (tk := tk) h
    (s := ⟨[], [], []⟩) (v := ⟨[], [], []⟩) ⟨⟨rfl, by simp⟩, ⟨rfl, by simp⟩, rfl⟩
  obtain ⟨a1, a2, a3⟩ := C36_same_answers tk F
  refine ⟨L.heads.1.trans a1, L.diffs.1.trans a2, fun x => ?_⟩
  obtain ⟨b1, b2⟩ := (C69_collections (dbTree τ) tk [] h).2 x
  exact ⟨b1.trans (a3 x).1, b2.trans (a3 x).2.2⟩

theorem GoodHistory.same_errors (tk : TokOps Tok S) {h : List (AddOp τ)} (G : GoodHistory h) :
    runErrors (dbTree τ) tk (emptyDBVersions τ) h = runErrors (memoryTree τ) tk (emptyVersions τ) h := by
  have key : ∀ {T : Type _} (ops : TreeOps τ T) (h : List (AddOp τ)) (a : AddOp τ) (v : Versions τ T),
      runErrors ops tk v (h ++ [a]) =
        runErrors ops tk v h ++ [(versionsAdd ops tk (runHistory ops tk v h) a.tag a.content a.base).2] := by
    intro T ops h
    induction h with
    | nil => intro a v; rfl
    | cons x h ih => intro a v; simp only [List.cons_append, runErrors, ih]; rfl
  induction G with
  | nil => rfl
  | @snoc h a G h1 h2 ih =>
    have GG : GoodHistory (h ++ [a]) := .snoc G h1 h2
    rw [key, key, ih]
    have e := (C36_same_errors tk GG.fresh).1
    rw [if_neg (by rintro ⟨b, hb, hn⟩; exact hn (h2 b hb).1)] at e
    rw [show versionsAdd (dbTree τ) tk (runHistory (dbTree τ) tk (emptyDBVersions τ) h) a.tag a.content
      a.base = versionsAdd (dbTree τ) tk (dbStoreAfter tk h) a.tag a.content a.base from rfl, e]

/-- C104.  With any tokenizer, if every base is a current head, every call raises the same exception
as over a store in memory. -/
theorem C104_same_errors (tk : TokOps Tok S) {h : List (AddOp τ)} (G : GoodHistory h) :
    storeErrors (collOps τ) (dbTree τ) tk (emptyDBStore τ) h =
      runErrors (memoryTree τ) tk (emptyVersions τ) h :=
  ((C69_collections (dbTree τ) tk [] h).1).trans (G.same_errors tk)

/-- C104.  `CharTokenizer` in a database: contents that are UTF-8 are returned exactly and all others
raise, after any history with fresh tags. -/
theorem C104_char {h : List (AddOp τ)} (F : FreshHistory h)
    (hc : ∀ a ∈ h, a.content.length < 2 ^ 64) : ∀ a ∈ h,
    allDBGet charTokenizer.bytesOps (allDBAfter charTokenizer.bytesOps h) a.tag =
      if Utf8Bytes a.content then .ok (some a.content) else .error .unicodeError := by
  intro a ha
  rw [((C104_same_store charTokenizer.bytesOps F).2.2 a.tag).1]
  exact C97_char_get F hc a ha

/-- C104.  `SymbolTokenizer` in a database. -/
theorem C104_symbol (cls : Nat → Bool) {h : List (AddOp τ)} (F : FreshHistory h)
    (hc : ∀ a ∈ h, a.content.length < 2 ^ 64) : ∀ a ∈ h,
    allDBGet (symbolTokenizer cls).bytesOps (allDBAfter (symbolTokenizer cls).bytesOps h) a.tag =
      if Utf8Bytes a.content then .ok (some a.content) else .error .unicodeError := by
  intro a ha
  rw [((C104_same_store (symbolTokenizer cls).bytesOps F).2.2 a.tag).1]
  exact C97_symbol_get cls F hc a ha

theorem runErrors_none {T : Type _} {ops : TreeOps τ T} {tk : TokOps Tok S} :
    ∀ {h : List (AddOp τ)} {v : Versions τ T},
    (∀ {h₁ h₂ : List (AddOp τ)} {a : AddOp τ}, h = h₁ ++ a :: h₂ →
      (versionsAdd ops tk (runHistory ops tk v h₁) a.tag a.content a.base).2 = none) →
    runErrors ops tk v h = h.map fun _ => none
  | [], _, _ => rfl
  | a :: h, v, H => by
    have h0 := H (h₁ := []) (h₂ := h) (a := a) rfl
    have h0 : (versionsAdd ops tk v a.tag a.content a.base).2 = none := h0
    simp only [runErrors, h0, List.map_cons]
    rw [runErrors_none]
    intro h₁ h₂ b e
    exact H (h₁ := a :: h₁) (h₂ := h₂) (a := b) (by rw [e]; rfl)

/-- C104.  `LineTokenizer` in a database: growing texts are added without an exception and always
returned exactly. -/
theorem C104_lines {h : List (AddOp τ)} (G : GoodHistory h)
    (hc : ∀ a ∈ h, a.content.length + 1 < 2 ^ 64) (hg : GrowingHistory h) :
    storeErrors (collOps τ) (dbTree τ) lineTokenizer.bytesOps (emptyDBStore τ) h = h.map (fun _ => none) ∧
    ∀ a ∈ h, allDBGet lineTokenizer.bytesOps (allDBAfter lineTokenizer.bytesOps h) a.tag =
      .ok (some a.content) := by
  constructor
  · rw [C104_same_errors _ G]
    exact runErrors_none fun e => C98_growing_add G hc hg e
  · intro a ha
    rw [((C104_same_store lineTokenizer.bytesOps G.fresh).2.2 a.tag).1]
    exact C98_growing_get G hc hg a ha

/-- C104.  The data of the two tables after adding texts that contain their bases: the newest
versions in full and 19 bytes for every other version. -/
theorem C104_total {h : List (AddOp τ)} (G : GoodHistory h) (hc : ContentsFit h) (hg : ContainsBase h) :
    ((allDBAfter nullTok h).headVersion.map (·.2.length)).sum +
        ((allDBAfter nullTok h).diffs.map (·.2.length)).sum ≤
      ((h.filter fun a => IsHead h a.tag).map (·.content.length)).sum +
        19 * (h.filter fun a => ¬ IsHead h a.tag).length := by
  obtain ⟨e1, e2, _⟩ := C104_same_store nullTok G.fresh
  rw [e1, e2]
  exact C99_total G hc hg

/-! ### Manifests -/

section
variable {tk : TokOps Tok S}

theorem Joint.manifestLoop {contents : List (PyStr × Bytes)} {bm : Option Manifest} :
    ∀ (manifest : Manifest) {v : Versions PyStr (MTree PyStr)} {w : Versions PyStr (Graph PyStr)},
      Joint v w → (∀ m, bm = some m → ∀ p ∈ m, dget v.tree p.2 ≠ none) →
      Joint (Gaspra.manifestLoop (memoryTree PyStr) tk contents bm v manifest).1
          (Gaspra.manifestLoop (dbTree PyStr) tk contents bm w manifest).1 ∧
        (Gaspra.manifestLoop (dbTree PyStr) tk contents bm w manifest).2 =
          (Gaspra.manifestLoop (memoryTree PyStr) tk contents bm v manifest).2 ∧
        (∀ t, dget v.tree t ≠ none →
          dget (Gaspra.manifestLoop (memoryTree PyStr) tk contents bm v manifest).1.tree t ≠ none) ∧
        ∀ t, dget (Gaspra.manifestLoop (memoryTree PyStr) tk contents bm v manifest).1.tree t ≠ none →
          dget v.tree t ≠ none ∨ ∃ p ∈ manifest, p.2 = t
  | [], v, w, J, _ => ⟨J, rfl, fun _ h => h, fun _ h => Or.inl h⟩
  | (name, tag) :: rest, v, w, J, hb => by
    have hkeys : ∀ {v : Versions PyStr (MTree PyStr)} {t : PyStr},
        dget v.tree t ≠ none ↔ t ∈ v.tree.map Prod.fst := by
      intro v t
      constructor
      · intro h
        cases hh : dget v.tree t with
        | none => exact absurd hh h
        | some nd => exact mem_keys_of_dget hh
      · intro h e
        obtain ⟨nd, hnd⟩ := dget_isSome_iff.2 h
        rw [e] at hnd; cases hnd
    simp only [Gaspra.manifestLoop, J.contains]
    by_cases hc : versionsContains (memoryTree PyStr) v tag = true
    · simp only [if_pos hc]
      obtain ⟨a1, a2, a3, a4⟩ := Joint.manifestLoop rest J hb
      refine ⟨a1, a2, a3, fun t ht => ?_⟩
      rcases a4 t ht with h | ⟨p, hp, e⟩
      · exact Or.inl h
      · exact Or.inr ⟨p, by simp [hp], e⟩
    · simp only [if_neg hc]
      have hd : dget v.tree tag = none := by
        cases hh : dget v.tree tag with
        | none => rfl
        | some nd =>
          exact absurd (show versionsContains (memoryTree PyStr) v tag = true by
            simp [versionsContains, memoryTree, mtContains, dmem, hh]) hc
      cases dget contents tag with
      | none => exact ⟨J, rfl, fun _ h => h, fun _ h => Or.inl h⟩
      | some content =>
        cases hbe : baseEntry bm name with
        | error e => exact ⟨J, rfl, fun _ h => h, fun _ h => Or.inl h⟩
        | ok base =>
          have hbk : ∀ b, base = some b → dget v.tree b ≠ none := by
            intro b e
            subst e
            unfold baseEntry at hbe
            cases bm with
            | none => cases hbe
            | some m =>
              cases hm : dget m name with
              | none => simp only [hm] at hbe; cases hbe
              | some b' =>
                simp only [hm] at hbe
                cases hbe
                exact hb m rfl (name, b) (dget_mem' hm)
          obtain ⟨b1, b2, _, b4⟩ := J.add (tk := tk) hd content base
            (fun e => hbk tag e hd)
          have b4 := b4 hbk
          simp only
          cases hm : versionsAdd (memoryTree PyStr) tk v tag content base with
          | mk v' e1 =>
            cases hw : versionsAdd (dbTree PyStr) tk w tag content base with
            | mk w' e2 =>
              rw [hm, hw] at b1 b4
              rw [hm] at b2
              simp only at b1 b2 b4
              subst b4
              have hgrow : ∀ t, dget v.tree t ≠ none → dget v'.tree t ≠ none := by
                intro t ht
                rw [hkeys, b2]
                exact List.mem_append.2 (Or.inl (hkeys.1 ht))
              have hback : ∀ t, dget v'.tree t ≠ none → dget v.tree t ≠ none ∨ tag = t := by
                intro t ht
                rw [hkeys, b2] at ht
                rcases List.mem_append.1 ht with h | h
                · exact Or.inl (hkeys.2 h)
                · simp at h; exact Or.inr h.symm
              cases e2 with
              | some e =>
                refine ⟨b1, rfl, hgrow, fun t ht => ?_⟩
                rcases hback t ht with h | h
                · exact Or.inl h
                · exact Or.inr ⟨(name, tag), by simp, h⟩
              | none =>
                obtain ⟨a1, a2, a3, a4⟩ := Joint.manifestLoop rest b1
                  (fun m e p hp => hgrow _ (hb m e p hp))
                refine ⟨a1, a2, fun t ht => a3 t (hgrow t ht), fun t ht => ?_⟩
                rcases a4 t ht with h | ⟨p, hp, e⟩
                · rcases hback t h with h | h
                  · exact Or.inl h
                  · exact Or.inr ⟨(name, tag), by simp, h⟩
                · exact Or.inr ⟨p, by simp [hp], e⟩

/-- One call of `add_manifest` on a store in memory and on the same store in a database. -/
theorem Joint.addManifest {v : Versions PyStr (MTree PyStr)} {w : Versions PyStr (Graph PyStr)}
    (J : Joint v w) {tag : PyStr} {manifest : Manifest} (contents : List (PyStr × Bytes))
    {base : Option PyStr} {bm : Option Manifest}
    (hbm : baseManifest (memoryTree PyStr) tk v base = .ok bm)
    (hb : ∀ m, bm = some m → ∀ p ∈ m, dget v.tree p.2 ≠ none) (h1 : dget v.tree tag = none)
    (h2 : ∀ p ∈ manifest, p.2 ≠ tag) (h3 : base ≠ some tag)
    (h4 : ∀ b, base = some b → ∀ p ∈ manifest, p.2 ≠ b) :
    Joint (Gaspra.addManifest (memoryTree PyStr) tk v tag manifest contents base).1
        (Gaspra.addManifest (dbTree PyStr) tk w tag manifest contents base).1 ∧
      ((∀ b, base = some b → dget v.tree b ≠ none) →
        (Gaspra.addManifest (dbTree PyStr) tk w tag manifest contents base).2 =
          (Gaspra.addManifest (memoryTree PyStr) tk v tag manifest contents base).2) ∧
      ∀ b, base = some b → dget v.tree b = none →
        ((Gaspra.manifestLoop (memoryTree PyStr) tk contents bm v manifest).2 = none ∧
          (∃ doc, manifestToDoc manifest = .ok doc) →
          (Gaspra.addManifest (dbTree PyStr) tk w tag manifest contents base).2 = some .typeError ∧
          (Gaspra.addManifest (memoryTree PyStr) tk v tag manifest contents base).2 = some .keyError) ∧
        (¬ ((Gaspra.manifestLoop (memoryTree PyStr) tk contents bm v manifest).2 = none ∧
          ∃ doc, manifestToDoc manifest = .ok doc) →
          (Gaspra.addManifest (dbTree PyStr) tk w tag manifest contents base).2 =
            (Gaspra.addManifest (memoryTree PyStr) tk v tag manifest contents base).2) := by
  have hbw : baseManifest (dbTree PyStr) tk w base = .ok bm := by
    rw [← hbm]
    unfold baseManifest
    cases base with
    | none => rfl
    | some b => simp only [J.get]
  obtain ⟨a1, a2, a3, a4⟩ := J.manifestLoop (tk := tk) (contents := contents) manifest hb
  unfold Gaspra.addManifest
  simp only [hbm, hbw]
  cases hm : Gaspra.manifestLoop (memoryTree PyStr) tk contents bm v manifest with
  | mk v' e1 =>
    cases hw : Gaspra.manifestLoop (dbTree PyStr) tk contents bm w manifest with
    | mk w' e2 =>
      rw [hm, hw] at a1 a2
      rw [hm] at a3 a4
      simp only at a1 a2 a3 a4
      subst a2
      cases e2 with
      | some e => exact ⟨a1, fun _ => rfl, fun b _ _ => ⟨fun h => by simp at h, fun _ => rfl⟩⟩
      | none =>
        simp only
        cases hdoc : manifestToDoc manifest with
        | error e =>
          refine ⟨a1, fun _ => rfl, fun b _ _ => ⟨fun h => ?_, fun _ => rfl⟩⟩
          obtain ⟨_, _, h⟩ := h
          cases h
        | ok doc =>
          have hn : dget v'.tree tag = none := by
            cases hh : dget v'.tree tag with
            | none => rfl
            | some nd =>
              rcases a4 tag (by rw [hh]; simp) with h | ⟨p, hp, e⟩
              · exact absurd h1 h
              · exact absurd e (h2 p hp)
          obtain ⟨b1, _, b3, b4⟩ := a1.add (tk := tk) hn doc base h3
          refine ⟨b1, fun h => b4 fun b e => a3 b (h b e), fun b e hnone => ⟨fun _ => ?_, fun h => ?_⟩⟩
          · have : dget v'.tree b = none := by
              cases hh : dget v'.tree b with
              | none => rfl
              | some nd =>
                rcases a4 b (by rw [hh]; simp) with h | ⟨p, hp, e'⟩
                · exact absurd hnone h
                · exact absurd e' (h4 b e p hp)
            exact ⟨(b3 b e this).2, (b3 b e this).1⟩
          · exact absurd ⟨trivial, doc, rfl⟩ h

end

/-- C104.  One call of `add_manifest` on a store in a database: the store keeps giving the same
answers as the one in memory, and the exception is the same, except that an unknown base gives a
`TypeError` (after the loop over the entries) instead of the `KeyError`. -/
theorem C104_add_manifest {h : List (AddOp PyStr)} (F : FreshHistory h) (hc : ContentsFit h)
    {tag : PyStr} {manifest : Manifest} {contents : List (PyStr × Bytes)} {base : Option PyStr}
    {bm : Option Manifest} (hb : BaseIs h base bm) (hs : SafeManifest manifest)
    (h1 : tag ∉ addedTags h) (h2 : ∀ p ∈ manifest, p.2 ≠ tag) (h3 : base ≠ some tag)
    (h4 : ∀ b, base = some b → ∀ p ∈ manifest, p.2 ≠ b)
    (hfit : ∀ p ∈ contents, p.2.length < 2 ^ 64) :
    let r := addManifest (memoryTree PyStr) nullTok (memStoreAfter nullTok h) tag manifest contents base
    let s := addManifest (dbTree PyStr) nullTok (dbStoreAfter nullTok h) tag manifest contents base
    (∀ t, getManifest (dbTree PyStr) nullTok s.1 t = getManifest (memoryTree PyStr) nullTok r.1 t ∧
      versionsGet (dbTree PyStr) nullTok s.1 t = versionsGet (memoryTree PyStr) nullTok r.1 t ∧
      versionsContains (dbTree PyStr) s.1 t = versionsContains (memoryTree PyStr) r.1 t) ∧
    ((∀ b, base = some b → b ∈ addedTags h) → s.2 = r.2) ∧
    ∀ b, base = some b → b ∉ addedTags h →
      (ManifestReady h contents none manifest → s.2 = some .typeError) ∧
      (¬ ManifestReady h contents none manifest → s.2 = some .keyError) := by
  have J : Joint (memStoreAfter nullTok h) (dbStoreAfter nullTok h) := (F.joint (tk := nullTok)).1
  have hk : (memStoreAfter nullTok h).tree.map Prod.fst = addedTags h := (F.joint (tk := nullTok)).2
  have known : ∀ {t : PyStr}, t ∈ addedTags h → dget (memStoreAfter nullTok h).tree t ≠ none := by
    intro t ht e
    rw [← hk] at ht
    obtain ⟨nd, hnd⟩ := dget_isSome_iff.2 ht
    rw [e] at hnd; cases hnd
  have unknown : ∀ {t : PyStr}, t ∉ addedTags h → dget (memStoreAfter nullTok h).tree t = none := by
    intro t ht
    cases hh : dget (memStoreAfter nullTok h).tree t with
    | none => rfl
    | some nd => exact absurd (hk ▸ mem_keys_of_dget hh) ht
  have hbk : ∀ m, bm = some m → ∀ p ∈ m, p.2 ∈ addedTags h := by
    intro m hm
    subst hm
    cases hb with
    | known _ _ _ h _ => exact h
  obtain ⟨a1, a2, a3⟩ := J.addManifest (tk := nullTok) contents (baseManifest_of F hc hb)
    (fun m e p hp => known (hbk m e p hp)) (unknown h1) h2 h3 h4
  refine ⟨fun t => ⟨?_, a1.get t, a1.contains t⟩, fun h => a2 fun b e => known (h b e), ?_⟩
  · simp only [getManifest, a1.get]
  · intro b e hn
    subst e
    have hbm : bm = none := by
      cases hb with
      | unknown _ => rfl
      | known ha _ _ _ _ => exact absurd (List.mem_map.2 ⟨_, ha, rfl⟩) hn
    subst hbm
    obtain ⟨h', err, e1, _, _, _, _, e6, e7, _⟩ := manifestLoop_spec (contents := contents) (bm := none)
      hfit manifest F hc (by simp)
    obtain ⟨doc, d1, _⟩ := doc_roundtrip hs
    obtain ⟨b1, b2⟩ := a3 b rfl (unknown hn)
    have e1' : (manifestLoop (memoryTree PyStr) nullTok contents none (memStoreAfter nullTok h)
      manifest).2 = err := congrArg Prod.snd e1
    rw [e1'] at b1 b2
    refine ⟨fun hr => (b1 ⟨e7.2 hr, doc, d1⟩).1, fun hr => ?_⟩
    have hne : err ≠ none := fun h => hr (e7.1 h)
    rw [b2 (fun h => hne h.1)]
    have he : err = some .keyError := e6.resolve_left hne
    subst he
    unfold addManifest
    rw [baseManifest_of F hc hb]
    simp only
    rw [show manifestLoop (memoryTree PyStr) nullTok contents none (memStoreAfter nullTok h) manifest =
      (storeAfter (h ++ h'), some .keyError) from e1]

/-- C104.  Any sequence of calls of `add_manifest` on a store in a database: a call fails over the
database iff it fails in memory, with a `KeyError` or a `TypeError`; every manifest whose call
succeeded is returned exactly, and every tag it lists is retrieved with its contents. -/
theorem C104_manifests {ops : List ManifestOp} (G : ManifestHistory ops) (C : PyStr → Option Bytes)
    (hC : ∀ op ∈ ops, ∀ t c, dget op.contents t = some c → C t = some c) :
    let r := runManifests (memoryTree PyStr) nullTok (emptyVersions PyStr) ops
    let s := runManifests (dbTree PyStr) nullTok (emptyDBVersions PyStr) ops
    s.2.length = ops.length ∧ (∀ e ∈ s.2, e = none ∨ e = some .keyError ∨ e = some .typeError) ∧
    (∀ i : Nat, s.2[i]? = some none ↔ r.2[i]? = some none) ∧
    ∀ (i : Nat) op, ops[i]? = some op → s.2[i]? = some none →
      getManifest (dbTree PyStr) nullTok s.1 op.tag = .ok op.manifest ∧
      ∀ p ∈ op.manifest, ∃ c, C p.2 = some c ∧
        versionsGet (dbTree PyStr) nullTok s.1 p.2 = .ok (some c) := by
  have key : ∀ (rest done : List ManifestOp) {errs : List (Option PyErr)} {h : List (AddOp PyStr)}
      {w : Versions PyStr (Graph PyStr)}, ops = done ++ rest → ManifestInv ops done errs h →
      Joint (storeAfter h) w →
      Joint (runManifests (memoryTree PyStr) nullTok (storeAfter h) rest).1
        (runManifests (dbTree PyStr) nullTok w rest).1 ∧
      (runManifests (dbTree PyStr) nullTok w rest).2.length =
        (runManifests (memoryTree PyStr) nullTok (storeAfter h) rest).2.length ∧
      (∀ e ∈ (runManifests (dbTree PyStr) nullTok w rest).2,
        e = none ∨ e = some .keyError ∨ e = some .typeError) ∧
      ∀ i : Nat, (runManifests (dbTree PyStr) nullTok w rest).2[i]? = some none ↔
        (runManifests (memoryTree PyStr) nullTok (storeAfter h) rest).2[i]? = some none := by
    intro rest
    induction rest with
    | nil => intro done errs h w _ _ J; exact ⟨J, rfl, by simp [runManifests], fun i => Iff.rfl⟩
    | cons op rest ih =>
      intro done errs h w hall I J
      have hop : op ∈ ops := by rw [hall]; simp
      obtain ⟨hnew, bm, hbm⟩ := I.ready G hall
      obtain ⟨h', err, e1, I'⟩ := I.step G hall
      have hk : (storeAfter h).tree.map Prod.fst = addedTags h := (I.fresh.joint (tk := nullTok)).2
      have hbk : ∀ m, bm = some m → ∀ p ∈ m, dget (storeAfter h).tree p.2 ≠ none := by
        intro m hm p hp e
        have : p.2 ∈ addedTags h := by
          subst hm
          revert hbm
          generalize op.base = base
          intro hbm
          cases hbm with
          | known _ _ _ h _ => exact h p hp
        rw [← hk] at this
        obtain ⟨nd, hnd⟩ := dget_isSome_iff.2 this
        rw [e] at hnd; cases hnd
      have hnone : dget (storeAfter h).tree op.tag = none := by
        cases hh : dget (storeAfter h).tree op.tag with
        | none => rfl
        | some nd => exact absurd (hk ▸ mem_keys_of_dget hh) hnew
      obtain ⟨a1, a2, a3⟩ := J.addManifest (tk := nullTok) op.contents
        (baseManifest_of I.fresh I.fit hbm) hbk hnone (G.apart op hop op hop)
        (fun e => (G.bases op hop op.tag e).1 rfl) (fun b e => (G.bases op hop b e).2 op hop)
      rw [e1] at a1 a2 a3
      have herr : err = none ∨ err = some .keyError := I'.errors err (by simp)
      cases hw : addManifest (dbTree PyStr) nullTok w op.tag op.manifest op.contents op.base with
      | mk w' err' =>
        rw [hw] at a1 a2 a3
        simp only at a1 a2 a3
        have herr' : (err' = none ↔ err = none) ∧
            (err' = none ∨ err' = some .keyError ∨ err' = some .typeError) := by
          by_cases hb : ∀ b, op.base = some b → dget (storeAfter h).tree b ≠ none
          · rw [a2 hb]
            exact ⟨Iff.rfl, herr.imp id Or.inl⟩
          · obtain ⟨b, hb1, hb2⟩ : ∃ b, op.base = some b ∧ dget (storeAfter h).tree b = none := by
              apply Classical.byContradiction
              intro hn
              exact hb fun b e e' => hn ⟨b, e, e'⟩
            obtain ⟨c1, c2⟩ := a3 b hb1 hb2
            by_cases hx : (manifestLoop (memoryTree PyStr) nullTok op.contents bm (storeAfter h)
                op.manifest).2 = none ∧ ∃ doc, manifestToDoc op.manifest = .ok doc
            · obtain ⟨d1, d2⟩ := c1 hx
              rw [d1, d2]; simp
            · rw [c2 hx]
              exact ⟨Iff.rfl, herr.imp id Or.inl⟩
        obtain ⟨f1, f2, f3, f4⟩ := ih (done ++ [op]) (by simp [hall]) I' a1
        simp only [runManifests, e1, hw]
        refine ⟨f1, by simp [f2], ?_, ?_⟩
        · intro e he
          rcases List.mem_cons.1 he with rfl | he
          · exact herr'.2
          · exact f3 e he
        · intro i
          cases i with
          | zero => simpa using herr'.1
          | succ i => simpa using f4 i
  have I0 : ManifestInv ops [] [] [] := ⟨.nil, by simp [ContentsFit], by simp, by simp, rfl, by simp⟩
  obtain ⟨f1, f2, f3, f4⟩ := key ops [] (by simp) I0 (Joint.empty)
  obtain ⟨g1, g2, g3⟩ := C44_manifests G C hC
  dsimp only
  refine ⟨f2.trans g1, f3, f4, ?_⟩
  intro i op hi he
  obtain ⟨k1, k2⟩ := g3 i op hi ((f4 i).1 he)
  constructor
  · rw [← k1]
    simp only [getManifest]
    rw [f1.get (tk := nullTok)]
    rfl
  · intro p hp
    obtain ⟨c, c1, c2⟩ := k2 p hp
    refine ⟨c, c1, ?_⟩
    rw [← c2]
    exact f1.get (tk := nullTok) p.2

/-! ### Examples -/

example := C104_char refusedCalls_fresh (by decide)
example := C104_symbol asciiWord refusedCalls_fresh (by decide)
example := C104_lines GoodHistory.four (by decide +kernel) logHistory_grows
example : refusedCalls.map (fun a => allDBGet charTokenizer.bytesOps
      (allDBAfter charTokenizer.bytesOps refusedCalls) a.tag) =
    refusedCalls.map (fun a => versionsGet (memoryTree Nat) charTokenizer.bytesOps
      (memStoreAfter charTokenizer.bytesOps refusedCalls) a.tag) := by decide +kernel
example : allDBGet lineTokenizer.bytesOps (allDBAfter lineTokenizer.bytesOps logHistory) 1 =
    .ok (some [97, 10, 98]) := by decide +kernel
example : (runManifests (dbTree PyStr) nullTok (emptyDBVersions PyStr) sampleOps).2 = [none, none] := by
  decide +kernel
example : getManifest (dbTree PyStr) nullTok
    (runManifests (dbTree PyStr) nullTok (emptyDBVersions PyStr) sampleOps).1 [109, 48] =
    .ok [([1], [100]), ([2], [102])] := by decide +kernel
-- An unknown base: the files are stored first, then `add` raises.  Without the contents of a file
-- the `KeyError` comes first.
example : (runManifests (dbTree PyStr) nullTok (emptyDBVersions PyStr)
      [⟨[109, 48], [([1], [100])], sampleContents, some [9]⟩]).2 = [some .typeError] ∧
    (runManifests (memoryTree PyStr) nullTok (emptyVersions PyStr)
      [⟨[109, 48], [([1], [100])], sampleContents, some [9]⟩]).2 = [some .keyError] ∧
    (runManifests (dbTree PyStr) nullTok (emptyDBVersions PyStr)
      [⟨[109, 48], [([1], [7, 7])], sampleContents, some [9]⟩]).2 = [some .keyError] := by
  decide +kernel

end Gaspra
