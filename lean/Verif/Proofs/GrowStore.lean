import Verif.Proofs.TokenizedHistory

set_option linter.unusedSectionVars false
set_option linter.unusedSimpArgs false
set_option linter.unusedVariables false

/-! # A version store whose deltas are right for some pairs of texts only

The invariant of `Proofs/Versions.lean` for a tokenizer that may be wrong in general, but is right
for the delta from a newer text to an older one as long as the two are related by `G`. -/

namespace Gaspra

variable {τ Tok S : Type _} [DecidableEq τ] [DecidableEq Tok]

/-- One delta leads from tokens that represent `a` to tokens that represent `b`. -/
def DeltaStep (tk : TokOps Tok S) (Rep : S → List Tok → Bytes → Prop) (a b d : Bytes) : Prop :=
  ∀ st toks, Rep st toks a → ∃ items enc st', deserializeChangeset d = (items, none) ∧
    encodeItems tk st items = .ok (enc, st') ∧ Rep st' (applyPatch enc toks) b

/-- Deltas from `a` to `b` are right if `G b a`, for contents that `Fit`. -/
structure DeltaTok (tk : TokOps Tok S) (G : Bytes → Bytes → Prop) (Fit : Bytes → Prop) where
  Rep : S → List Tok → Bytes → Prop
  trans : ∀ {a b c}, G a b → G b c → G a c
  start : ∀ {b}, Fit b → ∃ toks st, tk.encode tk.init b = .ok (toks, st) ∧ Rep st toks b
  fin : ∀ {st toks b}, Rep st toks b → tk.decode st toks = .ok b
  delta : ∀ {a b}, G b a → Fit a → Fit b → ∃ items d, makeChangeset tk a b = .ok items ∧
    serializeChangeset items = .ok d ∧ DeltaStep tk Rep a b d

variable {tk : TokOps Tok S} {G : Bytes → Bytes → Prop} {Fit : Bytes → Prop}

/-- The store holds `content x` for every tag `x` of its tree, and contents grow towards the
root. -/
structure GrowStore (L : DeltaTok tk G Fit) (content : τ → Bytes) (v : Versions τ (MTree τ)) :
    Prop where
  tree : TreeOK v.tree
  hvNodup : (v.headVersion.map Prod.fst).Nodup
  dfNodup : (v.diffs.map Prod.fst).Nodup
  fit : ∀ {x nd}, dget v.tree x = some nd → Fit (content x)
  root : ∀ {x nd}, dget v.tree x = some nd → nd.parent = none →
    dget v.headVersion x = some (content x) ∧ dget v.diffs x = none
  inner : ∀ {x nd p}, dget v.tree x = some nd → nd.parent = some p →
    dget v.headVersion x = none ∧ G (content x) (content p) ∧
      ∃ d items, dget v.diffs x = some d ∧ makeChangeset tk (content p) (content x) = .ok items ∧
        serializeChangeset items = .ok d ∧ DeltaStep tk L.Rep (content p) (content x) d
  absent : ∀ {x}, dget v.tree x = none → dget v.headVersion x = none ∧ dget v.diffs x = none

variable {L : DeltaTok tk G Fit} {content : τ → Bytes} {v : Versions τ (MTree τ)}

/-! ### Retrieval -/

theorem GrowStore.retrieveLoop_ok (I : GrowStore L content v) {x : τ} {l : List τ}
    (h : UpPath v.tree x l) :
    ∃ root rest, l.reverse = root :: rest ∧ dget v.headVersion root = some (content root) ∧
      (x = root ∨ G (content x) (content root)) ∧
      ∀ {st : S} {toks : List Tok}, L.Rep st toks (content root) →
        ∃ toks' st', retrieveLoop tk v.diffs st toks rest = .ok (toks', st') ∧
          L.Rep st' toks' (content x) := by
  induction h with
  | @root x nd h1 h2 =>
    refine ⟨x, [], rfl, (I.root h1 h2).1, Or.inl rfl, ?_⟩
    intro st toks hi
    exact ⟨toks, st, rfl, hi⟩
  | @step x p nd l h1 h2 h3 ih =>
    obtain ⟨root, rest, e1, e2, e0, e3⟩ := ih
    obtain ⟨_, hG, d, _, hd, _, _, hD⟩ := I.inner h1 h2
    refine ⟨root, rest ++ [x], by simp [e1], e2, ?_, ?_⟩
    · rcases e0 with rfl | e0
      · exact Or.inr hG
      · exact Or.inr (L.trans hG e0)
    intro st toks hi
    obtain ⟨toks', st', g1, g2⟩ := e3 hi
    obtain ⟨items, enc, st'', k1, k2, k3⟩ := hD _ _ g2
    refine ⟨_, st'', ?_, k3⟩
    rw [retrieveLoop_append, g1]
    simp only [retrieveLoop, hd, k1, k2]
    rfl

theorem GrowStore.retrieve_ok (I : GrowStore L content v) {x : τ} {l : List τ}
    (h : UpPath v.tree x l) : retrieveUsingPath tk v l.reverse = .ok (content x) := by
  obtain ⟨root, rest, e1, e2, e0, e3⟩ := I.retrieveLoop_ok h
  obtain ⟨nr, hnr⟩ := h.mem_keys root (by
    rw [← List.mem_reverse, e1]; exact List.mem_cons_self)
  obtain ⟨toks, st, a1, a2⟩ := L.start (I.fit hnr)
  obtain ⟨toks', st', g1, g2⟩ := e3 a2
  rw [e1]
  simp only [retrieveUsingPath, e2, a1, bind, Except.bind, g1, L.fin g2]

theorem GrowStore.get_ok (I : GrowStore L content v) {x : τ} {nd : TNode τ}
    (h : dget v.tree x = some nd) : versionsGet (memoryTree τ) tk v x = .ok (some (content x)) := by
  obtain ⟨l, hl⟩ := I.tree.acyc h
  have hp : (memoryTree τ).pathTo v.tree x = .ok (some l.reverse) := pathTo_spec hl
  have hr := I.retrieve_ok hl
  unfold versionsGet
  rw [hp]
  cases hlr : l.reverse with
  | nil => rw [hlr] at hr; simp [retrieveUsingPath] at hr
  | cons a r => rw [hlr] at hr; simp only [hr]

/-! ### Adding a new root -/

theorem GrowStore.addRoot (I : GrowStore L content v) {x : τ} {c : Bytes} {b : Option τ}
    (hx : dget v.tree x = none) (hl : Fit c) {content' : τ → Bytes}
    (h1 : content' x = c) (h2 : ∀ y, y ≠ x → content' y = content y) :
    GrowStore L content' (withRoot v x c b) := by
  have hne : ∀ {y nd}, dget v.tree y = some nd → y ≠ x := by
    rintro y nd h rfl; rw [hx] at h; cases h
  constructor
  · exact I.tree.add hx b
  · exact dset_nodup I.hvNodup _ _
  · exact I.dfNodup
  · intro y nd hy
    simp only [withRoot] at hy; rw [dget_mtAdd] at hy
    split at hy
    · next e => subst e; rw [h1]; exact hl
    · rw [h2 y (hne hy)]; exact I.fit hy
  · intro y nd hy hp
    simp only [withRoot] at hy; rw [dget_mtAdd] at hy
    simp only [withRoot, dget_dset]
    split at hy
    · next e => subst e; rw [if_pos rfl, h1]; exact ⟨rfl, (I.absent hx).2⟩
    · next e =>
      rw [if_neg e, h2 y (hne hy)]
      exact I.root hy hp
  · intro y nd p hy hp
    simp only [withRoot] at hy; rw [dget_mtAdd] at hy
    simp only [withRoot, dget_dset]
    split at hy
    · cases hy; cases hp
    · next e =>
      obtain ⟨np, hnp, _⟩ := I.tree.up hy hp
      rw [if_neg e, h2 y (hne hy), h2 p (hne hnp)]
      exact I.inner hy hp
  · intro y hy
    simp only [withRoot] at hy; rw [dget_mtAdd] at hy
    simp only [withRoot, dget_dset]
    split at hy
    · cases hy
    · next e => rw [if_neg e]; exact I.absent hy

/-! ### Adding an edge -/

theorem GrowStore.addEdge_ok (I : GrowStore L content v) {c p : τ} {nc : TNode τ}
    (hc : dget v.tree c = some nc) {lp : List τ} (hp : UpPath v.tree p lp) (hcp : c ∉ lp)
    (hG : G (content c) (content p)) {items : List (PatchItem UInt8)} {d : Bytes}
    (hm : makeChangeset tk (content p) (content c) = .ok items)
    (hd : serializeChangeset items = .ok d)
    (hDB : DeltaStep tk L.Rep (content p) (content c) d) :
    ∃ v', addEdge (memoryTree τ) v p c items = (v', none) ∧ GrowStore L content v' ∧
      Moved v.tree v'.tree c nc.parent p := by
  obtain ⟨t', ht, T', M⟩ := changeParent_spec I.tree hc hp hcp
  have key : ∀ hv, (∀ y, dget hv y = if c = y then none else dget v.headVersion y) →
      (hv.map Prod.fst).Nodup → GrowStore L content ⟨hv, dset v.diffs c d, t'⟩ := by
    intro hv hhv hnd
    constructor
    · exact T'
    · exact hnd
    · exact dset_nodup I.dfNodup _ _
    · intro y nd hy
      obtain ⟨nd0, h0, _⟩ := M.back hy
      exact I.fit h0
    · intro y nd hy hyp
      obtain ⟨nd0, h0, _, h3, _⟩ := M.back hy
      by_cases hyc : y = c
      · rw [if_pos hyc, hyp] at h3; cases h3
      · rw [if_neg hyc] at h3
        simp only [dget_dset, hhv]
        have : c ≠ y := fun e => hyc e.symm
        rw [if_neg this, if_neg this]
        exact I.root h0 (h3 ▸ hyp)
    · intro y nd r hy hyp
      obtain ⟨nd0, h0, _, h3, _⟩ := M.back hy
      by_cases hyc : y = c
      · subst hyc
        rw [if_pos rfl, hyp] at h3; cases h3
        simp only [dget_dset, hhv, if_true]
        exact ⟨trivial, hG, d, items, rfl, hm, hd, hDB⟩
      · rw [if_neg hyc] at h3
        simp only [dget_dset, hhv]
        have : c ≠ y := fun e => hyc e.symm
        rw [if_neg this, if_neg this]
        exact I.inner h0 (h3 ▸ hyp)
    · intro y hy
      rw [M.dget_none] at hy
      have : c ≠ y := by rintro rfl; rw [hc] at hy; cases hy
      simp only [dget_dset, hhv]
      rw [if_neg this, if_neg this]
      exact I.absent hy
  have hcp' : (memoryTree τ).changeParent v.tree c p = (t', none) := ht
  by_cases hm : dmem v.headVersion c = true
  · refine ⟨⟨ddel v.headVersion c, dset v.diffs c d, t'⟩, ?_, key _ (fun y => dget_ddel I.hvNodup _ _)
      (ddel_nodup I.hvNodup _), M⟩
    simp only [addEdge, hd, hcp', hm, if_true]
  · refine ⟨⟨v.headVersion, dset v.diffs c d, t'⟩, ?_, key _ (fun y => ?_) I.hvNodup, M⟩
    · simp only [addEdge, hd, hcp', hm, if_false, Bool.false_eq_true]
    · split
      · next e =>
        subst e
        simpa [dmem] using hm
      · rfl

/-- Giving a node the parent it already has keeps the store right. -/
theorem GrowStore.sameParent (I : GrowStore L content v) {c p : τ} {nc : TNode τ}
    (hc : dget v.tree c = some nc) (hpar : nc.parent = some p) :
    ∃ t', mtChangeParent v.tree c (some p) = (t', none) ∧
      GrowStore L content { v with tree := t' } ∧ Moved v.tree t' c (some p) p := by
  obtain ⟨np, hnp, _⟩ := I.tree.up hc hpar
  obtain ⟨lp, hlp⟩ := I.tree.acyc hnp
  have hcp := hlp.not_mem_parent hc hpar
  obtain ⟨t', ht, T', M⟩ := changeParent_spec I.tree hc hlp hcp
  have hsame : ∀ {y nd}, dget t' y = some nd → ∃ nd0, dget v.tree y = some nd0 ∧
      nd.parent = nd0.parent := by
    intro y nd hy
    obtain ⟨nd0, h0, _, h3, _⟩ := M.back hy
    refine ⟨nd0, h0, ?_⟩
    rw [h3]
    split
    · next e => subst e; rw [hc] at h0; cases h0; exact hpar.symm
    · rfl
  refine ⟨t', ht, ?_, hpar ▸ M⟩
  constructor
  · exact T'
  · exact I.hvNodup
  · exact I.dfNodup
  · intro y nd hy
    obtain ⟨nd0, h0, _⟩ := hsame hy; exact I.fit h0
  · intro y nd hy hp
    obtain ⟨nd0, h0, h1⟩ := hsame hy; exact I.root h0 (h1 ▸ hp)
  · intro y nd r hy hp
    obtain ⟨nd0, h0, h1⟩ := hsame hy; exact I.inner h0 (h1 ▸ hp)
  · intro y hy
    exact I.absent (M.dget_none.1 hy)

/-! ### `add` -/

/-- `add(tag, c, b)` when `b` is a head whose content grows to `c`. -/
theorem GrowStore.add_head (I : GrowStore L content v) {tag b : τ} {nb : TNode τ} {c : Bytes}
    (ht : dget v.tree tag = none) (hb : dget v.tree b = some nb) (hp : nb.parent = none)
    (hG : G (content b) c) (hl : Fit c) {content' : τ → Bytes}
    (h1 : content' tag = c) (h2 : ∀ y, y ≠ tag → content' y = content y) :
    ∃ v', versionsAdd (memoryTree τ) tk v tag c (some b) = (v', none) ∧ GrowStore L content' v' ∧
      TreeGrew v.tree v'.tree tag (some b) (some b) := by
  have hbt : tag ≠ b := by rintro rfl; rw [ht] at hb; cases hb
  have I1 : GrowStore L content' (withRoot v tag c (some b)) := I.addRoot ht hl h1 h2
  have hGb : G (content' b) (content' tag) := by rw [h2 b (Ne.symm hbt), h1]; exact hG
  have G1 : TreeGrew v.tree (withRoot v tag c (some b)).tree tag (some b) none :=
    treeGrew_add ht (some b)
  have hb1 : dget (withRoot v tag c (some b)).tree b = some nb := by
    show dget (mtAdd v.tree tag (some b)) b = _
    rw [dget_mtAdd, if_neg hbt]; exact hb
  have htag1 : dget (withRoot v tag c (some b)).tree tag = some (newNode v.tree.length (some b)) := by
    show dget (mtAdd v.tree tag (some b)) tag = _
    rw [dget_mtAdd, if_pos rfl]
  have fitTag : Fit (content' tag) := h1 ▸ hl
  obtain ⟨s, path, g1, g2, g3⟩ := getSplit_spec I1.tree hb1
  have g1' : (memoryTree τ).getSplit (withRoot v tag c (some b)).tree b = .ok (s, path) := g1
  -- the last part: the old head becomes a child of `tag`
  have last : ∀ v2, GrowStore L content' v2 → TreeGrew v.tree v2.tree tag (some b) none →
      ∃ v', addOldHead (memoryTree τ) tk v2 tag c b = (v', none) ∧ GrowStore L content' v' ∧
        TreeGrew v.tree v'.tree tag (some b) (some b) := by
    intro v2 I2 G2
    obtain ⟨ntag, t1, t2, t3, t4⟩ := G2.new
    obtain ⟨nb2, b1, b2, b3, b4⟩ := G2.old hb
    have hbroot : nb2.parent = none := b4.2 ⟨hp, by simp⟩
    have hhv := (I2.root b1 hbroot).1
    obtain ⟨items, d, m1, m2, m3⟩ := L.delta hGb fitTag (I2.fit b1)
    have hup : UpPath v2.tree tag [tag] := .root t1 t2
    obtain ⟨v', a1, a2, a3⟩ := I2.addEdge_ok b1 hup (by simpa using fun e => hbt e.symm)
      hGb m1 m2 m3
    refine ⟨v', ?_, a2, ?_⟩
    · rw [h1] at m1
      simp only [addOldHead, hhv, m1, a1]
    · constructor
      · rw [a3.1]; exact G2.keys
      · obtain ⟨nt', c1, c2, c3, c4, c5⟩ := a3.2 _ _ t1
        refine ⟨nt', c1, ?_, c5.trans t3, c2.trans t4⟩
        rw [c3, if_neg hbt]; exact t2
      · intro y nd hy
        obtain ⟨nd2, d1, d2, d3, d4⟩ := G2.old hy
        obtain ⟨nd3, e1, e2, e3, e4, e5⟩ := a3.2 _ _ d1
        refine ⟨nd3, e1, e5.trans d2, e2.trans d3, ?_⟩
        rw [e3]
        split
        · next e => subst e; simp
        · next e =>
          rw [d4]
          have : ¬ b = y := fun h => e h.symm
          simp [this]
  show ∃ v', addToHead (memoryTree τ) tk (withRoot v tag c (some b)) tag c b = (v', none) ∧ _
  simp only [addToHead, g1']
  by_cases hsb : s = b
  · rw [if_neg (by simp [hsb])]
    exact last _ I1 G1
  · rw [if_pos hsb]
    have hup : UpPath (withRoot v tag c (some b)).tree s path.reverse := by
      have := g2.upPath I1.tree.toForest (.root hb1 hp)
      simpa using this
    obtain ⟨ns, hns⟩ := hup.mem_keys s (by obtain ⟨r, hr⟩ := hup.head; rw [hr]; simp)
    have hst : s ≠ tag := by
      rintro rfl
      rw [htag1] at hns; cases hns
      cases g2 with
      | start => exact hsb rfl
      | next k1 k2 k3 =>
        obtain ⟨nc, k4, k5⟩ := I1.tree.down k2 k3.1
        rw [htag1] at k4; cases k4; cases k5
    have hsroot : ns.parent ≠ none := by
      cases g2 with
      | start => exact absurd rfl hsb
      | next k1 k2 k3 =>
        obtain ⟨nc, k4, k5⟩ := I1.tree.down k2 k3.1
        rw [hns] at k4; cases k4; rw [k5]; simp
    have hGs : G (content' s) (content' tag) := by
      obtain ⟨root, rest, e1, e2, e3, _⟩ := I1.retrieveLoop_ok hup
      rw [List.reverse_reverse] at e1
      obtain ⟨r, hr⟩ := g2.head
      rw [e1] at hr
      have : root = b := by simpa using (List.cons.inj hr).1
      subst this
      rcases e3 with e3 | e3
      · exact absurd e3 hsb
      · exact L.trans e3 hGb
    have hr := I1.retrieve_ok hup
    rw [List.reverse_reverse] at hr
    obtain ⟨items, d, m1, m2, m3⟩ := L.delta hGs fitTag (I1.fit hns)
    have huptag : UpPath (withRoot v tag c (some b)).tree tag [tag] := .root htag1 rfl
    obtain ⟨v1, a1, a2, a3⟩ := I1.addEdge_ok hns huptag (by simpa using hst) hGs m1 m2 m3
    obtain ⟨ns1, c1, c2, c3, c4, c5⟩ := a3.2 _ _ hns
    rw [if_pos rfl] at c3
    obtain ⟨t2, d1, d2, d3⟩ := a2.sameParent c1 c3
    have d1' : (memoryTree τ).changeParent v1.tree s tag = (t2, none) := d1
    have hsplit : addSplit (memoryTree τ) tk (withRoot v tag c (some b)) tag c s path =
        ({ v1 with tree := t2 }, none) := by
      rw [h1] at m1
      simp only [addSplit, hr, m1, a1, d1']
    rw [hsplit]
    have G2 : TreeGrew v.tree t2 tag (some b) none := ?_
    · exact last { v1 with tree := t2 } d2 G2
    constructor
    · rw [d3.1, a3.1]; exact G1.keys
    · obtain ⟨n1, e1, e2, e3, e4, e5⟩ := a3.2 _ _ htag1
      obtain ⟨n2, f1, f2, f3, f4, f5⟩ := d3.2 _ _ e1
      have : tag ≠ s := fun e => hst e.symm
      refine ⟨n2, f1, ?_, f5.trans e5, f2.trans e2⟩
      rw [f3, if_neg this, e3, if_neg this]; rfl
    · intro y nd hy
      obtain ⟨nd1, i1, i2, i3, i4⟩ := G1.old hy
      obtain ⟨n1, e1, e2, e3, e4, e5⟩ := a3.2 _ _ i1
      obtain ⟨n2, f1, f2, f3, f4, f5⟩ := d3.2 _ _ e1
      refine ⟨n2, f1, f5.trans (e5.trans i2), f2.trans (e2.trans i3), ?_⟩
      rw [f3]
      split
      · next e =>
        subst e
        rw [hns] at i1; cases i1
        constructor
        · intro h; cases h
        · rintro ⟨h, _⟩
          exact absurd (i4.2 ⟨h, by simp⟩) hsroot
      · next e => rw [e3, if_neg e]; exact i4

/-! ### Histories -/

/-- What is true of the store after the history `h`. -/
structure GrowHistory (L : DeltaTok tk G Fit) (h : List (AddOp τ)) (v : Versions τ (MTree τ)) :
    Prop where
  store : GrowStore L (contentOf h) v
  keys : v.tree.map Prod.fst = addedTags h
  heads : ∀ {t nd}, dget v.tree t = some nd → (nd.parent = none ↔ t ∈ headsOf h)
  headsNodup : (headsOf h).Nodup
  headsAdded : ∀ {t}, t ∈ headsOf h → t ∈ addedTags h

theorem GrowHistory.empty (L : DeltaTok tk G Fit) : GrowHistory L [] (emptyVersions τ) where
  store := {
    tree := (HistoryOK.empty nullLawful).store.tree
    hvNodup := by simp [emptyVersions]
    dfNodup := by simp [emptyVersions]
    fit := by intro x nd h; simp [emptyVersions, dget] at h
    root := by intro x nd h; simp [emptyVersions, dget] at h
    inner := by intro x nd p h; simp [emptyVersions, dget] at h
    absent := by intro x h; simp [emptyVersions, dget] }
  keys := rfl
  heads := by intro x nd h; simp [emptyVersions, dget] at h
  headsNodup := by simp [headsOf]
  headsAdded := by intro t h; simp [headsOf] at h

theorem GrowHistory.step {h : List (AddOp τ)} {v : Versions τ (MTree τ)} (H : GrowHistory L h v)
    {a : AddOp τ} (ht : a.tag ∉ addedTags h) (hb : ∀ b, a.base = some b → b ∈ headsOf h ∧
      b ∈ addedTags h ∧ G (contentOf h b) a.content) (hfit : Fit a.content) :
    GrowHistory L (h ++ [a]) (versionsAdd (memoryTree τ) tk v a.tag a.content a.base).1 ∧
    (versionsAdd (memoryTree τ) tk v a.tag a.content a.base).2 = none := by
  have hsome : ∀ t, (∃ nd, dget v.tree t = some nd) ↔ t ∈ addedTags h := by
    intro t; rw [dget_isSome_iff, H.keys]
  have hx : dget v.tree a.tag = none := by
    cases hx : dget v.tree a.tag with
    | none => rfl
    | some nd => exact absurd ((hsome _).1 ⟨nd, hx⟩) ht
  have htag : a.tag ∉ headsOf h := fun e => ht (H.headsAdded e)
  have fin : ∀ v', GrowStore L (contentOf (h ++ [a])) v' →
      TreeGrew v.tree v'.tree a.tag a.base a.base → GrowHistory L (h ++ [a]) v' := by
    intro v' hs G
    refine ⟨hs, ?_, ?_, ?_, ?_⟩
    · rw [G.keys, H.keys, addedTags_snoc]
    · intro t nd hnd
      rw [headsOf_snoc, mem_headsStep H.headsNodup]
      by_cases e : t = a.tag
      · subst e
        obtain ⟨n0, g1, g2, _⟩ := G.new
        rw [hnd] at g1; cases g1
        simp [g2]
      · have : ∃ n0, dget v.tree t = some n0 := by
          have := mem_keys_of_dget hnd
          rw [G.keys, List.mem_append] at this
          rcases this with h1 | h1
          · exact dget_isSome_iff.2 h1
          · exact absurd (by simpa using h1) e
        obtain ⟨n0, h0⟩ := this
        obtain ⟨n1, g1, g2, g3, g4⟩ := G.old h0
        rw [hnd] at g1; cases g1
        rw [g4, H.heads h0]
        constructor
        · rintro ⟨h1, h2⟩
          exact Or.inr ⟨h1, h2⟩
        · rintro (h1 | ⟨h1, h2⟩)
          · exact absurd h1 e
          · exact ⟨h1, h2⟩
    · rw [headsOf_snoc]; exact headsStep_nodup H.headsNodup htag
    · intro t ht'
      rw [headsOf_snoc, mem_headsStep H.headsNodup] at ht'
      rw [addedTags_snoc]
      rcases ht' with rfl | ⟨h1, _⟩
      · simp
      · exact List.mem_append.2 (Or.inl (H.headsAdded h1))
  have c1 := contentOf_snoc_self ht
  have c2 : ∀ y, y ≠ a.tag → contentOf (h ++ [a]) y = contentOf h y :=
    fun y hy => contentOf_snoc_ne hy
  cases hbase : a.base with
  | none =>
    rw [add_none]
    refine ⟨fin _ (H.store.addRoot hx hfit c1 c2) ?_, rfl⟩
    rw [hbase]
    exact treeGrew_add hx none
  | some b =>
    obtain ⟨k1, k2, k3⟩ := hb b hbase
    obtain ⟨nb, hnb⟩ := (hsome b).2 k2
    obtain ⟨v', e1, e2, e3⟩ := H.store.add_head hx hnb ((H.heads hnb).2 k1) k3 hfit c1 c2
    rw [e1]
    exact ⟨fin v' e2 (hbase ▸ e3), rfl⟩

/-- After a documented history in which every version is related to its base, every call has
succeeded and every version is retrieved exactly. -/
theorem GoodHistory.grows (L : DeltaTok tk G Fit) {h : List (AddOp τ)} (GH : GoodHistory h)
    (hf : ∀ a ∈ h, Fit a.content)
    (hg : ∀ a ∈ h, ∀ o ∈ h, a.base = some o.tag → G o.content a.content) :
    GrowHistory L h (runHistory (memoryTree τ) tk (emptyVersions τ) h) ∧
    ∀ {h₁ a h₂}, h = h₁ ++ a :: h₂ →
      (versionsAdd (memoryTree τ) tk (runHistory (memoryTree τ) tk (emptyVersions τ) h₁)
        a.tag a.content a.base).2 = none := by
  induction GH with
  | nil => exact ⟨GrowHistory.empty L, fun e => by simp at e⟩
  | @snoc h a GH h1 h2 ih =>
    obtain ⟨H, he⟩ := ih (fun o ho => hf o (by simp [ho]))
      (fun x hx o ho => hg x (by simp [hx]) o (by simp [ho]))
    have hb : ∀ b, a.base = some b → b ∈ headsOf h ∧ b ∈ addedTags h ∧
        G (contentOf h b) a.content := by
      intro b hb
      have hh := h2 b hb
      refine ⟨GH.heads.2.2 hh, hh.1, ?_⟩
      obtain ⟨o, ho, rfl⟩ := List.mem_map.1 hh.1
      rw [contentOf_mem GH.fresh.nodup ho]
      exact hg a (by simp) o (by simp [ho]) hb
    have S := H.step h1 hb (hf a (by simp))
    refine ⟨by rw [runHistory_snoc]; exact S.1, ?_⟩
    intro h₁ x h₂ e
    rcases List.eq_nil_or_concat h₂ with rfl | ⟨h₃, o, rfl⟩
    · obtain ⟨rfl, e2⟩ := List.append_inj' e rfl
      simp at e2; subst e2
      exact S.2
    · rw [List.concat_eq_append, ← List.cons_append, ← List.append_assoc] at e
      exact he (List.append_inj' e rfl).1

theorem GoodHistory.grows_get (L : DeltaTok tk G Fit) {h : List (AddOp τ)} (GH : GoodHistory h)
    (hf : ∀ a ∈ h, Fit a.content)
    (hg : ∀ a ∈ h, ∀ o ∈ h, a.base = some o.tag → G o.content a.content) :
    ∀ a ∈ h, versionsGet (memoryTree τ) tk
      (runHistory (memoryTree τ) tk (emptyVersions τ) h) a.tag = .ok (some a.content) := by
  intro a ha
  have H := (GH.grows L hf hg).1
  obtain ⟨nd, hnd⟩ : ∃ nd, dget (runHistory (memoryTree τ) tk (emptyVersions τ) h).tree a.tag =
      some nd := by
    rw [dget_isSome_iff, H.keys]; exact List.mem_map.2 ⟨a, ha, rfl⟩
  rw [H.store.get_ok hnd, contentOf_mem GH.fresh.nodup ha]

end Gaspra
