import Verif.Proofs.History
import Verif.Spec.Refused

set_option linter.unusedSectionVars false
set_option linter.unusedSimpArgs false
set_option linter.unusedVariables false

/-! # The version store when the tokenizer refuses some contents

The invariant of `Proofs/Versions.lean`, except that a tag whose content is refused is alone in its
tree. -/

namespace Gaspra

variable {τ Tok S P : Type _} [DecidableEq τ] [DecidableEq Tok] {tk : TokOps Tok S}
  {Ok : Bytes → Prop}

/-- `encode` raises `UnicodeDecodeError` for every content that is not `Ok`. -/
def Refuses (L : LawfulTok tk P Ok) : Prop :=
  ∀ st b, L.Inv st → ¬ Ok b → tk.encode st b = .error .unicodeError

/-- As `StoreOK`, with refused contents at tags that are alone in their tree. -/
structure MixedStore (L : LawfulTok tk P Ok) (content : τ → Bytes) (v : Versions τ (MTree τ)) :
    Prop where
  tree : TreeOK v.tree
  hvNodup : (v.headVersion.map Prod.fst).Nodup
  dfNodup : (v.diffs.map Prod.fst).Nodup
  len : ∀ {x nd}, dget v.tree x = some nd → (content x).length < 2 ^ 64
  alone : ∀ {x nd}, dget v.tree x = some nd → ¬ Ok (content x) →
    nd.parent = none ∧ nd.children = []
  root : ∀ {x nd}, dget v.tree x = some nd → nd.parent = none →
    dget v.headVersion x = some (content x) ∧ dget v.diffs x = none
  inner : ∀ {x nd p}, dget v.tree x = some nd → nd.parent = some p →
    dget v.headVersion x = none ∧
      ∃ d, dget v.diffs x = some d ∧ DeltaBytes L (content p) (content x) d
  absent : ∀ {x}, dget v.tree x = none → dget v.headVersion x = none ∧ dget v.diffs x = none

variable {L : LawfulTok tk P Ok} {content : τ → Bytes} {v : Versions τ (MTree τ)}

theorem MixedStore.ok_child (I : MixedStore L content v) {x p : τ} {nd : TNode τ}
    (hx : dget v.tree x = some nd) (hp : nd.parent = some p) : Ok (content x) :=
  Classical.byContradiction fun h => by
    have := (I.alone hx h).1
    rw [hp] at this; cases this

theorem MixedStore.ok_parent (I : MixedStore L content v) {x p : τ} {nd : TNode τ}
    (hx : dget v.tree x = some nd) (hp : nd.parent = some p) : Ok (content p) :=
  Classical.byContradiction fun h => by
    obtain ⟨np, h1, h2⟩ := I.tree.up hx hp
    rw [(I.alone h1 h).2] at h2; cases h2

/-! ### Retrieval -/

theorem MixedStore.retrieveLoop_ok (I : MixedStore L content v) {x : τ} {l : List τ}
    (h : UpPath v.tree x l) (hx : Ok (content x)) :
    ∃ root rest, l.reverse = root :: rest ∧ dget v.headVersion root = some (content root) ∧
      Ok (content root) ∧
      ∀ {st : S} {toks : List Tok}, L.Inv st → toks.map (L.den st) = (L.split (content root)).map some →
        ∃ toks' st', retrieveLoop tk v.diffs st toks rest = .ok (toks', st') ∧ L.Inv st' ∧
          (L.Ready st → L.Ready st') ∧ toks'.map (L.den st') = (L.split (content x)).map some := by
  induction h with
  | @root x nd h1 h2 =>
    refine ⟨x, [], rfl, (I.root h1 h2).1, hx, ?_⟩
    intro st toks hi ht
    exact ⟨toks, st, rfl, hi, id, ht⟩
  | @step x p nd l h1 h2 h3 ih =>
    obtain ⟨root, rest, e1, e2, e0, e3⟩ := ih (I.ok_parent h1 h2)
    refine ⟨root, rest ++ [x], by simp [e1], e2, e0, ?_⟩
    intro st toks hi ht
    obtain ⟨toks', st', g1, g2, g3, g4⟩ := e3 hi ht
    obtain ⟨_, d, hd, hD⟩ := I.inner h1 h2
    obtain ⟨toks'', st'', k1, k2, k3, k4⟩ := retrieveStep L hx hd hD g2 g4
    refine ⟨toks'', st'', ?_, k2, fun h => k3 (g3 h), k4⟩
    rw [retrieveLoop_append, g1]
    exact k1

theorem MixedStore.retrieve_ok (I : MixedStore L content v) {x : τ} {l : List τ}
    (h : UpPath v.tree x l) (hx : Ok (content x)) :
    retrieveUsingPath tk v l.reverse = .ok (content x) := by
  obtain ⟨root, rest, e1, e2, e0, e3⟩ := I.retrieveLoop_ok h hx
  obtain ⟨toks, st, a1, a2, a3, a4, a5⟩ := L.encode_ok L.init_inv e0
  obtain ⟨toks', st', g1, g2, g3, g4⟩ := e3 a2 a4
  rw [e1]
  simp only [retrieveUsingPath, e2, a1, bind, Except.bind, g1, L.decode_ok g2 (g3 a3) g4,
    L.split_text hx]

theorem MixedStore.get_ok (I : MixedStore L content v) {x : τ} {nd : TNode τ}
    (h : dget v.tree x = some nd) (hx : Ok (content x)) :
    versionsGet (memoryTree τ) tk v x = .ok (some (content x)) := by
  obtain ⟨l, hl⟩ := I.tree.acyc h
  have hp : (memoryTree τ).pathTo v.tree x = .ok (some l.reverse) := pathTo_spec hl
  have hr := I.retrieve_ok hl hx
  unfold versionsGet
  rw [hp]
  cases hlr : l.reverse with
  | nil => rw [hlr] at hr; simp [retrieveUsingPath] at hr
  | cons a r => rw [hlr] at hr; simp only [hr]

theorem MixedStore.get_refused (I : MixedStore L content v) (R : Refuses L) {x : τ} {nd : TNode τ}
    (h : dget v.tree x = some nd) (hx : ¬ Ok (content x)) :
    versionsGet (memoryTree τ) tk v x = .error .unicodeError := by
  have hroot := (I.alone h hx).1
  have hp : (memoryTree τ).pathTo v.tree x = .ok (some [x].reverse) := pathTo_spec (.root h hroot)
  unfold versionsGet
  rw [hp]
  have he := R tk.init _ L.init_inv hx
  simp only [List.reverse_singleton, retrieveUsingPath, (I.root h hroot).1, he, bind, Except.bind]

/-! ### Adding a new root -/

theorem MixedStore.addRoot (I : MixedStore L content v) {x : τ} {c : Bytes} {b : Option τ}
    (hx : dget v.tree x = none) (hl : c.length < 2 ^ 64) {content' : τ → Bytes}
    (h1 : content' x = c) (h2 : ∀ y, y ≠ x → content' y = content y) :
    MixedStore L content' (withRoot v x c b) := by
  have hne : ∀ {y nd}, dget v.tree y = some nd → y ≠ x := by
    rintro y nd h rfl; rw [hx] at h; cases h
  constructor
  · exact I.tree.add hx b
  · exact dset_nodup I.hvNodup _ _
  · exact I.dfNodup
  · intro y nd hy
    simp only [withRoot] at hy; rw [dget_mtAdd] at hy
    split at hy
    · next e => subst e; rw [h1]; exact hl
    · rw [h2 y (hne hy)]; exact I.len hy
  · intro y nd hy hbad
    simp only [withRoot] at hy; rw [dget_mtAdd] at hy
    split at hy
    · cases hy; exact ⟨rfl, rfl⟩
    · rw [h2 y (hne hy)] at hbad; exact I.alone hy hbad
  · intro y nd hy hp
    simp only [withRoot] at hy; rw [dget_mtAdd] at hy
    simp only [withRoot, dget_dset]
    split at hy
    · next e => subst e; rw [if_pos rfl, h1]; exact ⟨rfl, (I.absent hx).2⟩
    · next e =>
      rw [if_neg e, h2 y (hne hy)]
      exact I.root hy hp
  · intro y nd p hy hp
    simp only [withRoot] at hy; rw [dget_mtAdd] at hy
    simp only [withRoot, dget_dset]
    split at hy
    · cases hy; cases hp
    · next e =>
      obtain ⟨np, hnp, _⟩ := I.tree.up hy hp
      rw [if_neg e, h2 y (hne hy), h2 p (hne hnp)]
      exact I.inner hy hp
  · intro y hy
    simp only [withRoot] at hy; rw [dget_mtAdd] at hy
    simp only [withRoot, dget_dset]
    split at hy
    · cases hy
    · next e => rw [if_neg e]; exact I.absent hy

/-! ### Adding an edge -/

theorem movedChildren_nil {c p y : τ} {q : Option τ} (hy : y ≠ p) :
    movedChildren c q p y [] = [] := by
  simp [movedChildren, hy]

theorem MixedStore.addEdge_ok (I : MixedStore L content v) {c p : τ} {nc : TNode τ}
    (hc : dget v.tree c = some nc) {lp : List τ} (hp : UpPath v.tree p lp) (hcp : c ∉ lp)
    (okp : Ok (content p)) (okc : Ok (content c))
    {items : List (PatchItem UInt8)} (hD : DeltaOK L (content p) (content c) items)
    (hM : makeChangeset tk (content p) (content c) = .ok items) :
    ∃ v', addEdge (memoryTree τ) v p c items = (v', none) ∧ MixedStore L content v' ∧
      Moved v.tree v'.tree c nc.parent p := by
  have hpk : ∃ np, dget v.tree p = some np := hp.mem_keys p (by
    obtain ⟨r, rfl⟩ := hp.head; simp)
  obtain ⟨np, hnp⟩ := hpk
  obtain ⟨d, hd, hDB⟩ := serializeDelta L okp okc (I.len hnp) (I.len hc) hD hM
  obtain ⟨t', ht, T', M⟩ := changeParent_spec I.tree hc hp hcp
  have key : ∀ hv, (∀ y, dget hv y = if c = y then none else dget v.headVersion y) →
      (hv.map Prod.fst).Nodup → MixedStore L content ⟨hv, dset v.diffs c d, t'⟩ := by
    intro hv hhv hnd
    constructor
    · exact T'
    · exact hnd
    · exact dset_nodup I.dfNodup _ _
    · intro y nd hy
      obtain ⟨nd0, h0, _⟩ := M.back hy
      exact I.len h0
    · intro y nd hy hbad
      obtain ⟨nd0, h0, _, h3, h4, _⟩ := M.back hy
      have hyc : y ≠ c := by rintro rfl; exact hbad okc
      have hyp : y ≠ p := by rintro rfl; exact hbad okp
      obtain ⟨k1, k2⟩ := I.alone h0 hbad
      rw [if_neg hyc, k1] at h3
      rw [k2, movedChildren_nil hyp] at h4
      exact ⟨h3, h4⟩
    · intro y nd hy hyp
      obtain ⟨nd0, h0, _, h3, _⟩ := M.back hy
      by_cases hyc : y = c
      · rw [if_pos hyc, hyp] at h3; cases h3
      · rw [if_neg hyc] at h3
        simp only [dget_dset, hhv]
        have : c ≠ y := fun e => hyc e.symm
        rw [if_neg this, if_neg this]
        exact I.root h0 (h3 ▸ hyp)
    · intro y nd r hy hyp
      obtain ⟨nd0, h0, _, h3, _⟩ := M.back hy
      by_cases hyc : y = c
      · subst hyc
        rw [if_pos rfl, hyp] at h3; cases h3
        simp only [dget_dset, hhv, if_true]
        exact ⟨trivial, d, rfl, hDB⟩
      · rw [if_neg hyc] at h3
        simp only [dget_dset, hhv]
        have : c ≠ y := fun e => hyc e.symm
        rw [if_neg this, if_neg this]
        exact I.inner h0 (h3 ▸ hyp)
    · intro y hy
      rw [M.dget_none] at hy
      have : c ≠ y := by rintro rfl; rw [hc] at hy; cases hy
      simp only [dget_dset, hhv]
      rw [if_neg this, if_neg this]
      exact I.absent hy
  have hcp' : (memoryTree τ).changeParent v.tree c p = (t', none) := ht
  by_cases hm : dmem v.headVersion c = true
  · refine ⟨⟨ddel v.headVersion c, dset v.diffs c d, t'⟩, ?_, key _ (fun y => dget_ddel I.hvNodup _ _)
      (ddel_nodup I.hvNodup _), M⟩
    simp only [addEdge, hd, hcp', hm, if_true]
  · refine ⟨⟨v.headVersion, dset v.diffs c d, t'⟩, ?_, key _ (fun y => ?_) I.hvNodup, M⟩
    · simp only [addEdge, hd, hcp', hm, if_false, Bool.false_eq_true]
    · split
      · next e =>
        subst e
        simpa [dmem] using hm
      · rfl

/-- Giving a node the parent it already has keeps the store right. -/
theorem MixedStore.sameParent (I : MixedStore L content v) {c p : τ} {nc : TNode τ}
    (hc : dget v.tree c = some nc) (hpar : nc.parent = some p) :
    ∃ t', mtChangeParent v.tree c (some p) = (t', none) ∧
      MixedStore L content { v with tree := t' } ∧ Moved v.tree t' c (some p) p := by
  obtain ⟨np, hnp, _⟩ := I.tree.up hc hpar
  obtain ⟨lp, hlp⟩ := I.tree.acyc hnp
  have hcp := hlp.not_mem_parent hc hpar
  obtain ⟨t', ht, T', M⟩ := changeParent_spec I.tree hc hlp hcp
  have hsame : ∀ {y nd}, dget t' y = some nd → ∃ nd0, dget v.tree y = some nd0 ∧
      nd.parent = nd0.parent ∧ (¬ Ok (content y) → nd.children = []) := by
    intro y nd hy
    obtain ⟨nd0, h0, _, h3, h4, _⟩ := M.back hy
    refine ⟨nd0, h0, ?_, ?_⟩
    · rw [h3]
      split
      · next e => subst e; rw [hc] at h0; cases h0; exact hpar.symm
      · rfl
    · intro hbad
      have hyp : y ≠ p := by rintro rfl; exact hbad (I.ok_parent hc hpar)
      rw [h4, (I.alone h0 hbad).2, movedChildren_nil hyp]
  refine ⟨t', ht, ?_, hpar ▸ M⟩
  constructor
  · exact T'
  · exact I.hvNodup
  · exact I.dfNodup
  · intro y nd hy
    obtain ⟨nd0, h0, _⟩ := hsame hy; exact I.len h0
  · intro y nd hy hbad
    obtain ⟨nd0, h0, h1, h2⟩ := hsame hy
    exact ⟨h1.trans (I.alone h0 hbad).1, h2 hbad⟩
  · intro y nd hy hp
    obtain ⟨nd0, h0, h1, _⟩ := hsame hy; exact I.root h0 (h1 ▸ hp)
  · intro y nd r hy hp
    obtain ⟨nd0, h0, h1, _⟩ := hsame hy; exact I.inner h0 (h1 ▸ hp)
  · intro y hy
    exact I.absent (M.dget_none.1 hy)

/-! ### `add` -/

/-- `add(tag, c, b)` with a known base that is not a head. -/
theorem MixedStore.add_nonhead (I : MixedStore L content v) {tag b p : τ} {nb : TNode τ} (c : Bytes)
    (ht : dget v.tree tag = none) (hb : dget v.tree b = some nb) (hp : nb.parent = some p) :
    versionsAdd (memoryTree τ) tk v tag c (some b) =
      (withRoot v tag c (some b), some .keyError) := by
  have hbt : tag ≠ b := by rintro rfl; rw [ht] at hb; cases hb
  have T1 := I.tree.add ht (some b)
  obtain ⟨s, path, h1, h2, h3⟩ := getSplit_spec T1 (x := b) (nd := nb)
    (by rw [dget_mtAdd, if_neg hbt]; exact hb)
  have hhv : dget (dset v.headVersion tag c) b = none := by
    rw [dget_dset, if_neg hbt]; exact (I.inner hb hp).1
  show addToHead (memoryTree τ) tk (withRoot v tag c (some b)) tag c b = _
  have h1'' : (memoryTree τ).getSplit (withRoot v tag c (some b)).tree b = .ok (s, path) := h1
  simp only [addToHead, h1'']
  split
  · obtain ⟨r, rfl⟩ := h2.head
    have : retrieveUsingPath tk (withRoot v tag c (some b)) (b :: r) = .error .keyError := by
      simp only [retrieveUsingPath, withRoot, hhv]
    simp only [addSplit, this]
  · simp only [addOldHead, withRoot, hhv]

theorem makeChangeset_refused (R : Refuses L) {a b : Bytes} (h : ¬ (Ok a ∧ Ok b)) :
    makeChangeset tk a b = .error .unicodeError := by
  unfold makeChangeset
  by_cases ha : Ok a
  · have hb : ¬ Ok b := fun hb => h ⟨ha, hb⟩
    obtain ⟨toks, st, a1, a2, _⟩ := L.encode_ok L.init_inv ha
    simp only [a1, bind, Except.bind, R st b a2 hb]
  · simp only [R tk.init a L.init_inv ha, bind, Except.bind]

/-- `add(tag, c, b)` when `b` is a head and one of the two contents is refused. -/
theorem MixedStore.add_refused (I : MixedStore L content v) (R : Refuses L) {tag b : τ}
    {nb : TNode τ} {c : Bytes} (ht : dget v.tree tag = none) (hb : dget v.tree b = some nb)
    (hp : nb.parent = none) (hl : c.length < 2 ^ 64) (hbad : ¬ (Ok (content b) ∧ Ok c)) :
    versionsAdd (memoryTree τ) tk v tag c (some b) =
      (withRoot v tag c (some b), some .unicodeError) := by
  have hbt : tag ≠ b := by rintro rfl; rw [ht] at hb; cases hb
  have I1 : MixedStore L (fun y => if y = tag then c else content y) (withRoot v tag c (some b)) :=
    I.addRoot ht hl (by simp) (fun y hy => by simp [hy])
  have hb1 : dget (withRoot v tag c (some b)).tree b = some nb := by
    show dget (mtAdd v.tree tag (some b)) b = _
    rw [dget_mtAdd, if_neg hbt]; exact hb
  obtain ⟨s, path, g1, g2, g3⟩ := getSplit_spec I1.tree hb1
  have g1' : (memoryTree τ).getSplit (withRoot v tag c (some b)).tree b = .ok (s, path) := g1
  show addToHead (memoryTree τ) tk (withRoot v tag c (some b)) tag c b = _
  simp only [addToHead, g1']
  have hbc : ¬ (Ok c ∧ Ok (content b)) := fun h => hbad ⟨h.2, h.1⟩
  by_cases hsb : s = b
  · rw [if_neg (by simp [hsb])]
    have hhv := (I1.root hb1 hp).1
    simp only [if_neg (Ne.symm hbt)] at hhv
    simp only [addOldHead, hhv, makeChangeset_refused R hbc]
  · rw [if_pos hsb]
    have hup : UpPath (withRoot v tag c (some b)).tree s path.reverse := by
      have := g2.upPath I1.tree.toForest (.root hb1 hp)
      simpa using this
    obtain ⟨ns, hns⟩ := hup.mem_keys s (by obtain ⟨r, hr⟩ := hup.head; rw [hr]; simp)
    have hps : ∃ q, ns.parent = some q := by
      cases g2 with
      | start => exact absurd rfl hsb
      | next k1 k2 k3 =>
        obtain ⟨nc, k4, k5⟩ := I1.tree.down k2 k3.1
        rw [hns] at k4; cases k4; exact ⟨_, k5⟩
    obtain ⟨q, hq⟩ := hps
    have okb : Ok (content b) := by
      refine Classical.byContradiction fun h => ?_
      have hch := (I.alone hb h).2
      -- the path from `b` goes on below `b`
      obtain ⟨r, hr⟩ := g2.head
      cases g2 with
      | start => exact hsb rfl
      | next k1 k2 k3 =>
        have : ∀ {l : List τ} {z : τ}, BestPath (withRoot v tag c (some b)).tree b l z → z = b := by
          intro l z hbp
          induction hbp with
          | start => rfl
          | next m1 m2 m3 ih =>
            subst ih
            rw [hb1] at m2; cases m2
            have := m3.1
            rw [hch] at this; cases this
        exact hsb (this (BestPath.next k1 k2 k3))
    have hcbad : ¬ Ok c := fun h => hbad ⟨okb, h⟩
    have hr := I1.retrieve_ok hup (I1.ok_child hns hq)
    rw [List.reverse_reverse] at hr
    have : ∀ z, makeChangeset tk c z = .error .unicodeError :=
      fun z => makeChangeset_refused R fun h => hcbad h.1
    simp only [addSplit, hr, this]

/-- `add(tag, c, b)` when `b` is a head and both contents are accepted. -/
theorem MixedStore.add_head (I : MixedStore L content v) {tag b : τ} {nb : TNode τ} {c : Bytes}
    (ht : dget v.tree tag = none) (hb : dget v.tree b = some nb) (hp : nb.parent = none)
    (okb : Ok (content b)) (hc : Ok c) (hl : c.length < 2 ^ 64) {content' : τ → Bytes}
    (h1 : content' tag = c) (h2 : ∀ y, y ≠ tag → content' y = content y) :
    ∃ v', versionsAdd (memoryTree τ) tk v tag c (some b) = (v', none) ∧ MixedStore L content' v' ∧
      TreeGrew v.tree v'.tree tag (some b) (some b) := by
  have hbt : tag ≠ b := by rintro rfl; rw [ht] at hb; cases hb
  have I1 : MixedStore L content' (withRoot v tag c (some b)) := I.addRoot ht hl h1 h2
  have okb' : Ok (content' b) := by rw [h2 b (Ne.symm hbt)]; exact okb
  have G1 : TreeGrew v.tree (withRoot v tag c (some b)).tree tag (some b) none :=
    treeGrew_add ht (some b)
  have hb1 : dget (withRoot v tag c (some b)).tree b = some nb := by
    show dget (mtAdd v.tree tag (some b)) b = _
    rw [dget_mtAdd, if_neg hbt]; exact hb
  have htag1 : dget (withRoot v tag c (some b)).tree tag = some (newNode v.tree.length (some b)) := by
    show dget (mtAdd v.tree tag (some b)) tag = _
    rw [dget_mtAdd, if_pos rfl]
  obtain ⟨s, path, g1, g2, g3⟩ := getSplit_spec I1.tree hb1
  have g1' : (memoryTree τ).getSplit (withRoot v tag c (some b)).tree b = .ok (s, path) := g1
  -- the last part: the old head becomes a child of `tag`
  have last : ∀ v2, MixedStore L content' v2 → TreeGrew v.tree v2.tree tag (some b) none →
      ∃ v', addOldHead (memoryTree τ) tk v2 tag c b = (v', none) ∧ MixedStore L content' v' ∧
        TreeGrew v.tree v'.tree tag (some b) (some b) := by
    intro v2 I2 G2
    obtain ⟨ntag, t1, t2, t3, t4⟩ := G2.new
    obtain ⟨nb2, b1, b2, b3, b4⟩ := G2.old hb
    have hbroot : nb2.parent = none := b4.2 ⟨hp, by simp⟩
    have hhv := (I2.root b1 hbroot).1
    obtain ⟨items, m1, m2⟩ := makeChangeset_ok L (a := content' tag) (b := content' b)
      (h1 ▸ hc) okb'
    have hup : UpPath v2.tree tag [tag] := .root t1 t2
    obtain ⟨v', a1, a2, a3⟩ := I2.addEdge_ok b1 hup (by simpa using fun e => hbt e.symm)
      (h1 ▸ hc) okb' m2 m1
    refine ⟨v', ?_, a2, ?_⟩
    · rw [h1] at m1
      simp only [addOldHead, hhv, m1, a1]
    · constructor
      · rw [a3.1]; exact G2.keys
      · obtain ⟨nt', c1, c2, c3, c4, c5⟩ := a3.2 _ _ t1
        refine ⟨nt', c1, ?_, c5.trans t3, c2.trans t4⟩
        rw [c3, if_neg hbt]; exact t2
      · intro y nd hy
        obtain ⟨nd2, d1, d2, d3, d4⟩ := G2.old hy
        obtain ⟨nd3, e1, e2, e3, e4, e5⟩ := a3.2 _ _ d1
        refine ⟨nd3, e1, e5.trans d2, e2.trans d3, ?_⟩
        rw [e3]
        split
        · next e => subst e; simp
        · next e =>
          rw [d4]
          have : ¬ b = y := fun h => e h.symm
          simp [this]
  show ∃ v', addToHead (memoryTree τ) tk (withRoot v tag c (some b)) tag c b = (v', none) ∧ _
  simp only [addToHead, g1']
  by_cases hsb : s = b
  · rw [if_neg (by simp [hsb])]
    exact last _ I1 G1
  · rw [if_pos hsb]
    have hup : UpPath (withRoot v tag c (some b)).tree s path.reverse := by
      have := g2.upPath I1.tree.toForest (.root hb1 hp)
      simpa using this
    obtain ⟨ns, hns⟩ := hup.mem_keys s (by obtain ⟨r, hr⟩ := hup.head; rw [hr]; simp)
    have hst : s ≠ tag := by
      rintro rfl
      rw [htag1] at hns; cases hns
      cases g2 with
      | start => exact hsb rfl
      | next k1 k2 k3 =>
        obtain ⟨nc, k4, k5⟩ := I1.tree.down k2 k3.1
        rw [htag1] at k4; cases k4; cases k5
    have hps : ∃ q, ns.parent = some q := by
      cases g2 with
      | start => exact absurd rfl hsb
      | next k1 k2 k3 =>
        obtain ⟨nc, k4, k5⟩ := I1.tree.down k2 k3.1
        rw [hns] at k4; cases k4; exact ⟨_, k5⟩
    obtain ⟨q, hq⟩ := hps
    have oks := I1.ok_child hns hq
    have hsroot : ns.parent ≠ none := by rw [hq]; simp
    have hr := I1.retrieve_ok hup oks
    rw [List.reverse_reverse] at hr
    obtain ⟨items, m1, m2⟩ := makeChangeset_ok L (a := content' tag) (b := content' s)
      (h1 ▸ hc) oks
    have huptag : UpPath (withRoot v tag c (some b)).tree tag [tag] := .root htag1 rfl
    obtain ⟨v1, a1, a2, a3⟩ := I1.addEdge_ok hns huptag (by simpa using hst) (h1 ▸ hc) oks m2 m1
    obtain ⟨ns1, c1, c2, c3, c4, c5⟩ := a3.2 _ _ hns
    rw [if_pos rfl] at c3
    obtain ⟨t2, d1, d2, d3⟩ := a2.sameParent c1 c3
    have d1' : (memoryTree τ).changeParent v1.tree s tag = (t2, none) := d1
    have hsplit : addSplit (memoryTree τ) tk (withRoot v tag c (some b)) tag c s path =
        ({ v1 with tree := t2 }, none) := by
      rw [h1] at m1
      simp only [addSplit, hr, m1, a1, d1']
    rw [hsplit]
    have G2 : TreeGrew v.tree t2 tag (some b) none := ?_
    · exact last { v1 with tree := t2 } d2 G2
    constructor
    · rw [d3.1, a3.1]; exact G1.keys
    · obtain ⟨n1, e1, e2, e3, e4, e5⟩ := a3.2 _ _ htag1
      obtain ⟨n2, f1, f2, f3, f4, f5⟩ := d3.2 _ _ e1
      have : tag ≠ s := fun e => hst e.symm
      refine ⟨n2, f1, ?_, f5.trans e5, f2.trans e2⟩
      rw [f3, if_neg this, e3, if_neg this]; rfl
    · intro y nd hy
      obtain ⟨nd1, i1, i2, i3, i4⟩ := G1.old hy
      obtain ⟨n1, e1, e2, e3, e4, e5⟩ := a3.2 _ _ i1
      obtain ⟨n2, f1, f2, f3, f4, f5⟩ := d3.2 _ _ e1
      refine ⟨n2, f1, f5.trans (e5.trans i2), f2.trans (e2.trans i3), ?_⟩
      rw [f3]
      split
      · next e =>
        subst e
        rw [hns] at i1; cases i1
        constructor
        · intro h; cases h
        · rintro ⟨h, _⟩
          exact absurd (i4.2 ⟨h, by simp⟩) hsroot
      · next e => rw [e3, if_neg e]; exact i4

/-! ### Histories -/

variable [DecidablePred Ok]

/-- What is true of the store after the history `h`. -/
structure MixedHistory (L : LawfulTok tk P Ok) (h : List (AddOp τ)) (v : Versions τ (MTree τ)) :
    Prop where
  store : MixedStore L (contentOf h) v
  keys : v.tree.map Prod.fst = addedTags h
  heads : ∀ {t nd}, dget v.tree t = some nd →
    (nd.parent = none ↔ (t, contentOf h t) ∈ headsWith Ok h)
  headsAdded : ∀ {p}, p ∈ headsWith Ok h → p.1 ∈ addedTags h ∧ p.2 = contentOf h p.1

theorem headsWith_snoc (h : List (AddOp τ)) (a : AddOp τ) :
    headsWith Ok (h ++ [a]) = headsAfter Ok (headsWith Ok h) a := by
  simp [headsWith, List.foldl_append]

theorem MixedHistory.empty (L : LawfulTok tk P Ok) : MixedHistory L [] (emptyVersions τ) where
  store := {
    tree := (HistoryOK.empty L).store.tree
    hvNodup := by simp [emptyVersions]
    dfNodup := by simp [emptyVersions]
    len := by intro x nd h; simp [emptyVersions, dget] at h
    alone := by intro x nd h; simp [emptyVersions, dget] at h
    root := by intro x nd h; simp [emptyVersions, dget] at h
    inner := by intro x nd p h; simp [emptyVersions, dget] at h
    absent := by intro x h; simp [emptyVersions, dget] }
  keys := rfl
  heads := by intro x nd h; simp [emptyVersions, dget] at h
  headsAdded := by intro t h; simp [headsWith] at h

theorem MixedHistory.dget_none {h : List (AddOp τ)} {v : Versions τ (MTree τ)}
    (H : MixedHistory L h v) {t : τ} : dget v.tree t = none ↔ t ∉ addedTags h := by
  have := (dget_isSome_iff (d := v.tree) (k := t))
  rw [H.keys] at this
  rw [← this]
  cases dget v.tree t <;> simp

theorem MixedHistory.step {h : List (AddOp τ)} {v : Versions τ (MTree τ)}
    (H : MixedHistory L h v) (R : Refuses L)
    {a : AddOp τ} (ht : a.tag ∉ addedTags h) (hb : a.base ≠ some a.tag)
    (hlen : a.content.length < 2 ^ 64) :
    MixedHistory L (h ++ [a]) (versionsAdd (memoryTree τ) tk v a.tag a.content a.base).1 ∧
    (versionsAdd (memoryTree τ) tk v a.tag a.content a.base).2 =
      refusal Ok (headsWith Ok h) a := by
  have hx := H.dget_none.2 ht
  have c1 := contentOf_snoc_self ht
  have c2 : ∀ y, y ≠ a.tag → contentOf (h ++ [a]) y = contentOf h y :=
    fun y hy => contentOf_snoc_ne hy
  -- everything follows from the store invariant and the growth of the tree
  have fin : ∀ v' used, MixedStore L (contentOf (h ++ [a])) v' →
      TreeGrew v.tree v'.tree a.tag a.base used →
      (used = if refusal Ok (headsWith Ok h) a = none then a.base else none) →
      MixedHistory L (h ++ [a]) v' := by
    intro v' used hs G hu
    have hmem : ∀ p, p ∈ headsWith Ok (h ++ [a]) ↔
        (p ∈ headsWith Ok h ∧ used ≠ some p.1) ∨ p = (a.tag, a.content) := by
      intro p
      rw [headsWith_snoc, headsAfter, List.mem_append]
      subst hu
      by_cases hr : refusal Ok (headsWith Ok h) a = none
      · simp [hr]
      · simp [hr]
    refine ⟨hs, ?_, ?_, ?_⟩
    · rw [G.keys, H.keys, addedTags_snoc]
    · intro t nd hnd
      rw [hmem]
      by_cases e : t = a.tag
      · subst e
        obtain ⟨n0, g1, g2, _⟩ := G.new
        rw [hnd] at g1; cases g1
        simp [g2, c1]
      · have : ∃ n0, dget v.tree t = some n0 := by
          have := mem_keys_of_dget hnd
          rw [G.keys, List.mem_append] at this
          rcases this with h1 | h1
          · exact dget_isSome_iff.2 h1
          · exact absurd (by simpa using h1) e
        obtain ⟨n0, h0⟩ := this
        obtain ⟨n1, g1, g2, g3, g4⟩ := G.old h0
        rw [hnd] at g1; cases g1
        rw [g4, H.heads h0, c2 t e]
        simp [e]
    · intro p hp
      rw [hmem] at hp
      rw [addedTags_snoc]
      rcases hp with ⟨h1, _⟩ | rfl
      · obtain ⟨k1, k2⟩ := H.headsAdded h1
        have : p.1 ≠ a.tag := fun e => ht (e ▸ k1)
        exact ⟨List.mem_append.2 (Or.inl k1), by rw [c2 _ this]; exact k2⟩
      · exact ⟨by simp, c1.symm⟩
  have rootCase : ∀ bo : Option τ, bo = a.base →
      (a.base = none ∨ refusal Ok (headsWith Ok h) a ≠ none) →
      MixedHistory L (h ++ [a]) (withRoot v a.tag a.content bo) := by
    intro bo hbo hno
    refine fin _ none (H.store.addRoot hx hlen c1 c2) ?_ ?_
    · rw [← hbo]; exact treeGrew_add hx bo
    · rcases hno with hno | hno
      · simp [hno]
      · simp [hno]
  cases hbase : a.base with
  | none =>
    rw [add_none]
    exact ⟨rootCase none hbase.symm (Or.inl hbase), by simp [refusal, hbase]⟩
  | some b =>
    have hba : a.tag ≠ b := by rintro rfl; exact hb hbase
    -- looking up `b` among the heads
    have look : refusal Ok (headsWith Ok h) a =
        if (b, contentOf h b) ∈ headsWith Ok h then
          (if Ok (contentOf h b) ∧ Ok a.content then none else some .unicodeError)
        else some .keyError := by
      unfold refusal
      rw [hbase]
      simp only
      cases hf : (headsWith Ok h).find? (fun p => p.1 = b) with
      | none =>
        rw [List.find?_eq_none] at hf
        rw [if_neg]
        intro hm
        exact hf _ hm (by simp)
      | some p =>
        have hm := List.mem_of_find?_eq_some hf
        have hpb : p.1 = b := by simpa using List.find?_some hf
        obtain ⟨_, k2⟩ := H.headsAdded hm
        have : p = (b, contentOf h b) := by
          rw [hpb] at k2
          exact Prod.ext hpb k2
        subst this
        rw [if_pos hm]
    cases hgb : dget v.tree b with
    | none =>
      have hbn : (b, contentOf h b) ∉ headsWith Ok h := fun e =>
        (H.dget_none.1 hgb) (H.headsAdded e).1
      rw [if_neg hbn] at look
      rw [add_unknown _ hgb hba]
      exact ⟨rootCase (some b) hbase.symm (Or.inr (by simp [look])), look.symm⟩
    | some nb =>
      cases hpar : nb.parent with
      | some p =>
        have hbn : (b, contentOf h b) ∉ headsWith Ok h := fun e => by
          have := (H.heads hgb).2 e; rw [hpar] at this; cases this
        rw [if_neg hbn] at look
        rw [H.store.add_nonhead _ hx hgb hpar]
        exact ⟨rootCase (some b) hbase.symm (Or.inr (by simp [look])), look.symm⟩
      | none =>
        have hbh := (H.heads hgb).1 hpar
        rw [if_pos hbh] at look
        by_cases hok : Ok (contentOf h b) ∧ Ok a.content
        · rw [if_pos hok] at look
          obtain ⟨v', e1, e2, e3⟩ := H.store.add_head hx hgb hpar hok.1 hok.2 hlen c1 c2
          rw [e1]
          exact ⟨fin v' (some b) e2 (hbase ▸ e3) (by simp [look, hbase]), look.symm⟩
        · rw [if_neg hok] at look
          rw [H.store.add_refused R hx hgb hpar hlen hok]
          exact ⟨rootCase (some b) hbase.symm (Or.inr (by simp [look])), look.symm⟩

theorem FreshHistory.mixed (R : Refuses L) {h : List (AddOp τ)} (F : FreshHistory h)
    (hc : ∀ a ∈ h, a.content.length < 2 ^ 64) :
    MixedHistory L h (runHistory (memoryTree τ) tk (emptyVersions τ) h) := by
  induction F with
  | nil => exact MixedHistory.empty L
  | @snoc h a F h1 h2 ih =>
    rw [runHistory_snoc]
    exact ((ih fun o ho => hc o (by simp [ho])).step R h1 h2 (hc a (by simp))).1

/-- Retrieval after any history with fresh tags. -/
theorem FreshHistory.mixed_get (R : Refuses L) {h : List (AddOp τ)} (F : FreshHistory h)
    (hc : ∀ a ∈ h, a.content.length < 2 ^ 64) : ∀ a ∈ h,
    versionsGet (memoryTree τ) tk (runHistory (memoryTree τ) tk (emptyVersions τ) h) a.tag =
      if Ok a.content then .ok (some a.content) else .error .unicodeError := by
  intro a ha
  have H := F.mixed R hc
  have hm : a.tag ∈ addedTags h := List.mem_map.2 ⟨a, ha, rfl⟩
  have : ∃ nd, dget (runHistory (memoryTree τ) tk (emptyVersions τ) h).tree a.tag = some nd := by
    rw [dget_isSome_iff, H.keys]; exact hm
  obtain ⟨nd, hnd⟩ := this
  have hcon := contentOf_mem F.nodup ha
  split
  · next hok => rw [H.store.get_ok hnd (by rw [hcon]; exact hok), hcon]
  · next hok => exact H.store.get_refused R hnd (by rw [hcon]; exact hok)

end Gaspra
