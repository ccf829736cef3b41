import Verif.Proofs.Tokenized
import Verif.Proofs.MemoryTreeQueries

set_option linter.unusedSectionVars false
set_option linter.unusedSimpArgs false
set_option linter.unusedVariables false

/-! # The invariant of the version store -/

namespace Gaspra

variable {τ Tok S P : Type _} [DecidableEq τ] [DecidableEq Tok] {tk : TokOps Tok S}
  {Ok : Bytes → Prop}

/-- The store holds `content x` for every tag `x` of its tree: in full for roots, as a delta to
the parent's content for the others. -/
structure StoreOK (L : LawfulTok tk P Ok) (content : τ → Bytes) (v : Versions τ (MTree τ)) :
    Prop where
  tree : TreeOK v.tree
  hvNodup : (v.headVersion.map Prod.fst).Nodup
  dfNodup : (v.diffs.map Prod.fst).Nodup
  ok : ∀ {x nd}, dget v.tree x = some nd → Ok (content x) ∧ (content x).length < 2 ^ 64
  root : ∀ {x nd}, dget v.tree x = some nd → nd.parent = none →
    dget v.headVersion x = some (content x) ∧ dget v.diffs x = none
  inner : ∀ {x nd p}, dget v.tree x = some nd → nd.parent = some p →
    dget v.headVersion x = none ∧
      ∃ d, dget v.diffs x = some d ∧ DeltaBytes L (content p) (content x) d
  absent : ∀ {x}, dget v.tree x = none → dget v.headVersion x = none ∧ dget v.diffs x = none

variable {L : LawfulTok tk P Ok} {content : τ → Bytes} {v : Versions τ (MTree τ)}

/-! ### Retrieval -/

theorem StoreOK.retrieveLoop_ok (I : StoreOK L content v) {x : τ} {l : List τ}
    (h : UpPath v.tree x l) :
    ∃ root rest, l.reverse = root :: rest ∧ dget v.headVersion root = some (content root) ∧
      Ok (content root) ∧
      ∀ {st : S} {toks : List Tok}, L.Inv st → toks.map (L.den st) = (L.split (content root)).map some →
        ∃ toks' st', retrieveLoop tk v.diffs st toks rest = .ok (toks', st') ∧ L.Inv st' ∧
          (L.Ready st → L.Ready st') ∧ toks'.map (L.den st') = (L.split (content x)).map some := by
  induction h with
  | @root x nd h1 h2 =>
    refine ⟨x, [], rfl, (I.root h1 h2).1, (I.ok h1).1, ?_⟩
    intro st toks hi ht
    exact ⟨toks, st, rfl, hi, id, ht⟩
  | @step x p nd l h1 h2 h3 ih =>
    obtain ⟨root, rest, e1, e2, e0, e3⟩ := ih
    refine ⟨root, rest ++ [x], by simp [e1], e2, e0, ?_⟩
    intro st toks hi ht
    obtain ⟨toks', st', g1, g2, g3, g4⟩ := e3 hi ht
    obtain ⟨_, d, hd, hD⟩ := I.inner h1 h2
    obtain ⟨toks'', st'', k1, k2, k3, k4⟩ := retrieveStep L (I.ok h1).1 hd hD g2 g4
    refine ⟨toks'', st'', ?_, k2, fun h => k3 (g3 h), k4⟩
    rw [retrieveLoop_append, g1]
    exact k1

theorem StoreOK.retrieve_ok (I : StoreOK L content v) {x : τ} {l : List τ}
    (h : UpPath v.tree x l) : retrieveUsingPath tk v l.reverse = .ok (content x) := by
  obtain ⟨root, rest, e1, e2, e0, e3⟩ := I.retrieveLoop_ok h
  obtain ⟨toks, st, a1, a2, a3, a4, a5⟩ := L.encode_ok L.init_inv e0
  obtain ⟨toks', st', g1, g2, g3, g4⟩ := e3 a2 a4
  have hx : Ok (content x) := by
    obtain ⟨nd, hnd⟩ := h.mem_keys x (by obtain ⟨r, rfl⟩ := h.head; simp)
    exact (I.ok hnd).1
  rw [e1]
  simp only [retrieveUsingPath, e2, a1, bind, Except.bind, g1, L.decode_ok g2 (g3 a3) g4,
    L.split_text hx]

theorem StoreOK.get_ok (I : StoreOK L content v) {x : τ} {nd : TNode τ}
    (h : dget v.tree x = some nd) : versionsGet (memoryTree τ) tk v x = .ok (some (content x)) := by
  obtain ⟨l, hl⟩ := I.tree.acyc h
  have hp : (memoryTree τ).pathTo v.tree x = .ok (some l.reverse) := pathTo_spec hl
  have hr := I.retrieve_ok hl
  unfold versionsGet
  rw [hp]
  cases hlr : l.reverse with
  | nil => rw [hlr] at hr; simp [retrieveUsingPath] at hr
  | cons a r => rw [hlr] at hr; simp only [hr]

theorem StoreOK.get_none (I : StoreOK L content v) {x : τ} (h : dget v.tree x = none) :
    versionsGet (memoryTree τ) tk v x = .ok none := by
  have hp : (memoryTree τ).pathTo v.tree x = .ok none := pathTo_none h
  unfold versionsGet
  rw [hp]

/-! ### Adding a new root -/

/-- The node created by `MemoryTree.add`. -/
def newNode (n : Nat) (b : Option τ) : TNode τ :=
  { orderId := n, parent := none, children := [], height := 1, size := 1, baseVersion := b }

theorem dget_mtAdd (t : MTree τ) (x : τ) (b : Option τ) (y : τ) :
    dget (mtAdd t x b) y = if x = y then some (newNode t.length b) else dget t y :=
  dget_dset _ _ _ _

theorem StoreOK.addRoot (I : StoreOK L content v) {x : τ} {c : Bytes} {b : Option τ}
    (hx : dget v.tree x = none) (hc : Ok c) (hl : c.length < 2 ^ 64) {content' : τ → Bytes}
    (h1 : content' x = c) (h2 : ∀ y, y ≠ x → content' y = content y) :
    StoreOK L content' ⟨dset v.headVersion x c, v.diffs, mtAdd v.tree x b⟩ := by
  have hne : ∀ {y nd}, dget v.tree y = some nd → y ≠ x := by
    rintro y nd h rfl; rw [hx] at h; cases h
  constructor
  · exact I.tree.add hx b
  · exact dset_nodup I.hvNodup _ _
  · exact I.dfNodup
  · intro y nd hy
    rw [dget_mtAdd] at hy
    split at hy
    · next e => subst e; rw [h1]; exact ⟨hc, hl⟩
    · rw [h2 y (hne hy)]; exact I.ok hy
  · intro y nd hy hp
    rw [dget_mtAdd] at hy
    simp only [dget_dset]
    split at hy
    · next e => subst e; rw [if_pos rfl, h1]; exact ⟨rfl, (I.absent hx).2⟩
    · next e =>
      rw [if_neg e, h2 y (hne hy)]
      exact I.root hy hp
  · intro y nd p hy hp
    rw [dget_mtAdd] at hy
    simp only [dget_dset]
    split at hy
    · cases hy; cases hp
    · next e =>
      obtain ⟨np, hnp, _⟩ := I.tree.up hy hp
      rw [if_neg e, h2 y (hne hy), h2 p (hne hnp)]
      exact I.inner hy hp
  · intro y hy
    rw [dget_mtAdd] at hy
    simp only [dget_dset]
    split at hy
    · cases hy
    · next e => rw [if_neg e]; exact I.absent hy

/-! ### Adding an edge -/

theorem dget_none_of_keys {κ β : Type _} [DecidableEq κ] {d d' : List (κ × β)}
    (h : d'.map Prod.fst = d.map Prod.fst) {x : κ} : dget d' x = none ↔ dget d x = none := by
  have : (∃ v, dget d' x = some v) ↔ (∃ v, dget d x = some v) := by
    rw [dget_isSome_iff, dget_isSome_iff, h]
  cases h1 : dget d' x <;> cases h2 : dget d x <;> simp_all

theorem Moved.dget_none {t t' : MTree τ} {c p : τ} {q : Option τ} (h : Moved t t' c q p) {x : τ} :
    dget t' x = none ↔ dget t x = none := dget_none_of_keys h.1

theorem StoreOK.addEdge_ok (I : StoreOK L content v) {c p : τ} {nc : TNode τ}
    (hc : dget v.tree c = some nc) {lp : List τ} (hp : UpPath v.tree p lp) (hcp : c ∉ lp)
    {items : List (PatchItem UInt8)} (hD : DeltaOK L (content p) (content c) items)
    (hM : makeChangeset tk (content p) (content c) = .ok items) :
    ∃ v', addEdge (memoryTree τ) v p c items = (v', none) ∧ StoreOK L content v' ∧
      Moved v.tree v'.tree c nc.parent p := by
  have hpk : ∃ np, dget v.tree p = some np := hp.mem_keys p (by
    obtain ⟨r, rfl⟩ := hp.head; simp)
  obtain ⟨np, hnp⟩ := hpk
  obtain ⟨d, hd, hDB⟩ := serializeDelta L (I.ok hnp).1 (I.ok hc).1 (I.ok hnp).2 (I.ok hc).2 hD hM
  obtain ⟨t', ht, T', M⟩ := changeParent_spec I.tree hc hp hcp
  have key : ∀ hv, (∀ y, dget hv y = if c = y then none else dget v.headVersion y) →
      (hv.map Prod.fst).Nodup → StoreOK L content ⟨hv, dset v.diffs c d, t'⟩ := by
    intro hv hhv hnd
    constructor
    · exact T'
    · exact hnd
    · exact dset_nodup I.dfNodup _ _
    · intro y nd hy
      obtain ⟨nd0, h0, _⟩ := M.back hy
      exact I.ok h0
    · intro y nd hy hyp
      obtain ⟨nd0, h0, _, h3, _⟩ := M.back hy
      by_cases hyc : y = c
      · rw [if_pos hyc, hyp] at h3; cases h3
      · rw [if_neg hyc] at h3
        simp only [dget_dset, hhv]
        have : c ≠ y := fun e => hyc e.symm
        rw [if_neg this, if_neg this]
        exact I.root h0 (h3 ▸ hyp)
    · intro y nd r hy hyp
      obtain ⟨nd0, h0, _, h3, _⟩ := M.back hy
      by_cases hyc : y = c
      · subst hyc
        rw [if_pos rfl, hyp] at h3; cases h3
        simp only [dget_dset, hhv, if_true]
        exact ⟨trivial, d, rfl, hDB⟩
      · rw [if_neg hyc] at h3
        simp only [dget_dset, hhv]
        have : c ≠ y := fun e => hyc e.symm
        rw [if_neg this, if_neg this]
        exact I.inner h0 (h3 ▸ hyp)
    · intro y hy
      rw [M.dget_none] at hy
      have : c ≠ y := by rintro rfl; rw [hc] at hy; cases hy
      simp only [dget_dset, hhv]
      rw [if_neg this, if_neg this]
      exact I.absent hy
  have hcp' : (memoryTree τ).changeParent v.tree c p = (t', none) := ht
  by_cases hm : dmem v.headVersion c = true
  · refine ⟨⟨ddel v.headVersion c, dset v.diffs c d, t'⟩, ?_, key _ (fun y => dget_ddel I.hvNodup _ _)
      (ddel_nodup I.hvNodup _), M⟩
    simp only [addEdge, hd, hcp', hm, if_true]
  · refine ⟨⟨v.headVersion, dset v.diffs c d, t'⟩, ?_, key _ (fun y => ?_) I.hvNodup, M⟩
    · simp only [addEdge, hd, hcp', hm, if_false, Bool.false_eq_true]
    · split
      · next e =>
        subst e
        simpa [dmem] using hm
      · rfl

/-- Giving a node the parent it already has keeps the store right. -/
theorem StoreOK.sameParent (I : StoreOK L content v) {c p : τ} {nc : TNode τ}
    (hc : dget v.tree c = some nc) (hpar : nc.parent = some p) :
    ∃ t', mtChangeParent v.tree c (some p) = (t', none) ∧ StoreOK L content { v with tree := t' } ∧
      Moved v.tree t' c (some p) p := by
  obtain ⟨np, hnp, _⟩ := I.tree.up hc hpar
  obtain ⟨lp, hlp⟩ := I.tree.acyc hnp
  have hcp := hlp.not_mem_parent hc hpar
  obtain ⟨t', ht, T', M⟩ := changeParent_spec I.tree hc hlp hcp
  have hsame : ∀ {y nd}, dget t' y = some nd → ∃ nd0, dget v.tree y = some nd0 ∧
      nd.parent = nd0.parent := by
    intro y nd hy
    obtain ⟨nd0, h0, _, h3, _⟩ := M.back hy
    refine ⟨nd0, h0, ?_⟩
    rw [h3]
    split
    · next e => subst e; rw [hc] at h0; cases h0; exact hpar.symm
    · rfl
  refine ⟨t', ht, ?_, hpar ▸ M⟩
  constructor
  · exact T'
  · exact I.hvNodup
  · exact I.dfNodup
  · intro y nd hy
    obtain ⟨nd0, h0, _⟩ := hsame hy; exact I.ok h0
  · intro y nd hy hp
    obtain ⟨nd0, h0, h1⟩ := hsame hy; exact I.root h0 (h1 ▸ hp)
  · intro y nd r hy hp
    obtain ⟨nd0, h0, h1⟩ := hsame hy; exact I.inner h0 (h1 ▸ hp)
  · intro y hy
    exact I.absent (M.dget_none.1 hy)

/-! ### `add` -/

/-- How a call of `add` changes the tree, as far as later claims need it. -/
structure TreeGrew (t t' : MTree τ) (tag : τ) (base : Option τ) (used : Option τ) : Prop where
  keys : t'.map Prod.fst = t.map Prod.fst ++ [tag]
  new : ∃ nd, dget t' tag = some nd ∧ nd.parent = none ∧ nd.baseVersion = base ∧
    nd.orderId = t.length
  old : ∀ {y nd}, dget t y = some nd → ∃ nd', dget t' y = some nd' ∧
    nd'.baseVersion = nd.baseVersion ∧ nd'.orderId = nd.orderId ∧
    (nd'.parent = none ↔ nd.parent = none ∧ used ≠ some y)

theorem mtAdd_keys {t : MTree τ} {x : τ} (hx : dget t x = none) (b : Option τ) :
    (mtAdd t x b).map Prod.fst = t.map Prod.fst ++ [x] := by
  unfold mtAdd
  rw [dset_keys, if_neg]
  intro h
  obtain ⟨v, hv⟩ := dget_isSome_iff.2 h
  rw [hx] at hv; cases hv

theorem treeGrew_add {t : MTree τ} {x : τ} (hx : dget t x = none) (b : Option τ) :
    TreeGrew t (mtAdd t x b) x b none where
  keys := mtAdd_keys hx b
  new := ⟨_, by rw [dget_mtAdd, if_pos rfl], rfl, rfl, rfl⟩
  old := by
    intro y nd hy
    have : x ≠ y := by rintro rfl; rw [hx] at hy; cases hy
    exact ⟨nd, by rw [dget_mtAdd, if_neg this]; exact hy, rfl, rfl, by simp⟩

theorem StoreOK.unused (I : StoreOK L content v) {x : τ} (hx : dget v.tree x = none) :
    dget v.headVersion x = none := (I.absent hx).1

/-- The store right after `head_version[tag] = version` and `tree.add(tag, base)`. -/
def withRoot (v : Versions τ (MTree τ)) (tag : τ) (c : Bytes) (b : Option τ) :
    Versions τ (MTree τ) := ⟨dset v.headVersion tag c, v.diffs, mtAdd v.tree tag b⟩

/-- `add(tag, c)` without a base. -/
theorem add_none (tag : τ) (c : Bytes) :
    versionsAdd (memoryTree τ) tk v tag c none = (withRoot v tag c none, none) := rfl

/-- `add(tag, c, b)` with an unknown base. -/
theorem add_unknown {tag b : τ} (c : Bytes) (hb : dget v.tree b = none) (hbt : tag ≠ b) :
    versionsAdd (memoryTree τ) tk v tag c (some b) =
      (withRoot v tag c (some b), some .keyError) := by
  have : (memoryTree τ).getSplit (mtAdd v.tree tag (some b)) b = .error .keyError := by
    simp only [memoryTree, mtGetSplit, dget_mtAdd, if_neg hbt, hb]
  show addToHead (memoryTree τ) tk (withRoot v tag c (some b)) tag c b = _
  simp only [addToHead, withRoot, this]

/-- `add(tag, c, b)` with a known base that is not a head. -/
theorem StoreOK.add_nonhead (I : StoreOK L content v) {tag b p : τ} {nb : TNode τ} (c : Bytes)
    (ht : dget v.tree tag = none) (hb : dget v.tree b = some nb) (hp : nb.parent = some p) :
    versionsAdd (memoryTree τ) tk v tag c (some b) =
      (withRoot v tag c (some b), some .keyError) := by
  have hbt : tag ≠ b := by rintro rfl; rw [ht] at hb; cases hb
  have T1 := I.tree.add ht (some b)
  obtain ⟨s, path, h1, h2, h3⟩ := getSplit_spec T1 (x := b) (nd := nb)
    (by rw [dget_mtAdd, if_neg hbt]; exact hb)
  have h1' : (memoryTree τ).getSplit (mtAdd v.tree tag (some b)) b = .ok (s, path) := h1
  have hhv : dget (dset v.headVersion tag c) b = none := by
    rw [dget_dset, if_neg hbt]; exact (I.inner hb hp).1
  show addToHead (memoryTree τ) tk (withRoot v tag c (some b)) tag c b = _
  have h1'' : (memoryTree τ).getSplit (withRoot v tag c (some b)).tree b = .ok (s, path) := h1'
  simp only [addToHead, h1'']
  split
  · obtain ⟨r, rfl⟩ := h2.head
    have : retrieveUsingPath tk (withRoot v tag c (some b)) (b :: r) = .error .keyError := by
      simp only [retrieveUsingPath, withRoot, hhv]
    simp only [addSplit, this]
  · simp only [addOldHead, withRoot, hhv]

/-- Which tags `add(tag, c, b)` moves below `tag` when `b` is a head: `b` itself and the tag in the
middle of a deepest path from `b`. -/
def SplitMove (t t' : MTree τ) (tag b : τ) (nb : TNode τ) : Prop :=
  ∃ s path, BestPath (mtAdd t tag (some b)) b path s ∧ path.length = nb.height / 2 + 1 ∧
    ∀ {y nd}, dget t y = some nd → ∃ nd', dget t' y = some nd' ∧
      nd'.parent = if y = b ∨ y = s then some tag else nd.parent

/-- `add(tag, c, b)` when `b` is a head. -/
theorem StoreOK.add_head (I : StoreOK L content v) {tag b : τ} {nb : TNode τ} {c : Bytes}
    (ht : dget v.tree tag = none) (hb : dget v.tree b = some nb) (hp : nb.parent = none)
    (hc : Ok c) (hl : c.length < 2 ^ 64) {content' : τ → Bytes}
    (h1 : content' tag = c) (h2 : ∀ y, y ≠ tag → content' y = content y) :
    ∃ v', versionsAdd (memoryTree τ) tk v tag c (some b) = (v', none) ∧ StoreOK L content' v' ∧
      TreeGrew v.tree v'.tree tag (some b) (some b) ∧ SplitMove v.tree v'.tree tag b nb := by
  have hbt : tag ≠ b := by rintro rfl; rw [ht] at hb; cases hb
  have I1 : StoreOK L content' (withRoot v tag c (some b)) := I.addRoot ht hc hl h1 h2
  have G1 : TreeGrew v.tree (withRoot v tag c (some b)).tree tag (some b) none :=
    treeGrew_add ht (some b)
  have hb1 : dget (withRoot v tag c (some b)).tree b = some nb := by
    show dget (mtAdd v.tree tag (some b)) b = _
    rw [dget_mtAdd, if_neg hbt]; exact hb
  have htag1 : dget (withRoot v tag c (some b)).tree tag = some (newNode v.tree.length (some b)) := by
    show dget (mtAdd v.tree tag (some b)) tag = _
    rw [dget_mtAdd, if_pos rfl]
  obtain ⟨s, path, g1, g2, g3⟩ := getSplit_spec I1.tree hb1
  have g1' : (memoryTree τ).getSplit (withRoot v tag c (some b)).tree b = .ok (s, path) := g1
  -- the last part: the old head becomes a child of `tag`
  have last : ∀ v2, StoreOK L content' v2 → TreeGrew v.tree v2.tree tag (some b) none →
      ∃ v', addOldHead (memoryTree τ) tk v2 tag c b = (v', none) ∧ StoreOK L content' v' ∧
        TreeGrew v.tree v'.tree tag (some b) (some b) ∧
        ∀ {y nd}, dget v2.tree y = some nd → ∃ nd', dget v'.tree y = some nd' ∧
          nd'.parent = if y = b then some tag else nd.parent := by
    intro v2 I2 G2
    obtain ⟨ntag, t1, t2, t3, t4⟩ := G2.new
    obtain ⟨nb2, b1, b2, b3, b4⟩ := G2.old hb
    have hbroot : nb2.parent = none := b4.2 ⟨hp, by simp⟩
    have hhv := (I2.root b1 hbroot).1
    have okb := (I2.ok b1).1
    obtain ⟨items, m1, m2⟩ := makeChangeset_ok L (a := content' tag) (b := content' b)
      (h1 ▸ hc) okb
    have hup : UpPath v2.tree tag [tag] := .root t1 t2
    obtain ⟨v', a1, a2, a3⟩ := I2.addEdge_ok b1 hup (by simpa using fun e => hbt e.symm) m2 m1
    refine ⟨v', ?_, a2, ?_, fun {y nd} hy => by
      obtain ⟨nd3, e1, e2, e3, e4, e5⟩ := a3.2 _ _ hy
      exact ⟨nd3, e1, e3⟩⟩
    · rw [h1] at m1
      simp only [addOldHead, hhv, m1, a1]
    · constructor
      · rw [a3.1]; exact G2.keys
      · obtain ⟨nt', c1, c2, c3, c4, c5⟩ := a3.2 _ _ t1
        refine ⟨nt', c1, ?_, c5.trans t3, c2.trans t4⟩
        rw [c3, if_neg hbt]; exact t2
      · intro y nd hy
        obtain ⟨nd2, d1, d2, d3, d4⟩ := G2.old hy
        obtain ⟨nd3, e1, e2, e3, e4, e5⟩ := a3.2 _ _ d1
        refine ⟨nd3, e1, e5.trans d2, e2.trans d3, ?_⟩
        rw [e3]
        split
        · next e => subst e; simp
        · next e =>
          rw [d4]
          have : ¬ b = y := fun h => e h.symm
          simp [this]
  show ∃ v', addToHead (memoryTree τ) tk (withRoot v tag c (some b)) tag c b = (v', none) ∧ _
  simp only [addToHead, g1']
  by_cases hsb : s = b
  · rw [if_neg (by simp [hsb])]
    obtain ⟨v', l1, l2, l3, l4⟩ := last _ I1 G1
    refine ⟨v', l1, l2, l3, s, path, g2, g3, ?_⟩
    intro y nd hy
    have : tag ≠ y := by rintro rfl; rw [ht] at hy; cases hy
    obtain ⟨nd', k1, k2⟩ := l4 (y := y) (nd := nd) (by
      show dget (mtAdd v.tree tag (some b)) y = _
      rw [dget_mtAdd, if_neg this]; exact hy)
    exact ⟨nd', k1, by rw [k2, hsb]; simp⟩
  · rw [if_pos hsb]
    have hup : UpPath (withRoot v tag c (some b)).tree s path.reverse := by
      have := g2.upPath I1.tree.toForest (.root hb1 hp)
      simpa using this
    have hr := I1.retrieve_ok hup
    rw [List.reverse_reverse] at hr
    obtain ⟨ns, hns⟩ := hup.mem_keys s (by obtain ⟨r, hr⟩ := hup.head; rw [hr]; simp)
    have hst : s ≠ tag := by
      rintro rfl
      rw [htag1] at hns; cases hns
      cases g2 with
      | start => exact hsb rfl
      | next k1 k2 k3 =>
        obtain ⟨nc, k4, k5⟩ := I1.tree.down k2 k3.1
        rw [htag1] at k4; cases k4; cases k5
    have hsroot : ns.parent ≠ none := by
      cases g2 with
      | start => exact absurd rfl hsb
      | next k1 k2 k3 =>
        obtain ⟨nc, k4, k5⟩ := I1.tree.down k2 k3.1
        rw [hns] at k4; cases k4; rw [k5]; simp
    obtain ⟨items, m1, m2⟩ := makeChangeset_ok L (a := content' tag) (b := content' s)
      (h1 ▸ hc) (I1.ok hns).1
    have huptag : UpPath (withRoot v tag c (some b)).tree tag [tag] := .root htag1 rfl
    obtain ⟨v1, a1, a2, a3⟩ := I1.addEdge_ok hns huptag (by simpa using hst) m2 m1
    obtain ⟨ns1, c1, c2, c3, c4, c5⟩ := a3.2 _ _ hns
    rw [if_pos rfl] at c3
    obtain ⟨t2, d1, d2, d3⟩ := a2.sameParent c1 c3
    have d1' : (memoryTree τ).changeParent v1.tree s tag = (t2, none) := d1
    have hsplit : addSplit (memoryTree τ) tk (withRoot v tag c (some b)) tag c s path =
        ({ v1 with tree := t2 }, none) := by
      rw [h1] at m1
      simp only [addSplit, hr, m1, a1, d1']
    rw [hsplit]
    have G2 : TreeGrew v.tree t2 tag (some b) none := ?_
    · obtain ⟨v', l1, l2, l3, l4⟩ := last { v1 with tree := t2 } d2 G2
      refine ⟨v', l1, l2, l3, s, path, g2, g3, ?_⟩
      intro y nd hy
      have hty : tag ≠ y := by rintro rfl; rw [ht] at hy; cases hy
      obtain ⟨n1, e1, e2, e3, e4, e5⟩ := a3.2 y nd (by
        show dget (mtAdd v.tree tag (some b)) y = _
        rw [dget_mtAdd, if_neg hty]; exact hy)
      obtain ⟨n2, f1, f2, f3, f4, f5⟩ := d3.2 _ _ e1
      obtain ⟨nd', k1, k2⟩ := l4 (y := y) (nd := n2) f1
      refine ⟨nd', k1, ?_⟩
      rw [k2, f3, e3]
      by_cases e : y = b <;> by_cases e' : y = s <;> simp [e, e']
    constructor
    · rw [d3.1, a3.1]; exact G1.keys
    · obtain ⟨n1, e1, e2, e3, e4, e5⟩ := a3.2 _ _ htag1
      obtain ⟨n2, f1, f2, f3, f4, f5⟩ := d3.2 _ _ e1
      have : tag ≠ s := fun e => hst e.symm
      refine ⟨n2, f1, ?_, f5.trans e5, f2.trans e2⟩
      rw [f3, if_neg this, e3, if_neg this]; rfl
    · intro y nd hy
      obtain ⟨nd1, i1, i2, i3, i4⟩ := G1.old hy
      obtain ⟨n1, e1, e2, e3, e4, e5⟩ := a3.2 _ _ i1
      obtain ⟨n2, f1, f2, f3, f4, f5⟩ := d3.2 _ _ e1
      refine ⟨n2, f1, f5.trans (e5.trans i2), f2.trans (e2.trans i3), ?_⟩
      rw [f3]
      split
      · next e =>
        subst e
        rw [hns] at i1; cases i1
        constructor
        · intro h; cases h
        · rintro ⟨h, _⟩
          exact absurd (i4.2 ⟨h, by simp⟩) hsroot
      · next e => rw [e3, if_neg e]; exact i4

end Gaspra
