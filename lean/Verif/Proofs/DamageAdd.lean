import Verif.Proofs.Damage

set_option linter.unusedSectionVars false
set_option linter.unusedSimpArgs false
set_option linter.unusedVariables false

/-!
# Adding to a store that reads something else than what was added

The invariant of `Proofs/Versions.lean` for `NullTokenizer` without the claim that the deltas are the
ones that `add` makes; the proofs are the same.
-/

namespace Gaspra

variable {τ : Type _} [DecidableEq τ] {v : Versions τ (MTree τ)} {content : τ → Bytes}

/-- The store reads `content x` for every tag `x` of its tree, whatever the deltas are. -/
structure LooseStore (content : τ → Bytes) (v : Versions τ (MTree τ)) : Prop where
  tree : TreeOK v.tree
  hvNodup : (v.headVersion.map Prod.fst).Nodup
  dfNodup : (v.diffs.map Prod.fst).Nodup
  ok : ∀ {x nd}, dget v.tree x = some nd → (content x).length < 2 ^ 64
  root : ∀ {x nd}, dget v.tree x = some nd → nd.parent = none →
    dget v.headVersion x = some (content x) ∧ dget v.diffs x = none
  inner : ∀ {x nd p}, dget v.tree x = some nd → nd.parent = some p →
    dget v.headVersion x = none ∧
      ∃ d items, dget v.diffs x = some d ∧ deserializeChangeset d = (items, none) ∧
        applyPatch items (content p) = content x
  absent : ∀ {x}, dget v.tree x = none → dget v.headVersion x = none ∧ dget v.diffs x = none

theorem LooseStore.retrieve_ok (I : LooseStore content v) {x : τ} {l : List τ}
    (h : UpPath v.tree x l) : retrieveUsingPath nullTok v l.reverse = .ok (content x) := by
  induction h with
  | @root x nd h1 h2 =>
    simp only [List.reverse_cons, List.reverse_nil, List.nil_append, retrieveUsingPath, (I.root h1 h2).1]
    rfl
  | @step x p nd l h1 h2 h3 ih =>
    obtain ⟨_, d, items, k1, k2, k3⟩ := I.inner h1 h2
    rw [List.reverse_cons, retrieve_snoc, ih]
    · simp only [k1, applyStored, k2, k3]
    · obtain ⟨r, rfl⟩ := h3.head
      simp

theorem LooseStore.get_ok (I : LooseStore content v) {x : τ} {nd : TNode τ}
    (h : dget v.tree x = some nd) : versionsGet (memoryTree τ) nullTok v x = .ok (some (content x)) := by
  obtain ⟨l, hl⟩ := I.tree.acyc h
  rw [get_path hl, I.retrieve_ok hl]
  rfl

theorem LooseStore.addRoot (I : LooseStore content v) {x : τ} {c : Bytes} {b : Option τ}
    (hx : dget v.tree x = none) (hl : c.length < 2 ^ 64) {content' : τ → Bytes}
    (h1 : content' x = c) (h2 : ∀ y, y ≠ x → content' y = content y) :
    LooseStore content' ⟨dset v.headVersion x c, v.diffs, mtAdd v.tree x b⟩ := by
  have hne : ∀ {y nd}, dget v.tree y = some nd → y ≠ x := by
    rintro y nd h rfl; rw [hx] at h; cases h
  constructor
  · exact I.tree.add hx b
  · exact dset_nodup I.hvNodup _ _
  · exact I.dfNodup
  · intro y nd hy
    rw [dget_mtAdd] at hy
    split at hy
    · next e => subst e; rw [h1]; exact hl
    · rw [h2 y (hne hy)]; exact I.ok hy
  · intro y nd hy hp
    rw [dget_mtAdd] at hy
    simp only [dget_dset]
    split at hy
    · next e => subst e; rw [if_pos rfl, h1]; exact ⟨rfl, (I.absent hx).2⟩
    · next e =>
      rw [if_neg e, h2 y (hne hy)]
      exact I.root hy hp
  · intro y nd p hy hp
    rw [dget_mtAdd] at hy
    simp only [dget_dset]
    split at hy
    · cases hy; cases hp
    · next e =>
      obtain ⟨np, hnp, _⟩ := I.tree.up hy hp
      rw [if_neg e, h2 y (hne hy), h2 p (hne hnp)]
      exact I.inner hy hp
  · intro y hy
    rw [dget_mtAdd] at hy
    simp only [dget_dset]
    split at hy
    · cases hy
    · next e => rw [if_neg e]; exact I.absent hy

theorem LooseStore.addEdge_ok (I : LooseStore content v) {c p : τ} {nc : TNode τ}
    (hc : dget v.tree c = some nc) {lp : List τ} (hp : UpPath v.tree p lp) (hcp : c ∉ lp)
    {items : List (PatchItem UInt8)} (hD : DeltaOK nullLawful (content p) (content c) items)
    (hM : makeChangeset nullTok (content p) (content c) = .ok items) :
    ∃ v', addEdge (memoryTree τ) v p c items = (v', none) ∧ LooseStore content v' ∧
      Moved v.tree v'.tree c nc.parent p := by
  have hpk : ∃ np, dget v.tree p = some np := hp.mem_keys p (by
    obtain ⟨r, rfl⟩ := hp.head; simp)
  obtain ⟨np, hnp⟩ := hpk
  obtain ⟨d, hd, hDB⟩ := serializeDelta nullLawful trivial trivial (I.ok hnp) (I.ok hc) hD hM
  obtain ⟨t', ht, T', M⟩ := changeParent_spec I.tree hc hp hcp
  have key : ∀ hv, (∀ y, dget hv y = if c = y then none else dget v.headVersion y) →
      (hv.map Prod.fst).Nodup → LooseStore content ⟨hv, dset v.diffs c d, t'⟩ := by
    intro hv hhv hnd
    constructor
    · exact T'
    · exact hnd
    · exact dset_nodup I.dfNodup _ _
    · intro y nd hy
      obtain ⟨nd0, h0, _⟩ := M.back hy
      exact I.ok h0
    · intro y nd hy hyp
      obtain ⟨nd0, h0, _, h3, _⟩ := M.back hy
      by_cases hyc : y = c
      · rw [if_pos hyc, hyp] at h3; cases h3
      · rw [if_neg hyc] at h3
        simp only [dget_dset, hhv]
        have : c ≠ y := fun e => hyc e.symm
        rw [if_neg this, if_neg this]
        exact I.root h0 (h3 ▸ hyp)
    · intro y nd r hy hyp
      obtain ⟨nd0, h0, _, h3, _⟩ := M.back hy
      by_cases hyc : y = c
      · subst hyc
        rw [if_pos rfl, hyp] at h3; cases h3
        simp only [dget_dset, hhv, if_true]
        obtain ⟨items, q1, q2, _⟩ := hDB.other
        exact ⟨trivial, d, items, rfl, q1, q2⟩
      · rw [if_neg hyc] at h3
        simp only [dget_dset, hhv]
        have : c ≠ y := fun e => hyc e.symm
        rw [if_neg this, if_neg this]
        exact I.inner h0 (h3 ▸ hyp)
    · intro y hy
      rw [M.dget_none] at hy
      have : c ≠ y := by rintro rfl; rw [hc] at hy; cases hy
      simp only [dget_dset, hhv]
      rw [if_neg this, if_neg this]
      exact I.absent hy
  have hcp' : (memoryTree τ).changeParent v.tree c p = (t', none) := ht
  by_cases hm : dmem v.headVersion c = true
  · refine ⟨⟨ddel v.headVersion c, dset v.diffs c d, t'⟩, ?_, key _ (fun y => dget_ddel I.hvNodup _ _)
      (ddel_nodup I.hvNodup _), M⟩
    simp only [addEdge, hd, hcp', hm, if_true]
  · refine ⟨⟨v.headVersion, dset v.diffs c d, t'⟩, ?_, key _ (fun y => ?_) I.hvNodup, M⟩
    · simp only [addEdge, hd, hcp', hm, if_false, Bool.false_eq_true]
    · split
      · next e =>
        subst e
        simpa [dmem] using hm
      · rfl

theorem LooseStore.sameParent (I : LooseStore content v) {c p : τ} {nc : TNode τ}
    (hc : dget v.tree c = some nc) (hpar : nc.parent = some p) :
    ∃ t', mtChangeParent v.tree c (some p) = (t', none) ∧ LooseStore content { v with tree := t' } ∧
      Moved v.tree t' c (some p) p := by
  obtain ⟨np, hnp, _⟩ := I.tree.up hc hpar
  obtain ⟨lp, hlp⟩ := I.tree.acyc hnp
  have hcp := hlp.not_mem_parent hc hpar
  obtain ⟨t', ht, T', M⟩ := changeParent_spec I.tree hc hlp hcp
  have hsame : ∀ {y nd}, dget t' y = some nd → ∃ nd0, dget v.tree y = some nd0 ∧
      nd.parent = nd0.parent := by
    intro y nd hy
    obtain ⟨nd0, h0, _, h3, _⟩ := M.back hy
    refine ⟨nd0, h0, ?_⟩
    rw [h3]
    split
    · next e => subst e; rw [hc] at h0; cases h0; exact hpar.symm
    · rfl
  refine ⟨t', ht, ?_, hpar ▸ M⟩
  constructor
  · exact T'
  · exact I.hvNodup
  · exact I.dfNodup
  · intro y nd hy
    obtain ⟨nd0, h0, _⟩ := hsame hy; exact I.ok h0
  · intro y nd hy hp
    obtain ⟨nd0, h0, h1⟩ := hsame hy; exact I.root h0 (h1 ▸ hp)
  · intro y nd r hy hp
    obtain ⟨nd0, h0, h1⟩ := hsame hy; exact I.inner h0 (h1 ▸ hp)
  · intro y hy
    exact I.absent (M.dget_none.1 hy)

theorem LooseStore.add_head (I : LooseStore content v) {tag b : τ} {nb : TNode τ} {c : Bytes}
    (ht : dget v.tree tag = none) (hb : dget v.tree b = some nb) (hp : nb.parent = none)
    (hl : c.length < 2 ^ 64) {content' : τ → Bytes}
    (h1 : content' tag = c) (h2 : ∀ y, y ≠ tag → content' y = content y) :
    ∃ v', versionsAdd (memoryTree τ) nullTok v tag c (some b) = (v', none) ∧ LooseStore content' v' ∧
      TreeGrew v.tree v'.tree tag (some b) (some b) ∧ SplitMove v.tree v'.tree tag b nb := by
  have hbt : tag ≠ b := by rintro rfl; rw [ht] at hb; cases hb
  have I1 : LooseStore content' (withRoot v tag c (some b)) := I.addRoot ht hl h1 h2
  have G1 : TreeGrew v.tree (withRoot v tag c (some b)).tree tag (some b) none :=
    treeGrew_add ht (some b)
  have hb1 : dget (withRoot v tag c (some b)).tree b = some nb := by
    show dget (mtAdd v.tree tag (some b)) b = _
    rw [dget_mtAdd, if_neg hbt]; exact hb
  have htag1 : dget (withRoot v tag c (some b)).tree tag = some (newNode v.tree.length (some b)) := by
    show dget (mtAdd v.tree tag (some b)) tag = _
    rw [dget_mtAdd, if_pos rfl]
  obtain ⟨s, path, g1, g2, g3⟩ := getSplit_spec I1.tree hb1
  have g1' : (memoryTree τ).getSplit (withRoot v tag c (some b)).tree b = .ok (s, path) := g1
  -- the last part: the old head becomes a child of `tag`
  have last : ∀ v2, LooseStore content' v2 → TreeGrew v.tree v2.tree tag (some b) none →
      ∃ v', addOldHead (memoryTree τ) nullTok v2 tag c b = (v', none) ∧ LooseStore content' v' ∧
        TreeGrew v.tree v'.tree tag (some b) (some b) ∧
        ∀ {y nd}, dget v2.tree y = some nd → ∃ nd', dget v'.tree y = some nd' ∧
          nd'.parent = if y = b then some tag else nd.parent := by
    intro v2 I2 G2
    obtain ⟨ntag, t1, t2, t3, t4⟩ := G2.new
    obtain ⟨nb2, b1, b2, b3, b4⟩ := G2.old hb
    have hbroot : nb2.parent = none := b4.2 ⟨hp, by simp⟩
    have hhv := (I2.root b1 hbroot).1
    obtain ⟨items, m1, m2⟩ := makeChangeset_ok nullLawful (a := content' tag) (b := content' b)
      trivial trivial
    have hup : UpPath v2.tree tag [tag] := .root t1 t2
    obtain ⟨v', a1, a2, a3⟩ := I2.addEdge_ok b1 hup (by simpa using fun e => hbt e.symm) m2 m1
    refine ⟨v', ?_, a2, ?_, fun {y nd} hy => by
      obtain ⟨nd3, e1, e2, e3, e4, e5⟩ := a3.2 _ _ hy
      exact ⟨nd3, e1, e3⟩⟩
    · rw [h1] at m1
      simp only [addOldHead, hhv, m1, a1]
    · constructor
      · rw [a3.1]; exact G2.keys
      · obtain ⟨nt', c1, c2, c3, c4, c5⟩ := a3.2 _ _ t1
        refine ⟨nt', c1, ?_, c5.trans t3, c2.trans t4⟩
        rw [c3, if_neg hbt]; exact t2
      · intro y nd hy
        obtain ⟨nd2, d1, d2, d3, d4⟩ := G2.old hy
        obtain ⟨nd3, e1, e2, e3, e4, e5⟩ := a3.2 _ _ d1
        refine ⟨nd3, e1, e5.trans d2, e2.trans d3, ?_⟩
        rw [e3]
        split
        · next e => subst e; simp
        · next e =>
          rw [d4]
          have : ¬ b = y := fun h => e h.symm
          simp [this]
  show ∃ v', addToHead (memoryTree τ) nullTok (withRoot v tag c (some b)) tag c b = (v', none) ∧ _
  simp only [addToHead, g1']
  by_cases hsb : s = b
  · rw [if_neg (by simp [hsb])]
    obtain ⟨v', l1, l2, l3, l4⟩ := last _ I1 G1
    refine ⟨v', l1, l2, l3, s, path, g2, g3, ?_⟩
    intro y nd hy
    have : tag ≠ y := by rintro rfl; rw [ht] at hy; cases hy
    obtain ⟨nd', k1, k2⟩ := l4 (y := y) (nd := nd) (by
      show dget (mtAdd v.tree tag (some b)) y = _
      rw [dget_mtAdd, if_neg this]; exact hy)
    exact ⟨nd', k1, by rw [k2, hsb]; simp⟩
  · rw [if_pos hsb]
    have hup : UpPath (withRoot v tag c (some b)).tree s path.reverse := by
      have := g2.upPath I1.tree.toForest (.root hb1 hp)
      simpa using this
    have hr := I1.retrieve_ok hup
    rw [List.reverse_reverse] at hr
    obtain ⟨ns, hns⟩ := hup.mem_keys s (by obtain ⟨r, hr⟩ := hup.head; rw [hr]; simp)
    have hst : s ≠ tag := by
      rintro rfl
      rw [htag1] at hns; cases hns
      cases g2 with
      | start => exact hsb rfl
      | next k1 k2 k3 =>
        obtain ⟨nc, k4, k5⟩ := I1.tree.down k2 k3.1
        rw [htag1] at k4; cases k4; cases k5
    have hsroot : ns.parent ≠ none := by
      cases g2 with
      | start => exact absurd rfl hsb
      | next k1 k2 k3 =>
        obtain ⟨nc, k4, k5⟩ := I1.tree.down k2 k3.1
        rw [hns] at k4; cases k4; rw [k5]; simp
    obtain ⟨items, m1, m2⟩ := makeChangeset_ok nullLawful (a := content' tag) (b := content' s)
      trivial trivial
    have huptag : UpPath (withRoot v tag c (some b)).tree tag [tag] := .root htag1 rfl
    obtain ⟨v1, a1, a2, a3⟩ := I1.addEdge_ok hns huptag (by simpa using hst) m2 m1
    obtain ⟨ns1, c1, c2, c3, c4, c5⟩ := a3.2 _ _ hns
    rw [if_pos rfl] at c3
    obtain ⟨t2, d1, d2, d3⟩ := a2.sameParent c1 c3
    have d1' : (memoryTree τ).changeParent v1.tree s tag = (t2, none) := d1
    have hsplit : addSplit (memoryTree τ) nullTok (withRoot v tag c (some b)) tag c s path =
        ({ v1 with tree := t2 }, none) := by
      rw [h1] at m1
      simp only [addSplit, hr, m1, a1, d1']
    rw [hsplit]
    have G2 : TreeGrew v.tree t2 tag (some b) none := ?_
    · obtain ⟨v', l1, l2, l3, l4⟩ := last { v1 with tree := t2 } d2 G2
      refine ⟨v', l1, l2, l3, s, path, g2, g3, ?_⟩
      intro y nd hy
      have hty : tag ≠ y := by rintro rfl; rw [ht] at hy; cases hy
      obtain ⟨n1, e1, e2, e3, e4, e5⟩ := a3.2 y nd (by
        show dget (mtAdd v.tree tag (some b)) y = _
        rw [dget_mtAdd, if_neg hty]; exact hy)
      obtain ⟨n2, f1, f2, f3, f4, f5⟩ := d3.2 _ _ e1
      obtain ⟨nd', k1, k2⟩ := l4 (y := y) (nd := n2) f1
      refine ⟨nd', k1, ?_⟩
      rw [k2, f3, e3]
      by_cases e : y = b <;> by_cases e' : y = s <;> simp [e, e']
    constructor
    · rw [d3.1, a3.1]; exact G1.keys
    · obtain ⟨n1, e1, e2, e3, e4, e5⟩ := a3.2 _ _ htag1
      obtain ⟨n2, f1, f2, f3, f4, f5⟩ := d3.2 _ _ e1
      have : tag ≠ s := fun e => hst e.symm
      refine ⟨n2, f1, ?_, f5.trans e5, f2.trans e2⟩
      rw [f3, if_neg this, e3, if_neg this]; rfl
    · intro y nd hy
      obtain ⟨nd1, i1, i2, i3, i4⟩ := G1.old hy
      obtain ⟨n1, e1, e2, e3, e4, e5⟩ := a3.2 _ _ i1
      obtain ⟨n2, f1, f2, f3, f4, f5⟩ := d3.2 _ _ e1
      refine ⟨n2, f1, f5.trans (e5.trans i2), f2.trans (e2.trans i3), ?_⟩
      rw [f3]
      split
      · next e =>
        subst e
        rw [hns] at i1; cases i1
        constructor
        · intro h; cases h
        · rintro ⟨h, _⟩
          exact absurd (i4.2 ⟨h, by simp⟩) hsroot
      · next e => rw [e3, if_neg e]; exact i4

/-! ## Histories -/

/-- What the tree knows about a history. -/
structure TreeKnows (h : List (AddOp τ)) (t : MTree τ) : Prop where
  keys : t.map Prod.fst = addedTags h
  head : ∀ {x nd}, dget t x = some nd → IsHead h x → nd.parent = none

theorem TreeKnows.grow {h : List (AddOp τ)} {t t' : MTree τ} {a : AddOp τ} (K : TreeKnows h t)
    (hn : a.tag ∉ addedTags h) (G : TreeGrew t t' a.tag a.base a.base) : TreeKnows (h ++ [a]) t' where
  keys := by rw [G.keys, K.keys, addedTags_snoc]
  head := by
    intro x nd hx hh
    by_cases e : x = a.tag
    · subst e
      obtain ⟨nd', h1, h2, _⟩ := G.new
      rw [h1] at hx
      cases hx
      exact h2
    · have hx0 : ∃ nd0, dget t x = some nd0 := by
        apply dget_isSome_iff.2
        have : x ∈ t'.map Prod.fst := dget_isSome_iff.1 ⟨nd, hx⟩
        rw [G.keys] at this
        simpa [e] using this
      obtain ⟨nd0, h0⟩ := hx0
      obtain ⟨nd', h1, _, _, h4⟩ := G.old h0
      rw [h1] at hx
      cases hx
      have hx' : x ∈ addedTags h := by
        rw [← K.keys]; exact dget_isSome_iff.1 ⟨nd0, h0⟩
      exact h4.2 ⟨K.head h0 ⟨hx', fun o ho => hh.2 o (by simp [ho])⟩, hh.2 a (by simp)⟩

theorem LooseStore.step {h : List (AddOp τ)} {a : AddOp τ} {content : τ → Bytes}
    (I : LooseStore content v) (K : TreeKnows h v.tree) (hn : a.tag ∉ addedTags h)
    (hb : ∀ b, a.base = some b → IsHead h b) (hl : a.content.length < 2 ^ 64) :
    ∃ v', versionsAdd (memoryTree τ) nullTok v a.tag a.content a.base = (v', none) ∧
      LooseStore (fun x => if x = a.tag then a.content else content x) v' ∧
      TreeKnows (h ++ [a]) v'.tree := by
  have ht : dget v.tree a.tag = none := by
    cases e : dget v.tree a.tag with
    | none => rfl
    | some nd =>
      exact absurd (by rw [← K.keys]; exact dget_isSome_iff.1 ⟨nd, e⟩) hn
  have h1 : (fun x => if x = a.tag then a.content else content x) a.tag = a.content := by simp
  have h2 : ∀ y, y ≠ a.tag → (fun x => if x = a.tag then a.content else content x) y = content y := by
    intro y hy; simp [hy]
  cases hbase : a.base with
  | none =>
    refine ⟨_, add_none a.tag a.content, I.addRoot ht hl h1 h2, ?_⟩
    have := treeGrew_add ht (none : Option τ)
    rw [← hbase] at this
    have := K.grow (a := a) hn (by rw [hbase] at this ⊢; exact this)
    rw [hbase] at *
    exact this
  | some b =>
    have hhead := hb b hbase
    obtain ⟨nb, hnb⟩ : ∃ nb, dget v.tree b = some nb := by
      apply dget_isSome_iff.2; rw [K.keys]; exact hhead.1
    obtain ⟨v', k1, k2, k3, _⟩ := I.add_head ht hnb (K.head hnb hhead) hl h1 h2
    exact ⟨v', k1, k2, K.grow hn (by rw [hbase]; exact k3)⟩

end Gaspra
