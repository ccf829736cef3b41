import Verif.Proofs.History
import Verif.Proofs.Recursion
import Verif.Spec.VersionsLimit

set_option linter.unusedSectionVars false
set_option linter.unusedSimpArgs false
set_option linter.unusedVariables false

/-! # Version stores under the recursion limit -/

namespace Gaspra

/-! ### A call that is not stopped does what it does without a limit -/

section
variable {τ T Tok S : Type _} [DecidableEq τ] [DecidableEq Tok]
variable (ops : TreeOps τ T) (tk : TokOps Tok S) (limit : Nat)

theorem makeChangesetLim_same (a b : Bytes) :
    makeChangesetLim tk limit a b = makeChangeset tk a b ∨
      makeChangesetLim tk limit a b = .error .recursionError := by
  unfold makeChangesetLim makeChangeset
  cases h1 : tk.encode tk.init a with
  | error e => exact .inl rfl
  | ok p =>
    obtain ⟨eo, st⟩ := p
    simp only [bind, Except.bind]
    cases h2 : tk.encode st b with
    | error e => exact .inl rfl
    | ok q =>
      obtain ⟨em, st'⟩ := q
      obtain ⟨cs, h, V⟩ := findChangeset_spec eo em
      simp only [h, findChangesetAux_limit _ _ _ _ _ _ h limit]
      by_cases hd : cs.depth ≤ limit
      · simp [hd]
      · simp [hd]

theorem addOldHeadLim_same (v : Versions τ T) (tag : τ) (c : Bytes) (head : τ) :
    addOldHeadLim ops tk limit v tag c head = addOldHead ops tk v tag c head ∨
      (addOldHeadLim ops tk limit v tag c head).2 = some .recursionError := by
  unfold addOldHeadLim addOldHead
  cases dget v.headVersion head with
  | none => exact .inl rfl
  | some hv =>
    rcases makeChangesetLim_same tk limit c hv with h | h
    · exact .inl (by simp only [h]; cases makeChangeset tk c _ <;> rfl)
    · exact .inr (by simp only [h])

theorem addSplitLim_same (v : Versions τ T) (tag : τ) (c : Bytes) (split : τ) (path : List τ) :
    addSplitLim ops tk limit v tag c split path = addSplit ops tk v tag c split path ∨
      (addSplitLim ops tk limit v tag c split path).2 = some .recursionError := by
  unfold addSplitLim addSplit
  cases retrieveUsingPath tk v path with
  | error e => exact .inl rfl
  | ok sv =>
    rcases makeChangesetLim_same tk limit c sv with h | h
    · exact .inl (by simp only [h]; cases makeChangeset tk c _ <;> rfl)
    · exact .inr (by simp only [h])

theorem addToHeadLim_same (v : Versions τ T) (tag : τ) (c : Bytes) (head : τ) :
    addToHeadLim ops tk limit v tag c head = addToHead ops tk v tag c head ∨
      (addToHeadLim ops tk limit v tag c head).2 = some .recursionError := by
  unfold addToHeadLim addToHead
  cases ops.getSplit v.tree head with
  | error e => exact .inl rfl
  | ok p =>
    obtain ⟨split, path⟩ := p
    simp only
    split
    · rcases addSplitLim_same ops tk limit v tag c split path with h | h
      · rw [h]
        cases h' : addSplit ops tk v tag c split path with
        | mk v1 e =>
          cases e with
          | some e => exact .inl rfl
          | none => exact addOldHeadLim_same ops tk limit v1 tag c head
      · cases h' : addSplitLim ops tk limit v tag c split path with
        | mk v1 e => rw [h'] at h; simp only at h; subst h; exact .inr rfl
    · exact addOldHeadLim_same ops tk limit v tag c head

theorem versionsAddLim_same (v : Versions τ T) (tag : τ) (c : Bytes) (base : Option τ) :
    versionsAddLim ops tk limit v tag c base = versionsAdd ops tk v tag c base ∨
      (versionsAddLim ops tk limit v tag c base).2 = some .recursionError := by
  unfold versionsAddLim versionsAdd
  simp only
  cases h : ops.add v.tree tag base with
  | mk t e =>
    cases e with
    | some e => exact .inl rfl
    | none =>
      cases base with
      | none => exact .inl rfl
      | some head => exact addToHeadLim_same ops tk limit _ tag c head

end

/-! ### The store invariant -/

variable {τ Tok S P : Type _} [DecidableEq τ] [DecidableEq Tok] {tk : TokOps Tok S}
  {Ok : Bytes → Prop} {L : LawfulTok tk P Ok} {content : τ → Bytes} {v : Versions τ (MTree τ)}

/-- The changeset is made exactly if it is not too deep. -/
theorem makeChangesetLim_eq (L : LawfulTok tk P Ok) (limit : Nat) {a b : Bytes} (ha : Ok a)
    (hb : Ok b) : ∃ d, changesetDepth tk a b = some d ∧
      makeChangesetLim tk limit a b =
        if d ≤ limit then makeChangeset tk a b else .error .recursionError := by
  obtain ⟨ea, st1, a1, a2, a3, a4, a5⟩ := L.encode_ok L.init_inv ha
  obtain ⟨eb, st2, b1, b2, b3, b4, b5⟩ := L.encode_ok a2 hb
  obtain ⟨cs, h, V⟩ := findChangeset_spec ea eb
  refine ⟨cs.depth, by simp only [changesetDepth, a1, b1, h]; rfl, ?_⟩
  simp only [makeChangesetLim, makeChangeset, a1, b1, bind, Except.bind, h,
    findChangesetAux_limit _ _ _ _ _ _ h limit]
  by_cases hd : cs.depth ≤ limit <;> simp [hd]

/-- The changeset from `a` to `b` is deeper than `limit`. -/
def TooDeep (tk : TokOps Tok S) (limit : Nat) (a b : Bytes) : Prop :=
  ∃ d, changesetDepth tk a b = some d ∧ limit < d

/-- `add(tag, c, b)` with a limit when `b` is a head. -/
theorem StoreOK.add_head_lim (I : StoreOK L content v) (limit : Nat) {tag b : τ} {nb : TNode τ}
    {c : Bytes} (ht : dget v.tree tag = none) (hb : dget v.tree b = some nb)
    (hp : nb.parent = none) (hc : Ok c) (hl : c.length < 2 ^ 64) {content' : τ → Bytes}
    (h1 : content' tag = c) (h2 : ∀ y, y ≠ tag → content' y = content y) :
    ∃ v' e, versionsAddLim (memoryTree τ) tk limit v tag c (some b) = (v', e) ∧
      StoreOK L content' v' ∧
      TreeGrew v.tree v'.tree tag (some b) (if e = none then some b else none) ∧
      (e = none ∨ e = some .recursionError) ∧
      (TooDeep tk limit c (content b) → e ≠ none) ∧
      (e ≠ none → ∃ x nd, dget v.tree x = some nd ∧ TooDeep tk limit c (content x)) := by
  have hbt : tag ≠ b := by rintro rfl; rw [ht] at hb; cases hb
  have I1 : StoreOK L content' (withRoot v tag c (some b)) := I.addRoot ht hc hl h1 h2
  have G1 : TreeGrew v.tree (withRoot v tag c (some b)).tree tag (some b) none :=
    treeGrew_add ht (some b)
  have hb1 : dget (withRoot v tag c (some b)).tree b = some nb := by
    show dget (mtAdd v.tree tag (some b)) b = _
    rw [dget_mtAdd, if_neg hbt]; exact hb
  have htag1 : dget (withRoot v tag c (some b)).tree tag = some (newNode v.tree.length (some b)) := by
    show dget (mtAdd v.tree tag (some b)) tag = _
    rw [dget_mtAdd, if_pos rfl]
  obtain ⟨s, path, g1, g2, g3⟩ := getSplit_spec I1.tree hb1
  have g1' : (memoryTree τ).getSplit (withRoot v tag c (some b)).tree b = .ok (s, path) := g1
  -- the last part: the old head becomes a child of `tag`
  have last : ∀ v2, StoreOK L content' v2 → TreeGrew v.tree v2.tree tag (some b) none →
      ∃ v' e, addOldHeadLim (memoryTree τ) tk limit v2 tag c b = (v', e) ∧ StoreOK L content' v' ∧
        TreeGrew v.tree v'.tree tag (some b) (if e = none then some b else none) ∧
        (e = none ∨ e = some .recursionError) ∧
        (TooDeep tk limit c (content b) → e ≠ none) ∧
        (e ≠ none → ∃ x nd, dget v.tree x = some nd ∧ TooDeep tk limit c (content x)) := by
    intro v2 I2 G2
    obtain ⟨ntag, t1, t2, t3, t4⟩ := G2.new
    obtain ⟨nb2, b1, b2, b3, b4⟩ := G2.old hb
    have hbroot : nb2.parent = none := b4.2 ⟨hp, by simp⟩
    have hhv := (I2.root b1 hbroot).1
    have okb := (I2.ok b1).1
    have hcb : content' b = content b := h2 b fun e => hbt e.symm
    obtain ⟨d, m0, m3⟩ := makeChangesetLim_eq L limit hc okb
    by_cases hd : d ≤ limit
    · rw [if_pos hd] at m3
      obtain ⟨items, m1, m2⟩ := makeChangeset_ok L (a := content' tag) (b := content' b)
        (h1 ▸ hc) okb
      have hup : UpPath v2.tree tag [tag] := .root t1 t2
      obtain ⟨v', a1, a2, a3⟩ := I2.addEdge_ok b1 hup (by simpa using fun e => hbt e.symm) m2 m1
      refine ⟨v', none, ?_, a2, ?_, .inl rfl, ?_, fun h => absurd rfl h⟩
      · rw [h1] at m1
        simp only [addOldHeadLim, hhv, m3, m1, a1]
      · rw [if_pos rfl]
        constructor
        · rw [a3.1]; exact G2.keys
        · obtain ⟨nt', c1, c2, c3, c4, c5⟩ := a3.2 _ _ t1
          refine ⟨nt', c1, ?_, c5.trans t3, c2.trans t4⟩
          rw [c3, if_neg hbt]; exact t2
        · intro y nd hy
          obtain ⟨nd2, d1, d2, d3, d4⟩ := G2.old hy
          obtain ⟨nd3, e1, e2, e3, e4, e5⟩ := a3.2 _ _ d1
          refine ⟨nd3, e1, e5.trans d2, e2.trans d3, ?_⟩
          rw [e3]
          split
          · next e => subst e; simp
          · next e =>
            rw [d4]
            have : ¬ b = y := fun h => e h.symm
            simp [this]
      · rintro ⟨d', k1, k2⟩
        rw [← hcb, m0] at k1; cases k1; omega
    · rw [if_neg hd] at m3
      refine ⟨v2, some .recursionError, by simp only [addOldHeadLim, hhv, m3], I2, by simpa using G2,
        .inr rfl, fun _ => by simp, fun _ => ⟨b, nb, hb, d, ?_, by omega⟩⟩
      rw [← hcb]; exact m0
  show ∃ v' e, addToHeadLim (memoryTree τ) tk limit (withRoot v tag c (some b)) tag c b = (v', e) ∧ _
  simp only [addToHeadLim, g1']
  by_cases hsb : s = b
  · rw [if_neg (by simp [hsb])]
    exact last _ I1 G1
  · rw [if_pos hsb]
    have hup : UpPath (withRoot v tag c (some b)).tree s path.reverse := by
      have := g2.upPath I1.tree.toForest (.root hb1 hp)
      simpa using this
    have hr := I1.retrieve_ok hup
    rw [List.reverse_reverse] at hr
    obtain ⟨ns, hns⟩ := hup.mem_keys s (by obtain ⟨r, hr⟩ := hup.head; rw [hr]; simp)
    have hst : s ≠ tag := by
      rintro rfl
      rw [htag1] at hns; cases hns
      cases g2 with
      | start => exact hsb rfl
      | next k1 k2 k3 =>
        obtain ⟨nc, k4, k5⟩ := I1.tree.down k2 k3.1
        rw [htag1] at k4; cases k4; cases k5
    have hns0 : dget v.tree s = some ns := by
      have : dget (mtAdd v.tree tag (some b)) s = some ns := hns
      rwa [dget_mtAdd, if_neg fun e => hst e.symm] at this
    have hsroot : ns.parent ≠ none := by
      cases g2 with
      | start => exact absurd rfl hsb
      | next k1 k2 k3 =>
        obtain ⟨nc, k4, k5⟩ := I1.tree.down k2 k3.1
        rw [hns] at k4; cases k4; rw [k5]; simp
    have hcs : content' s = content s := h2 s hst
    obtain ⟨d, m0, m3⟩ := makeChangesetLim_eq L limit hc (I1.ok hns).1
    by_cases hd : d ≤ limit
    · rw [if_pos hd] at m3
      obtain ⟨items, m1, m2⟩ := makeChangeset_ok L (a := content' tag) (b := content' s)
        (h1 ▸ hc) (I1.ok hns).1
      have huptag : UpPath (withRoot v tag c (some b)).tree tag [tag] := .root htag1 rfl
      obtain ⟨v1, a1, a2, a3⟩ := I1.addEdge_ok hns huptag (by simpa using hst) m2 m1
      obtain ⟨ns1, c1, c2, c3, c4, c5⟩ := a3.2 _ _ hns
      rw [if_pos rfl] at c3
      obtain ⟨t2, d1, d2, d3⟩ := a2.sameParent c1 c3
      have d1' : (memoryTree τ).changeParent v1.tree s tag = (t2, none) := d1
      have hsplit : addSplitLim (memoryTree τ) tk limit (withRoot v tag c (some b)) tag c s path =
          ({ v1 with tree := t2 }, none) := by
        rw [h1] at m1
        simp only [addSplitLim, hr, m3, m1, a1, d1']
      rw [hsplit]
      refine last { v1 with tree := t2 } d2 ?_
      constructor
      · rw [d3.1, a3.1]; exact G1.keys
      · obtain ⟨n1, e1, e2, e3, e4, e5⟩ := a3.2 _ _ htag1
        obtain ⟨n2, f1, f2, f3, f4, f5⟩ := d3.2 _ _ e1
        have : tag ≠ s := fun e => hst e.symm
        refine ⟨n2, f1, ?_, f5.trans e5, f2.trans e2⟩
        rw [f3, if_neg this, e3, if_neg this]; rfl
      · intro y nd hy
        obtain ⟨nd1, i1, i2, i3, i4⟩ := G1.old hy
        obtain ⟨n1, e1, e2, e3, e4, e5⟩ := a3.2 _ _ i1
        obtain ⟨n2, f1, f2, f3, f4, f5⟩ := d3.2 _ _ e1
        refine ⟨n2, f1, f5.trans (e5.trans i2), f2.trans (e2.trans i3), ?_⟩
        rw [f3]
        split
        · next e =>
          subst e
          rw [hns] at i1; cases i1
          constructor
          · intro h; cases h
          · rintro ⟨h, _⟩
            exact absurd (i4.2 ⟨h, by simp⟩) hsroot
        · next e => rw [e3, if_neg e]; exact i4
    · rw [if_neg hd] at m3
      have hsplit : addSplitLim (memoryTree τ) tk limit (withRoot v tag c (some b)) tag c s path =
          (withRoot v tag c (some b), some .recursionError) := by
        simp only [addSplitLim, hr, m3]
      rw [hsplit]
      refine ⟨_, _, rfl, I1, by simpa using G1, .inr rfl, fun _ => by simp,
        fun _ => ⟨s, ns, hns0, d, ?_, by omega⟩⟩
      rw [← hcs]; exact m0

/-! ### Histories -/

/-- What is true of the store after calls with their results. -/
structure LimitedOK (L : LawfulTok tk P Ok) (h : List (AddOp τ))
    (r : Versions τ (MTree τ) × List (AddOp τ × Option PyErr)) : Prop where
  calls : r.2.map Prod.fst = h
  store : StoreOK L (contentOf h) r.1
  keys : r.1.tree.map Prod.fst = addedTags h
  heads : ∀ {t nd}, dget r.1.tree t = some nd → (nd.parent = none ↔ t ∈ headsGiven r.2)
  headsNodup : (headsGiven r.2).Nodup
  headsAdded : ∀ {t}, t ∈ headsGiven r.2 → t ∈ addedTags h

theorem headsGiven_snoc (l : List (AddOp τ × Option PyErr)) (c : AddOp τ × Option PyErr) :
    headsGiven (l ++ [c]) = headsGivenStep (headsGiven l) c := by
  simp [headsGiven, List.foldl_append]

theorem mem_headsGivenStep {heads : List τ} (hn : heads.Nodup) {a : AddOp τ} {e : Option PyErr}
    {t : τ} : t ∈ headsGivenStep heads (a, e) ↔
      t = a.tag ∨ (t ∈ heads ∧ ¬ (e = none ∧ a.base = some t)) := by
  unfold headsGivenStep
  cases e with
  | some e => simp [or_comm]
  | none =>
    cases hb : a.base with
    | none => simp [or_comm]
    | some b =>
      simp only [List.mem_append, List.Nodup.mem_erase_iff hn, List.mem_singleton, true_and,
        Option.some.injEq]
      constructor
      · rintro (⟨h1, h2⟩ | h)
        · exact .inr ⟨h2, fun e => h1 e.symm⟩
        · exact .inl h
      · rintro (h | ⟨h1, h2⟩)
        · exact .inr h
        · exact .inl ⟨fun e => h2 e.symm, h1⟩

theorem headsGivenStep_nodup {heads : List τ} (hn : heads.Nodup) {a : AddOp τ} {e : Option PyErr}
    (ha : a.tag ∉ heads) : (headsGivenStep heads (a, e)).Nodup := by
  have : ∀ l : List τ, l.Nodup → a.tag ∉ l → (l ++ [a.tag]).Nodup := by
    intro l h1 h2
    rw [List.nodup_append]
    exact ⟨h1, by simp, by rintro x hx y hy rfl; simp at hy; exact h2 (hy ▸ hx)⟩
  unfold headsGivenStep
  split
  · exact this _ (hn.erase _) fun h => ha (List.mem_of_mem_erase h)
  · exact this _ hn ha

/-- One more call with a fresh tag. -/
theorem LimitedOK.step {h : List (AddOp τ)} {r : Versions τ (MTree τ) × List (AddOp τ × Option PyErr)}
    (H : LimitedOK L h r) {a : AddOp τ} (limit : Nat) (ht : a.tag ∉ addedTags h)
    (hb : a.base ≠ some a.tag) (hok : Ok a.content) (hlen : a.content.length < 2 ^ 64) :
    ∃ v' e, versionsAddLim (memoryTree τ) tk limit r.1 a.tag a.content a.base = (v', e) ∧
      LimitedOK L (h ++ [a]) (v', r.2 ++ [(a, e)]) ∧
      (a.base = none → e = none) ∧
      (∀ b, a.base = some b → b ∉ headsGiven r.2 → e = some .keyError) ∧
      (∀ b, a.base = some b → b ∈ headsGiven r.2 →
        (e = none ∨ e = some .recursionError) ∧
        (TooDeep tk limit a.content (contentOf h b) → e ≠ none) ∧
        (e ≠ none → ∃ x ∈ addedTags h, TooDeep tk limit a.content (contentOf h x))) := by
  have hdn : ∀ {t}, dget r.1.tree t = none ↔ t ∉ addedTags h := by
    intro t
    have := (dget_isSome_iff (d := r.1.tree) (k := t))
    rw [H.keys] at this
    rw [← this]
    cases dget r.1.tree t <;> simp
  have hx := hdn.2 ht
  have htag : a.tag ∉ headsGiven r.2 := fun e => ht (H.headsAdded e)
  have fin : ∀ v' used e, StoreOK L (contentOf (h ++ [a])) v' →
      TreeGrew r.1.tree v'.tree a.tag a.base used →
      (∀ y, y ∈ headsGiven r.2 → (used = some y ↔ e = none ∧ a.base = some y)) →
      LimitedOK L (h ++ [a]) (v', r.2 ++ [(a, e)]) := by
    intro v' used e hs G hu
    refine ⟨by simp [H.calls], hs, ?_, ?_, ?_, ?_⟩
    · show v'.tree.map Prod.fst = _
      rw [G.keys, H.keys, addedTags_snoc]
    · intro t nd hnd
      rw [headsGiven_snoc, mem_headsGivenStep H.headsNodup]
      by_cases e' : t = a.tag
      · subst e'
        obtain ⟨n0, g1, g2, _⟩ := G.new
        rw [show dget v'.tree a.tag = some nd from hnd] at g1; cases g1
        simp [g2]
      · have : ∃ n0, dget r.1.tree t = some n0 := by
          have := mem_keys_of_dget (show dget v'.tree t = some nd from hnd)
          rw [G.keys, List.mem_append] at this
          rcases this with h1 | h1
          · exact dget_isSome_iff.2 h1
          · exact absurd (by simpa using h1) e'
        obtain ⟨n0, h0⟩ := this
        obtain ⟨n1, g1, g2, g3, g4⟩ := G.old h0
        rw [show dget v'.tree t = some nd from hnd] at g1; cases g1
        rw [g4, H.heads h0]
        constructor
        · rintro ⟨h1, h2⟩
          exact Or.inr ⟨h1, fun k => h2 ((hu t h1).2 k)⟩
        · rintro (h1 | ⟨h1, h2⟩)
          · exact absurd h1 e'
          · exact ⟨h1, fun k => h2 ((hu t h1).1 k)⟩
    · rw [headsGiven_snoc]; exact headsGivenStep_nodup H.headsNodup htag
    · intro t ht'
      rw [headsGiven_snoc, mem_headsGivenStep H.headsNodup] at ht'
      rw [addedTags_snoc]
      rcases ht' with rfl | ⟨h1, _⟩
      · simp
      · exact List.mem_append.2 (Or.inl (H.headsAdded h1))
  have c1 := contentOf_snoc_self ht
  have c2 : ∀ y, y ≠ a.tag → contentOf (h ++ [a]) y = contentOf h y :=
    fun y hy => contentOf_snoc_ne hy
  have rootCase : ∀ (bo : Option τ) e, bo = a.base →
      (∀ y, y ∈ headsGiven r.2 → ¬ (e = none ∧ a.base = some y)) →
      LimitedOK L (h ++ [a]) (withRoot r.1 a.tag a.content bo, r.2 ++ [(a, e)]) := by
    intro bo e hbo hno
    refine fin _ none e (H.store.addRoot hx hok hlen c1 c2) ?_ ?_
    · rw [← hbo]; exact treeGrew_add hx bo
    · intro y hy
      simp [hno y hy]
  cases hbase : a.base with
  | none =>
    refine ⟨withRoot r.1 a.tag a.content none, none, rfl,
      rootCase none none hbase.symm (by simp [hbase]), fun _ => rfl, ?_, ?_⟩ <;> intro b hb' <;> cases hb'
  | some b =>
    have hba : a.tag ≠ b := by rintro rfl; exact hb hbase
    -- a base that is not a head
    have nonhead : b ∉ headsGiven r.2 → versionsAdd (memoryTree τ) tk r.1 a.tag a.content (some b) =
        (withRoot r.1 a.tag a.content (some b), some .keyError) := by
      intro hbn
      cases hgb : dget r.1.tree b with
      | none => exact add_unknown _ hgb hba
      | some nb =>
        cases hpar : nb.parent with
        | some p => exact H.store.add_nonhead _ hx hgb hpar
        | none => exact absurd ((H.heads hgb).1 hpar) hbn
    by_cases hbn : b ∈ headsGiven r.2
    · obtain ⟨nb, hgb⟩ : ∃ nb, dget r.1.tree b = some nb := by
        rw [dget_isSome_iff, H.keys]; exact H.headsAdded hbn
      have hpar := (H.heads hgb).2 hbn
      obtain ⟨v', e, e1, e2, e3, e4, e5, e6⟩ := H.store.add_head_lim limit hx hgb hpar hok hlen c1 c2
      refine ⟨v', e, e1, fin v' _ e e2 (hbase ▸ e3) ?_, by simp, ?_, ?_⟩
      · intro y hy
        rw [hbase]
        by_cases he : e = none <;> simp [he]
      · intro b' hb' hn; cases hb'; exact absurd hbn hn
      · intro b' hb' hn; cases hb'
        refine ⟨e4, e5, fun he => ?_⟩
        obtain ⟨x, nd, k1, k2⟩ := e6 he
        refine ⟨x, ?_, k2⟩
        rw [← H.keys]; exact dget_isSome_iff.1 ⟨nd, k1⟩
    · have hne : versionsAddLim (memoryTree τ) tk limit r.1 a.tag a.content (some b) =
          (withRoot r.1 a.tag a.content (some b), some .keyError) := by
        cases hgb : dget r.1.tree b with
        | none =>
          have : (memoryTree τ).getSplit (mtAdd r.1.tree a.tag (some b)) b = .error .keyError := by
            simp only [memoryTree, mtGetSplit, dget_mtAdd, if_neg hba, hgb]
          show addToHeadLim (memoryTree τ) tk limit (withRoot r.1 a.tag a.content (some b)) a.tag
            a.content b = _
          simp only [addToHeadLim, withRoot, this]
        | some nb =>
          cases hpar : nb.parent with
          | none => exact absurd ((H.heads hgb).1 hpar) hbn
          | some p =>
            have T1 := H.store.tree.add hx (some b)
            obtain ⟨s, path, k1, k2, k3⟩ := getSplit_spec T1 (x := b) (nd := nb)
              (by rw [dget_mtAdd, if_neg hba]; exact hgb)
            have hhv : dget (dset r.1.headVersion a.tag a.content) b = none := by
              rw [dget_dset, if_neg hba]; exact (H.store.inner hgb hpar).1
            show addToHeadLim (memoryTree τ) tk limit (withRoot r.1 a.tag a.content (some b)) a.tag
              a.content b = _
            have k1' : (memoryTree τ).getSplit (withRoot r.1 a.tag a.content (some b)).tree b =
              .ok (s, path) := k1
            simp only [addToHeadLim, k1']
            split
            · obtain ⟨q, rfl⟩ := k2.head
              have : retrieveUsingPath tk (withRoot r.1 a.tag a.content (some b)) (b :: q) =
                  .error .keyError := by
                simp only [retrieveUsingPath, withRoot, hhv]
              simp only [addSplitLim, this]
            · simp only [addOldHeadLim, withRoot, hhv]
      refine ⟨_, _, hne, rootCase (some b) _ hbase.symm (by simp), by simp, ?_, ?_⟩
      · intro b' hb' hn; rfl
      · intro b' hb' hn; cases hb'; exact absurd hn hbn

theorem runLimited_snoc {T : Type _} (ops : TreeOps τ T) (v : Versions τ T)
    (h : List (Nat × AddOp τ)) (c : Nat × AddOp τ) : runLimited ops tk v (h ++ [c]) =
      ((versionsAddLim ops tk c.1 (runLimited ops tk v h).1 c.2.tag c.2.content c.2.base).1,
        (runLimited ops tk v h).2 ++
          [(c.2, (versionsAddLim ops tk c.1 (runLimited ops tk v h).1 c.2.tag c.2.content
            c.2.base).2)]) := by
  simp [runLimited, List.foldl_append]

theorem LimitedOK.empty (L : LawfulTok tk P Ok) :
    LimitedOK L [] ((emptyVersions τ), ([] : List (AddOp τ × Option PyErr))) where
  calls := rfl
  store := (HistoryOK.empty L).store
  keys := rfl
  heads := by intro x nd h; simp [emptyVersions, dget] at h
  headsNodup := by simp [headsGiven]
  headsAdded := by intro t h; simp [headsGiven] at h

theorem FreshHistory.limited (L : LawfulTok tk P Ok) {h : List (AddOp τ)} (F : FreshHistory h) :
    ∀ hl : List (Nat × AddOp τ), hl.map Prod.snd = h →
      (∀ a ∈ h, Ok a.content ∧ a.content.length < 2 ^ 64) →
      LimitedOK L h (runLimited (memoryTree τ) tk (emptyVersions τ) hl) := by
  induction F with
  | nil =>
    intro hl e _
    rw [List.map_eq_nil_iff.1 e]
    exact LimitedOK.empty L
  | @snoc h a F h1 h2 ih =>
    intro hl e hc
    obtain ⟨l1, l2, rfl, e1, e2⟩ := List.map_eq_append_iff.1 e
    obtain ⟨c, rfl, rfl⟩ : ∃ c, l2 = [c] ∧ c.2 = a := by
      cases l2 with
      | nil => simp at e2
      | cons c l2 =>
        cases l2 with
        | nil => exact ⟨c, rfl, by simpa using e2⟩
        | cons => simp at e2
    have H := ih l1 e1 fun o ho => hc o (by simp [ho])
    have := hc c.2 (by simp)
    obtain ⟨v', e, k1, k2, _⟩ := H.step c.1 h1 h2 this.1 this.2
    rw [runLimited_snoc, k1]
    exact k2

end Gaspra
