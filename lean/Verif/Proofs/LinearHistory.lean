import Verif.Proofs.LinearTree

set_option linter.unusedSectionVars false
set_option linter.unusedSimpArgs false
set_option linter.unusedVariables false

/-! # The combs of all lines of a documented history -/

namespace Gaspra

variable {τ Tok S : Type _} [DecidableEq τ] [DecidableEq Tok] {tk : TokOps Tok S}
  {P : Type _} {Ok : Bytes → Prop} {L : LawfulTok tk P Ok}

theorem BaseLine.mono {h h' : List (AddOp τ)} (hh : ∀ a ∈ h, a ∈ h') {t : τ} {l : List τ}
    (B : BaseLine h t l) : BaseLine h' t l := by
  induction B with
  | root h1 h2 => exact .root (hh _ h1) h2
  | step h1 h2 _ ih => exact .step (hh _ h1) h2 ih

theorem addOp_unique {h : List (AddOp τ)} (hn : (addedTags h).Nodup) {a a' : AddOp τ}
    (h1 : a ∈ h) (h2 : a' ∈ h) (e : a.tag = a'.tag) : a = a' := by
  induction h with
  | nil => cases h1
  | cons o h ih =>
    simp only [addedTags, List.map_cons, List.nodup_cons] at hn
    rcases List.mem_cons.1 h1 with e1 | m1 <;> rcases List.mem_cons.1 h2 with e2 | m2
    · rw [e1, e2]
    · exact (hn.1 (List.mem_map.2 ⟨a', m2, by rw [← e, e1]⟩)).elim
    · exact (hn.1 (List.mem_map.2 ⟨a, m1, by rw [e, e2]⟩)).elim
    · exact ih hn.2 m1 m2

theorem BaseLine.unique {h : List (AddOp τ)} (hn : (addedTags h).Nodup) {t : τ} {l : List τ}
    (B : BaseLine h t l) : ∀ {l'}, BaseLine h t l' → l = l' := by
  induction B with
  | @root a h1 h2 =>
    intro l' B'
    generalize ht : a.tag = t at B'
    cases B' with
    | root h3 h4 => rfl
    | @step a' b l h3 h4 h5 =>
      have := addOp_unique hn h1 h3 ht
      subst this
      rw [h2] at h4; cases h4
  | @step a b l h1 h2 B ih =>
    intro l' B'
    generalize ht : a.tag = t at B'
    cases B' with
    | @root a' h3 h4 =>
      have := addOp_unique hn h1 h3 ht
      subst this
      rw [h2] at h4; cases h4
    | @step a' b' l' h3 h4 h5 =>
      have := addOp_unique hn h1 h3 ht
      subst this
      rw [h2] at h4; cases h4
      rw [ih h5]

/-- Each head is the top of the comb of its line, and different combs are disjoint. -/
structure LinesOK (h : List (AddOp τ)) (t : MTree τ) (f : τ → List (τ × List τ)) : Prop where
  line : ∀ {b}, b ∈ headsOf h → ∃ l, BaseLine h b l ∧ LineComb t b l.length (f b) ∧
    (combTags (f b)).Perm l
  disj : ∀ {b b' x}, b ∈ headsOf h → b' ∈ headsOf h → x ∈ combTags (f b) →
    x ∈ combTags (f b') → b = b'

theorem Regrown.line {t t' : MTree τ} {tag b s b' : τ} (R : Regrown t t' tag b s) {n : Nat}
    {sp : List (τ × List τ)} (K : LineComb t b' n sp) (hs : s ∉ combTags sp) :
    LineComb t' b' n sp where
  comb := R.keep K.comb hs
  top := K.top
  nodup := K.nodup
  shape := K.shape
  newest := by
    intro x hx hxb
    obtain ⟨n1, k1⟩ := K.comb.known hx
    obtain ⟨n2, k2⟩ := K.comb.known K.top_mem
    rw [R.ord k1, R.ord k2]
    exact K.newest x hx hxb

/-- One more documented call. -/
theorem LinesOK.step {h : List (AddOp τ)} {v : Versions τ (MTree τ)} {f : τ → List (τ × List τ)}
    (H : HistoryOK L h v) (J : LinesOK h v.tree f) {a : AddOp τ} (ht : a.tag ∉ addedTags h)
    (hb : ∀ b, a.base = some b → b ∈ headsOf h)
    (hok : Ok a.content) (hlen : a.content.length < 2 ^ 64) :
    ∃ f', LinesOK (h ++ [a]) (versionsAdd (memoryTree τ) tk v a.tag a.content a.base).1.tree f' := by
  have hx := H.dget_none.2 ht
  have htag : a.tag ∉ headsOf h := fun e => ht (H.headsAdded e)
  have hsub : ∀ o ∈ h, o ∈ h ++ [a] := fun o ho => by simp [ho]
  have hne : ∀ {b}, b ∈ headsOf h → b ≠ a.tag := fun h1 e => htag (e ▸ h1)
  have hknown : ∀ {b x}, b ∈ headsOf h → x ∈ combTags (f b) → x ≠ a.tag := by
    rintro b x h1 h2 rfl
    obtain ⟨l, _, k, _⟩ := J.line h1
    obtain ⟨nd, hnd⟩ := k.comb.known h2
    rw [hx] at hnd; cases hnd
  cases hbase : a.base with
  | none =>
    rw [add_none]
    refine ⟨fun y => if y = a.tag then [(a.tag, [])] else f y, ?_, ?_⟩
    · intro b hbm
      rw [headsOf_snoc, mem_headsStep H.headsNodup] at hbm
      rcases hbm with rfl | ⟨h1, _⟩
      · refine ⟨[a.tag], .root (by simp) hbase, ?_, ?_⟩
        · rw [if_pos rfl]; exact LineComb.root hx
        · rw [if_pos rfl]; exact .refl _
      · rw [if_neg (hne h1)]
        obtain ⟨l, k1, k2, k3⟩ := J.line h1
        refine ⟨l, k1.mono hsub, k2.mono ?_, k3⟩
        intro p nd hp
        have : a.tag ≠ p := by rintro rfl; rw [hx] at hp; cases hp
        show dget (mtAdd v.tree a.tag none) p = _
        rw [dget_mtAdd, if_neg this]; exact hp
    · intro b b' x h1 h2 h3 h4
      rw [headsOf_snoc, mem_headsStep H.headsNodup] at h1 h2
      rcases h1 with rfl | ⟨h1, _⟩ <;> rcases h2 with rfl | ⟨h2, _⟩
      · rfl
      · rw [if_pos rfl] at h3; rw [if_neg (hne h2)] at h4
        simp [combTags] at h3
        exact absurd h3 (hknown h2 h4)
      · rw [if_pos rfl] at h4; rw [if_neg (hne h1)] at h3
        simp [combTags] at h4
        exact absurd h4 (hknown h1 h3)
      · rw [if_neg (hne h1)] at h3; rw [if_neg (hne h2)] at h4
        exact J.disj h1 h2 h3 h4
  | some b =>
    have hbh := hb b hbase
    obtain ⟨nb, hgb⟩ := H.dget_some.2 (H.headsAdded hbh)
    have hpar := (H.heads hgb).2 hbh
    obtain ⟨v', e1, e2, e3, e4⟩ := H.store.add_head hx hgb hpar hok hlen
      (content' := contentOf (h ++ [a])) (contentOf_snoc_self ht) fun y hy => contentOf_snoc_ne hy
    rw [e1]
    obtain ⟨l, k1, k2, k3⟩ := J.line hbh
    have hlt : ∀ {y nd}, dget v.tree y = some nd → nd.orderId < v.tree.length := by
      intro y nd hy
      obtain ⟨o, ho, rfl⟩ := List.mem_map.1 (H.dget_some.1 ⟨nd, hy⟩)
      obtain ⟨i, hi⟩ := List.getElem?_of_mem ho
      obtain ⟨n0, g1, _, g3⟩ := H.base hi
      rw [hy] at g1; cases g1
      have hkl : v.tree.length = h.length := by
        have := congrArg List.length H.keys
        simpa [addedTags] using this
      obtain ⟨hi', _⟩ := List.getElem?_eq_some_iff.1 hi
      omega
    obtain ⟨s, sp', s1, R, s2, s3⟩ := k2.add H.store.tree e2.tree.toForest hlt e3 e4 hgb hpar hx
    refine ⟨fun y => if y = a.tag then sp' else f y, ?_, ?_⟩
    · intro b' hbm
      rw [headsOf_snoc, mem_headsStep H.headsNodup] at hbm
      rcases hbm with rfl | ⟨h1, h2⟩
      · refine ⟨a.tag :: l, .step (by simp) hbase (k1.mono hsub), ?_, ?_⟩
        · rw [if_pos rfl]; exact s2
        · rw [if_pos rfl]; exact s3.trans (k3.cons _)
      · rw [if_neg (hne h1)]
        obtain ⟨l', j1, j2, j3⟩ := J.line h1
        refine ⟨l', j1.mono hsub, R.line j2 ?_, j3⟩
        intro hs
        have := J.disj hbh h1 s1 hs
        exact h2 (by rw [hbase, this])
    · intro b1 b2 x h1 h2 h3 h4
      rw [headsOf_snoc, mem_headsStep H.headsNodup] at h1 h2
      have new : ∀ {b'}, b' ∈ headsOf h → a.base ≠ some b' → x ∈ combTags sp' →
          x ∈ combTags (f b') → False := by
        intro b' g1 g2 g3 g4
        have := s3.mem_iff.1 g3
        rcases List.mem_cons.1 this with g5 | g5
        · exact hknown g1 g4 g5
        · exact g2 (by rw [hbase, J.disj hbh g1 g5 g4])
      rcases h1 with rfl | ⟨h1, h1'⟩ <;> rcases h2 with rfl | ⟨h2, h2'⟩
      · rfl
      · rw [if_pos rfl] at h3; rw [if_neg (hne h2)] at h4
        exact (new h2 h2' h3 h4).elim
      · rw [if_pos rfl] at h4; rw [if_neg (hne h1)] at h3
        exact (new h1 h1' h4 h3).elim
      · rw [if_neg (hne h1)] at h3; rw [if_neg (hne h2)] at h4
        exact J.disj h1 h2 h3 h4

theorem GoodHistory.lines (L : LawfulTok tk P Ok) {h : List (AddOp τ)} (G : GoodHistory h)
    (hc : ∀ a ∈ h, Ok a.content ∧ a.content.length < 2 ^ 64) :
    ∃ f, LinesOK h (runHistory (memoryTree τ) tk (emptyVersions τ) h).tree f := by
  induction G with
  | nil =>
    exact ⟨fun _ => [], by intro b hb; simp [headsOf] at hb, by intro b b' x hb; simp [headsOf] at hb⟩
  | @snoc h a G h1 h2 ih =>
    have hc' : ∀ o ∈ h, Ok o.content ∧ o.content.length < 2 ^ 64 := fun o ho => hc o (by simp [ho])
    obtain ⟨f, J⟩ := ih hc'
    rw [runHistory_snoc]
    have := hc a (by simp)
    exact J.step (G.fresh.ok L hc') h1 (fun b hb => G.heads.2.2 (h2 b hb)) this.1 this.2

/-! ### Paths -/

theorem Comb.closed {t : MTree τ} {sp : List (τ × List τ)} (K : Comb t sp) {p c : τ}
    {nd : TNode τ} (hp : p ∈ combTags sp) (hd : dget t p = some nd) (hc : c ∈ nd.children) :
    c ∈ combTags sp := by
  obtain ⟨⟨s, C⟩, h1, h2⟩ := mem_combTags.1 hp
  obtain ⟨i, hi⟩ := List.getElem?_of_mem h1
  rcases h2 with rfl | h2
  · obtain ⟨nd', k1, k2⟩ := K.node hi
    rw [hd] at k1; cases k1
    rcases (k2 c).1 hc with h | h
    · exact mem_combTags.2 ⟨_, h1, Or.inr (List.mem_of_mem_head? h)⟩
    · obtain ⟨q, e1, e2⟩ := Option.map_eq_some_iff.1 h
      exact mem_combTags.2 ⟨q, List.mem_of_getElem? e1, Or.inl e2.symm⟩
  · obtain ⟨j, hj⟩ := List.getElem?_of_mem h2
    obtain ⟨nd', k1, k2⟩ := K.chain hi j p hj
    rw [hd] at k1; cases k1
    exact mem_combTags.2 ⟨_, h1, Or.inr (List.mem_of_getElem? ((k2 c).1 hc))⟩

theorem Comb.descends {t : MTree τ} {sp : List (τ × List τ)} (K : Comb t sp) :
    ∀ {l : List τ} {x : τ}, Descends t (x :: l) → x ∈ combTags sp → ∀ y ∈ x :: l, y ∈ combTags sp
  | [], x, _, hx, y, hy => by simp at hy; exact hy ▸ hx
  | z :: l, x, h, hx, y, hy => by
    obtain ⟨⟨np, h1, h2⟩, h3⟩ := h
    rcases List.mem_cons.1 hy with rfl | hy
    · exact hx
    · exact Comb.descends K h3 (K.closed hx h1 h2) y hy

theorem UpPath.descends_all {t : MTree τ} (F : Forest t) {y : τ} {l : List τ} (h : UpPath t y l) :
    Descends t l.reverse := by
  induction h with
  | root h1 h2 => exact ⟨_, h1⟩
  | @step x p nd l h1 h2 h3 ih =>
    obtain ⟨r, rfl⟩ := h3.head
    obtain ⟨np, h4, h5⟩ := F.up h1 h2
    simp only [List.reverse_cons, List.append_assoc, List.cons_append, List.nil_append] at ih ⊢
    exact descends_append _ ih ⟨⟨np, h4, h5⟩, ⟨nd, h1⟩⟩

theorem Descends.upPath {t : MTree τ} (F : Forest t) : ∀ {l : List τ} {x : τ} {nd : TNode τ},
    dget t x = some nd → nd.parent = none → Descends t (x :: l) → ∀ {acc}, UpPath t x acc →
    ∃ y, (x :: l).getLast? = some y ∧ UpPath t y (l.reverse ++ acc)
  | l, x, nd, h1, h2, h3, acc, h4 => by
    clear h1 h2
    induction l generalizing x acc with
    | nil => exact ⟨x, rfl, by simpa using h4⟩
    | cons z l ih =>
      obtain ⟨⟨np, k1, k2⟩, k3⟩ := h3
      obtain ⟨nc, k4, k5⟩ := F.down k1 k2
      obtain ⟨y, j1, j2⟩ := ih z k3 _ (.step k4 k5 h4)
      exact ⟨y, by simpa using j1, by simpa using j2⟩

/-- The paths of one line of versions. -/
theorem LinesOK.paths {h : List (AddOp τ)} {v : Versions τ (MTree τ)} {f : τ → List (τ × List τ)}
    (H : HistoryOK L h v) (J : LinesOK h v.tree f) {b : τ} (hb : b ∈ headsOf h) {l : List τ}
    (hl : BaseLine h b l) (hn : (addedTags h).Nodup) :
    ∃ N, (N + 1) ^ 2 ≤ 4 * l.length + 1 ∧ 4 * l.length + 1 < (N + 2) ^ 2 ∧
      (∀ y ∈ l, ∃ p, mtPathTo v.tree y = .ok (some (b :: p)) ∧ p.length + 1 ≤ N) ∧
      ∃ y ∈ l, ∃ p, mtPathTo v.tree y = .ok (some (b :: p)) ∧ p.length + 1 = N := by
  obtain ⟨l', k1, k2, k3⟩ := J.line hb
  have := hl.unique hn k1
  subst this
  have T := H.store.tree
  obtain ⟨nb, hgb⟩ := H.dget_some.2 (H.headsAdded hb)
  have hpar := (H.heads hgb).2 hb
  have hheight : heightOf v.tree b = combHeight (combLens (f b)) := by
    obtain ⟨⟨b', C⟩, e1, e2⟩ := Option.map_eq_some_iff.1 k2.top
    simp only at e2
    subst e2
    have := k2.comb.height_at T e1
    simpa using this
  refine ⟨heightOf v.tree b, ?_, ?_, ?_, ?_⟩
  · rw [hheight]; exact k2.shape.height.1
  · rw [hheight]; exact k2.shape.height.2
  · intro y hy
    have hyc := k3.mem_iff.2 hy
    obtain ⟨nd, hnd⟩ := k2.comb.known hyc
    obtain ⟨u, hu⟩ := T.acyc hnd
    have hd := hu.descends_all T.toForest
    have hp := pathTo_spec hu
    -- the path starts at a head
    have hr : ∃ r, u.reverse.head? = some r ∧ r ∈ headsOf h := by
      clear hd hp hnd hyc hy
      induction hu with
      | @root x nd h1 h2 => exact ⟨x, rfl, (H.heads h1).1 h2⟩
      | @step x p nd l h1 h2 h3 ih =>
        obtain ⟨r, h4, h5⟩ := ih
        refine ⟨r, ?_, h5⟩
        rw [List.reverse_cons, List.head?_append, h4]; rfl
    obtain ⟨r, r1, r2⟩ := hr
    have hlast : y ∈ u.reverse := by
      obtain ⟨w, rfl⟩ := hu.head
      simp
    generalize hw : u.reverse = w at hd hp r1 hlast
    cases w with
    | nil => cases r1
    | cons r' w =>
      simp at r1; subst r1
      obtain ⟨_, _, q2, _⟩ := J.line r2
      have := q2.comb.descends hd q2.top_mem y hlast
      have hbr := J.disj hb r2 hyc this
      subst hbr
      exact ⟨w, hp, T.descends_le w hd⟩
  · have hpos := T.height_pos hgb
    rw [heightOf_eq hgb]
    obtain ⟨p, p1, p2⟩ := T.descends_exists (nb.height - 1) hgb (by omega)
    obtain ⟨y, y1, y2⟩ := Descends.upPath T.toForest hgb hpar p1 (.root hgb hpar)
    have hy : y ∈ combTags (f b) :=
      k2.comb.descends p1 k2.top_mem y (List.mem_of_mem_getLast? y1)
    refine ⟨y, k3.mem_iff.1 hy, p, ?_, by omega⟩
    rw [pathTo_spec y2]
    simp

end Gaspra
