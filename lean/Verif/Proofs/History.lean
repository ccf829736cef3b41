import Verif.Proofs.Versions
import Verif.Spec.Versions

set_option linter.unusedSectionVars false
set_option linter.unusedSimpArgs false
set_option linter.unusedVariables false

/-! # The version store after a history of `add` calls -/

namespace Gaspra

variable {τ Tok S P : Type _} [DecidableEq τ] [DecidableEq Tok] {tk : TokOps Tok S}
  {Ok : Bytes → Prop}

theorem contentOf_snoc_self {h : List (AddOp τ)} {a : AddOp τ} (ha : a.tag ∉ addedTags h) :
    contentOf (h ++ [a]) a.tag = a.content := by
  have : h.find? (fun o => o.tag = a.tag) = none := by
    rw [List.find?_eq_none]
    intro o ho e
    exact ha (List.mem_map.2 ⟨o, ho, by simpa using e⟩)
  simp [contentOf, List.find?_append, this]

theorem contentOf_snoc_ne {h : List (AddOp τ)} {a : AddOp τ} {t : τ} (ht : t ≠ a.tag) :
    contentOf (h ++ [a]) t = contentOf h t := by
  have : (decide (a.tag = t)) = false := decide_eq_false fun e => ht e.symm
  simp [contentOf, List.find?_append, this]

/-- What is true of the store after the history `h`. -/
structure HistoryOK (L : LawfulTok tk P Ok) (h : List (AddOp τ)) (v : Versions τ (MTree τ)) :
    Prop where
  store : StoreOK L (contentOf h) v
  keys : v.tree.map Prod.fst = addedTags h
  heads : ∀ {t nd}, dget v.tree t = some nd → (nd.parent = none ↔ t ∈ headsOf h)
  base : ∀ {i o}, h[i]? = some o → ∃ nd, dget v.tree o.tag = some nd ∧
    nd.baseVersion = o.base ∧ nd.orderId = i
  headsNodup : (headsOf h).Nodup
  headsAdded : ∀ {t}, t ∈ headsOf h → t ∈ addedTags h

theorem headsOf_snoc (h : List (AddOp τ)) (a : AddOp τ) :
    headsOf (h ++ [a]) = headsStep (headsOf h) a := by
  simp [headsOf, List.foldl_append]

theorem addedTags_snoc (h : List (AddOp τ)) (a : AddOp τ) :
    addedTags (h ++ [a]) = addedTags h ++ [a.tag] := by
  simp [addedTags]

theorem runHistory_snoc {T : Type _} (ops : TreeOps τ T) (v : Versions τ T) (h : List (AddOp τ))
    (a : AddOp τ) : runHistory ops tk v (h ++ [a]) =
      (versionsAdd ops tk (runHistory ops tk v h) a.tag a.content a.base).1 := by
  simp [runHistory, List.foldl_append]

theorem mem_headsStep {heads : List τ} (hn : heads.Nodup) {a : AddOp τ} {t : τ} :
    t ∈ headsStep heads a ↔ t = a.tag ∨ (t ∈ heads ∧ a.base ≠ some t) := by
  unfold headsStep
  cases hb : a.base with
  | none => simp [or_comm]
  | some b =>
    simp only
    split
    · next hm =>
      rw [List.mem_append, List.Nodup.mem_erase_iff hn]
      simp only [List.mem_singleton, ne_eq, Option.some.injEq]
      constructor
      · rintro (⟨h1, h2⟩ | h)
        · exact Or.inr ⟨h2, fun e => h1 e.symm⟩
        · exact Or.inl h
      · rintro (h | ⟨h1, h2⟩)
        · exact Or.inr h
        · exact Or.inl ⟨fun e => h2 e.symm, h1⟩
    · next hm =>
      rw [List.mem_append]
      simp only [List.mem_singleton, ne_eq, Option.some.injEq]
      constructor
      · rintro (h | h)
        · exact Or.inr ⟨h, fun e => hm (e ▸ h)⟩
        · exact Or.inl h
      · rintro (h | ⟨h1, h2⟩)
        · exact Or.inr h
        · exact Or.inl h1

theorem headsStep_nodup {heads : List τ} (hn : heads.Nodup) {a : AddOp τ} (ha : a.tag ∉ heads) :
    (headsStep heads a).Nodup := by
  unfold headsStep
  split
  · rw [List.nodup_append]
    exact ⟨hn, by simp, by rintro x hx y hy rfl; simp at hy; exact ha (hy ▸ hx)⟩
  · split
    · rw [List.nodup_append]
      refine ⟨hn.erase _, by simp, ?_⟩
      rintro x hx y hy rfl
      simp at hy
      exact ha (hy ▸ List.mem_of_mem_erase hx)
    · rw [List.nodup_append]
      exact ⟨hn, by simp, by rintro x hx y hy rfl; simp at hy; exact ha (hy ▸ hx)⟩

theorem HistoryOK.empty (L : LawfulTok tk P Ok) : HistoryOK L [] (emptyVersions τ) where
  store := {
    tree := {
      nodup := by simp [emptyVersions]
      up := by intro c nc p h; simp [emptyVersions, dget] at h
      down := by intro c nc p h; simp [emptyVersions, dget] at h
      chNodup := by intro c nc h; simp [emptyVersions, dget] at h
      acyc := by intro c nc h; simp [emptyVersions, dget] at h
      metric := by intro c nc h; simp [emptyVersions, dget] at h }
    hvNodup := by simp [emptyVersions]
    dfNodup := by simp [emptyVersions]
    ok := by intro x nd h; simp [emptyVersions, dget] at h
    root := by intro x nd h; simp [emptyVersions, dget] at h
    inner := by intro x nd p h; simp [emptyVersions, dget] at h
    absent := by intro x h; simp [emptyVersions, dget] }
  keys := rfl
  heads := by intro x nd h; simp [emptyVersions, dget] at h
  base := by intro i o h; simp at h
  headsNodup := by simp [headsOf]
  headsAdded := by intro t h; simp [headsOf] at h

variable {L : LawfulTok tk P Ok}

theorem HistoryOK.dget_none {h : List (AddOp τ)} {v : Versions τ (MTree τ)} (H : HistoryOK L h v)
    {t : τ} : dget v.tree t = none ↔ t ∉ addedTags h := by
  have := (dget_isSome_iff (d := v.tree) (k := t))
  rw [H.keys] at this
  rw [← this]
  cases dget v.tree t <;> simp

theorem HistoryOK.dget_some {h : List (AddOp τ)} {v : Versions τ (MTree τ)} (H : HistoryOK L h v)
    {t : τ} : (∃ nd, dget v.tree t = some nd) ↔ t ∈ addedTags h := by
  rw [dget_isSome_iff, H.keys]

/-- One more call with a fresh tag. -/
theorem HistoryOK.step {h : List (AddOp τ)} {v : Versions τ (MTree τ)} (H : HistoryOK L h v)
    {a : AddOp τ} (ht : a.tag ∉ addedTags h) (hb : a.base ≠ some a.tag)
    (hok : Ok a.content) (hlen : a.content.length < 2 ^ 64) :
    HistoryOK L (h ++ [a]) (versionsAdd (memoryTree τ) tk v a.tag a.content a.base).1 ∧
    (versionsAdd (memoryTree τ) tk v a.tag a.content a.base).2 =
      (match a.base with
      | none => none
      | some b => if b ∈ headsOf h then none else some .keyError) := by
  have hx := H.dget_none.2 ht
  have htag : a.tag ∉ headsOf h := fun e => ht (H.headsAdded e)
  have hkl : v.tree.length = h.length := by
    have := congrArg List.length H.keys
    simpa [addedTags] using this
  -- everything follows from the store invariant and the growth of the tree
  have fin : ∀ v' used, StoreOK L (contentOf (h ++ [a])) v' →
      TreeGrew v.tree v'.tree a.tag a.base used →
      (∀ y, y ∈ headsOf h → (used ≠ some y ↔ a.base ≠ some y)) → HistoryOK L (h ++ [a]) v' := by
    intro v' used hs G hu
    refine ⟨hs, ?_, ?_, ?_, ?_, ?_⟩
    · rw [G.keys, H.keys, addedTags_snoc]
    · intro t nd hnd
      rw [headsOf_snoc, mem_headsStep H.headsNodup]
      by_cases e : t = a.tag
      · subst e
        obtain ⟨n0, g1, g2, _⟩ := G.new
        rw [hnd] at g1; cases g1
        simp [g2]
      · have : ∃ n0, dget v.tree t = some n0 := by
          have := mem_keys_of_dget hnd
          rw [G.keys, List.mem_append] at this
          rcases this with h1 | h1
          · exact dget_isSome_iff.2 h1
          · exact absurd (by simpa using h1) e
        obtain ⟨n0, h0⟩ := this
        obtain ⟨n1, g1, g2, g3, g4⟩ := G.old h0
        rw [hnd] at g1; cases g1
        rw [g4, H.heads h0]
        constructor
        · rintro ⟨h1, h2⟩
          exact Or.inr ⟨h1, (hu t h1).1 h2⟩
        · rintro (h1 | ⟨h1, h2⟩)
          · exact absurd h1 e
          · exact ⟨h1, (hu t h1).2 h2⟩
    · intro i o ho
      rw [List.getElem?_append] at ho
      split at ho
      · obtain ⟨n0, g1, g2, g3⟩ := H.base ho
        obtain ⟨n1, k1, k2, k3, k4⟩ := G.old g1
        exact ⟨n1, k1, k2.trans g2, k3.trans g3⟩
      · next hi =>
        have hi' : i = h.length := by
          have : i - h.length = 0 := by
            rcases Nat.eq_zero_or_pos (i - h.length) with h1 | h1
            · exact h1
            · rw [List.getElem?_eq_none (by simp; omega)] at ho; cases ho
          omega
        rw [hi'] at ho
        simp at ho
        subst ho
        obtain ⟨n0, g1, g2, g3, g4⟩ := G.new
        exact ⟨n0, g1, g3, by rw [g4, hi', hkl]⟩
    · rw [headsOf_snoc]; exact headsStep_nodup H.headsNodup htag
    · intro t ht'
      rw [headsOf_snoc, mem_headsStep H.headsNodup] at ht'
      rw [addedTags_snoc]
      rcases ht' with rfl | ⟨h1, _⟩
      · simp
      · exact List.mem_append.2 (Or.inl (H.headsAdded h1))
  have c1 := contentOf_snoc_self ht
  have c2 : ∀ y, y ≠ a.tag → contentOf (h ++ [a]) y = contentOf h y :=
    fun y hy => contentOf_snoc_ne hy
  have rootCase : ∀ bo : Option τ, bo = a.base → (∀ y, y ∈ headsOf h → a.base ≠ some y) →
      HistoryOK L (h ++ [a]) (withRoot v a.tag a.content bo) := by
    intro bo hbo hno
    refine fin _ none (H.store.addRoot hx hok hlen c1 c2) ?_ ?_
    · rw [← hbo]; exact treeGrew_add hx bo
    · intro y hy
      simp [hno y hy]
  cases hbase : a.base with
  | none =>
    rw [add_none]
    exact ⟨rootCase none hbase.symm (by simp [hbase]), rfl⟩
  | some b =>
    have hba : a.tag ≠ b := by rintro rfl; exact hb hbase
    cases hgb : dget v.tree b with
    | none =>
      have hbn : b ∉ headsOf h := fun e => by
        have := H.dget_none.1 hgb; exact this (H.headsAdded e)
      rw [add_unknown _ hgb hba]
      refine ⟨rootCase (some b) hbase.symm ?_, by simp [hbn]⟩
      intro y hy e
      rw [hbase] at e; cases e; exact hbn hy
    | some nb =>
      cases hpar : nb.parent with
      | some p =>
        have hbn : b ∉ headsOf h := fun e => by
          have := (H.heads hgb).2 e; rw [hpar] at this; cases this
        rw [H.store.add_nonhead _ hx hgb hpar]
        refine ⟨rootCase (some b) hbase.symm ?_, by simp [hbn]⟩
        intro y hy e
        rw [hbase] at e; cases e; exact hbn hy
      | none =>
        have hbh : b ∈ headsOf h := (H.heads hgb).1 hpar
        obtain ⟨v', e1, e2, e3, _⟩ := H.store.add_head hx hgb hpar hok hlen c1 c2
        rw [e1]
        refine ⟨fin v' (some b) e2 (hbase ▸ e3) ?_, by simp [hbh]⟩
        intro y hy
        rw [hbase]

theorem FreshHistory.ok (L : LawfulTok tk P Ok) {h : List (AddOp τ)} (F : FreshHistory h)
    (hc : ∀ a ∈ h, Ok a.content ∧ a.content.length < 2 ^ 64) :
    HistoryOK L h (runHistory (memoryTree τ) tk (emptyVersions τ) h) := by
  induction F with
  | nil => exact HistoryOK.empty L
  | @snoc h a F h1 h2 ih =>
    rw [runHistory_snoc]
    have := hc a (by simp)
    exact ((ih fun o ho => hc o (by simp [ho])).step h1 h2 this.1 this.2).1

/-! ### Documented histories -/

theorem GoodHistory.heads {h : List (AddOp τ)} (G : GoodHistory h) :
    (headsOf h).Nodup ∧ ∀ {t}, t ∈ headsOf h ↔ IsHead h t := by
  induction G with
  | nil => exact ⟨by simp [headsOf], by simp [headsOf, IsHead, addedTags]⟩
  | @snoc h a G h1 h2 ih =>
    obtain ⟨i1, i2⟩ := ih
    refine ⟨?_, ?_⟩
    · rw [headsOf_snoc]
      exact headsStep_nodup i1 fun e => h1 (i2.1 e).1
    · intro t
      rw [headsOf_snoc, mem_headsStep i1, i2]
      constructor
      · rintro (rfl | ⟨⟨g1, g2⟩, g3⟩)
        · refine ⟨by rw [addedTags_snoc]; simp, ?_⟩
          intro o ho
          rcases List.mem_append.1 ho with ho | ho
          · -- a base used so far was added before
            intro e
            clear h2
            have : ∀ {h : List (AddOp τ)}, GoodHistory h → ∀ o ∈ h, ∀ b, o.base = some b →
                b ∈ addedTags h := by
              intro h G
              induction G with
              | nil => simp
              | @snoc h a G k1 k2 ih =>
                intro o ho b hb
                rw [addedTags_snoc]
                rcases List.mem_append.1 ho with ho | ho
                · exact List.mem_append.2 (Or.inl (ih o ho b hb))
                · simp at ho; subst ho
                  exact List.mem_append.2 (Or.inl (k2 b hb).1)
            exact h1 (this G o ho _ e)
          · simp at ho; subst ho
            intro e
            exact h1 (h2 _ e).1
        · refine ⟨by rw [addedTags_snoc]; simp [g1], ?_⟩
          intro o ho
          rcases List.mem_append.1 ho with ho | ho
          · exact g2 o ho
          · simp at ho; subst ho; exact g3
      · rintro ⟨g1, g2⟩
        rw [addedTags_snoc, List.mem_append] at g1
        rcases g1 with g1 | g1
        · exact Or.inr ⟨⟨g1, fun o ho => g2 o (by simp [ho])⟩, g2 a (by simp)⟩
        · exact Or.inl (by simpa using g1)

theorem GoodHistory.fresh {h : List (AddOp τ)} (G : GoodHistory h) : FreshHistory h := by
  induction G with
  | nil => exact .nil
  | @snoc h a G h1 h2 ih =>
    exact .snoc ih h1 fun e => h1 (h2 _ e).1

theorem FreshHistory.nodup {h : List (AddOp τ)} (F : FreshHistory h) : (addedTags h).Nodup := by
  induction F with
  | nil => simp [addedTags]
  | @snoc h a F h1 h2 ih =>
    rw [addedTags_snoc, List.nodup_append]
    exact ⟨ih, by simp, by rintro x hx y hy rfl; simp at hy; exact h1 (hy ▸ hx)⟩

theorem contentOf_mem {h : List (AddOp τ)} (hn : (addedTags h).Nodup) {a : AddOp τ} (ha : a ∈ h) :
    contentOf h a.tag = a.content := by
  induction h with
  | nil => simp at ha
  | cons o h ih =>
    simp only [addedTags, List.map_cons, List.nodup_cons] at hn
    rcases List.mem_cons.1 ha with rfl | ha
    · simp [contentOf]
    · have hne : o.tag ≠ a.tag := by
        intro e
        exact hn.1 (List.mem_map.2 ⟨a, ha, e.symm⟩)
      have := ih hn.2 ha
      simpa [contentOf, hne] using this

/-! ### `NullTokenizer` -/

/-- `NullTokenizer` is lawful on all contents. -/
def nullLawful : LawfulTok nullTok UInt8 (fun _ => True) where
  text b := [b]
  split b := b
  Inv _ := True
  Ready _ := True
  den _ b := some b
  init_inv := trivial
  encode_ok := fun _ _ => ⟨_, (), rfl, trivial, trivial, rfl, fun _ _ h => h⟩
  decode_ok := by
    intro st toks ps _ _ h
    have : toks = ps := map_some_inj h
    simp [nullTok, this]
  split_text := by intro b _; simp
  text_ne := by intro b p _ _; simp
  sub_ok := fun _ _ => trivial
  sub_split := by intro b l m r _ _; simp

end Gaspra
