import Verif.Proofs.InterruptDB
import Verif.Proofs.InterruptRuns

set_option linter.unusedSectionVars false
set_option linter.unusedSimpArgs false
set_option linter.unusedVariables false

/-! # Every store during `add` over a `DBTree` -/

namespace Gaspra

variable {τ : Type _} [DecidableEq τ]

/-! ### The list of stores leads to the result -/

/-- Any change of the table. -/
def AnyTable (_ _ : Graph τ) : Prop := True

theorem dbChangeParent_runs (g : Graph τ) (c p : τ) :
    Runs AnyTable g (dbChangeParentTrace g c p) (dbChangeParent g c p).1 := by
  simp only [dbChangeParentTrace, dbChangeParent]
  cases selectTag g c with
  | none => exact .nil
  | some a =>
    obtain ⟨tagRid, row⟩ := a
    simp only
    cases selectTag (removeIfChild1 (removeIfChild0 g row.parentRid tagRid) row.parentRid tagRid) p with
    | none => exact .nil
    | some b =>
      obtain ⟨newRid, r⟩ := b
      simp only
      refine .cons trivial ?_
      generalize dbLink _ tagRid newRid p row.parent = g3
      cases h1 : dbUpdateMetrics g3 row.parentRid with
      | mk g4 e4 =>
        cases e4 with
        | some e =>
          have : g4 = g3 := by
            unfold dbUpdateMetrics at h1
            split at h1 <;> simp at h1
            exact h1.1.symm
          subst this
          exact .nil
        | none =>
          simp only
          refine .cons trivial ?_
          cases h2 : dbUpdateMetrics g4 (some newRid) with
          | mk g5 e5 =>
            cases e5 with
            | some e =>
              have : g5 = g4 := by
                unfold dbUpdateMetrics at h2
                split at h2 <;> simp at h2
                exact h2.1.symm
              subst this
              exact .nil
            | none => exact .cons trivial .nil

theorem runs_withTable {t t' : Graph τ} {tr : List (DBPoint τ × Graph τ)}
    (h : Runs AnyTable t tr t') (v : Versions τ (Graph τ)) :
    Runs OneCommit { v with tree := t } (tr.map v.withTable) { v with tree := t' } := by
  induction h with
  | nil => exact .nil
  | cons h1 _ ih => exact .cons (.table rfl rfl) ih

variable {Tok S P : Type _} [DecidableEq Tok] {tk : TokOps Tok S}

theorem dbEdge_runs (v : Versions τ (Graph τ)) (p c : τ) (cs : List (PatchItem UInt8)) :
    Runs OneCommit v (dbEdgeTrace v p c cs) (addEdge (dbTree τ) v p c cs).1 := by
  have hcp : ∀ t : Graph τ, (dbTree τ).changeParent t c p = dbChangeParent t c p := fun _ => rfl
  simp only [dbEdgeTrace, addEdge, hcp]
  cases hs : serializeChangeset cs with
  | error e => exact .nil
  | ok d =>
    simp only
    have hw : OneCommit v { v with diffs := dset v.diffs c d } :=
      .delta c rfl rfl fun x hx => by
        show dget (dset v.diffs c d) x = _
        rw [dget_dset, if_neg fun e => hx e.symm]
    refine .cons hw ?_
    have h := runs_withTable (dbChangeParent_runs v.tree c p) { v with diffs := dset v.diffs c d }
    cases hm : dbChangeParent v.tree c p with
    | mk t' e =>
      rw [hm] at h
      cases e with
      | some e => simpa using h
      | none =>
        simp only
        split
        · exact h.append (.cons (.head c rfl rfl fun x hx => dget_ddel_other _ hx) .nil)
        · simpa using h

theorem dbSplit_runs (v : Versions τ (Graph τ)) (tag : τ) (c : Bytes) (s : τ) (path : List τ) :
    Runs OneCommit v (dbSplitTrace tk v tag c s path) (addSplit (dbTree τ) tk v tag c s path).1 := by
  simp only [dbSplitTrace, addSplit]
  cases retrieveUsingPath tk v path with
  | error e => exact .nil
  | ok sv =>
    simp only
    cases makeChangeset tk c sv with
    | error e => exact .nil
    | ok cs =>
      simp only
      have h := dbEdge_runs v tag s cs
      cases hm : addEdge (dbTree τ) v tag s cs with
      | mk w e =>
        rw [hm] at h
        cases e with
        | some e => simpa using h
        | none => exact h.append (runs_withTable (dbChangeParent_runs w.tree s tag) w)

theorem dbOldHead_runs (v : Versions τ (Graph τ)) (tag : τ) (c : Bytes) (b : τ) :
    Runs OneCommit v (dbOldHeadTrace tk v tag c b) (addOldHead (dbTree τ) tk v tag c b).1 := by
  simp only [dbOldHeadTrace, addOldHead]
  cases dget v.headVersion b with
  | none => exact .nil
  | some hv =>
    simp only
    cases makeChangeset tk c hv with
    | error e => exact .nil
    | ok cs => exact dbEdge_runs v tag b cs

theorem dbAdd_runs (v : Versions τ (Graph τ)) (tag : τ) (c : Bytes) (base : Option τ) :
    Runs OneCommit v (dbAddTrace tk v tag c base) (versionsAdd (dbTree τ) tk v tag c base).1 := by
  have w1 : OneCommit v { v with headVersion := dset v.headVersion tag c } :=
    .head tag rfl rfl fun x hx => by
      show dget (dset v.headVersion tag c) x = _
      rw [dget_dset, if_neg fun e => hx e.symm]
  have hadd : ∀ t : Graph τ, (dbTree τ).add t tag base = dbAdd t tag base := fun _ => rfl
  simp only [dbAddTrace, versionsAdd, hadd]
  refine .cons w1 ?_
  cases ha : dbAdd v.tree tag base with
  | mk t e =>
    cases e with
    | some e =>
      have : t = v.tree := by
        unfold dbAdd at ha
        split at ha <;> simp at ha
        exact ha.1.symm
      subst this
      exact .nil
    | none =>
      simp only
      refine .cons (.table rfl rfl) ?_
      cases base with
      | none => exact .nil
      | some b =>
        simp only
        generalize (⟨dset v.headVersion tag c, v.diffs, t⟩ : Versions τ (Graph τ)) = w
        have hgm : (dbTree τ).getSplit w.tree b = dbGetSplit w.tree b := rfl
        simp only [dbToHeadTrace, addToHead, hgm]
        cases dbGetSplit w.tree b with
        | error e => exact .nil
        | ok sp =>
          obtain ⟨s, path⟩ := sp
          simp only
          split
          · have h := dbSplit_runs (tk := tk) w tag c s path
            cases hm : addSplit (dbTree τ) tk w tag c s path with
            | mk w' e =>
              rw [hm] at h
              cases e with
              | some e => simpa using h
              | none => exact h.append (dbOldHead_runs w' tag c b)
          · exact dbOldHead_runs w tag c b

/-! ### What holds of every store -/

variable {Ok : Bytes → Prop} {L : LawfulTok tk P Ok} {content : τ → Bytes} {v : Versions τ (Graph τ)}

/-- The store with the parents of its table as a tree in memory. -/
def shadow (v : Versions τ (Graph τ)) : Versions τ (MTree τ) := ⟨v.headVersion, v.diffs, shadowTree v.tree⟩

/-- The store holds `content x` for every tag `x` of its table. -/
def DBSafe (L : LawfulTok tk P Ok) (content : τ → Bytes) (v : Versions τ (Graph τ)) : Prop :=
  GSafe v.tree ∧ Safe L content (shadow v)

/-- What is known of the store after the transaction at `pt`. -/
def DBStateOK (L : LawfulTok tk P Ok) (content : τ → Bytes) (tag : τ) (pt : DBPoint τ)
    (s : Versions τ (Graph τ)) : Prop :=
  GSafe s.tree ∧ ((∃ y, pt = .deltaWritten y ∧ Halfway L content tag y (shadow s)) ∨
    (∀ y, pt ≠ .deltaWritten y) ∧ Safe L content (shadow s))

/-- The tags are the same and `tag` is a root. -/
def DBSameTags (v s : Versions τ (Graph τ)) (tag : τ) : Prop := SameTags (shadow v) (shadow s) tag

/-- Not the first write. -/
def DBPoint.Later (pt : DBPoint τ) : Prop := pt ≠ .headWritten

/-- `_add_edge`. -/
theorem dbEdge_states (H : DBSafe L content v) {tag y : τ} {q : Option τ}
    (ht : par (shadowTree v.tree) tag = some none) (hy : par (shadowTree v.tree) y = some q) (hne : tag ≠ y)
    {cs : List (PatchItem UInt8)} (hM : makeChangeset tk (content tag) (content y) = .ok cs) :
    (∀ pt s, (pt, s) ∈ dbEdgeTrace v tag y cs → pt.Later ∧ DBSameTags v s tag ∧
      DBStateOK L content tag pt s) ∧
    DBSafe L content (addEdge (dbTree τ) v tag y cs).1 ∧
    DBSameTags v (addEdge (dbTree τ) v tag y cs).1 tag ∧
    par (shadowTree (addEdge (dbTree τ) v tag y cs).1.tree) y = some (some tag) := by
  obtain ⟨G, H⟩ := H
  obtain ⟨items, m1, m2⟩ := makeChangeset_ok L (H.ok ht).1 (H.ok hy).1
  rw [hM] at m1; cases m1
  obtain ⟨d, hd, hD⟩ := serializeDelta L (H.ok ht).1 (H.ok hy).1 (H.ok ht).2 (H.ok hy).2 m2 hM
  obtain ⟨steps, G4, mv4⟩ := G.changeParent hy ht hne
  have hcp : dbChangeParent v.tree y tag = (dbTree τ).changeParent v.tree y tag := rfl
  have moved : ∀ g', GSafe g' → MovedPar (shadowTree v.tree) (shadowTree g') y tag →
      Safe L content ⟨v.headVersion, dset v.diffs y d, shadowTree g'⟩ := fun g' T m =>
    H.moved hy T.tree m hD H.hvNodup (fun _ _ => rfl) fun _ h => h
  have moved' : ∀ g', GSafe g' → MovedPar (shadowTree v.tree) (shadowTree g') y tag →
      Safe L content ⟨ddel v.headVersion y, dset v.diffs y d, shadowTree g'⟩ := fun g' T m =>
    H.moved hy T.tree m hD (ddel_nodup H.hvNodup _) (dget_ddel_or H.hvNodup y).1
      (dget_ddel_or H.hvNodup y).2
  have tags : ∀ {g'}, MovedPar (shadowTree v.tree) (shadowTree g') y tag → ∀ hv df,
      SameTags (shadow v) ⟨hv, df, shadowTree g'⟩ tag := fun m hv df =>
    MovedPar.sameTags (v := shadow v) m hy ht hne hv df
  refine ⟨?_, ?_⟩
  · intro pt s h
    simp only [dbEdgeTrace, hd] at h
    rcases List.mem_cons.1 h with h | h
    · cases h
      refine ⟨by simp [DBPoint.Later], ⟨fun _ => rfl, ht⟩, G, .inl ⟨y, rfl, ?_⟩⟩
      exact H.half hne hy G.tree (fun _ => rfl) hD
    · rcases List.mem_append.1 h with h | h
      · obtain ⟨⟨pt', g'⟩, h1, h2⟩ := List.mem_map.1 h
        simp only [Versions.withTable, Prod.mk.injEq] at h2
        obtain ⟨rfl, rfl⟩ := h2
        obtain ⟨k1, k2, k3⟩ := steps _ _ h1
        refine ⟨?_, tags k3 _ _, k2, .inr ⟨?_, moved _ k2 k3⟩⟩
        · rcases k1 with rfl | rfl | rfl <;> simp [DBPoint.Later]
        · rcases k1 with rfl | rfl | rfl <;> simp
      · cases hc : dbChangeParent v.tree y tag with
        | mk t' err =>
          rw [hc] at h G4 mv4
          cases err with
          | some _ => simp at h
          | none =>
            simp only at h
            split at h
            · simp only [List.mem_singleton, Prod.mk.injEq] at h
              obtain ⟨rfl, rfl⟩ := h
              exact ⟨by simp [DBPoint.Later], tags mv4 _ _, G4, .inr ⟨by simp, moved' _ G4 mv4⟩⟩
            · simp at h
  · have main : ∀ w, (addEdge (dbTree τ) v tag y cs).1 = w →
        (w = ⟨v.headVersion, dset v.diffs y d, (dbChangeParent v.tree y tag).1⟩ ∨
         w = ⟨ddel v.headVersion y, dset v.diffs y d, (dbChangeParent v.tree y tag).1⟩) := by
      intro w hw
      rw [← hw]
      simp only [addEdge, hd, ← hcp]
      cases hc : dbChangeParent v.tree y tag with
      | mk t' err =>
        cases err with
        | some _ => exact .inl rfl
        | none =>
          simp only
          split
          · exact .inr rfl
          · exact .inl rfl
    have hpy : par (shadowTree (dbChangeParent v.tree y tag).1) y = some (some tag) := by
      rw [mv4, if_pos rfl]
    rcases main _ rfl with h | h
    · rw [h]
      exact ⟨⟨G4, moved _ G4 mv4⟩, tags mv4 _ _, hpy⟩
    · rw [h]
      exact ⟨⟨G4, moved' _ G4 mv4⟩, tags mv4 _ _, hpy⟩

/-- The second `change_parent` of the split. -/
theorem dbAgain_states (H : DBSafe L content v) {tag y : τ} (ht : par (shadowTree v.tree) tag = some none)
    (hy : par (shadowTree v.tree) y = some (some tag)) (hne : tag ≠ y) :
    (∀ pt s, (pt, s) ∈ (dbChangeParentTrace v.tree y tag).map v.withTable → pt.Later ∧
      DBSameTags v s tag ∧ DBStateOK L content tag pt s) ∧
    DBSafe L content { v with tree := (dbChangeParent v.tree y tag).1 } ∧
    DBSameTags v { v with tree := (dbChangeParent v.tree y tag).1 } tag := by
  obtain ⟨G, H⟩ := H
  obtain ⟨steps, G4, mv4⟩ := G.changeParent hy ht hne
  have back : ∀ {t'}, MovedPar (shadowTree v.tree) t' y tag → ∀ x, par t' x = par (shadowTree v.tree) x :=
    fun m x => by
      rw [m]
      split
      · next e => subst e; exact hy.symm
      · rfl
  have ok : ∀ {g'}, GSafe g' → MovedPar (shadowTree v.tree) (shadowTree g') y tag →
      Safe L content ⟨v.headVersion, v.diffs, shadowTree g'⟩ ∧
      SameTags (shadow v) ⟨v.headVersion, v.diffs, shadowTree g'⟩ tag := fun {g'} T m => by
    refine ⟨H.samePar T.tree (back m), ?_, ?_⟩
    · intro z
      show (par (shadowTree g') z).isSome = (par (shadowTree v.tree) z).isSome
      rw [back m]
    · show par (shadowTree g') tag = _
      rw [back m]; exact ht
  refine ⟨?_, ⟨G4, (ok G4 mv4).1⟩, (ok G4 mv4).2⟩
  intro pt s h
  obtain ⟨⟨pt', g'⟩, h1, h2⟩ := List.mem_map.1 h
  simp only [Versions.withTable, Prod.mk.injEq] at h2
  obtain ⟨rfl, rfl⟩ := h2
  obtain ⟨k1, k2, k3⟩ := steps _ _ h1
  refine ⟨?_, (ok k2 k3).2, k2, .inr ⟨?_, (ok k2 k3).1⟩⟩
  · rcases k1 with rfl | rfl | rfl <;> simp [DBPoint.Later]
  · rcases k1 with rfl | rfl | rfl <;> simp

/-- The old head is moved. -/
theorem dbOldHead_states (H : DBSafe L content v) {tag b : τ} {q : Option τ}
    (ht : par (shadowTree v.tree) tag = some none) (hb : par (shadowTree v.tree) b = some q) (hne : tag ≠ b) :
    (∀ pt s, (pt, s) ∈ dbOldHeadTrace tk v tag (content tag) b → pt.Later ∧
      DBSameTags v s tag ∧ DBStateOK L content tag pt s) ∧
    DBSafe L content (addOldHead (dbTree τ) tk v tag (content tag) b).1 ∧
    DBSameTags v (addOldHead (dbTree τ) tk v tag (content tag) b).1 tag := by
  simp only [dbOldHeadTrace, addOldHead]
  cases hh : dget v.headVersion b with
  | none => exact ⟨by simp, H, fun _ => rfl, ht⟩
  | some c =>
    obtain rfl := H.2.head hb hh
    simp only
    cases hM : makeChangeset tk (content tag) (content b) with
    | error e => exact ⟨by simp, H, fun _ => rfl, ht⟩
    | ok cs =>
      obtain ⟨h1, h2, h3, _⟩ := dbEdge_states H ht hb hne hM
      exact ⟨h1, h2, h3⟩

theorem retrieve_shadow (v : Versions τ (Graph τ)) (path : List τ) :
    retrieveUsingPath tk v path = retrieveUsingPath tk (shadow v) path := rfl

/-- The split is moved. -/
theorem dbSplit_states (H : DBSafe L content v) {tag b s : τ} {path : List τ}
    (ht : par (shadowTree v.tree) tag = some none) (hg : dbGetSplit v.tree b = .ok (s, path)) (hsb : s ≠ b) :
    (∀ pt w, (pt, w) ∈ dbSplitTrace tk v tag (content tag) s path → pt.Later ∧
      DBSameTags v w tag ∧ DBStateOK L content tag pt w) ∧
    DBSafe L content (addSplit (dbTree τ) tk v tag (content tag) s path).1 ∧
    DBSameTags v (addSplit (dbTree τ) tk v tag (content tag) s path).1 tag := by
  obtain ⟨⟨q, hb⟩, ext, rfl, hch, hlast⟩ := H.1.getSplit hg
  have hext : ext ≠ [] := by rintro rfl; exact hsb hlast.symm
  obtain ⟨p, hp⟩ := hch.last_parent hext
  rw [hlast] at hp
  have hne : tag ≠ s := by rintro rfl; rw [ht] at hp; cases hp
  simp only [dbSplitTrace, addSplit]
  cases hr : retrieveUsingPath tk v (b :: ext) with
  | error e => exact ⟨by simp, H, fun _ => rfl, ht⟩
  | ok sv =>
    have hsv : sv = content s := by
      rw [retrieve_shadow] at hr
      cases hh : dget (shadow v).headVersion b with
      | none => simp only [retrieveUsingPath, hh] at hr; cases hr
      | some c =>
        obtain rfl := H.2.head hb hh
        have := H.2.retrieve hb hh hch (fun _ _ => id)
        rw [hr, hlast] at this
        cases this; rfl
    subst hsv
    simp only
    cases hM : makeChangeset tk (content tag) (content s) with
    | error e => exact ⟨by simp, H, fun _ => rfl, ht⟩
    | ok cs =>
      obtain ⟨h1, h2, h3, h4⟩ := dbEdge_states H ht hp hne hM
      simp only
      cases he : addEdge (dbTree τ) v tag s cs with
      | mk w err =>
        rw [he] at h2 h3 h4
        cases err with
        | some e =>
          refine ⟨?_, h2, h3⟩
          intro pt w' hw
          simp only [List.append_nil] at hw
          exact h1 _ _ hw
        | none =>
          obtain ⟨k1, k2, k3⟩ := dbAgain_states h2 h3.2 h4 hne
          refine ⟨?_, k2, h3.trans k3⟩
          intro pt w' hw
          rcases List.mem_append.1 hw with hw | hw
          · exact h1 _ _ hw
          · obtain ⟨a1, a2, a3⟩ := k1 _ _ hw
            exact ⟨a1, h3.trans a2, a3⟩

/-- The part of `add` after the new tag was entered. -/
theorem dbToHead_states (H : DBSafe L content v) {tag b : τ} (ht : par (shadowTree v.tree) tag = some none)
    (hne : tag ≠ b) :
    (∀ pt w, (pt, w) ∈ dbToHeadTrace tk v tag (content tag) b → pt.Later ∧
      DBSameTags v w tag ∧ DBStateOK L content tag pt w) ∧
    DBSafe L content (addToHead (dbTree τ) tk v tag (content tag) b).1 ∧
    DBSameTags v (addToHead (dbTree τ) tk v tag (content tag) b).1 tag := by
  have hgm : (dbTree τ).getSplit v.tree b = dbGetSplit v.tree b := rfl
  simp only [dbToHeadTrace, addToHead, hgm]
  cases hg : dbGetSplit v.tree b with
  | error e => exact ⟨by simp, H, fun _ => rfl, ht⟩
  | ok sp =>
    obtain ⟨s, path⟩ := sp
    obtain ⟨⟨q, hb⟩, _⟩ := H.1.getSplit hg
    simp only
    by_cases hsb : s = b
    · rw [if_neg (by simpa using hsb), if_neg (by simpa using hsb)]
      exact dbOldHead_states H ht hb hne
    · rw [if_pos hsb, if_pos hsb]
      obtain ⟨h1, h2, h3⟩ := dbSplit_states H ht hg hsb
      cases he : addSplit (dbTree τ) tk v tag (content tag) s path with
      | mk w err =>
        rw [he] at h2 h3
        cases err with
        | some e =>
          refine ⟨?_, h2, h3⟩
          intro pt w' hw
          simp only [List.append_nil] at hw
          exact h1 _ _ hw
        | none =>
          have hb' : ∃ q', par (shadowTree w.tree) b = some q' := by
            have : (par (shadowTree w.tree) b).isSome = (par (shadowTree v.tree) b).isSome := h3.1 b
            rw [hb] at this
            exact Option.isSome_iff_exists.1 this
          obtain ⟨q', hb'⟩ := hb'
          obtain ⟨k1, k2, k3⟩ := dbOldHead_states h2 h3.2 hb' hne
          refine ⟨?_, k2, h3.trans k3⟩
          intro pt w' hw
          rcases List.mem_append.1 hw with hw | hw
          · exact h1 _ _ hw
          · obtain ⟨a1, a2, a3⟩ := k1 _ _ hw
            exact ⟨a1, h3.trans a2, a3⟩

/-- The first write of `add`. -/
theorem dbHead_state (H : DBSafe L content v) (tag : τ) :
    DBSafe L content { v with headVersion := dset v.headVersion tag (content tag) } := by
  obtain ⟨G, H⟩ := H
  have hh : ∀ x, dget (dset v.headVersion tag (content tag)) x =
      if tag = x then some (content tag) else dget v.headVersion x := fun x => dget_dset _ _ _ _
  refine ⟨G, H.tree, dset_nodup H.hvNodup _ _, H.ok, ?_, H.inner, ?_⟩
  · intro x hx
    show dget (dset v.headVersion tag (content tag)) x = _
    rw [hh]
    split
    · next e => subst e; rfl
    · exact H.root hx
  · intro x q b hx hb
    replace hb : dget (dset v.headVersion tag (content tag)) x = some b := hb
    rw [hh] at hb
    split at hb
    · next e => subst e; cases hb; rfl
    · exact H.head hx hb

/-- A tag that is stored is refused. -/
theorem dbAdd_known {g : Graph τ} {tag : τ} {q : Option τ} (h : par (shadowTree g) tag = some q) (base : Option τ) :
    dbAdd g tag base = (g, some .integrityError) := by
  have hc : dbContains g tag = true := by rw [dbContains_par, h]; rfl
  unfold dbAdd
  unfold dbContains at hc
  cases hs : selectTag g tag with
  | none => rw [hs] at hc; cases hc
  | some a => rfl

/-- The row is added. -/
theorem dbRow_state (H : DBSafe L content v) {tag : τ} (hn : par (shadowTree v.tree) tag = none)
    (hh : dget v.headVersion tag = some (content tag))
    (hok : Ok (content tag) ∧ (content tag).length < 2 ^ 64) (base : Option τ) :
    DBSafe L content { v with tree := (dbAdd v.tree tag base).1 } := by
  obtain ⟨G, H⟩ := H
  obtain ⟨_, G', hp⟩ := G.add hn base
  refine ⟨G', G'.tree, H.hvNodup, ?_, ?_, ?_, ?_⟩
  · intro x q hx
    replace hx : par (shadowTree (dbAdd v.tree tag base).1) x = some q := hx
    rw [hp] at hx
    split at hx
    · next e => subst e; exact hok
    · exact H.ok hx
  · intro x hx
    replace hx : par (shadowTree (dbAdd v.tree tag base).1) x = some none := hx
    rw [hp] at hx
    split at hx
    · next e => subst e; exact hh
    · exact H.root hx
  · intro x p hx hE
    replace hx : par (shadowTree (dbAdd v.tree tag base).1) x = some (some p) := hx
    rw [hp] at hx
    split at hx
    · cases hx
    · exact H.inner hx id
  · intro x q b hx hb
    replace hx : par (shadowTree (dbAdd v.tree tag base).1) x = some q := hx
    rw [hp] at hx
    split at hx
    · next e =>
      subst e
      have hb' : dget v.headVersion tag = some b := hb
      rw [hh] at hb'; cases hb'; rfl
    · exact H.head hx hb

/-- Every store during `add`, and the one it leaves behind. -/
theorem dbAdd_states (H : DBSafe L content v) {tag : τ}
    (hok : Ok (content tag) ∧ (content tag).length < 2 ^ 64) {base : Option τ}
    (hbase : base ≠ some tag) :
    (∀ pt s, (pt, s) ∈ dbAddTrace tk v tag (content tag) base →
      DBStateOK L content tag pt s ∧
      (pt = .headWritten → s.tree = v.tree) ∧
      (pt ≠ .headWritten → par (shadowTree s.tree) tag = some none ∧
        ∀ z, z ≠ tag → (par (shadowTree s.tree) z).isSome = (par (shadowTree v.tree) z).isSome)) ∧
    DBSafe L content (versionsAdd (dbTree τ) tk v tag (content tag) base).1 ∧
    (par (shadowTree (versionsAdd (dbTree τ) tk v tag (content tag) base).1.tree) tag).isSome ∧
    ∀ z, z ≠ tag → (par (shadowTree (versionsAdd (dbTree τ) tk v tag (content tag) base).1.tree) z).isSome =
      (par (shadowTree v.tree) z).isSome := by
  have B1 := dbHead_state H tag
  have hadd : ∀ t : Graph τ, (dbTree τ).add t tag base = dbAdd t tag base := fun _ => rfl
  have first : DBStateOK L content tag .headWritten
      { v with headVersion := dset v.headVersion tag (content tag) } := ⟨B1.1, .inr ⟨by simp, B1.2⟩⟩
  cases hp : par (shadowTree v.tree) tag with
  | some q =>
    have hk := dbAdd_known hp base
    simp only [dbAddTrace, versionsAdd, hadd, hk]
    refine ⟨?_, B1, by rw [hp]; rfl, fun _ _ => trivial⟩
    intro pt s h
    simp only [List.mem_singleton, Prod.mk.injEq] at h
    obtain ⟨rfl, rfl⟩ := h
    exact ⟨first, fun _ => rfl, fun h => absurd rfl h⟩
  | none =>
    have B2 := dbRow_state B1 hp (by show dget (dset v.headVersion tag (content tag)) tag = _
                                     rw [dget_dset, if_pos rfl]) hok base
    obtain ⟨hk, G', hpar⟩ := H.1.add hp base
    have ht : par (shadowTree (dbAdd v.tree tag base).1) tag = some none := by rw [hpar, if_pos rfl]
    have hz : ∀ z, z ≠ tag → (par (shadowTree (dbAdd v.tree tag base).1) z).isSome =
        (par (shadowTree v.tree) z).isSome := fun z hz => by rw [hpar, if_neg fun e => hz e.symm]
    have second : DBStateOK L content tag .rowAdded
        ⟨dset v.headVersion tag (content tag), v.diffs, (dbAdd v.tree tag base).1⟩ :=
      ⟨B2.1, .inr ⟨by simp, B2.2⟩⟩
    simp only [dbAddTrace, versionsAdd, hadd]
    cases hd : dbAdd v.tree tag base with
    | mk t e =>
      rw [hd] at hk ht hz second B2
      simp only at hk
      subst hk
      simp only at ht hz second B2 ⊢
      have two : ∀ pt s, (pt, s) ∈ ([(.headWritten, { v with headVersion := dset v.headVersion tag (content tag) }),
          (.rowAdded, ⟨dset v.headVersion tag (content tag), v.diffs, t⟩)] :
            List (DBPoint τ × Versions τ (Graph τ))) →
          DBStateOK L content tag pt s ∧ (pt = .headWritten → s.tree = v.tree) ∧
          (pt ≠ .headWritten → par (shadowTree s.tree) tag = some none ∧
            ∀ z, z ≠ tag → (par (shadowTree s.tree) z).isSome = (par (shadowTree v.tree) z).isSome) := by
        intro pt s h
        simp only [List.mem_cons, Prod.mk.injEq, List.not_mem_nil, or_false] at h
        rcases h with ⟨rfl, rfl⟩ | ⟨rfl, rfl⟩
        · exact ⟨first, fun _ => rfl, fun h => absurd rfl h⟩
        · exact ⟨second, by simp, fun _ => ⟨ht, hz⟩⟩
      cases base with
      | none => exact ⟨two, B2, by simp only [ht]; rfl, hz⟩
      | some b =>
        obtain ⟨h1, h2, h3⟩ := dbToHead_states B2 (b := b) ht (fun e => hbase (by rw [e]))
        have h3t : par (shadowTree (addToHead (dbTree τ) tk
          ⟨dset v.headVersion tag (content tag), v.diffs, t⟩ tag (content tag) b).1.tree) tag = some none := h3.2
        refine ⟨?_, h2, by simp only [h3t]; rfl, fun z hz' => (h3.1 z).trans (hz z hz')⟩
        intro pt s h
        have h' : (pt, s) ∈ ([_, _] : List _) ++ dbToHeadTrace tk
            ⟨dset v.headVersion tag (content tag), v.diffs, t⟩ tag (content tag) b := h
        rcases List.mem_append.1 h' with h' | h'
        · exact two _ _ h'
        · obtain ⟨a1, a2, a3⟩ := h1 _ _ h'
          exact ⟨a3, fun e => absurd e a1, fun _ => ⟨a2.2, fun z hz' => (a2.1 z).trans (hz z hz')⟩⟩

/-- A store that is not torn is safe. -/
theorem DBStateOK.safe {tag : τ} {pt : DBPoint τ} {s : Versions τ (Graph τ)}
    (h : DBStateOK L content tag pt s) (ht : ∀ c, ¬ DBTorn tag c pt s) : DBSafe L content s := by
  obtain ⟨G, ⟨y, hy, h⟩ | ⟨_, h⟩⟩ := h
  · refine ⟨G, h.safe.mono fun x hx => ?_⟩
    obtain ⟨rfl, p, hp, hne⟩ := hx
    exact ht x ⟨hy, p, (rowBelow_par G.nodup).2 hp, hne⟩
  · exact ⟨G, h⟩

theorem DBSafe.empty : DBSafe L content (emptyDBVersions τ) := by
  refine ⟨⟨by simp [emptyDBVersions], ?_, ?_, ?_⟩, Safe.empty⟩
  · intro i row h; simp [emptyDBVersions] at h
  · intro i row c h; simp [emptyDBVersions] at h
  · exact (Safe.empty (L := L) (content := content)).tree

theorem DBSurvived.safe (L : LawfulTok tk P Ok) (hok : ∀ x, Ok (content x) ∧ (content x).length < 2 ^ 64)
    (h : DBSurvived tk content v) : DBSafe L content v := by
  induction h with
  | empty => exact DBSafe.empty
  | done _ h2 ih => exact (dbAdd_states ih (hok _) h2).2.1
  | interrupted _ h2 h3 h4 ih => exact ((dbAdd_states ih (hok _) h2).1 _ _ h3).1.safe h4

/-- Retrieval. -/
theorem DBSafe.get (H : DBSafe L content v) (x : τ) :
    versionsGet (dbTree τ) tk v x = .ok (if dbContains v.tree x then some (content x) else none) := by
  obtain ⟨G, H⟩ := H
  cases hp : par (shadowTree v.tree) x with
  | none =>
    have hc : dbContains v.tree x = false := by rw [dbContains_par, hp]; rfl
    have hs := selectTag_none (shadow_unknown hp)
    have h : (dbTree τ).pathTo v.tree x = .ok (some []) := by
      show dbPathTo v.tree x = _
      simp [dbPathTo, dbReversePathTo, hs]
    unfold versionsGet
    rw [h, hc]
    rfl
  | some q =>
    have hc : dbContains v.tree x = true := by rw [dbContains_par, hp]; rfl
    obtain ⟨ch, hlx⟩ := par_some.1 hp
    obtain ⟨l, hl⟩ := G.tree.acyc hlx
    have hpath : (dbTree τ).pathTo v.tree x = .ok (some l.reverse) := G.pathTo hl.upPath
    obtain ⟨root, rest, e1, e2, e3, e4⟩ := hl.chain
    have hr := H.retrieve e2 (H.root e2) e3 fun z hz => id
    rw [e1] at hpath
    unfold versionsGet
    rw [hpath, hc]
    simp only [retrieve_shadow, hr, e4, if_true]

end Gaspra
