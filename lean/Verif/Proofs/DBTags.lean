import Verif.Model.DBTags
import Verif.Spec.DBTags
import Verif.Proofs.DBVersions
import Verif.Proofs.VersionsStore

set_option linter.unusedSectionVars false
set_option linter.unusedSimpArgs false
set_option linter.unusedVariables false

/-! # Tags that a `TEXT` column converts -/

namespace Gaspra

variable {τ Tok S : Type _} [DecidableEq τ] [DecidableEq Tok] {tk : TokOps Tok S} {col : τ → τ}

/-! ### What the queries return -/

theorem rowAt_mem {g : Graph τ} {r : Nat} {row : GRow τ} (h : rowAt g r = some row) : row ∈ g := by
  cases r with
  | zero => cases h
  | succ r => exact List.mem_of_getElem? h

theorem selectTag_mem {g : Graph τ} {x : τ} {r : Nat} {row : GRow τ}
    (h : selectTag g x = some (r, row)) :
    row ∈ g ∧ row.tag = x ∧ ∃ i, r = i + 1 ∧ g[i]? = some row := by
  unfold selectTag at h
  split at h
  · cases h
  · next i hi =>
    rw [Option.map_eq_some_iff] at h
    obtain ⟨row', h1, h2⟩ := h
    cases h2
    refine ⟨List.mem_of_getElem? h1, ?_, i, rfl, h1⟩
    obtain ⟨hlt, h3, _⟩ := List.findIdx?_eq_some_iff_getElem.1 hi
    rw [List.getElem?_eq_getElem hlt] at h1
    cases h1
    simpa using h3

theorem bestRow_mem : ∀ {l : List (Nat × GRow τ)} {x : Nat × GRow τ}, bestRow l = some x → x ∈ l
  | [], _, h => by cases h
  | a :: l, x, h => by
    unfold bestRow at h
    split at h
    · cases h; exact List.mem_cons_self
    · next y hy =>
      split at h
      · cases h; exact List.mem_cons_self
      · cases h; exact List.mem_cons_of_mem _ (bestRow_mem hy)

theorem childRows_mem {g : Graph τ} {r : GRow τ} {x : Nat × GRow τ} (h : x ∈ childRows g r) :
    x.2 ∈ g := by
  rw [childRows_slots] at h
  obtain ⟨rid, _, h2⟩ := List.mem_filterMap.1 h
  rw [Option.map_eq_some_iff] at h2
  obtain ⟨row, h3, rfl⟩ := h2
  exact rowAt_mem h3

/-- The tag that `new_get_split` starts with does not influence the loop. -/
theorem splitLoop_shape (g : Graph τ) : ∀ (f d : Nat) (r : GRow τ),
    (∃ e, ∀ tag path, dbSplitLoop g f d tag r path = .error e) ∨
    ∃ ext, (∀ x ∈ ext, x ∈ g.map GRow.tag) ∧
      ∀ tag path, dbSplitLoop g f d tag r path = .ok (ext.getLastD tag, path ++ ext)
  | 0, d, r => by
    by_cases h : d < r.height
    · exact .inl ⟨.diverges, fun _ _ => by simp only [dbSplitLoop, if_pos h]⟩
    · exact .inr ⟨[], by simp, fun _ _ => by simp [dbSplitLoop, if_neg h]⟩
  | f + 1, d, r => by
    by_cases h : d < r.height
    · cases hb : bestRow (childRows g r) with
      | none => exact .inl ⟨.typeError, fun _ _ => by simp only [dbSplitLoop, if_pos h, hb]⟩
      | some x =>
        obtain ⟨i, r'⟩ := x
        have hm : r' ∈ g := childRows_mem (bestRow_mem hb)
        rcases splitLoop_shape g f (d + 1) r' with ⟨e, he⟩ | ⟨ext, h1, h2⟩
        · exact .inl ⟨e, fun _ _ => by simp only [dbSplitLoop, if_pos h, hb, he]⟩
        · refine .inr ⟨r'.tag :: ext, ?_, fun tag path => ?_⟩
          · intro x hx
            rcases List.mem_cons.1 hx with rfl | hx
            · exact List.mem_map_of_mem hm
            · exact h1 x hx
          · simp only [dbSplitLoop, if_pos h, hb, h2]
            rw [List.append_assoc]
            cases ext <;> simp [List.getLastD]
    · exact .inr ⟨[], by simp, fun _ _ => by simp [dbSplitLoop, if_neg h]⟩

theorem textGetSplit_shape (g : Graph τ) (s : τ) :
    (∃ e, ∀ x, textGetSplit g s x = .error e) ∨
    ∃ ext, (∀ x ∈ ext, x ∈ g.map GRow.tag) ∧
      ∀ x, textGetSplit g s x = .ok (ext.getLastD x, x :: ext) := by
  unfold textGetSplit
  cases h : selectTag g s with
  | none => exact .inl ⟨_, fun _ => rfl⟩
  | some r =>
    obtain ⟨i, r⟩ := r
    rcases splitLoop_shape g (maxNat (g.map GRow.height)) 1 r with ⟨e, he⟩ | ⟨ext, h1, h2⟩
    · exact .inl ⟨e, fun x => he _ _⟩
    · exact .inr ⟨ext, h1, fun x => by simp only [h2]; rfl⟩

theorem textGetSplit_self (g : Graph τ) (s : τ) : textGetSplit g s s = dbGetSplit g s := rfl

theorem walkUp_mem (g : Graph τ) : ∀ (f : Nat) (r : Option Nat) {l : List τ},
    dbWalkUp g f r = .ok l → ∀ x ∈ l, x ∈ g.map GRow.tag
  | 0, none, l, h => by cases h; simp
  | f + 1, none, l, h => by cases h; simp
  | 0, some _, l, h => by cases h
  | f + 1, some r, l, h => by
    unfold dbWalkUp at h
    split at h
    · cases h; simp
    · next row hr =>
      split at h
      · next l' hl =>
        cases h
        intro x hx
        rcases List.mem_cons.1 hx with rfl | hx
        · exact List.mem_map_of_mem (rowAt_mem hr)
        · exact walkUp_mem g f _ hl x hx
      · cases h

/-- Every tag of a path is in the table. -/
theorem dbPathTo_mem {g : Graph τ} {x : τ} {l : List τ} (h : dbPathTo g x = .ok (some l)) :
    ∀ y ∈ l, y ∈ g.map GRow.tag := by
  unfold dbPathTo at h
  split at h
  · next l' hl =>
    cases h
    unfold dbReversePathTo at hl
    split at hl
    · cases hl; simp
    · next i row hr =>
      split at hl
      · next l2 h2 =>
        cases hl
        intro y hy
        rcases List.mem_cons.1 (List.mem_reverse.1 hy) with rfl | hy
        · exact List.mem_map_of_mem (selectTag_mem hr).1
        · exact walkUp_mem g _ _ h2 y hy
      · cases hl
  · cases h
  · cases h

/-! ### A store with everything in the database -/

/-- Every tag of the table is as a column holds it. -/
def Converted (col : τ → τ) (g : Graph τ) : Prop := ∀ x ∈ g.map GRow.tag, col x = x

/-- `get_split` never returns to the tag it started from. -/
def SplitAway (g : Graph τ) : Prop :=
  ∀ s ext, dbGetSplit g s = .ok (ext.getLastD s, s :: ext) → ext ≠ [] → ext.getLastD s ≠ s

theorem textRetrieveLoop (m : Coll τ Bytes) : ∀ (l : List τ) (st : S) (p : List Tok),
    (∀ x ∈ l, col x = x) →
    storeRetrieveLoop (textColl col) tk m st p l = storeRetrieveLoop (collOps τ) tk m st p l
  | [], _, _, _ => rfl
  | x :: l, st, p, h => by
    have h1 : (textColl col).get m x = (collOps τ).get m x := by
      show collGet m (col x) = collGet m x
      rw [h x List.mem_cons_self]
    simp only [storeRetrieveLoop, h1]
    congr 1
    funext d
    split
    · rfl
    · congr 1
      funext r
      exact textRetrieveLoop m l _ _ fun y hy => h y (List.mem_cons_of_mem _ hy)

theorem textRetrieve (s : Store (Graph τ) (Coll τ Bytes)) (x : τ) (l : List τ)
    (h : ∀ y ∈ l, col y = y) :
    storeRetrieve (textColl col) tk s (x :: l) = storeRetrieve (collOps τ) tk s (col x :: l) := by
  simp only [storeRetrieve, textRetrieveLoop _ l _ _ h]
  rfl

theorem textAddEdge (s : Store (Graph τ) (Coll τ Bytes)) (p c : τ) (cs : List (PatchItem UInt8)) :
    storeAddEdge (textColl col) (textTree col) s p c cs =
      storeAddEdge (collOps τ) (dbTree τ) s (col p) (col c) cs := rfl

theorem textAddOldHead (s : Store (Graph τ) (Coll τ Bytes)) (t : τ) (c : Bytes) (b : τ) :
    storeAddOldHead (textColl col) (textTree col) tk s t c b =
      storeAddOldHead (collOps τ) (dbTree τ) tk s (col t) c (col b) := rfl

theorem textAddSplit (s : Store (Graph τ) (Coll τ Bytes)) (t : τ) (c : Bytes) (b : τ) (ext : List τ)
    (sp : τ) (hsp : col sp = sp) (h : ∀ y ∈ ext, col y = y) :
    storeAddSplit (textColl col) (textTree col) tk s t c sp (b :: ext) =
      storeAddSplit (collOps τ) (dbTree τ) tk s (col t) c sp (col b :: ext) := by
  simp only [storeAddSplit, textRetrieve s b ext h, textAddEdge, hsp]
  split
  · rfl
  · split
    · rfl
    · split
      · rfl
      · next v' hv =>
        show ({ v' with tree := (dbChangeParent v'.tree (col sp) (col t)).1 }, _) = _
        simp only [textTree, dbTree, hsp]

/-- One call of `add` is the call with the converted tags. -/
theorem textAdd (s : Store (Graph τ) (Coll τ Bytes)) (t : τ) (c : Bytes) (base : Option τ)
    (hc : Converted col (dbAdd s.tree (col t) (base.map col)).1)
    (hs : SplitAway (dbAdd s.tree (col t) (base.map col)).1) :
    storeAdd (textColl col) (textTree col) tk s t c base =
      storeAdd (collOps τ) (dbTree τ) tk s (col t) c (base.map col) := by
  cases hr : dbAdd s.tree (col t) (base.map col) with
  | mk g e =>
  rw [hr] at hc hs
  have k1 : (textTree col).add s.tree t base = (g, e) := hr
  have k2 : (dbTree τ).add s.tree (col t) (base.map col) = (g, e) := hr
  have k0 : (textColl col).set s.headVersion t c = (collOps τ).set s.headVersion (col t) c := rfl
  simp only [storeAdd, k0, k1, k2]
  cases e with
  | some e => rfl
  | none =>
    cases base with
    | none => rfl
    | some b =>
      have k3 : (textTree col).getSplit g b = textGetSplit g (col b) b := rfl
      have k4 : (dbTree τ).getSplit g (col b) = textGetSplit g (col b) (col b) := rfl
      simp only [Option.map_some, k3, k4]
      rcases textGetSplit_shape g (col b) with ⟨e, he⟩ | ⟨ext, h1, h2⟩
      · simp only [he]
      · have hext : ∀ y ∈ ext, col y = y := fun y hy => hc y (h1 y hy)
        have haway := hs (col b) ext (by rw [← textGetSplit_self, h2])
        simp only [h2]
        cases ext with
        | nil => simp [List.getLastD]; rfl
        | cons y l =>
          have hl : ∀ z, (y :: l).getLastD z = (y :: l).getLast (by simp) := fun _ => rfl
          have hmem := List.getLast_mem (l := y :: l) (by simp)
          simp only [hl] at haway ⊢
          have hsp := hext _ hmem
          have hb : (y :: l).getLast (by simp) ≠ b := by
            intro e
            apply haway (by simp)
            rw [← hsp, e]
          rw [if_pos hb, if_pos (haway (by simp)), textAddSplit _ _ _ _ _ _ hsp hext]
          generalize storeAddSplit (collOps τ) (dbTree τ) tk _ _ _ _ _ = q
          obtain ⟨v, e⟩ := q
          cases e <;> rfl

theorem BestPath.away {t : MTree τ} (T : TreeOK t) {x y : τ} {l : List τ} (h : BestPath t x l y) :
    heightOf t y + l.length = heightOf t x + 1 := by
  induction h with
  | start h => simp
  | @next l y nd c h1 h2 h3 ih =>
    have := T.bestChild_height h2 h3
    have e : heightOf t y = nd.height := by simp [heightOf, h2]
    simp only [List.length_append, List.length_singleton]
    omega

/-- In a tree that a store can make, `get_split` goes strictly down. -/
theorem Sim.splitAway {t : MTree τ} {g : Graph τ} (H : Sim t g) (T : TreeOK t) : SplitAway g := by
  intro s ext he hne e
  cases hx : dget t s with
  | none => rw [H.getSplit_none hx] at he; cases he
  | some nd =>
    obtain ⟨sp, path, h1, h2, _⟩ := getSplit_spec T hx
    rw [H.getSplit T hx, h1] at he
    injection he with he
    obtain ⟨e1, e2⟩ := Prod.mk.inj he
    have := h2.away T
    rw [e1, e2, e] at this
    apply hne
    apply List.eq_nil_of_length_eq_zero
    simp only [List.length_cons] at this
    omega

/-- A query is the query for the converted tag. -/
theorem textStoreGet (s : Store (Graph τ) (Coll τ Bytes)) (hc : Converted col s.tree) (x : τ) :
    storeGet (textColl col) (textTree col) tk s x =
      storeGet (collOps τ) (dbTree τ) tk s (col x) := by
  unfold storeGet
  show (dbPathTo s.tree (col x) >>= _) = (dbPathTo s.tree (col x) >>= _)
  cases h : dbPathTo s.tree (col x) with
  | error e => rfl
  | ok p =>
    cases p with
    | none => rfl
    | some p =>
      cases p with
      | nil => rfl
      | cons y l =>
        have hf := fun z hz => hc z (dbPathTo_mem h z hz)
        show (storeRetrieve (textColl col) tk s (y :: l) >>= _) = _
        rw [textRetrieve s y l fun z hz => hf z (List.mem_cons_of_mem _ hz),
          hf y List.mem_cons_self]
        rfl

/-! ### Tags that are not converted -/

theorem plainAddSplit (v : Versions τ (Graph τ)) (t : τ) (c : Bytes) (sp : τ) (path : List τ)
    (ht : col t = t) (hsp : col sp = sp) :
    addSplit (textTree col) tk v t c sp path = addSplit (dbTree τ) tk v t c sp path := by
  simp only [addSplit, addEdge, textTree, dbTree, ht, hsp]

theorem plainAddOldHead (v : Versions τ (Graph τ)) (t : τ) (c : Bytes) (b : τ)
    (ht : col t = t) (hb : col b = b) :
    addOldHead (textTree col) tk v t c b = addOldHead (dbTree τ) tk v t c b := by
  simp only [addOldHead, addEdge, textTree, dbTree, ht, hb]

/-- One call of `add` with tags that the columns leave as they are. -/
theorem plainAdd (v : Versions τ (Graph τ)) (t : τ) (c : Bytes) (base : Option τ) (ht : col t = t)
    (hb : base.map col = base) (hc : Converted col (dbAdd v.tree t base).1) :
    versionsAdd (textTree col) tk v t c base = versionsAdd (dbTree τ) tk v t c base := by
  have k1 : (textTree col).add v.tree t base = dbAdd v.tree t base := by
    show dbAdd v.tree (col t) (base.map col) = _
    rw [ht, hb]
  have k2 : (dbTree τ).add v.tree t base = dbAdd v.tree t base := rfl
  simp only [versionsAdd, k1, k2]
  generalize dbAdd v.tree t base = r at hc
  obtain ⟨g, e⟩ := r
  cases e with
  | some e => rfl
  | none =>
    cases base with
    | none => rfl
    | some b =>
      have hb' : col b = b := by simpa using hb
      have k3 : (textTree col).getSplit g b = textGetSplit g b b := by
        show textGetSplit g (col b) b = _
        rw [hb']
      have k4 : (dbTree τ).getSplit g b = textGetSplit g b b := rfl
      simp only [addToHead, k3, k4]
      rcases textGetSplit_shape g b with ⟨e, he⟩ | ⟨ext, h1, h2⟩
      · simp only [he]
      · have hsp : col (ext.getLastD b) = ext.getLastD b := by
          cases ext with
          | nil => exact hb'
          | cons y l => exact hc _ (h1 _ (List.getLast_mem (l := y :: l) (by simp)))
        simp only [h2, plainAddSplit _ _ _ _ _ ht hsp, plainAddOldHead _ _ _ _ ht hb']

/-- A part at the front of a history. -/
theorem FreshHistory.front {h l : List (AddOp τ)} (F : FreshHistory (h ++ l)) : FreshHistory h := by
  generalize hk : h ++ l = k at F
  induction F generalizing l with
  | nil =>
    obtain ⟨rfl, _⟩ := List.append_eq_nil_iff.1 hk
    exact .nil
  | @snoc k a F h1 h2 ih =>
    rcases List.eq_nil_or_concat l with rfl | ⟨l', b, rfl⟩
    · rw [List.append_nil] at hk
      subst hk
      exact .snoc F h1 h2
    · rw [List.concat_eq_append, ← List.append_assoc] at hk
      exact ih (List.append_inj' hk rfl).1

/-- The table after the first statement of a call. -/
theorem FreshHistory.tableAfter {h : List (AddOp τ)} (F : FreshHistory h) {t : τ}
    (ht : t ∉ addedTags h) (b : Option τ) :
    let g := (dbAdd (runHistory (dbTree τ) tk (emptyDBVersions τ) h).tree t b).1
    SplitAway g ∧ g.map GRow.tag = addedTags h ++ [t] := by
  obtain ⟨J, hk⟩ := F.joint (tk := tk)
  have hn : dget (runHistory (memoryTree τ) tk (emptyVersions τ) h).tree t = none := by
    cases hd : dget (runHistory (memoryTree τ) tk (emptyVersions τ) h).tree t with
    | none => rfl
    | some nd => exact absurd (hk ▸ mem_keys_of_dget hd) ht
  obtain ⟨g', h1, H1, _⟩ := J.sim.add J.tree.nodup J.tree.toForest hn b
  dsimp only
  rw [h1]
  refine ⟨H1.splitAway (TreeOK.add J.tree hn b), ?_⟩
  rw [H1.keys]
  unfold mtAdd
  rw [dset_keys, if_neg (by rw [hk]; exact ht), hk]

/-! ### Dictionaries for the contents -/

/-- The same rows up to the columns that do not matter here. -/
def KeepsRows (g g' : Graph τ) : Prop :=
  g'.map (fun r => (r.tag, r.parentRid)) = g.map fun r => (r.tag, r.parentRid)

theorem KeepsRows.tags {g g' : Graph τ} (h : KeepsRows g g') :
    g'.map GRow.tag = g.map GRow.tag := by
  have := congrArg (List.map Prod.fst) h
  simpa [List.map_map, Function.comp_def] using this

theorem KeepsRows.length {g g' : Graph τ} (h : KeepsRows g g') : g'.length = g.length := by
  simpa using congrArg List.length h

theorem KeepsRows.back {g g' : Graph τ} (h : KeepsRows g g') {i : Nat} {row' : GRow τ}
    (hi : g'[i]? = some row') :
    ∃ row, g[i]? = some row ∧ row'.tag = row.tag ∧ row'.parentRid = row.parentRid := by
  have := congrArg (fun l => l[i]?) h
  simp only [List.getElem?_map, hi, Option.map_some] at this
  cases hg : g[i]? with
  | none => rw [hg] at this; cases this
  | some row =>
    rw [hg] at this
    simp only [Option.map_some, Option.some.injEq, Prod.mk.injEq] at this
    exact ⟨row, rfl, this⟩

theorem keepsRows_update (g : Graph τ) (r : Nat) (f : GRow τ → GRow τ)
    (hf : ∀ r, (f r).tag = r.tag ∧ (f r).parentRid = r.parentRid) :
    KeepsRows g (updateRow g r f) := by
  cases r with
  | zero => rfl
  | succ i =>
    apply List.ext_getElem?
    intro j
    simp only [List.getElem?_map, getElem?_updateRow]
    split
    · cases g[j]? <;> simp [hf]
    · rfl

theorem keepsRows_metrics : ∀ (f : Nat) (g : Graph τ) (r : Option Nat) {g' : Graph τ},
    dbMetricsLoop f g r = .ok g' → KeepsRows g g'
  | 0, g, none, g', h => by cases h; rfl
  | f + 1, g, none, g', h => by cases h; rfl
  | 0, g, some r, g', h => by cases h
  | f + 1, g, some r, g', h => by
    unfold dbMetricsLoop at h
    split at h
    · cases h
    · exact (keepsRows_metrics f _ _ h).trans (keepsRows_update g r _ fun _ => ⟨rfl, rfl⟩)

theorem keepsRows_updateMetrics (g : Graph τ) (r : Option Nat) :
    KeepsRows g (dbUpdateMetrics g r).1 := by
  unfold dbUpdateMetrics
  split
  · next h => exact keepsRows_metrics _ _ _ h
  · rfl

theorem keepsRows_remove0 (g : Graph τ) (q : Option Nat) (c : Nat) :
    KeepsRows g (removeIfChild0 g q c) := by
  unfold removeIfChild0
  split
  · rfl
  · exact keepsRows_update _ _ _ fun r => by split <;> exact ⟨rfl, rfl⟩

theorem keepsRows_remove1 (g : Graph τ) (q : Option Nat) (c : Nat) :
    KeepsRows g (removeIfChild1 g q c) := by
  unfold removeIfChild1
  split
  · rfl
  · exact keepsRows_update _ _ _ fun r => by split <;> exact ⟨rfl, rfl⟩

/-- Parents come later in the table than their children. -/
def ParentsLater (g : Graph τ) : Prop :=
  ∀ (i : Nat) (row : GRow τ) (p : Nat), g[i]? = some row → row.parentRid = some p →
    i + 1 < p ∧ p ≤ g.length

theorem ParentsLater.keep {g g' : Graph τ} (U : ParentsLater g) (h : KeepsRows g g') :
    ParentsLater g' := by
  intro i row' p hi hp
  obtain ⟨row, h1, _, h2⟩ := h.back hi
  rw [h.length]
  exact U i row p h1 (h2 ▸ hp)

/-- `change_parent` to the last row of the table. -/
theorem changeParent_last {g : Graph τ} (U : ParentsLater g) {x p : τ} (hxp : x ≠ p)
    (hlast : ∀ (i : Nat) (row : GRow τ), g[i]? = some row → (row.tag = p ↔ i + 1 = g.length)) :
    ParentsLater (dbChangeParent g x p).1 ∧
      (dbChangeParent g x p).1.map GRow.tag = g.map GRow.tag := by
  unfold dbChangeParent
  split
  · exact ⟨U, rfl⟩
  · next xr row hx =>
    obtain ⟨_, htag, i, rfl, hi⟩ := selectTag_mem hx
    have K : KeepsRows g (removeIfChild1 (removeIfChild0 g row.parentRid (i + 1)) row.parentRid (i + 1)) :=
      (keepsRows_remove1 _ _ _).trans (keepsRows_remove0 _ _ _)
    dsimp only
    generalize removeIfChild1 (removeIfChild0 g row.parentRid (i + 1)) row.parentRid (i + 1) = g2 at K
    split
    · exact ⟨U, rfl⟩
    · next pr prow hp =>
      obtain ⟨_, hptag, j, rfl, hj⟩ := selectTag_mem hp
      have hj' : j + 1 = g.length := by
        obtain ⟨r0, h1, h2, _⟩ := K.back hj
        exact (hlast j r0 h1).1 (by rw [← h2]; exact hptag)
      have hi' : i + 1 < g.length := by
        have h1 : i < g.length := (List.getElem?_eq_some_iff.1 hi).1
        have h2 : i + 1 ≠ g.length := fun e => hxp (htag ▸ (hlast i row hi).2 e)
        omega
      have U2 := U.keep K
      have L : ParentsLater (dbLink g2 (i + 1) (j + 1) p row.parent) ∧
          (dbLink g2 (i + 1) (j + 1) p row.parent).map GRow.tag = g2.map GRow.tag := by
        have hlen : (dbLink g2 (i + 1) (j + 1) p row.parent).length = g2.length := by
          unfold dbLink updateRow
          dsimp only
          split <;> simp
        constructor
        · intro k r' q hk hq
          rw [hlen]
          rw [dbLink_get, Option.map_eq_some_iff] at hk
          obtain ⟨r, hr, rfl⟩ := hk
          have hq' : (if k + 1 = i + 1 then some (j + 1) else r.parentRid) = some q := by
            revert hq
            dsimp only
            cases row.parent <;> dsimp only <;> split <;> split <;> simp
          split at hq'
          · next e =>
            cases hq'
            rw [K.length]; omega
          · exact U2 k r q hr hq'
        · apply List.ext_getElem?
          intro k
          rw [List.getElem?_map, dbLink_get, List.getElem?_map, Option.map_map]
          congr 1
          funext r
          simp only [Function.comp]
          cases row.parent <;> dsimp only <;> split <;> split <;> rfl
      have fin : ∀ g3, KeepsRows (dbLink g2 (i + 1) (j + 1) p row.parent) g3 →
          ParentsLater g3 ∧ g3.map GRow.tag = g.map GRow.tag := fun g3 h =>
        ⟨L.1.keep h, by rw [h.tags, L.2, K.tags]⟩
      have M := keepsRows_updateMetrics (dbLink g2 (i + 1) (j + 1) p row.parent) row.parentRid
      split
      · next g4 e4 h4 => rw [h4] at M; exact fin _ M
      · next g4 h4 =>
        rw [h4] at M
        exact fin _ ((keepsRows_updateMetrics g4 _).trans M)

/-- With a table of this form the walk of `path_to` ends. -/
theorem walkUp_ok {g : Graph τ} (U : ParentsLater g) : ∀ (f p : Nat), p ≤ g.length →
    g.length < f + p → ∃ l, dbWalkUp g f (some p) = .ok l
  | 0, p, h1, h2 => by omega
  | f + 1, p, h1, h2 => by
    unfold dbWalkUp
    split
    · exact ⟨_, rfl⟩
    · next row hr =>
      cases hq : row.parentRid with
      | none => exact ⟨[row.tag], by cases f <;> rfl⟩
      | some q =>
        cases p with
        | zero => cases hr
        | succ p =>
          obtain ⟨k1, k2⟩ := U p row q hr hq
          obtain ⟨l, hl⟩ := walkUp_ok U f q k2 (by omega)
          exact ⟨row.tag :: l, by rw [hl]⟩

theorem pathTo_ok {g : Graph τ} (U : ParentsLater g) {x : τ} (hx : x ∈ g.map GRow.tag) :
    ∃ y l, dbPathTo g x = .ok (some (y :: l)) := by
  cases hs : selectTag g x with
  | none =>
    exfalso
    unfold selectTag at hs
    split at hs
    · next h =>
      rw [List.findIdx?_eq_none_iff] at h
      obtain ⟨r, hr, e⟩ := List.mem_map.1 hx
      have := h r hr
      simp [e] at this
    · next i hi =>
      obtain ⟨hlt, _⟩ := List.findIdx?_eq_some_iff_getElem.1 hi
      rw [List.getElem?_eq_getElem hlt] at hs
      cases hs
  | some r =>
    obtain ⟨xr, row⟩ := r
    obtain ⟨_, _, i, rfl, hi⟩ := selectTag_mem hs
    obtain ⟨l, hl⟩ : ∃ l, dbWalkUp g g.length row.parentRid = .ok l := by
      cases hq : row.parentRid with
      | none => exact ⟨[], by cases g.length <;> rfl⟩
      | some q =>
        obtain ⟨k1, k2⟩ := U i row q hi hq
        exact walkUp_ok U _ _ k2 (by omega)
    simp only [dbPathTo, dbReversePathTo, hs, hl]
    cases hrev : (row.tag :: l).reverse with
    | nil => simp at hrev
    | cons y l' => exact ⟨y, l', rfl⟩

/-- A store whose dictionaries know the tags as they were passed and whose table knows them as they
were converted. -/
structure LostStore (col : τ → τ) (T : List τ) (v : Versions τ (Graph τ)) : Prop where
  heads : ∀ x ∈ v.headVersion.map Prod.fst, x ∈ T
  diffs : ∀ x ∈ v.diffs.map Prod.fst, x ∈ T
  rows : ∀ x ∈ v.tree.map GRow.tag, ∃ t ∈ T, x = col t
  known : ∀ t ∈ T, col t ∈ v.tree.map GRow.tag
  later : ParentsLater v.tree

theorem dget_none_of_not_mem {κ β : Type _} [DecidableEq κ] {d : List (κ × β)} {k : κ}
    (h : k ∉ d.map Prod.fst) : dget d k = none := by
  cases hd : dget d k with
  | none => rfl
  | some v => exact absurd (mem_keys_of_dget hd) h

theorem mem_dset_keys {κ β : Type _} [DecidableEq κ] {d : List (κ × β)} {k x : κ} {v : β}
    (h : x ∈ (dset d k v).map Prod.fst) : x ∈ d.map Prod.fst ∨ x = k := by
  rw [dset_keys] at h
  split at h
  · exact .inl h
  · simpa using h

theorem LostStore.addEdge {T : List τ} {v : Versions τ (Graph τ)} (H : LostStore col T v) {t b : τ}
    (hb : b ∈ T) (hbt : col b ≠ col t)
    (hlast : ∀ (i : Nat) (row : GRow τ), v.tree[i]? = some row →
      (row.tag = col t ↔ i + 1 = v.tree.length)) (cs : List (PatchItem UInt8)) :
    LostStore col T (addEdge (textTree col) v t b cs).1 := by
  unfold Gaspra.addEdge
  split
  · exact H
  · next d hd =>
    obtain ⟨h1, h2⟩ := changeParent_last H.later hbt hlast
    have hdf : ∀ x ∈ (dset v.diffs b d).map Prod.fst, x ∈ T := fun x hx => by
      rcases mem_dset_keys hx with h | rfl
      · exact H.diffs x h
      · exact hb
    have e : (textTree col).changeParent v.tree b t = dbChangeParent v.tree (col b) (col t) := rfl
    simp only [e]
    generalize dbChangeParent v.tree (col b) (col t) = r at h1 h2
    obtain ⟨g, err⟩ := r
    cases err with
    | some err => exact ⟨H.heads, hdf, h2 ▸ H.rows, h2 ▸ H.known, h1⟩
    | none =>
      dsimp only
      split
      · refine ⟨fun x hx => H.heads x ?_, hdf, h2 ▸ H.rows, h2 ▸ H.known, h1⟩
        exact ((ddel_sublist _ _).map _).subset hx
      · exact ⟨H.heads, hdf, h2 ▸ H.rows, h2 ▸ H.known, h1⟩

theorem LostStore.addOldHead {T : List τ} {v : Versions τ (Graph τ)} (H : LostStore col T v) {t b : τ}
    (hbt : col b ≠ col t)
    (hlast : ∀ (i : Nat) (row : GRow τ), v.tree[i]? = some row →
      (row.tag = col t ↔ i + 1 = v.tree.length)) (c : Bytes) :
    LostStore col T (addOldHead (textTree col) tk v t c b).1 := by
  unfold Gaspra.addOldHead
  split
  · exact H
  · next hv hh =>
    split
    · exact H
    · exact H.addEdge (H.heads b (mem_keys_of_dget hh)) hbt hlast _

theorem retrieve_missing (v : Versions τ (Graph τ)) (x y : τ) (l : List τ)
    (h : dget v.diffs y = none) : ∃ e, retrieveUsingPath tk v (x :: y :: l) = .error e := by
  unfold retrieveUsingPath
  dsimp only
  split
  · exact ⟨_, rfl⟩
  · next p hp =>
    cases he : tk.encode tk.init p with
    | error e => exact ⟨e, rfl⟩
    | ok r =>
      obtain ⟨enc, st⟩ := r
      refine ⟨.keyError, ?_⟩
      show (retrieveLoop tk v.diffs st enc (y :: l) >>= _) = _
      simp only [retrieveLoop, h]
      rfl

/-- One call of `add`. -/
theorem LostStore.add {T : List τ} {v : Versions τ (Graph τ)} (H : LostStore col T v) {t : τ}
    (c : Bytes) {base : Option τ} (hT : ∀ s ∈ T ++ [t], ∀ s' ∈ T ++ [t], s ≠ col s')
    (hb : base.map col ≠ some (col t)) :
    LostStore col (T ++ [t]) (versionsAdd (textTree col) tk v t c base).1 := by
  have hh : ∀ x ∈ (dset v.headVersion t c).map Prod.fst, x ∈ T ++ [t] := fun x hx => by
    rcases mem_dset_keys hx with h | rfl
    · exact List.mem_append_left _ (H.heads x h)
    · simp
  have hd : ∀ x ∈ v.diffs.map Prod.fst, x ∈ T ++ [t] := fun x hx =>
    List.mem_append_left _ (H.diffs x hx)
  have e : ∀ b, (textTree col).add v.tree t b = dbAdd v.tree (col t) (b.map col) := fun _ => rfl
  unfold versionsAdd
  simp only [e, dbAdd]
  cases hs : selectTag v.tree (col t) with
  | some r =>
    obtain ⟨r, row⟩ := r
    obtain ⟨h1, h2, _⟩ := selectTag_mem hs
    refine ⟨hh, hd, fun x hx => ?_, fun s hs => ?_, H.later⟩
    · obtain ⟨s, k1, k2⟩ := H.rows x hx
      exact ⟨s, List.mem_append_left _ k1, k2⟩
    · rcases List.mem_append.1 hs with hs | hs
      · exact H.known s hs
      · rw [List.mem_singleton] at hs
        subst hs
        exact h2 ▸ List.mem_map_of_mem h1
  | none =>
    dsimp only
    have hnew : col t ∉ v.tree.map GRow.tag := by
      intro hm
      obtain ⟨y, l, hp⟩ := pathTo_ok H.later hm
      simp [dbPathTo, dbReversePathTo, hs] at hp
    generalize hrow : GRow.mk (col t) none none none none 1 1 (base.map col) = row
    have hrt : row.tag = col t := by rw [← hrow]
    have hrp : row.parentRid = none := by rw [← hrow]
    have H1 : LostStore col (T ++ [t]) ⟨dset v.headVersion t c, v.diffs, v.tree ++ [row]⟩ := by
      refine ⟨hh, hd, fun x hx => ?_, fun s hs => ?_, fun i r p hi hp => ?_⟩
      · simp only [List.map_append, List.map_cons, List.map_nil, List.mem_append,
          List.mem_singleton] at hx
        rcases hx with hx | rfl
        · obtain ⟨s, k1, k2⟩ := H.rows x hx
          exact ⟨s, List.mem_append_left _ k1, k2⟩
        · exact ⟨t, by simp, hrt⟩
      · simp only [List.map_append, List.map_cons, List.map_nil, List.mem_append,
          List.mem_singleton] at hs ⊢
        rcases hs with hs | rfl
        · exact .inl (H.known s hs)
        · exact .inr hrt.symm
      · simp only at hi ⊢
        rw [List.getElem?_append] at hi
        split at hi
        · have := H.later i r p hi hp
          simp only [List.length_append, List.length_singleton]
          omega
        · have hr : r = row := by
            cases hk : i - v.tree.length with
            | zero => rw [hk] at hi; simpa using hi.symm
            | succ n => rw [hk] at hi; simp at hi
          rw [hr, hrp] at hp; cases hp
    have hlast : ∀ (i : Nat) (r : GRow τ), (v.tree ++ [row])[i]? = some r →
        (r.tag = col t ↔ i + 1 = (v.tree ++ [row]).length) := by
      intro i r hi
      rw [List.getElem?_append] at hi
      split at hi
      · next hlt =>
        simp only [List.length_append, List.length_singleton]
        constructor
        · intro e
          exact absurd (e ▸ List.mem_map_of_mem (List.mem_of_getElem? hi)) hnew
        · intro e; omega
      · cases hk : i - v.tree.length with
        | zero =>
          rw [hk] at hi
          have hr : r = row := by simpa using hi.symm
          subst hr
          simp only [List.length_append, List.length_singleton, hrt, true_iff]
          omega
        | succ n => rw [hk] at hi; simp at hi
    cases base with
    | none => exact H1
    | some b =>
      have hbt : col b ≠ col t := fun e => hb (by simp [e])
      dsimp only
      unfold addToHead
      have eg : ∀ g, (textTree col).getSplit g b = textGetSplit g (col b) b := fun _ => rfl
      simp only [eg]
      rcases textGetSplit_shape (v.tree ++ [row]) (col b) with ⟨e, he⟩ | ⟨ext, h1, h2⟩
      · simp only [he]; exact H1
      · simp only [h2]
        split
        · next hne =>
          cases ext with
          | nil => simp [List.getLastD] at hne
          | cons y l =>
            have hy : dget v.diffs y = none := by
              apply dget_none_of_not_mem
              intro hm
              obtain ⟨s, k1, k2⟩ := H1.rows y (h1 y List.mem_cons_self)
              exact hT y (hd y hm) s k1 k2
            obtain ⟨e, he⟩ := retrieve_missing (tk := tk)
              (⟨dset v.headVersion t c, v.diffs, v.tree ++ [row]⟩ : Versions τ (Graph τ)) b y l hy
            simp only [addSplit, he]
            exact H1
        · exact H1.addOldHead hbt hlast c

/-- No text can be read. -/
theorem LostStore.get {T : List τ} {v : Versions τ (Graph τ)} (H : LostStore col T v)
    (hT : ∀ s ∈ T, ∀ s' ∈ T, s ≠ col s') {t : τ} (ht : t ∈ T) :
    versionsGet (textTree col) tk v t = .error .keyError := by
  obtain ⟨y, l, hp⟩ := pathTo_ok H.later (H.known t ht)
  have e : (textTree col).pathTo v.tree t = .ok (some (y :: l)) := hp
  have hy : dget v.headVersion y = none := by
    apply dget_none_of_not_mem
    intro hm
    obtain ⟨s, k1, k2⟩ := H.rows y (dbPathTo_mem hp y List.mem_cons_self)
    exact hT y (H.heads y hm) s k1 k2
  simp only [versionsGet, e, retrieveUsingPath, hy]

end Gaspra
