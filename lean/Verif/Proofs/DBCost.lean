import Verif.Model.DBCost
import Verif.Proofs.VersionsStore
import Verif.Proofs.DBVersions

set_option linter.unusedSectionVars false
set_option linter.unusedSimpArgs false
set_option linter.unusedVariables false

/-! # Counting SQL statements -/

namespace Gaspra

variable {τ Tok S : Type _} [DecidableEq τ] [DecidableEq Tok] {tk : TokOps Tok S}

/-! ### Without the count the functions are the original ones -/

theorem dbMetricsLoopC_fst : ∀ (f : Nat) (g : Graph τ) (rid : Option Nat),
    (dbMetricsLoopC f g rid).1 = dbMetricsLoop f g rid
  | 0, g, none => rfl
  | _ + 1, g, none => rfl
  | 0, g, some _ => rfl
  | f + 1, g, some rid => by
    simp only [dbMetricsLoopC, dbMetricsLoop]
    cases rowAt g rid with
    | none => rfl
    | some r => exact dbMetricsLoopC_fst f _ _

theorem dbUpdateMetricsC_fst (g : Graph τ) (rid : Option Nat) :
    (dbUpdateMetricsC g rid).1 = dbUpdateMetrics g rid := by
  unfold dbUpdateMetricsC dbUpdateMetrics
  rw [← dbMetricsLoopC_fst]
  cases dbMetricsLoopC g.length g rid with
  | mk r n => cases r <;> rfl

theorem dbChangeParentC_fst (g : Graph τ) (tag p : τ) :
    (dbChangeParentC g tag p).1 = dbChangeParent g tag p := by
  unfold dbChangeParentC dbChangeParent
  cases selectTag g tag with
  | none => rfl
  | some x =>
    obtain ⟨tagRid, row⟩ := x
    dsimp only
    cases selectTag (removeIfChild1 (removeIfChild0 g row.parentRid tagRid) row.parentRid tagRid) p with
    | none => rfl
    | some y =>
      obtain ⟨newRid, _⟩ := y
      dsimp only
      rw [← dbUpdateMetricsC_fst]
      cases dbUpdateMetricsC (dbLink (removeIfChild1 (removeIfChild0 g row.parentRid tagRid)
        row.parentRid tagRid) tagRid newRid p row.parent) row.parentRid with
      | mk r n =>
        obtain ⟨g', e⟩ := r
        cases e with
        | some e => rfl
        | none => exact dbUpdateMetricsC_fst _ _

theorem dbSplitLoopC_fst (g : Graph τ) : ∀ (f depth : Nat) (tag : τ) (r : GRow τ) (path : List τ),
    (dbSplitLoopC g f depth tag r path).1 = dbSplitLoop g f depth tag r path
  | 0, depth, tag, r, path => by
    simp only [dbSplitLoopC, dbSplitLoop]
    split <;> rfl
  | f + 1, depth, tag, r, path => by
    simp only [dbSplitLoopC, dbSplitLoop]
    split
    · cases bestRow (childRows g r) with
      | none => rfl
      | some x => exact dbSplitLoopC_fst g f _ _ _ _
    · rfl

theorem dbGetSplitC_fst (g : Graph τ) (tag : τ) : (dbGetSplitC g tag).1 = dbGetSplit g tag := by
  unfold dbGetSplitC dbGetSplit
  cases selectTag g tag with
  | none => rfl
  | some x => exact dbSplitLoopC_fst g _ _ _ _ _

theorem storeRetrieveLoopC_fst (diffs : Coll τ Bytes) : ∀ (path : List τ) (st : S) (p : List Tok),
    (storeRetrieveLoopC tk diffs st p path).1 = storeRetrieveLoop (collOps τ) tk diffs st p path
  | [], st, p => rfl
  | tag :: rest, st, p => by
    simp only [storeRetrieveLoopC, storeRetrieveLoop, collOps, bind, Except.bind]
    cases collGet diffs tag with
    | error e => rfl
    | ok d =>
      dsimp only
      cases encodeItems tk st (deserializeChangeset d).1 with
      | error e => rfl
      | ok x =>
        dsimp only
        cases (deserializeChangeset d).2 with
        | some e => rfl
        | none => exact storeRetrieveLoopC_fst diffs rest _ _

theorem storeRetrieveC_fst (v : Store (Graph τ) (Coll τ Bytes)) (path : List τ) :
    (storeRetrieveC tk v path).1 = storeRetrieve (collOps τ) tk v path := by
  cases path with
  | nil => rfl
  | cons root rest =>
    simp only [storeRetrieveC, storeRetrieve, bind, Except.bind]
    rw [show (collOps τ).get v.headVersion root = collGet v.headVersion root from rfl]
    cases collGet v.headVersion root with
    | error e => rfl
    | ok b =>
      dsimp only
      cases tk.encode tk.init b with
      | error e => rfl
      | ok x =>
        dsimp only
        rw [← storeRetrieveLoopC_fst]
        cases storeRetrieveLoopC tk v.diffs x.2 x.1 rest with
        | mk r n => cases r <;> rfl

theorem storeGetC_fst (v : Store (Graph τ) (Coll τ Bytes)) (tag : τ) :
    (storeGetC tk v tag).1 = storeGet (collOps τ) (dbTree τ) tk v tag := by
  simp only [storeGetC, storeGet, bind, Except.bind]
  rw [show (dbTree τ).pathTo v.tree tag = dbPathTo v.tree tag from rfl]
  cases dbPathTo v.tree tag with
  | error e => rfl
  | ok x =>
    cases x with
    | none => rfl
    | some path =>
      cases path with
      | nil => rfl
      | cons a l =>
        dsimp only
        rw [← storeRetrieveC_fst]
        cases storeRetrieveC tk v (a :: l) with
        | mk r n => cases r <;> rfl

theorem storeAddEdgeC_fst (v : Store (Graph τ) (Coll τ Bytes)) (p c : τ)
    (cs : List (PatchItem UInt8)) :
    (storeAddEdgeC v p c cs).1 = storeAddEdge (collOps τ) (dbTree τ) v p c cs := by
  unfold storeAddEdgeC storeAddEdge
  cases serializeChangeset cs with
  | error e => rfl
  | ok d =>
    dsimp only
    rw [show (dbTree τ).changeParent v.tree c p = dbChangeParent v.tree c p from rfl,
      ← dbChangeParentC_fst]
    cases dbChangeParentC v.tree c p with
    | mk r n =>
      obtain ⟨g, e⟩ := r
      cases e with
      | some e => rfl
      | none =>
        dsimp only
        rw [show (collOps τ).contains v.headVersion c = collContains v.headVersion c from rfl]
        split <;> rfl

theorem storeAddSplitC_fst (v : Store (Graph τ) (Coll τ Bytes)) (tag : τ) (b : Bytes) (split : τ)
    (path : List τ) : (storeAddSplitC tk v tag b split path).1 =
      storeAddSplit (collOps τ) (dbTree τ) tk v tag b split path := by
  unfold storeAddSplitC storeAddSplit
  rw [← storeRetrieveC_fst]
  cases storeRetrieveC tk v path with
  | mk r n =>
    cases r with
    | error e => rfl
    | ok sv =>
      dsimp only
      cases makeChangeset tk b sv with
      | error e => rfl
      | ok cs =>
        dsimp only
        rw [← storeAddEdgeC_fst]
        cases storeAddEdgeC v tag split cs with
        | mk r n =>
          obtain ⟨v', e⟩ := r
          cases e with
          | some e => rfl
          | none =>
            show ({ v' with tree := (dbChangeParentC v'.tree split tag).1.1 },
              (dbChangeParentC v'.tree split tag).1.2) = _
            rw [dbChangeParentC_fst]
            rfl

theorem storeAddOldHeadC_fst (v : Store (Graph τ) (Coll τ Bytes)) (tag : τ) (b : Bytes) (head : τ) :
    (storeAddOldHeadC tk v tag b head).1 =
      storeAddOldHead (collOps τ) (dbTree τ) tk v tag b head := by
  unfold storeAddOldHeadC storeAddOldHead
  rw [show (collOps τ).get v.headVersion head = collGet v.headVersion head from rfl]
  cases collGet v.headVersion head with
  | error e => rfl
  | ok hv =>
    dsimp only
    cases makeChangeset tk b hv with
    | error e => rfl
    | ok cs => exact storeAddEdgeC_fst _ _ _ _

theorem storeAddC_fst (v : Store (Graph τ) (Coll τ Bytes)) (tag : τ) (b : Bytes) (base : Option τ) :
    (storeAddC tk v tag b base).1 = storeAdd (collOps τ) (dbTree τ) tk v tag b base := by
  unfold storeAddC storeAdd
  dsimp only
  rw [show (dbTree τ).add v.tree tag base = dbAdd v.tree tag base from rfl]
  cases dbAdd v.tree tag base with
  | mk tree e =>
    cases e with
    | some e => rfl
    | none =>
      dsimp only
      cases base with
      | none => rfl
      | some head =>
        dsimp only
        rw [show (dbTree τ).getSplit tree head = dbGetSplit tree head from rfl,
          ← dbGetSplitC_fst]
        cases dbGetSplitC tree head with
        | mk r n =>
          cases r with
          | error e => rfl
          | ok x =>
            obtain ⟨split, path⟩ := x
            dsimp only
            split
            · rw [← storeAddSplitC_fst]
              simp only [collOps]
              cases storeAddSplitC tk _ tag b split path with
              | mk r m =>
                obtain ⟨v', e⟩ := r
                cases e with
                | some e => rfl
                | none => exact storeAddOldHeadC_fst _ _ _ _
            · exact storeAddOldHeadC_fst _ _ _ _

theorem pair_of_fst {A B : Type _} {x : A × B} {a : A} (h : x.1 = a) : x = (a, x.2) := by
  rw [← h]

/-! ### The rows above a row -/

/-- The rowids of the parents, in the order of the rows. -/
def parentsOf (g : Graph τ) : List (Option Nat) := g.map GRow.parentRid

/-- From the given rowid upwards there are so many rows. -/
inductive UpRows (m : List (Option Nat)) : Option Nat → Nat → Prop
  | stop : UpRows m none 0
  | up {r : Nat} {q : Option Nat} {n : Nat} : m[r]? = some q → UpRows m q n →
      UpRows m (some (r + 1)) (n + 1)

theorem UpRows.det {m : List (Option Nat)} {x : Option Nat} {n : Nat} (h : UpRows m x n) :
    ∀ {k : Nat}, UpRows m x k → n = k := by
  induction h with
  | stop => intro k hk; cases hk; rfl
  | up h1 h2 ih =>
    intro k hk
    cases hk with
    | up k1 k2 =>
      rw [h1] at k1; cases k1
      rw [ih k2]

theorem updateRow_parents (g : Graph τ) (r : Nat) (f : GRow τ → GRow τ)
    (hf : ∀ r, (f r).parentRid = r.parentRid) : parentsOf (updateRow g r f) = parentsOf g := by
  unfold parentsOf
  cases r with
  | zero => rfl
  | succ i =>
    apply List.ext_getElem?
    intro j
    rw [List.getElem?_map, List.getElem?_map, getElem?_updateRow]
    split
    · cases g[j]? <;> simp [hf]
    · rfl

theorem dbMetricsLoopC_ok : ∀ (f : Nat) {g g' : Graph τ} {rid : Option Nat} {k : Nat},
    dbMetricsLoopC f g rid = (.ok g', k) → parentsOf g' = parentsOf g ∧
      g'.map GRow.tag = g.map GRow.tag ∧ ∃ n, UpRows (parentsOf g) rid n ∧ k = 2 * n
  | 0, g, g', none, k, h => by
    simp only [dbMetricsLoopC, Prod.mk.injEq, Except.ok.injEq] at h
    obtain ⟨rfl, rfl⟩ := h
    exact ⟨rfl, rfl, 0, .stop, rfl⟩
  | f + 1, g, g', none, k, h => by
    simp only [dbMetricsLoopC, Prod.mk.injEq, Except.ok.injEq] at h
    obtain ⟨rfl, rfl⟩ := h
    exact ⟨rfl, rfl, 0, .stop, rfl⟩
  | 0, g, g', some rid, k, h => by simp [dbMetricsLoopC] at h
  | f + 1, g, g', some rid, k, h => by
    simp only [dbMetricsLoopC] at h
    cases hr : rowAt g rid with
    | none => simp [hr] at h
    | some r =>
      rw [hr] at h
      simp only [Prod.mk.injEq] at h
      obtain ⟨h1, rfl⟩ := h
      obtain ⟨a1, a2, n, a3, a4⟩ := dbMetricsLoopC_ok f (pair_of_fst h1)
      rw [updateRow_parents _ _ _ (by intro _; rfl)] at a1 a3
      rw [updateRow_tags _ _ _ (by intro _; rfl)] at a2
      refine ⟨a1, a2, n + 1, ?_, by rw [a4]; omega⟩
      cases rid with
      | zero => cases hr
      | succ i =>
        refine .up ?_ a3
        have hr : g[i]? = some r := hr
        simp [parentsOf, hr]

theorem dbUpdateMetricsC_ok {g g' : Graph τ} {rid : Option Nat} {k : Nat}
    (h : dbUpdateMetricsC g rid = ((g', none), k)) : parentsOf g' = parentsOf g ∧
      g'.map GRow.tag = g.map GRow.tag ∧ ∃ n, UpRows (parentsOf g) rid n ∧ k = 2 * n := by
  unfold dbUpdateMetricsC at h
  cases hl : dbMetricsLoopC g.length g rid with
  | mk r n =>
    rw [hl] at h
    cases r with
    | error e => cases h
    | ok g1 => cases h; exact dbMetricsLoopC_ok _ hl

theorem selectTag_rid {g : Graph τ} {x : τ} {r : Nat} {row : GRow τ}
    (h : selectTag g x = some (r, row)) :
    ∃ i, r = i + 1 ∧ ridOf (g.map GRow.tag) x = some (i + 1) ∧ g[i]? = some row := by
  unfold selectTag at h
  cases hf : g.findIdx? (fun r => r.tag = x) with
  | none => rw [hf] at h; cases h
  | some i =>
    rw [hf] at h
    simp only [Option.map_eq_some_iff, Prod.mk.injEq] at h
    obtain ⟨row', h1, h2, rfl⟩ := h
    refine ⟨i, h2.symm, ?_, h1⟩
    unfold ridOf
    rw [List.findIdx?_map]
    have : ((fun y => decide (y = x)) ∘ GRow.tag) = fun r : GRow τ => decide (r.tag = x) := rfl
    rw [this, hf]; rfl

theorem removeIf_parents (g : Graph τ) (q : Option Nat) (c : Nat) :
    parentsOf (removeIfChild1 (removeIfChild0 g q c) q c) = parentsOf g ∧
    (removeIfChild1 (removeIfChild0 g q c) q c).map GRow.tag = g.map GRow.tag := by
  cases q with
  | none => exact ⟨rfl, rfl⟩
  | some p =>
    simp only [removeIfChild0, removeIfChild1]
    rw [updateRow_parents, updateRow_parents, updateRow_tags, updateRow_tags]
    · exact ⟨rfl, rfl⟩
    all_goals (intro r; split <;> rfl)

theorem dbLink_parents (g : Graph τ) (i newRid : Nat) (p : τ) (original : Option τ) :
    parentsOf (dbLink g (i + 1) newRid p original) = (parentsOf g).set i (some newRid) ∧
    (dbLink g (i + 1) newRid p original).map GRow.tag = g.map GRow.tag := by
  have h1 : parentsOf (updateRow g (i + 1) fun r =>
      { r with parent := some p, parentRid := some newRid }) = (parentsOf g).set i (some newRid) := by
    apply List.ext_getElem?
    intro j
    unfold parentsOf
    rw [List.getElem?_map, getElem?_updateRow, List.getElem?_set]
    by_cases hij : i = j
    · subst hij
      rw [if_pos rfl, if_pos rfl]
      cases hg : g[i]? with
      | none =>
        have : ¬ i < g.length := by
          intro hlt
          rw [List.getElem?_eq_getElem hlt] at hg; cases hg
        simp [this]
      | some r =>
        obtain ⟨hlt, _⟩ := List.getElem?_eq_some_iff.1 hg
        simp [hlt]
    · rw [if_neg hij, if_neg hij, List.getElem?_map]
  have h2 : (updateRow g (i + 1) fun r =>
      { r with parent := some p, parentRid := some newRid }).map GRow.tag = g.map GRow.tag :=
    updateRow_tags _ _ _ (fun _ => rfl)
  unfold dbLink
  cases original with
  | none =>
    dsimp only
    rw [updateRow_parents _ _ _ (by intro _; rfl), updateRow_tags _ _ _ (by intro _; rfl)]
    exact ⟨h1, h2⟩
  | some o =>
    dsimp only
    rw [updateRow_parents _ _ _ (by intro _; rfl), updateRow_tags _ _ _ (by intro _; rfl)]
    exact ⟨h1, h2⟩

/-- What a call of `change_parent` that succeeds does with the rowids of the parents, and how many
statements it takes. -/
theorem dbChangeParentC_ok {g g' : Graph τ} {c p : τ} {k : Nat}
    (h : dbChangeParentC g c p = ((g', none), k)) :
    ∃ i j q n m, ridOf (g.map GRow.tag) c = some (i + 1) ∧ ridOf (g.map GRow.tag) p = some (j + 1) ∧
      g'.map GRow.tag = g.map GRow.tag ∧ parentsOf g' = (parentsOf g).set i (some (j + 1)) ∧
      (parentsOf g)[i]? = some q ∧ UpRows (parentsOf g') q n ∧
      UpRows (parentsOf g') (some (j + 1)) m ∧ k = 7 + 2 * n + 2 * m := by
  unfold dbChangeParentC at h
  cases hc : selectTag g c with
  | none => rw [hc] at h; cases h
  | some x =>
    obtain ⟨rc, row⟩ := x
    obtain ⟨i, rfl, hi, hgi⟩ := selectTag_rid hc
    rw [hc] at h
    dsimp only at h
    obtain ⟨hp2, ht2⟩ := removeIf_parents g row.parentRid (i + 1)
    cases hp : selectTag (removeIfChild1 (removeIfChild0 g row.parentRid (i + 1))
        row.parentRid (i + 1)) p with
    | none => rw [hp] at h; cases h
    | some y =>
      obtain ⟨rp, rowp⟩ := y
      obtain ⟨j, rfl, hj, hgj⟩ := selectTag_rid hp
      rw [hp] at h
      dsimp only at h
      obtain ⟨hp3, ht3⟩ := dbLink_parents (removeIfChild1 (removeIfChild0 g row.parentRid (i + 1))
        row.parentRid (i + 1)) i (j + 1) p row.parent
      rw [hp2] at hp3
      rw [ht2] at ht3 hj
      cases hu : dbUpdateMetricsC (dbLink (removeIfChild1 (removeIfChild0 g row.parentRid (i + 1))
        row.parentRid (i + 1)) (i + 1) (j + 1) p row.parent) row.parentRid with
      | mk r n1 =>
        obtain ⟨g1, e⟩ := r
        rw [hu] at h
        cases e with
        | some e => cases h
        | none =>
          obtain ⟨a1, a2, n, a3, a4⟩ := dbUpdateMetricsC_ok hu
          simp only [Prod.mk.injEq] at h
          obtain ⟨h1, h2⟩ := h
          obtain ⟨b1, b2, m, b3, b4⟩ := dbUpdateMetricsC_ok
            (show dbUpdateMetricsC g1 (some (j + 1)) = ((g', none), _) from pair_of_fst h1)
          refine ⟨i, j, row.parentRid, n, m, hi, hj, by rw [b2, a2, ht3], by rw [b1, a1, hp3],
            by simp [parentsOf, hgi], ?_, ?_, ?_⟩
          · rw [b1, a1]; exact a3
          · rw [b1]; exact b3
          · rw [← h2, a4, b4]

/-! ### Reading -/

theorem dbSplitLoopC_ok (g : Graph τ) : ∀ (f depth : Nat) (tag : τ) (r : GRow τ) (path : List τ)
    {s : τ} {l : List τ} {k : Nat}, dbSplitLoopC g f depth tag r path = (.ok (s, l), k) →
    l.length = path.length + k
  | 0, depth, tag, r, path, s, l, k, h => by
    simp only [dbSplitLoopC] at h
    split at h
    · cases h
    · simp only [Prod.mk.injEq, Except.ok.injEq] at h
      obtain ⟨⟨_, rfl⟩, rfl⟩ := h
      rfl
  | f + 1, depth, tag, r, path, s, l, k, h => by
    simp only [dbSplitLoopC] at h
    split at h
    · cases hb : bestRow (childRows g r) with
      | none => rw [hb] at h; cases h
      | some x =>
        rw [hb] at h
        simp only [Prod.mk.injEq] at h
        obtain ⟨h1, rfl⟩ := h
        have := dbSplitLoopC_ok g f _ _ _ _ (pair_of_fst h1)
        rw [this]
        simp only [List.length_append, List.length_singleton]
        omega
    · simp only [Prod.mk.injEq, Except.ok.injEq] at h
      obtain ⟨⟨_, rfl⟩, rfl⟩ := h
      rfl

theorem dbGetSplitC_ok {g : Graph τ} {tag s : τ} {l : List τ} {k : Nat}
    (h : dbGetSplitC g tag = (.ok (s, l), k)) : k = l.length := by
  unfold dbGetSplitC at h
  cases hs : selectTag g tag with
  | none => rw [hs] at h; cases h
  | some x =>
    rw [hs] at h
    simp only [Prod.mk.injEq] at h
    obtain ⟨h1, rfl⟩ := h
    have := dbSplitLoopC_ok g _ _ _ _ _ (pair_of_fst h1)
    rw [this]
    simp only [List.length_singleton]
    omega

theorem storeRetrieveLoopC_ok (diffs : Coll τ Bytes) : ∀ (path : List τ) (st : S) (p : List Tok)
    {x : List Tok × S} {k : Nat}, storeRetrieveLoopC tk diffs st p path = (.ok x, k) → k = path.length
  | [], st, p, x, k, h => by
    simp only [storeRetrieveLoopC, Prod.mk.injEq] at h
    exact h.2.symm
  | tag :: rest, st, p, x, k, h => by
    simp only [storeRetrieveLoopC] at h
    split at h
    · cases h
    · split at h
      · cases h
      · split at h
        · cases h
        · simp only [Prod.mk.injEq] at h
          obtain ⟨h1, rfl⟩ := h
          have := storeRetrieveLoopC_ok diffs rest _ _ (pair_of_fst h1)
          rw [this]; rfl

theorem storeRetrieveC_ok {v : Store (Graph τ) (Coll τ Bytes)} {path : List τ} {b : Bytes} {k : Nat}
    (h : storeRetrieveC tk v path = (.ok b, k)) : k = path.length := by
  cases path with
  | nil => cases h
  | cons root rest =>
    simp only [storeRetrieveC] at h
    split at h
    · cases h
    · split at h
      · cases h
      · split at h
        · cases h
        · next hr =>
          simp only [Prod.mk.injEq] at h
          have := storeRetrieveLoopC_ok _ _ _ _ hr
          rw [← h.2, this]; rfl

theorem storeGetC_ok {v : Store (Graph τ) (Coll τ Bytes)} {tag : τ} {b : Bytes} {k : Nat}
    (h : storeGetC tk v tag = (.ok (some b), k)) :
    ∃ path, dbPathTo v.tree tag = .ok (some path) ∧ path ≠ [] ∧ k = path.length + 1 := by
  unfold storeGetC at h
  split at h
  · cases h
  · cases h
  · cases h
  · next path h1 h2 =>
    split at h
    · cases h
    · next hr =>
      simp only [Prod.mk.injEq] at h
      refine ⟨path, h2, ?_, by rw [← h.2, storeRetrieveC_ok hr]⟩
      rintro rfl
      cases hr

/-! ### Adding -/

theorem storeAddEdgeC_ok {v v' : Store (Graph τ) (Coll τ Bytes)} {p c : τ}
    {cs : List (PatchItem UInt8)} {k : Nat} (h : storeAddEdgeC v p c cs = ((v', none), k)) :
    ∃ k1, dbChangeParentC v.tree c p = ((v'.tree, none), k1) ∧
      (collContains v.headVersion c = false → v'.headVersion = v.headVersion) ∧
      k = 1 + k1 + if collContains v.headVersion c then 2 else 1 := by
  unfold storeAddEdgeC at h
  cases hd : serializeChangeset cs with
  | error e => rw [hd] at h; cases h
  | ok d =>
    rw [hd] at h
    dsimp only at h
    cases hc : dbChangeParentC v.tree c p with
    | mk r n =>
      obtain ⟨g, e⟩ := r
      rw [hc] at h
      cases e with
      | some e => cases h
      | none =>
        dsimp only at h
        cases hcc : collContains v.headVersion c with
        | true =>
          rw [hcc, if_pos rfl] at h
          simp only [Prod.mk.injEq] at h
          obtain ⟨⟨h1, h2⟩, rfl⟩ := h
          subst h1
          exact ⟨n, rfl, by simp, by simp⟩
        | false =>
          rw [hcc, if_neg (by simp)] at h
          simp only [Prod.mk.injEq] at h
          obtain ⟨⟨h1, h2⟩, rfl⟩ := h
          subst h1
          exact ⟨n, rfl, fun _ => rfl, by simp⟩

theorem storeAddOldHeadC_ok {v v' : Store (Graph τ) (Coll τ Bytes)} {tag head : τ} {b : Bytes}
    {k : Nat} (h : storeAddOldHeadC tk v tag b head = ((v', none), k)) :
    collContains v.headVersion head = true ∧
      ∃ k1, dbChangeParentC v.tree head tag = ((v'.tree, none), k1) ∧ k = 4 + k1 := by
  unfold storeAddOldHeadC at h
  cases hg : collGet v.headVersion head with
  | error e => rw [hg] at h; cases h
  | ok hv =>
    have hc : collContains v.headVersion head = true := by
      unfold collGet at hg
      unfold collContains
      split at hg
      · cases hg
      · rfl
    rw [hg] at h
    dsimp only at h
    cases hm : makeChangeset tk b hv with
    | error e => rw [hm] at h; cases h
    | ok cs =>
      rw [hm] at h
      simp only [Prod.mk.injEq] at h
      obtain ⟨h1, rfl⟩ := h
      obtain ⟨k1, a1, _, a3⟩ := storeAddEdgeC_ok (pair_of_fst h1)
      rw [hc, if_pos rfl] at a3
      exact ⟨hc, k1, a1, by omega⟩

theorem storeAddSplitC_ok {v v' : Store (Graph τ) (Coll τ Bytes)} {tag split : τ} {b : Bytes}
    {path : List τ} {k : Nat} (h : storeAddSplitC tk v tag b split path = ((v', none), k))
    (hs : collContains v.headVersion split = false) :
    v'.headVersion = v.headVersion ∧ ∃ g1 k1 k2, dbChangeParentC v.tree split tag = ((g1, none), k1) ∧
      dbChangeParentC g1 split tag = ((v'.tree, none), k2) ∧ k = path.length + 2 + k1 + k2 := by
  unfold storeAddSplitC at h
  cases hr : storeRetrieveC tk v path with
  | mk r n =>
    rw [hr] at h
    cases r with
    | error e => cases h
    | ok sv =>
      have hn := storeRetrieveC_ok hr
      dsimp only at h
      cases hm : makeChangeset tk b sv with
      | error e => rw [hm] at h; cases h
      | ok cs =>
        rw [hm] at h
        dsimp only at h
        cases ha : storeAddEdgeC v tag split cs with
        | mk r m =>
          obtain ⟨v1, e⟩ := r
          rw [ha] at h
          cases e with
          | some e => cases h
          | none =>
            obtain ⟨k1, a1, a2, a3⟩ := storeAddEdgeC_ok ha
            rw [hs, if_neg (by simp)] at a3
            simp only [Prod.mk.injEq] at h
            obtain ⟨⟨h1, h2⟩, rfl⟩ := h
            subst h1
            refine ⟨a2 hs, v1.tree, k1, (dbChangeParentC v1.tree split tag).2, a1,
              pair_of_fst (Prod.ext rfl h2), ?_⟩
            omega

/-- The rows above a node of the tree, also in a table where other rows have changed. -/
theorem Sim.upRows {t : MTree τ} {g : Graph τ} (H : Sim t g) (hn : (t.map Prod.fst).Nodup) {x : τ}
    {l : List τ} (h : UpPath t x l) : ∀ {m : List (Option Nat)},
    (∀ y ∈ l, ∀ j, ridOf (g.map GRow.tag) y = some (j + 1) → m[j]? = (parentsOf g)[j]?) →
    UpRows m (ridOf (g.map GRow.tag) x) l.length := by
  induction h with
  | @root x nd h1 h2 =>
    intro m hm
    obtain ⟨i, row, a1, a2, a3, a4⟩ := H.rowOf hn h1
    rw [← H.keys] at a3
    have hp := hm x (by simp) i a3
    rw [a3]
    refine .up (q := none) ?_ .stop
    rw [hp]
    simp [parentsOf, a1, a4.parentRid, h2]
  | @step x p nd l h1 h2 h3 ih =>
    intro m hm
    obtain ⟨i, row, a1, a2, a3, a4⟩ := H.rowOf hn h1
    have hp := hm x (by simp) i (H.keys ▸ a3)
    have := ih (m := m) (fun y hy => hm y (by simp [hy]))
    rw [H.keys] at this ⊢
    rw [a3]
    refine .up ?_ this
    rw [hp]
    simp [parentsOf, a1, a4.parentRid, h2]

theorem Sim.parentAt {t : MTree τ} {g : Graph τ} (H : Sim t g) (hn : (t.map Prod.fst).Nodup) {x : τ}
    {nd : TNode τ} (hx : dget t x = some nd) {i : Nat}
    (hi : ridOf (g.map GRow.tag) x = some (i + 1)) :
    (parentsOf g)[i]? = some (nd.parent.bind (ridOf (g.map GRow.tag))) := by
  obtain ⟨j, row, a1, a2, a3, a4⟩ := H.rowOf hn hx
  rw [← H.keys, hi] at a3
  cases a3
  simp [parentsOf, a1, a4.parentRid, H.keys]

/-- The number of statements of a call of `add` that succeeds. -/
theorem storeAddC_ok {s s' : Store (Graph τ) (Coll τ Bytes)} {t : MTree τ} (T : TreeOK t)
    (H : Sim t s.tree) {tag b : τ} {c : Bytes} {k : Nat}
    (hroots : ∀ {x nd}, dget t x = some nd → collContains s.headVersion x = true → nd.parent = none)
    (hset : ∀ {x}, x ≠ tag → collContains (collSet s.headVersion tag c) x = collContains s.headVersion x)
    (hx : dget t tag = none) (hbt : b ≠ tag)
    (h : storeAddC tk s tag c (some b) = ((s', none), k)) :
    ∃ nb, dget t b = some nb ∧ nb.parent = none ∧
      k = if nb.height / 2 = 0 then 16 else 39 + 4 * (nb.height / 2) := by
  obtain ⟨g1, e1, H1, _⟩ := H.add T.nodup T.toForest hx (some b)
  have T1 := T.add hx (some b)
  have hget : ∀ y, dget (mtAdd t tag (some b)) y =
      if tag = y then some (newNode t.length (some b)) else dget t y := dget_mtAdd _ _ _
  have htag : dget (mtAdd t tag (some b)) tag = some (newNode t.length (some b)) := by
    rw [hget, if_pos rfl]
  unfold storeAddC at h
  dsimp only at h
  rw [e1] at h
  dsimp only at h
  cases hb : dget t b with
  | none =>
    exfalso
    have hb1 : dget (mtAdd t tag (some b)) b = none := by
      rw [hget, if_neg (fun e => hbt e.symm), hb]
    have := H1.getSplit_none hb1
    rw [← dbGetSplitC_fst] at this
    cases hs : dbGetSplitC g1 b with
    | mk r n =>
      rw [hs] at h this
      simp only at this
      subst this
      simp at h
  | some nb =>
    refine ⟨nb, rfl, ?_⟩
    have hb1 : dget (mtAdd t tag (some b)) b = some nb := by
      rw [hget, if_neg (fun e => hbt e.symm), hb]
    obtain ⟨sp, path, q1, q2, q3⟩ := getSplit_spec T1 hb1
    have q4 := H1.getSplit T1 hb1
    rw [q1, ← dbGetSplitC_fst] at q4
    have q5 := pair_of_fst q4
    have q6 := dbGetSplitC_ok q5
    rw [q6] at q5
    rw [q5] at h
    dsimp only at h
    have uptag : UpPath (mtAdd t tag (some b)) tag [tag] := .root htag rfl
    by_cases hsb : sp = b
    · subst hsb
      rw [if_neg (by simp)] at h
      simp only [Prod.mk.injEq] at h
      obtain ⟨h1, rfl⟩ := h
      obtain ⟨c1, k1, c2, c3⟩ := storeAddOldHeadC_ok (pair_of_fst h1)
      dsimp only at c1 c2
      rw [hset hbt] at c1
      have hroot := hroots hb c1
      refine ⟨hroot, ?_⟩
      have u := q2.upPath T1.toForest (UpPath.root hb1 hroot)
      have hl : path.length = 1 := by
        have := congrArg List.length (u.unique (UpPath.root hb1 hroot))
        simpa using this
      obtain ⟨i, j, q, n, m, d1, d2, d3, d4, d5, d6, d7, d8⟩ := dbChangeParentC_ok c2
      have hij : i ≠ j := by
        rintro rfl
        rw [H1.keys] at d1 d2
        exact hbt (ridOf_inj T1.nodup d1 d2)
      rw [H1.parentAt T1.nodup hb1 d1, hroot] at d5
      cases d5
      have hn0 : n = 0 := (d6.det .stop)
      have hm1 : m = 1 := by
        have := H1.upRows T1.nodup uptag (m := parentsOf s'.tree) (by
          intro y hy j' hj'
          simp only [List.mem_singleton] at hy
          subst hy
          rw [d2] at hj'; cases hj'
          rw [d4, List.getElem?_set_ne hij])
        rw [d2] at this
        exact d7.det this
      rw [if_pos (by omega)]
      omega
    · rw [if_pos hsb] at h
      obtain ⟨ns, p, hns, hnp, hup⟩ : ∃ ns p, dget (mtAdd t tag (some b)) sp = some ns ∧
          ns.parent = some p ∧ ∀ {lx}, UpPath (mtAdd t tag (some b)) b lx →
            UpPath (mtAdd t tag (some b)) p (path.reverse.tail ++ lx.tail) := by
        cases q2 with
        | start => exact absurd rfl hsb
        | next k1 k2 k3 =>
          obtain ⟨nc, k4, k5⟩ := T1.down k2 k3.1
          refine ⟨nc, _, k4, k5, fun hlx => ?_⟩
          have := k1.upPath T1.toForest hlx
          simpa using this
      have hst : sp ≠ tag := by
        rintro rfl
        rw [htag] at hns; cases hns
        cases hnp
      have hsp : dget t sp = some ns := by
        rw [hget, if_neg (fun e => hst e.symm)] at hns
        exact hns
      have hsc : collContains (collSet s.headVersion tag c) sp = false := by
        rw [hset hst]
        cases hcc : collContains s.headVersion sp with
        | false => rfl
        | true =>
          have := hroots hsp hcc
          rw [hnp] at this; cases this
      cases ha : storeAddSplitC tk ⟨collSet s.headVersion tag c, s.diffs, g1⟩ tag c sp path with
      | mk r m =>
        obtain ⟨v1, e⟩ := r
        rw [ha] at h
        cases e with
        | some e => cases h
        | none =>
          simp only [Prod.mk.injEq] at h
          obtain ⟨h1, rfl⟩ := h
          obtain ⟨c1, g2, k1, k2, c2, c3, c4⟩ := storeAddSplitC_ok ha hsc
          dsimp only at c1 c2
          obtain ⟨b1, k3, b2, b3⟩ := storeAddOldHeadC_ok (pair_of_fst h1)
          rw [c1, hset hbt] at b1
          have hroot := hroots hb b1
          refine ⟨hroot, ?_⟩
          have hupb : UpPath (mtAdd t tag (some b)) b [b] := .root hb1 hroot
          have hupp := hup hupb
          obtain ⟨i, j, q, n, m, d1, d2, d3, d4, d5, d6, d7, d8⟩ := dbChangeParentC_ok c2
          obtain ⟨i', j', q', n', m', f1, f2, f3, f4, f5, f6, f7, f8⟩ := dbChangeParentC_ok c3
          obtain ⟨ib, jb, qb, nb', mb, g1', g2', g3', g4', g5', g6', g7', g8'⟩ := dbChangeParentC_ok b2
          rw [d3] at f1 f2
          rw [f3, d3] at g1' g2'
          rw [d1] at f1; cases f1
          rw [d2] at f2; cases f2
          rw [d2] at g2'; cases g2'
          have hij : i ≠ j := by
            rintro rfl
            rw [H1.keys] at d1 d2
            exact hst (ridOf_inj T1.nodup d1 d2)
          have hib : i ≠ ib := by
            rintro rfl
            rw [H1.keys] at d1 g1'
            exact hsb (ridOf_inj T1.nodup d1 g1')
          have hbj : ib ≠ j := by
            rintro rfl
            rw [H1.keys] at d2 g1'
            exact hbt (ridOf_inj T1.nodup g1' d2)
          -- rows other than that of the split keep their parents
          have keep : ∀ {x l}, UpPath (mtAdd t tag (some b)) x l → sp ∉ l →
              UpRows (parentsOf g2) (ridOf (g1.map GRow.tag) x) l.length := by
            intro x l hl hsl
            refine H1.upRows T1.nodup hl ?_
            intro y hy j2 hj2
            rw [d4, List.getElem?_set_ne]
            rintro rfl
            rw [H1.keys] at d1 hj2
            exact hsl (ridOf_inj T1.nodup d1 hj2 ▸ hy)
          have hn : n = path.length - 1 := by
            rw [H1.parentAt T1.nodup hns d1, hnp] at d5
            simp only [Option.bind_some, Option.some.injEq] at d5
            subst d5
            have := keep hupp (hupp.not_mem_parent hns hnp)
            rw [d6.det this]
            simp
          have hm : m = 1 := by
            have := keep uptag (by simpa using hst)
            rw [d2] at this
            exact d7.det this
          have hp2 : parentsOf v1.tree = parentsOf g2 := by
            rw [f4, d4, List.set_set]
          rw [hp2] at f6 f7
          have hm' : m' = 1 := by
            have := keep uptag (by simpa using hst)
            rw [d2] at this
            exact f7.det this
          have hn' : n' = 1 := by
            have hq : q' = some (j + 1) := by
              rw [d4, List.getElem?_set_self] at f5
              · exact (Option.some.inj f5).symm
              · exact (List.getElem?_eq_some_iff.1 d5).1
            subst hq
            rw [f6.det f7, hm']
          have hnb : nb' = 0 := by
            rw [hp2, d4, List.getElem?_set_ne hib, H1.parentAt T1.nodup hb1 g1', hroot] at g5'
            cases g5'
            exact g6'.det .stop
          have hmb : mb = 1 := by
            have := H1.upRows T1.nodup uptag (m := parentsOf s'.tree) (by
              intro y hy j' hj'
              simp only [List.mem_singleton] at hy
              subst hy
              rw [d2] at hj'; cases hj'
              rw [g4', List.getElem?_set_ne hbj, hp2, d4, List.getElem?_set_ne hij])
            rw [d2] at this
            exact g7'.det this
          have hpl : path.length ≠ 1 := by
            intro e
            have := q2.last
            obtain ⟨r, hr⟩ := q2.head
            subst hr
            simp at e
            subst e
            simp at this
            exact hsb this.symm
          rw [if_neg (by omega)]
          omega

end Gaspra
