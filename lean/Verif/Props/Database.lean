import Verif.Props.Store
import Verif.Proofs.Database

/-!
# C92: stores that share a database
-/

namespace Gaspra

variable {τ Tok S : Type _} [DecidableEq τ] [DecidableEq Tok]

/-! ### Opening stores -/

/-- The stores are made one after the other in one database. -/
def openStores (db : Database τ) (stores : List StoreNames) : Database τ := stores.foldl openStore db

theorem tableOf_openStore (db : Database τ) (m : StoreNames) (name : PyStr) :
    tableOf (openStore db m) name =
      if tableKey m.diffs = tableKey name ∨ tableKey m.heads = tableKey name then []
      else tableOf db name := by
  have h1 : tableOf (openStore db m) name =
      tableOf (⟨[], dset (dset db.tables (tableKey m.heads) []) (tableKey m.diffs) []⟩ : Database τ)
        name := rfl
  rw [h1, tableOf_dset ⟨[], dset db.tables (tableKey m.heads) []⟩, tableOf_dset db]
  by_cases e : tableKey m.diffs = tableKey name <;> by_cases e' : tableKey m.heads = tableKey name <;>
    simp [e, e']

theorem openStores_empty : ∀ (stores : List StoreNames) (db : Database τ) (n : StoreNames),
    (n ∈ stores ∨ (tableOf db n.heads = [] ∧ tableOf db n.diffs = [])) →
    tableOf (openStores db stores) n.heads = [] ∧ tableOf (openStores db stores) n.diffs = []
  | [], db, n, h => by simpa [openStores] using h
  | m :: stores, db, n, h => by
    refine openStores_empty stores (openStore db m) n ?_
    rw [tableOf_openStore, tableOf_openStore]
    rcases h with h | ⟨h1, h2⟩
    · rcases List.mem_cons.1 h with rfl | h
      · right; simp
      · exact Or.inl h
    · right
      rw [h1, h2]
      simp

theorem openStores_graph : ∀ (stores : List StoreNames) (db : Database τ),
    (stores ≠ [] ∨ db.graph = []) → (openStores db stores).graph = []
  | [], db, h => by simpa [openStores] using h
  | m :: stores, db, _ => openStores_graph stores (openStore db m) (Or.inr rfl)

theorem FreshHistory.baseNe {h : List (AddOp τ)} (F : FreshHistory h) :
    ∀ a ∈ h, a.base ≠ some a.tag := by
  induction F with
  | nil => intro a ha; cases ha
  | @snoc h a F h1 h2 ih =>
    intro o ho
    rcases List.mem_append.1 ho with ho | ho
    · exact ih o ho
    · simp at ho; exact ho ▸ h2

theorem OwnPart.empty {P : τ → Prop} : OwnPart P [] [] [] (emptyVersions τ) where
  side := StoreSide.empty
  same := SamePart.empty
  alone := StoreSide.empty
  outside := fun _ _ => ⟨rfl, rfl⟩
  nodup := by simp

theorem sharedRun_open (tk : TokOps Tok S) (db : Database τ) {stores : List StoreNames}
    (HT : OwnTables stores) {calls : List (StoreCall τ)} (hm : ∀ c ∈ calls, c.1 ∈ stores)
    (F : FreshHistory (calls.map Prod.snd)) (HO : OwnTags calls) {n : StoreNames} (hn : n ∈ stores) :
    ∃ t, Sim t (sharedRun tk (openStores db stores) calls).1.graph ∧
      t.map Prod.fst = addedTags (calls.map Prod.snd) ∧
      OwnPart (OnlyUsedBy calls n) t
        (tableOf (sharedRun tk (openStores db stores) calls).1 n.heads)
        (tableOf (sharedRun tk (openStores db stores) calls).1 n.diffs)
        (runHistory (memoryTree τ) tk (emptyVersions τ) (callsTo n calls)) ∧
      Joint (runHistory (memoryTree τ) tk (emptyVersions τ) (callsTo n calls))
        (runHistory (dbTree τ) tk (emptyDBVersions τ) (callsTo n calls)) ∧
      resultsTo n calls (sharedRun tk (openStores db stores) calls).2 =
        runErrors (dbTree τ) tk (emptyDBVersions τ) (callsTo n calls) := by
  have hg : (openStores db stores).graph = [] :=
    openStores_graph stores db (Or.inl (by rintro rfl; cases hn))
  obtain ⟨t, h1, h2, h3⟩ := sharedRun_spec (tk := tk) HT (Q := OnlyUsedBy calls) calls
    (openStores db stores) [] (fun _ => emptyVersions τ) (fun _ => emptyDBVersions τ)
    (by rw [hg]; exact Joint.empty.sim)
    (by
      intro m hm
      obtain ⟨e1, e2⟩ := openStores_empty stores db m (Or.inl hm)
      rw [e1, e2]
      exact ⟨OwnPart.empty, Joint.empty⟩)
    (by
      intro c hc
      refine ⟨hm c hc, F.baseNe _ (List.mem_map_of_mem hc), rfl, fun m => ⟨?_, ?_⟩⟩
      · rintro rfl; exact HO c hc
      · intro hne
        exact ⟨fun h => hne (h c hc (Or.inl rfl)), fun b hb h => hne (h c hc (Or.inr hb))⟩)
    F.nodup
  obtain ⟨h4, h5, h6⟩ := h3 n hn
  exact ⟨t, h1, by simpa using h2, h4, h5, h6⟩

/-! ### C92 -/

/-- C92.  Stores with tables of their own are made in one database, whatever it held before.  Then
`add` is called on them in any order, with new tags, no tag being used with two stores.  Every call
ends as it would if its store were the only one (also when it fails), and so do `get` and `in` for
every tag that is not used with another store. -/
theorem C92_apart (tk : TokOps Tok S) (db : Database τ) {stores : List StoreNames}
    (HT : OwnTables stores) {calls : List (StoreCall τ)} (hm : ∀ c ∈ calls, c.1 ∈ stores)
    (F : FreshHistory (calls.map Prod.snd)) (HO : OwnTags calls) {n : StoreNames} (hn : n ∈ stores) :
    let after := sharedRun tk (openStores db stores) calls
    let alone := runStore (collOps τ) (dbTree τ) tk (emptyDBStore τ) (callsTo n calls)
    resultsTo n calls after.2 =
      storeErrors (collOps τ) (dbTree τ) tk (emptyDBStore τ) (callsTo n calls) ∧
    ∀ x, OnlyUsedBy calls n x →
      sharedGet tk after.1 n x = storeGet (collOps τ) (dbTree τ) tk alone x ∧
      sharedContains after.1 n x = storeContains (dbTree τ) alone x := by
  dsimp only
  obtain ⟨t, H, _, O, J, hr⟩ := sharedRun_open tk db HT hm F HO hn
  obtain ⟨c1, c2⟩ := C69_collections (dbTree τ) tk [] (callsTo n calls)
  refine ⟨hr.trans c1.symm, fun x hx => ?_⟩
  obtain ⟨c3, c4⟩ := c2 x
  have J' := O.joint H
  constructor
  · refine (collOps_like.storeGet (ops := dbTree τ) (tk := tk)
      (O.like (g := (sharedRun tk (openStores db stores) calls).1.graph)) x).trans ?_
    refine (J'.get x).trans ?_
    exact ((O.same.get (tk := tk) O.side hx).symm.trans (J.get x).symm).trans c3.symm
  · refine Eq.trans ?_ c4.symm
    refine (J'.contains x).trans ?_
    exact (O.same.contains hx).symm.trans (J.contains x).symm

/-- C92.  If the calls to every single store are a documented history, every store returns every
version that was added to it. -/
theorem C92_exact (db : Database τ) {stores : List StoreNames}
    (HT : OwnTables stores) {calls : List (StoreCall τ)} (hm : ∀ c ∈ calls, c.1 ∈ stores)
    (F : FreshHistory (calls.map Prod.snd)) (HO : OwnTags calls)
    (G : ∀ n ∈ stores, GoodHistory (callsTo n calls)) (hc : ContentsFit (calls.map Prod.snd)) :
    ∀ c ∈ calls, sharedGet nullTok (sharedRun nullTok (openStores db stores) calls).1 c.1 c.2.tag =
      .ok (some c.2.content) := by
  intro c hcm
  have hmem : ∀ a, a ∈ callsTo c.1 calls → a ∈ calls.map Prod.snd := by
    intro a ha
    obtain ⟨z, h1, h2⟩ := List.mem_map.1 ha
    exact List.mem_map.2 ⟨z, (List.mem_filter.1 h1).1, h2⟩
  rw [((C92_apart nullTok db HT hm F HO (hm c hcm)).2 _ (HO c hcm).1).1]
  exact C69_db_exact (G _ (hm c hcm)) (fun a ha => hc a (hmem a ha)) c.2
    (List.mem_map.2 ⟨c, List.mem_filter.2 ⟨hcm, by simp⟩, rfl⟩)

theorem UpPath.outside {t t' : MTree τ} {P : τ → Prop} (Q : PartTree P t t') (T : TreeOK t) {x : τ}
    {l : List τ} (h : UpPath t x l) (hx : ¬ P x) : ∀ z ∈ l, ¬ P z := by
  have Q' := Q.outside T
  exact (Q'.upPath h hx).2

/-- C92.  A tag of another store is `in` the store, but `get` raises `KeyError`. -/
theorem C92_foreign (tk : TokOps Tok S) (db : Database τ) {stores : List StoreNames}
    (HT : OwnTables stores) {calls : List (StoreCall τ)} (hm : ∀ c ∈ calls, c.1 ∈ stores)
    (F : FreshHistory (calls.map Prod.snd)) (HO : OwnTags calls) {n : StoreNames} (hn : n ∈ stores)
    {c : StoreCall τ} (hc : c ∈ calls) (hne : c.1 ≠ n) :
    sharedContains (sharedRun tk (openStores db stores) calls).1 n c.2.tag = true ∧
    sharedGet tk (sharedRun tk (openStores db stores) calls).1 n c.2.tag = .error .keyError := by
  obtain ⟨t, H, hk, O, J, hr⟩ := sharedRun_open tk db HT hm F HO hn
  have J' := O.joint H
  obtain ⟨nd, hnd⟩ := dget_isSome_iff.2 (hk ▸ List.mem_map_of_mem (f := AddOp.tag)
    (List.mem_map_of_mem (f := Prod.snd) hc) : c.2.tag ∈ t.map Prod.fst)
  obtain ⟨l, hl⟩ := O.side.tree.acyc hnd
  have hout : ¬ OnlyUsedBy calls n c.2.tag := fun h => hne (h c hc (Or.inl rfl))
  constructor
  · refine (J'.contains c.2.tag).trans ?_
    simp only [versionsContains, memoryTree, mtContains, dmem]
    rw [hnd]; rfl
  · refine (collOps_like.storeGet (ops := dbTree τ) (tk := tk)
      (O.like (g := (sharedRun tk (openStores db stores) calls).1.graph)) c.2.tag).trans ?_
    refine (J'.get c.2.tag).trans ?_
    have e1 : (memoryTree τ).pathTo t c.2.tag = .ok (some l.reverse) := pathTo_spec hl
    unfold versionsGet
    dsimp only
    rw [e1]
    have hz := UpPath.outside O.same.tree O.side.tree hl hout
    cases hr : l.reverse with
    | nil =>
      obtain ⟨r, e⟩ := hl.head
      rw [e] at hr
      simp at hr
    | cons z r =>
      have : z ∈ l := by
        have : z ∈ l.reverse := by rw [hr]; simp
        simpa using this
      dsimp only
      simp only [retrieveUsingPath, (O.outside z (hz z this)).1]

/-- C92.  When any store (or only a `DBTree`) is made, every store of the database loses everything:
`get` returns `None`, `in` is false, and a version based on an earlier one cannot be added.  The
tables of the other stores still hold the data. -/
theorem C92_lost (tk : TokOps Tok S) (db : Database τ) (m n : StoreNames) (x : τ) :
    sharedGet tk (openStore db m) n x = .ok none ∧
    sharedContains (openStore db m) n x = false ∧
    (∀ tag content, tag ≠ x →
      (sharedAdd tk (openStore db m) n tag content (some x)).2 = some .typeError) ∧
    (OwnTables [m, n] → tableOf (openStore db m) n.heads = tableOf db n.heads ∧
      tableOf (openStore db m) n.diffs = tableOf db n.diffs) := by
  refine ⟨rfl, rfl, fun tag content hne => ?_, fun H => ?_⟩
  · have e : ∀ s : Store (Graph τ) (Coll τ Bytes), s.tree = [] →
        (storeAdd (collOps τ) (dbTree τ) tk s tag content (some x)).2 = some .typeError := by
      intro s hs
      obtain ⟨row, hrow, k1⟩ : ∃ row : GRow τ, row.tag = tag ∧
          (dbTree τ).add s.tree tag (some x) = ([row], none) := by
        rw [hs]; exact ⟨_, rfl, rfl⟩
      have k2 : (dbTree τ).getSplit [row] x = .error .typeError := by
        simp [dbTree, dbGetSplit, selectTag, List.findIdx?_cons, hrow, hne]
      simp only [storeAdd, k1, k2]
    exact e _ rfl
  · have hne : m ≠ n := by
      rintro rfl
      have := H.nodup
      simp at this
    obtain ⟨⟨h1, h2⟩, h3, h4⟩ := H.other (n := m) (m := n) (by simp) (by simp) hne
    rw [tableOf_openStore, tableOf_openStore]
    exact ⟨if_neg (by simp [h1, h3]), if_neg (by simp [h2, h4])⟩

theorem viewStore_open (db : Database τ) (n : StoreNames) :
    viewStore (openStore db n) n = emptyDBStore τ := by
  unfold viewStore
  rw [tableOf_openStore, tableOf_openStore, if_pos (Or.inr rfl), if_pos (Or.inl rfl)]
  rfl

/-- C92.  Nothing survives that a store is made again, for instance by the next process: it then
behaves as a store in a new database, whatever this one held, in every sequence of calls. -/
theorem C92_restart (tk : TokOps Tok S) (db : Database τ) {n : StoreNames}
    (hn : ¬ SameTable n.heads n.diffs) (h : List (AddOp τ)) :
    let after := sharedRun tk (openStore db n) (h.map fun a => (n, a))
    after.2 = storeErrors (collOps τ) (dbTree τ) tk (emptyDBStore τ) h ∧
    viewStore after.1 n = runStore (collOps τ) (dbTree τ) tk (emptyDBStore τ) h := by
  dsimp only
  rw [← viewStore_open db n]
  generalize openStore db n = db'
  induction h generalizing db' with
  | nil => exact ⟨rfl, rfl⟩
  | cons a h ih =>
    obtain ⟨i1, i2⟩ := ih (sharedAdd tk db' n a.tag a.content a.base).1
    rw [viewStore_own db' (fun e => hn (sameTable_iff.2 e))] at i1 i2
    refine ⟨?_, i2⟩
    show _ :: _ = _ :: _
    rw [i1]; rfl

/-- C92.  A tag that any store has used cannot be added to another one: `IntegrityError`.  But the
content has then been written: if the version under the tag is a head, the store returns the content
of the refused call. -/
theorem C92_taken (tk : TokOps Tok S) (db : Database τ) {n : StoreNames} (m : StoreNames)
    {a : AddOp τ} (hx : sharedContains db m a.tag = true) :
    (sharedAdd tk db n a.tag a.content a.base).2 = some .integrityError ∧
    (sharedAdd tk db n a.tag a.content a.base).1.graph = db.graph ∧
    (¬ SameTable n.heads n.diffs → dbPathTo db.graph a.tag = .ok (some [a.tag]) →
      sharedGet nullTok (sharedAdd tk db n a.tag a.content a.base).1 n a.tag =
        .ok (some a.content)) := by
  have hs : ∃ r, selectTag db.graph a.tag = some r := Option.isSome_iff_exists.1 hx
  obtain ⟨r, hr⟩ := hs
  have k : (dbTree τ).add (viewStore db n).tree a.tag a.base = (db.graph, some .integrityError) := by
    simp only [dbTree, dbAdd, viewStore, hr]
  have ks : storeAdd (collOps τ) (dbTree τ) tk (viewStore db n) a.tag a.content a.base =
      (⟨collSet (tableOf db n.heads) a.tag a.content, tableOf db n.diffs, db.graph⟩,
        some .integrityError) := by
    simp only [storeAdd, k]
    rfl
  refine ⟨by unfold sharedAdd; rw [ks], by unfold sharedAdd; rw [ks], fun hn hp => ?_⟩
  unfold sharedGet
  rw [viewStore_own db (fun e => hn (sameTable_iff.2 e)), ks]
  have hp' : (dbTree τ).pathTo db.graph a.tag = .ok (some [a.tag]) := hp
  have hg : (collOps τ).get (collSet (tableOf db n.heads) a.tag a.content) a.tag = .ok a.content := by
    show collGet _ _ = _
    unfold collSet
    split
    · next h =>
      rw [collGet_eq]
      obtain ⟨z, h1, h2⟩ := List.any_eq_true.1 h
      have h2 : z.1 = a.tag := by simpa using h2
      clear hr k ks hp hp' h
      generalize tableOf db n.heads = rows at h1
      induction rows with
      | nil => cases h1
      | cons y rows ih =>
        rw [List.map_cons]
        by_cases e : y.1 = a.tag
        · simp [e, dget, orKeyError]
        · rw [if_neg e]
          obtain ⟨y1, y2⟩ := y
          simp only [dget, if_neg e]
          rcases List.mem_cons.1 h1 with h | h
          · subst h; exact absurd h2 e
          · exact ih h
    · next h =>
      unfold collGet
      rw [List.filter_append]
      have : (tableOf db n.heads).filter (fun r => decide (r.1 = a.tag)) = [] := by
        rw [List.filter_eq_nil_iff]
        intro z hz hz'
        exact h (List.any_eq_true.2 ⟨z, hz, hz'⟩)
      rw [this]
      simp
  simp only [storeGet, hp', storeRetrieve, hg, bind, Except.bind, storeRetrieveLoop, pure,
    Except.pure]
  rfl

omit [DecidableEq τ] in
/-- C92.  Names that differ only in the case of ASCII letters are one table: making the second
collection empties the first.  Otherwise it does not touch the first. -/
theorem C92_case (db : Database τ) (name name' : PyStr) :
    (SameTable name name' →
      tableOf db name = tableOf db name' ∧ tableOf (openColl db name') name = []) ∧
    (¬ SameTable name name' → tableOf (openColl db name') name = tableOf db name) := by
  rw [sameTable_iff]
  unfold tableOf openColl
  dsimp only
  rw [dget_dset]
  refine ⟨fun h => ?_, fun h => ?_⟩
  · rw [h, if_pos rfl]
    exact ⟨rfl, rfl⟩
  · rw [if_neg (fun e => h e.symm)]

/-! ### Examples -/

/-- Two stores with the tables `a`, `b` and `c`, `d`. -/
def storeAB : StoreNames := ⟨[97], [98]⟩
def storeCD : StoreNames := ⟨[99], [100]⟩

/-- A database that is not empty, and two lines of versions that grow in turn. -/
def usedDatabase : Database Nat :=
  (sharedRun nullTok ⟨[], []⟩ [(storeAB, ⟨0, [7], none⟩), (storeCD, ⟨1, [8], none⟩)]).1

def twoStores : List (StoreCall Nat) :=
  [(storeAB, ⟨0, [1, 2, 3, 4], none⟩), (storeCD, ⟨10, [5, 6, 7], none⟩),
   (storeAB, ⟨1, [1, 2, 4], some 0⟩), (storeCD, ⟨11, [5, 7], some 10⟩),
   (storeCD, ⟨12, [5], some 10⟩), (storeAB, ⟨2, [1, 2], some 1⟩)]

example : OwnTables [storeAB, storeCD] := by decide
example : FreshHistory (twoStores.map Prod.snd) :=
  (((((FreshHistory.nil.snoc (a := ⟨0, [1, 2, 3, 4], none⟩) (by decide) (by decide)).snoc
    (a := ⟨10, [5, 6, 7], none⟩) (by decide) (by decide)).snoc
    (a := ⟨1, [1, 2, 4], some 0⟩) (by decide) (by decide)).snoc
    (a := ⟨11, [5, 7], some 10⟩) (by decide) (by decide)).snoc
    (a := ⟨12, [5], some 10⟩) (by decide) (by decide)).snoc
    (a := ⟨2, [1, 2], some 1⟩) (by decide) (by decide)
example : OwnTags twoStores := by
  simp only [OwnTags, OnlyUsedBy, twoStores]; decide
-- The fifth call fails, as it would if the other store did not exist.
example : (sharedRun nullTok (openStores usedDatabase [storeAB, storeCD]) twoStores).2 =
    [none, none, none, none, some .keyError, none] := by decide +kernel
example : storeErrors (collOps Nat) (dbTree Nat) nullTok (emptyDBStore Nat) (callsTo storeCD twoStores) =
    [none, none, some .keyError] := by decide +kernel
example : [0, 1, 2].map (sharedGet nullTok
      (sharedRun nullTok (openStores usedDatabase [storeAB, storeCD]) twoStores).1 storeAB) =
    [.ok (some [1, 2, 3, 4]), .ok (some [1, 2, 4]), .ok (some [1, 2])] := by decide +kernel
example : [10, 11, 0, 5].map (sharedGet nullTok
      (sharedRun nullTok (openStores usedDatabase [storeAB, storeCD]) twoStores).1 storeCD) =
    [.ok (some [5, 6, 7]), .ok (some [5, 7]), .error .keyError, .ok none] := by decide +kernel
-- Making the second store only after the first version empties the tree of the first.
example : let db1 := (sharedRun nullTok (openStore usedDatabase storeAB) [(storeAB, ⟨0, [1], none⟩)]).1
    sharedGet nullTok db1 storeAB 0 = .ok (some [1]) ∧
    sharedGet nullTok (openStore db1 storeCD) storeAB 0 = .ok none ∧
    tableOf (openStore db1 storeCD) storeAB.heads = [(0, [1])] := by decide +kernel
-- A refused version is returned afterwards, by the store that refused it only.
example :
    let r := sharedRun nullTok (openStores usedDatabase [storeAB, storeCD])
      [(storeAB, ⟨0, [1], none⟩), (storeCD, ⟨0, [2], none⟩)]
    r.2 = [none, some .integrityError] ∧ sharedGet nullTok r.1 storeAB 0 = .ok (some [1]) ∧
    sharedGet nullTok r.1 storeCD 0 = .ok (some [2]) := by decide +kernel
-- `Heads` and `heads`.
example : SameTable [72, 101, 97, 100, 115] [104, 101, 97, 100, 115] := by decide
example : ¬ SameTable [72, 91] [104, 123] := by decide

end Gaspra
