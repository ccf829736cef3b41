import Verif.Props.Versions
import Verif.Proofs.DBVersions
import Verif.Proofs.DBCollection

set_option linter.unusedSectionVars false
set_option linter.unusedVariables false

/-!
# C36, C37, C56, C57: the SQL implementations of the tree and of the collections

The theorems of C36 hold for any tokenizer, also for one that raises, and for contents of any
length: whatever happens to a call over `MemoryTree` happens to it over `DBTree`.
-/

namespace Gaspra

variable {τ Tok S : Type _} [DecidableEq τ] [DecidableEq Tok]

/-- The store after a history, over `DBTree`. -/
abbrev dbStoreAfter (tk : TokOps Tok S) (h : List (AddOp τ)) : Versions τ (Graph τ) :=
  runHistory (dbTree τ) tk (emptyDBVersions τ) h

/-- The store after a history, over `MemoryTree`, with any tokenizer. -/
abbrev memStoreAfter (tk : TokOps Tok S) (h : List (AddOp τ)) : Versions τ (MTree τ) :=
  runHistory (memoryTree τ) tk (emptyVersions τ) h

/-- C35.  The order number of a node, by which `get_split` decides between children of equal height,
is the position of its tag among the tags in the order of their addition. -/
theorem C35_order (tk : TokOps Tok S) {h : List (AddOp τ)} (F : FreshHistory h) {x : τ} {nd : TNode τ}
    (hx : dget (memStoreAfter tk h).tree x = some nd) : (addedTags h)[nd.orderId]? = some x := by
  obtain ⟨J, hk⟩ := F.joint (tk := tk)
  have hn : ((memStoreAfter tk h).tree.map Prod.fst).Nodup := by rw [hk]; exact F.nodup
  obtain ⟨i, row, h1, h2, h3, h4⟩ := J.sim.rowOf hn hx
  have := J.sim.tagAt h1
  rw [hk] at this
  rw [h4.order, this, h2]

example : (memStoreAfter nullTok sampleHistory).tree.map (fun p => (p.1, p.2.orderId)) =
    [(0, 0), (1, 1), (2, 2), (10, 3), (3, 4), (4, 5)] := by decide +kernel

/-- C36.  After any history the two stores hold the same full versions and the same deltas and
answer `get`, `version_info` and `in` alike for every tag. -/
theorem C36_same_answers (tk : TokOps Tok S) {h : List (AddOp τ)} (F : FreshHistory h) :
    (dbStoreAfter tk h).headVersion = (memStoreAfter tk h).headVersion ∧
    (dbStoreAfter tk h).diffs = (memStoreAfter tk h).diffs ∧
    ∀ x, versionsGet (dbTree τ) tk (dbStoreAfter tk h) x =
        versionsGet (memoryTree τ) tk (memStoreAfter tk h) x ∧
      versionInfo (dbTree τ) (dbStoreAfter tk h) x =
        versionInfo (memoryTree τ) (memStoreAfter tk h) x ∧
      versionsContains (dbTree τ) (dbStoreAfter tk h) x =
        versionsContains (memoryTree τ) (memStoreAfter tk h) x := by
  obtain ⟨J, _⟩ := F.joint (tk := tk)
  exact ⟨J.heads, J.diffs, fun x => ⟨J.get x, J.info x, J.contains x⟩⟩

/-- C36.  A call of `add` raises over one tree iff it raises over the other.  The exceptions are
the same except for an unknown base, where `MemoryTree` gives a `KeyError` and `DBTree` a
`TypeError`. -/
theorem C36_same_errors (tk : TokOps Tok S) {h : List (AddOp τ)} {a : AddOp τ}
    (F : FreshHistory (h ++ [a])) :
    (versionsAdd (dbTree τ) tk (dbStoreAfter tk h) a.tag a.content a.base).2 =
      (if ∃ b, a.base = some b ∧ b ∉ addedTags h then some .typeError
       else (versionsAdd (memoryTree τ) tk (memStoreAfter tk h) a.tag a.content a.base).2) ∧
    ((∃ b, a.base = some b ∧ b ∉ addedTags h) →
      (versionsAdd (memoryTree τ) tk (memStoreAfter tk h) a.tag a.content a.base).2 =
        some .keyError) := by
  obtain ⟨F', ht, hb⟩ : FreshHistory h ∧ a.tag ∉ addedTags h ∧ a.base ≠ some a.tag := by
    generalize hh : h ++ [a] = l at F
    cases F with
    | nil => simp at hh
    | @snoc h' a' F1 F2 F3 =>
      obtain ⟨e1, e2⟩ := List.append_inj' hh rfl
      cases e2
      subst e1
      exact ⟨F1, F2, F3⟩
  obtain ⟨J, hk⟩ := F'.joint (tk := tk)
  have known : ∀ x, dget (memStoreAfter tk h).tree x = none ↔ x ∉ addedTags h := by
    intro x
    rw [← hk, ← dget_isSome_iff]
    cases dget (memStoreAfter tk h).tree x <;> simp
  obtain ⟨_, _, h3, h4⟩ := J.add (tk := tk) ((known _).2 ht) a.content a.base hb
  constructor
  · split
    · next e =>
      obtain ⟨b, e1, e2⟩ := e
      exact (h3 b e1 ((known b).2 e2)).2
    · next e =>
      refine h4 fun b hb' hbk => e ⟨b, hb', (known b).1 hbk⟩
  · rintro ⟨b, e1, e2⟩
    exact (h3 b e1 ((known b).2 e2)).1

/-- C36.  The trees themselves answer alike: `path_to`, `get_split` and `base_version` agree on
every known tag.  On an unknown one `MemoryTree` returns `None` or raises a `KeyError`, `DBTree`
returns `()` or raises a `TypeError`. -/
theorem C36_same_tree (tk : TokOps Tok S) {h : List (AddOp τ)} (F : FreshHistory h) (x : τ) :
    (x ∈ addedTags h →
      dbPathTo (dbStoreAfter tk h).tree x = mtPathTo (memStoreAfter tk h).tree x ∧
      dbGetSplit (dbStoreAfter tk h).tree x = mtGetSplit (memStoreAfter tk h).tree x ∧
      dbBaseVersion (dbStoreAfter tk h).tree x = mtBaseVersion (memStoreAfter tk h).tree x) ∧
    (x ∉ addedTags h →
      dbPathTo (dbStoreAfter tk h).tree x = .ok (some []) ∧
      mtPathTo (memStoreAfter tk h).tree x = .ok none ∧
      dbGetSplit (dbStoreAfter tk h).tree x = .error .typeError ∧
      mtGetSplit (memStoreAfter tk h).tree x = .error .keyError ∧
      dbBaseVersion (dbStoreAfter tk h).tree x = .error .typeError ∧
      mtBaseVersion (memStoreAfter tk h).tree x = .error .keyError) := by
  obtain ⟨J, hk⟩ := F.joint (tk := tk)
  constructor
  · intro hx
    rw [← hk] at hx
    obtain ⟨nd, hnd⟩ := dget_isSome_iff.2 hx
    obtain ⟨l, hl⟩ := J.tree.acyc hnd
    refine ⟨?_, J.sim.getSplit J.tree hnd, ?_⟩
    · exact (J.sim.pathTo J.tree.nodup hl).trans (pathTo_spec hl).symm
    · rw [show mtBaseVersion (memStoreAfter tk h).tree x = .ok nd.baseVersion by
        simp only [mtBaseVersion, hnd]]
      exact J.sim.base J.tree.nodup hnd
  · intro hx
    have hnd : dget (memStoreAfter tk h).tree x = none := by
      cases hh : dget (memStoreAfter tk h).tree x with
      | none => rfl
      | some nd => exact absurd (hk ▸ mem_keys_of_dget hh) hx
    refine ⟨J.sim.pathTo_none hnd, pathTo_none hnd, J.sim.getSplit_none hnd, ?_, ?_, ?_⟩
    · simp only [mtGetSplit, hnd]
    · simp only [dbBaseVersion, J.sim.select_none hnd]
    · simp only [mtBaseVersion, hnd]

/-- The tags in the two slots of a row. -/
def childTags (g : Graph τ) (r : GRow τ) : List τ :=
  (r.child0.toList ++ r.child1.toList).filterMap fun rid => (rowAt g rid).map GRow.tag

/-- C36.  The rows of the table are the nodes of the `MemoryTree` in order of insertion, with the
same parents, children, heights, sizes and base versions. -/
theorem C36_same_rows (tk : TokOps Tok S) {h : List (AddOp τ)} (F : FreshHistory h) :
    (dbStoreAfter tk h).tree.map GRow.tag = (memStoreAfter tk h).tree.map Prod.fst ∧
    ∀ r ∈ (dbStoreAfter tk h).tree, ∃ nd, dget (memStoreAfter tk h).tree r.tag = some nd ∧
      r.parent = nd.parent ∧ (childTags (dbStoreAfter tk h).tree r).Perm nd.children ∧
      r.height = nd.height ∧ r.size = nd.size ∧ r.baseVersion = nd.baseVersion := by
  obtain ⟨J, hk⟩ := F.joint (tk := tk)
  refine ⟨J.sim.keys, ?_⟩
  intro r hr
  obtain ⟨i, hi⟩ := List.getElem?_of_mem hr
  obtain ⟨nd, h1, h2⟩ := J.sim.node hi
  refine ⟨nd, h1, h2.parent, ?_, h2.height, h2.size, h2.base⟩
  unfold childTags
  refine (h2.slots.filterMap _).trans ?_
  rw [List.filterMap_filterMap]
  have : ∀ c ∈ nd.children, ((ridOf ((memStoreAfter tk h).tree.map Prod.fst) c).bind fun rid =>
      (rowAt (dbStoreAfter tk h).tree rid).map GRow.tag) = some c := by
    intro c hc
    obtain ⟨nc, c1, _⟩ := J.tree.down h1 hc
    obtain ⟨j, row, d1, d2, d3, _⟩ := J.sim.rowOf J.tree.nodup c1
    show ((ridOf ((runHistory (memoryTree τ) tk (emptyVersions τ) h).tree.map Prod.fst) c).bind _) = _
    rw [d3]
    show Option.map GRow.tag ((runHistory (dbTree τ) tk (emptyDBVersions τ) h).tree[j]?) = _
    rw [d1, ← d2]; rfl
  have key : ∀ (l : List τ) (f : τ → Option τ), (∀ c ∈ l, f c = some c) → l.filterMap f = l := by
    intro l f hf
    induction l with
    | nil => rfl
    | cons c l ih => rw [List.filterMap_cons, hf c (by simp), ih (fun d hd => hf d (by simp [hd]))]
  rw [key _ _ this]

/-- C36.  In particular a store over `DBTree` returns every version of a documented history
exactly. -/
theorem C36_db_exact {h : List (AddOp τ)} (G : GoodHistory h) (hc : ContentsFit h) :
    ∀ a ∈ h, versionsGet (dbTree τ) nullTok (dbStoreAfter nullTok h) a.tag = .ok (some a.content) := by
  intro a ha
  rw [((C36_same_answers nullTok G.fresh).2.2 a.tag).1]
  exact (C27_get_exact G hc).2 a ha

example : versionsGet (dbTree Nat) nullTok (dbStoreAfter nullTok sampleHistory) 0 =
    .ok (some [1, 2, 3]) := C36_db_exact sampleHistory_good sampleHistory_fit ⟨0, [1, 2, 3], none⟩
    (by simp [sampleHistory])

example : (dbStoreAfter nullTok sampleHistory).tree.map
      (fun r => (r.tag, r.parent, r.child0, r.child1, r.height, r.size)) =
    [(0, some 2, none, none, 1, 1), (1, some 3, none, none, 1, 1), (2, some 4, none, some 1, 2, 2),
     (10, none, none, none, 1, 1), (3, some 4, none, some 2, 2, 2), (4, none, some 5, some 3, 3, 5)] := by
  decide +kernel

/-- C37.  After any sequence of assignments and deletions a `DBCollection` answers like the finite
map built by the same sequence. -/
theorem C37_collection {β : Type _} (ops : List (CollOp τ β)) :
    (∀ k, collGet (collAfter ops) k = orKeyError (mapAfter ops k)) ∧
    (∀ k, collContains (collAfter ops) k = (mapAfter ops k).isSome) ∧
    (∀ k, (collDel (collAfter ops) k).2 =
      (if (mapAfter ops k).isSome then none else some .keyError)) ∧
    (∀ tags, CollIter (collAfter ops) tags →
      tags.Nodup ∧ (∀ k, k ∈ tags ↔ (mapAfter ops k).isSome) ∧
      collLen (collAfter ops) = tags.length) := by
  obtain ⟨hn, hm⟩ := collAfter_spec ops
  refine ⟨?_, ?_, ?_, ?_⟩
  · intro k; rw [collGet_eq, hm]
  · intro k; rw [collContains_eq]; unfold dmem; rw [hm]
  · intro k; rw [collDel_eq hn]; unfold dmem; rw [hm]
  · intro tags ht
    refine ⟨ht.nodup_iff.2 hn, fun k => ?_, ?_⟩
    · rw [ht.mem_iff, ← dget_isSome_iff, ← hm]
      cases dget (collAfter ops) k <;> simp
    · rw [ht.length_eq]; simp [collLen]

/-- C37.  The methods of `DBCollection` are those of the dictionary that the model of `Versions`
uses for `head_version` and `diffs`. -/
theorem C37_same_as_dict {β : Type _} {rows : Coll τ β} (hn : (rows.map Prod.fst).Nodup) (k : τ)
    (v : β) :
    (collGet rows k).toOption = dget rows k ∧ collSet rows k v = dset rows k v ∧
    collDel rows k = (ddel rows k, if dmem rows k then none else some .keyError) ∧
    collContains rows k = dmem rows k := by
  refine ⟨?_, collSet_eq hn k v, collDel_eq hn k, collContains_eq rows k⟩
  rw [collGet_eq]
  cases dget rows k <;> rfl

example : collAfter [.set 1 10, .set 2 20, .del 3, .set 1 11, .del 2, .set 2 (22 : Nat)] =
    [(1, 11), (2, 22)] := by decide +kernel

/-! ### C56: two heads under one node -/

/-- Run `add` for the given tags and then `change_parent` for the given pairs. -/
def buildTree {T : Type _} (ops : TreeOps τ T) (t : T) (tags : List τ) (moves : List (τ × τ)) : T :=
  moves.foldl (fun t m => (ops.changeParent t m.1 m.2).1)
    (tags.foldl (fun t x => (ops.add t x none).1) t)

/-- C56.  `DBTree` has one slot for children that had no parent before.  When a second such node
is moved under the same parent the first one is forgotten: here 1 (with its child 0) and then 2
are moved under 3.  `MemoryTree` knows both children of 3, `DBTree` only 2, although the row of 1
still names 3 as its parent; height, size and split of 3 are wrong. -/
theorem C56_slot_overwritten :
    let mt := buildTree (memoryTree Nat) [] [0, 1, 2, 3] [(0, 1), (1, 3), (2, 3)]
    let db := buildTree (dbTree Nat) [] [0, 1, 2, 3] [(0, 1), (1, 3), (2, 3)]
    (dget mt 3).map (fun n => (n.children, n.height, n.size)) = some ([1, 2], 3, 4) ∧
    db[3]?.map (fun r => (r.child0, r.child1, r.height, r.size)) = some (some 3, none, 2, 2) ∧
    db[1]?.map (fun r => (r.tag, r.parent)) = some (1, some 3) ∧
    (mtGetSplit mt 3).toOption = some (1, [3, 1]) ∧
    (dbGetSplit db 3).toOption = some (2, [3, 2]) := by
  decide +kernel

/-! ### C57: adding a tag again -/

/-- C57.  Adding a known tag again over `DBTree` raises `IntegrityError`, but only after the stored
full version has been replaced; deltas and tree are unchanged. -/
theorem C57_readd_db (tk : TokOps Tok S) {h : List (AddOp τ)} (F : FreshHistory h) {a : AddOp τ}
    (ha : a.tag ∈ addedTags h) :
    versionsAdd (dbTree τ) tk (dbStoreAfter tk h) a.tag a.content a.base =
      ({ dbStoreAfter tk h with
          headVersion := dset (dbStoreAfter tk h).headVersion a.tag a.content },
        some .integrityError) := by
  obtain ⟨J, hk⟩ := F.joint (tk := tk)
  rw [← hk] at ha
  obtain ⟨nd, hnd⟩ := dget_isSome_iff.2 ha
  obtain ⟨i, row, h1, _⟩ := J.sim.select J.tree.nodup hnd
  have : (dbTree τ).add (dbStoreAfter tk h).tree a.tag a.base =
      ((dbStoreAfter tk h).tree, some .integrityError) := by
    simp only [dbTree, dbAdd, h1]
  simp only [versionsAdd, this]

/-- C57.  Over `MemoryTree` adding a known tag again without a base succeeds and makes the tag a
root with the new content. -/
theorem C57_readd_memory {h : List (AddOp τ)} {a : AddOp τ} (hb : a.base = none) :
    (versionsAdd (memoryTree τ) nullTok (storeAfter h) a.tag a.content a.base).2 = none ∧
    versionsGet (memoryTree τ) nullTok
      (versionsAdd (memoryTree τ) nullTok (storeAfter h) a.tag a.content a.base).1 a.tag =
        .ok (some a.content) := by
  rw [hb, add_none]
  refine ⟨rfl, ?_⟩
  have hd : dget (mtAdd (storeAfter h).tree a.tag none) a.tag =
      some (newNode (storeAfter h).tree.length none) := by rw [dget_mtAdd, if_pos rfl]
  have hp : (memoryTree τ).pathTo (withRoot (storeAfter h) a.tag a.content none).tree a.tag =
      .ok (some [a.tag]) := pathTo_spec (.root hd rfl)
  have hr : retrieveUsingPath nullTok (withRoot (storeAfter h) a.tag a.content none) [a.tag] =
      .ok a.content := by
    have : dget (withRoot (storeAfter h) a.tag a.content none).headVersion a.tag = some a.content := by
      simp only [withRoot]; rw [dget_dset, if_pos rfl]
    simp only [retrieveUsingPath, this]
    rfl
  unfold versionsGet
  rw [hp]
  simp only [hr]

/-- C57.  Either way the versions stored as deltas to the replaced one are lost: version 0, a delta
to version 1, is not what was added any more. -/
theorem C57_readd_corrupts :
    let h : List (AddOp Nat) := [⟨0, [1, 2, 3], none⟩, ⟨1, [1, 2, 3, 4], some 0⟩, ⟨1, [9, 9, 9, 9], none⟩]
    runErrors (memoryTree Nat) nullTok (emptyVersions Nat) h = [none, none, none] ∧
    runErrors (dbTree Nat) nullTok (emptyDBVersions Nat) h = [none, none, some .integrityError] ∧
    (versionsGet (memoryTree Nat) nullTok (storeAfter h) 0).toOption = some (some [9, 9, 9]) ∧
    (versionsGet (dbTree Nat) nullTok (dbStoreAfter nullTok h) 0).toOption = some (some [9, 9, 9]) ∧
    (versionsGet (dbTree Nat) nullTok (dbStoreAfter nullTok h) 1).toOption =
      some (some [9, 9, 9, 9]) := by
  decide +kernel

end Gaspra
