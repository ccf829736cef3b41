import Verif.Spec.TagNames
import Verif.Model.DBTree

/-!
# Proofs about renaming tags
-/

set_option linter.unusedSectionVars false
set_option linter.unusedSimpArgs false
set_option linter.unusedVariables false

namespace Gaspra

variable {τ σ : Type _} [DecidableEq τ] [DecidableEq σ] {f : τ → σ}

theorem NamesApart.eq_iff (h : NamesApart f) {x y : τ} : f x = f y ↔ x = y := ⟨h x y, congrArg f⟩

/-! ### Dictionaries -/

section
variable {β γ : Type _} (h : NamesApart f) (g : β → γ)
include h

theorem dget_named : ∀ (d : List (τ × β)) (k : τ),
    dget (d.map fun p => (f p.1, g p.2)) (f k) = (dget d k).map g
  | [], _ => rfl
  | (k', v) :: d, k => by
    simp only [List.map_cons, dget, h.eq_iff]
    split
    · rfl
    · exact dget_named d k

theorem dset_named : ∀ (d : List (τ × β)) (k : τ) (v : β),
    dset (d.map fun p => (f p.1, g p.2)) (f k) (g v) = (dset d k v).map fun p => (f p.1, g p.2)
  | [], _, _ => rfl
  | (k', v') :: d, k, v => by
    simp only [List.map_cons, dset, h.eq_iff]
    split
    · rfl
    · rw [dset_named d k v]; rfl

theorem ddel_named : ∀ (d : List (τ × β)) (k : τ),
    ddel (d.map fun p => (f p.1, g p.2)) (f k) = (ddel d k).map fun p => (f p.1, g p.2)
  | [], _ => rfl
  | (k', v') :: d, k => by
    simp only [List.map_cons, ddel, h.eq_iff]
    split
    · rfl
    · rw [ddel_named d k]; rfl

theorem dmem_named (d : List (τ × β)) (k : τ) :
    dmem (d.map fun p => (f p.1, g p.2)) (f k) = dmem d k := by
  simp only [dmem, dget_named h g, Option.isSome_map]

end

section
variable {β : Type _} (h : NamesApart f)
include h

theorem dget_renameKeys (d : List (τ × β)) (k : τ) : dget (renameKeys f d) (f k) = dget d k := by
  rw [renameKeys]
  exact (dget_named h id d k).trans (by simp)

theorem dset_renameKeys (d : List (τ × β)) (k : τ) (v : β) :
    dset (renameKeys f d) (f k) v = renameKeys f (dset d k v) := dset_named h id d k v

theorem ddel_renameKeys (d : List (τ × β)) (k : τ) : ddel (renameKeys f d) (f k) = renameKeys f (ddel d k) :=
  ddel_named h id d k

theorem dmem_renameKeys (d : List (τ × β)) (k : τ) : dmem (renameKeys f d) (f k) = dmem d k := dmem_named h id d k

theorem dget_tree (t : MTree τ) (k : τ) : dget (MTree.rename f t) (f k) = (dget t k).map (TNode.rename f) :=
  dget_named h _ t k

theorem dset_tree (t : MTree τ) (k : τ) (nd : TNode τ) :
    dset (MTree.rename f t) (f k) (nd.rename f) = MTree.rename f (dset t k nd) := dset_named h _ t k nd

end

theorem rename_length (t : MTree τ) : (MTree.rename f t).length = t.length := by simp [MTree.rename]

/-! ### Trees -/

/-- A tree whose operations commute with renaming. -/
structure TreeRenames {T T' : Type _} (f : τ → σ) (o : TreeOps τ T) (o' : TreeOps σ T') (F : T → T') : Prop where
  contains : ∀ t x, o'.contains (F t) (f x) = o.contains t x
  baseVersion : ∀ t x, o'.baseVersion (F t) (f x) = (o.baseVersion t x).map (Option.map f)
  add : ∀ t x b, o'.add (F t) (f x) (b.map f) = (F (o.add t x b).1, (o.add t x b).2)
  pathTo : ∀ t x, o'.pathTo (F t) (f x) = (o.pathTo t x).map (Option.map (List.map f))
  changeParent : ∀ t x p, o'.changeParent (F t) (f x) (f p) =
    (F (o.changeParent t x p).1, (o.changeParent t x p).2)
  getSplit : ∀ t x, o'.getSplit (F t) (f x) = (o.getSplit t x).map fun r => (f r.1, r.2.map f)

section
variable (h : NamesApart f)
include h

theorem pathLoop_named (t : MTree τ) : ∀ (n : Nat) (x : Option τ) (path : List τ),
    mtPathLoop (MTree.rename f t) n (x.map f) (path.map f) =
      (mtPathLoop t n x path).map (Option.map (List.map f))
  | 0, none, path => rfl
  | n + 1, none, path => rfl
  | 0, some _, path => rfl
  | n + 1, some x, path => by
    simp only [Option.map_some, mtPathLoop, dget_tree h]
    cases dget t x with
    | none => rfl
    | some nd =>
      simp only [Option.map_some]
      rw [← pathLoop_named t n nd.parent (path ++ [x])]
      simp [TNode.rename]

theorem pathTo_named (t : MTree τ) (x : τ) :
    mtPathTo (MTree.rename f t) (f x) = (mtPathTo t x).map (Option.map (List.map f)) := by
  have := pathLoop_named h t (t.length + 1) (some x) []
  simp only [mtPathTo, rename_length]
  simp only [Option.map_some, List.map_nil] at this
  rw [this]
  cases mtPathLoop t (t.length + 1) (some x) [] with
  | error e => rfl
  | ok r => cases r with
    | none => rfl
    | some p => simp [Except.map]

theorem childAttrs_named (t : MTree τ) (attr : TNode τ → Nat) (attr' : TNode σ → Nat)
    (ha : ∀ nd, attr' (nd.rename f) = attr nd) : ∀ (cs : List τ),
    mtChildAttrs (MTree.rename f t) attr' (cs.map f) = mtChildAttrs t attr cs
  | [] => rfl
  | c :: cs => by
    have ih := childAttrs_named t attr attr' ha cs
    simp only [mtChildAttrs] at ih
    simp only [mtChildAttrs, List.map_cons, List.mapM_cons, dget_tree h, ih]
    cases dget t c with
    | none => rfl
    | some nd => simp [ha]

theorem updateMetrics_named : ∀ (n : Nat) (t : MTree τ) (x : Option τ),
    mtUpdateMetrics n (MTree.rename f t) (x.map f) =
      (MTree.rename f (mtUpdateMetrics n t x).1, (mtUpdateMetrics n t x).2)
  | 0, t, none => rfl
  | n + 1, t, none => rfl
  | 0, t, some _ => rfl
  | n + 1, t, some x => by
    simp only [Option.map_some, mtUpdateMetrics, dget_tree h]
    cases hx : dget t x with
    | none => rfl
    | some nd =>
      simp only [Option.map_some]
      rw [show (nd.rename f).children = nd.children.map f from rfl,
        childAttrs_named h t TNode.height TNode.height (fun _ => rfl),
        childAttrs_named h t TNode.size TNode.size (fun _ => rfl)]
      cases mtChildAttrs t TNode.height nd.children with
      | none => cases mtChildAttrs t TNode.size nd.children <;> rfl
      | some hs =>
        cases mtChildAttrs t TNode.size nd.children with
        | none => rfl
        | some ss =>
          simp only [List.isEmpty_map]
          rw [← updateMetrics_named n, ← dset_tree h]
          rfl

theorem detach_named (t : MTree τ) (x : τ) (p : Option τ) :
    mtDetach (MTree.rename f t) (f x) (p.map f) = (mtDetach t x p).map (MTree.rename f) := by
  cases p with
  | none => rfl
  | some p =>
    simp only [Option.map_some, mtDetach, dget_tree h]
    cases dget t p with
    | none => rfl
    | some nd =>
      have hm : f x ∈ (nd.rename f).children ↔ x ∈ nd.children := by
        simp only [TNode.rename, List.mem_map]
        exact ⟨fun ⟨y, hy, e⟩ => h _ _ e ▸ hy, fun hx => ⟨x, hx, rfl⟩⟩
      have he : (nd.children.map f).erase (f x) = (nd.children.erase x).map f := by
        induction nd.children with
        | nil => rfl
        | cons c cs ih =>
          simp only [List.map_cons, List.erase_cons, beq_iff_eq, h.eq_iff]
          split
          · rfl
          · simp [ih]
      simp only [Option.map_some]
      by_cases hx : x ∈ nd.children
      · rw [if_pos (hm.2 hx), if_pos hx, Option.map_some, ← dset_tree h]
        simp only [TNode.rename, he]
      · rw [if_neg (fun H => hx (hm.1 H)), if_neg hx, Option.map_some]

theorem attach_named (t : MTree τ) (x : τ) (p : Option τ) :
    mtAttach (MTree.rename f t) (f x) (p.map f) = (MTree.rename f (mtAttach t x p).1, (mtAttach t x p).2) := by
  cases p with
  | none => rfl
  | some p =>
    simp only [Option.map_some, mtAttach, dget_tree h]
    cases dget t p with
    | none => rfl
    | some nd =>
      simp only [Option.map_some]
      rw [show ({ nd.rename f with children := (nd.rename f).children ++ [f x] } : TNode σ) =
        TNode.rename f { nd with children := nd.children ++ [x] } by simp [TNode.rename],
        dset_tree h, rename_length]
      exact updateMetrics_named h _ _ (some p)

theorem changeParent_named (t : MTree τ) (x : τ) (p : Option τ) :
    mtChangeParent (MTree.rename f t) (f x) (p.map f) =
      (MTree.rename f (mtChangeParent t x p).1, (mtChangeParent t x p).2) := by
  simp only [mtChangeParent, dget_tree h]
  cases dget t x with
  | none => rfl
  | some nd =>
    simp only [Option.map_some]
    rw [show (nd.rename f).parent = nd.parent.map f from rfl, detach_named h]
    cases mtDetach t x nd.parent with
    | none => rfl
    | some t' =>
      simp only [Option.map_some, dget_tree h]
      have e : ({ ((dget t' x).map (TNode.rename f)).getD (nd.rename f) with parent := p.map f } : TNode σ) =
          TNode.rename f { (dget t' x).getD nd with parent := p } := by
        cases dget t' x <;> rfl
      rw [e, dset_tree h, attach_named h]
      generalize mtAttach (dset t' x { (dget t' x).getD nd with parent := p }) x p = r
      obtain ⟨t2, err⟩ := r
      cases err with
      | some e => rfl
      | none =>
        simp only [rename_length]
        exact updateMetrics_named h _ _ nd.parent

theorem childKeys_named (t : MTree τ) (cs : List τ) :
    mtChildKeys (MTree.rename f t) (cs.map f) = mtChildKeys t cs := by
  simp only [mtChildKeys]
  generalize 0 = k
  induction cs generalizing k with
  | nil => rfl
  | cons c cs ih =>
    simp only [List.map_cons, List.zipIdx_cons, List.mapM_cons, ih, dget_tree h]
    cases dget t c with
    | none => rfl
    | some nd => rfl

theorem splitLoop_named (t : MTree τ) : ∀ (n d : Nat) (x : τ) (nd : TNode τ) (path : List τ),
    mtSplitLoop (MTree.rename f t) n d (f x) (nd.rename f) (path.map f) =
      (mtSplitLoop t n d x nd path).map fun r => (f r.1, r.2.map f)
  | 0, d, x, nd, path => by
    simp only [mtSplitLoop]
    rw [show (nd.rename f).height = nd.height from rfl]
    split <;> rfl
  | n + 1, d, x, nd, path => by
    simp only [mtSplitLoop]
    rw [show (nd.rename f).height = nd.height from rfl, show (nd.rename f).children = nd.children.map f from rfl,
      childKeys_named h]
    split
    · cases mtChildKeys t nd.children with
      | none => rfl
      | some keys =>
        simp only
        cases maxTriple keys with
        | none => rfl
        | some k =>
          obtain ⟨a, b, i⟩ := k
          simp only [List.getElem?_map]
          cases nd.children[i]? with
          | none => rfl
          | some c =>
            simp only [Option.map_some, dget_tree h]
            cases dget t c with
            | none => rfl
            | some nc =>
              simp only [Option.map_some]
              rw [← splitLoop_named t n (d + 1) c nc (path ++ [c]), List.map_append]
              rfl
    · rfl

/-- `MemoryTree` commutes with renaming. -/
theorem memoryTree_renames : TreeRenames f (memoryTree τ) (memoryTree σ) (MTree.rename f) where
  contains t x := by
    simp only [memoryTree, mtContains, dmem, dget_tree h, Option.isSome_map]
  baseVersion t x := by
    simp only [memoryTree, mtBaseVersion, dget_tree h]
    cases dget t x <;> rfl
  add t x b := by
    simp only [memoryTree, mtAdd, rename_length, ← dset_tree h]
    rfl
  pathTo := pathTo_named h
  changeParent t x p := changeParent_named h t x (some p)
  getSplit t x := by
    simp only [memoryTree, mtGetSplit, dget_tree h]
    cases dget t x with
    | none => rfl
    | some nd =>
      simp only [Option.map_some]
      rw [show (MTree.rename f t).map (fun x => x.2.height) = t.map fun x => x.2.height by
        simp [MTree.rename, TNode.rename]]
      exact splitLoop_named h t _ 1 x nd [x]

end

/-! ### Tables -/

theorem graph_length (g : Graph τ) : (Graph.rename f g).length = g.length := by simp [Graph.rename]

theorem rowAt_named (g : Graph τ) (r : Nat) : rowAt (Graph.rename f g) r = (rowAt g r).map (GRow.rename f) := by
  cases r with
  | zero => rfl
  | succ r => simp [rowAt, Graph.rename]

theorem updateRow_named (g : Graph τ) (r : Nat) (u : GRow τ → GRow τ) (u' : GRow σ → GRow σ)
    (hu : ∀ row, u' (row.rename f) = (u row).rename f) :
    updateRow (Graph.rename f g) r u' = Graph.rename f (updateRow g r u) := by
  cases r with
  | zero => rfl
  | succ r =>
    simp only [updateRow, Graph.rename]
    apply List.ext_getElem?
    intro i
    simp only [List.getElem?_modify, List.getElem?_map, Option.map_map]
    cases g[i]? with
    | none => rfl
    | some row =>
      simp only [Option.map_some, Function.comp_apply, Option.some.injEq]
      split <;> simp_all

section
variable (h : NamesApart f)
include h

theorem selectTag_named (g : Graph τ) (x : τ) :
    selectTag (Graph.rename f g) (f x) = (selectTag g x).map fun r => (r.1, r.2.rename f) := by
  have e : (Graph.rename f g).findIdx? (fun r => decide (r.tag = f x)) =
      g.findIdx? (fun r => decide (r.tag = x)) := by
    rw [Graph.rename, List.findIdx?_map]
    congr 1
    funext r
    simp [GRow.rename, h.eq_iff]
  simp only [selectTag]
  rw [e]
  cases g.findIdx? (fun r => decide (r.tag = x)) with
  | none => rfl
  | some i =>
    simp only [Graph.rename, List.getElem?_map, Option.map_map]
    rfl

theorem walkUp_named (g : Graph τ) : ∀ (n : Nat) (r : Option Nat),
    dbWalkUp (Graph.rename f g) n r = (dbWalkUp g n r).map (List.map f)
  | 0, none => rfl
  | n + 1, none => rfl
  | 0, some _ => rfl
  | n + 1, some r => by
    simp only [dbWalkUp, rowAt_named]
    cases rowAt g r with
    | none => rfl
    | some row =>
      simp only [Option.map_some]
      rw [show (row.rename f).parentRid = row.parentRid from rfl, walkUp_named g n]
      cases dbWalkUp g n row.parentRid <;> rfl

theorem childRows_named (g : Graph τ) (row : GRow τ) :
    childRows (Graph.rename f g) (row.rename f) = (childRows g row).map fun r => (r.1, r.2.rename f) := by
  obtain ⟨tag, parent, prid, c0, c1, height, size, base⟩ := row
  simp only [childRows, GRow.rename]
  cases c0 with
  | none =>
    cases c1 with
    | none => rfl
    | some b =>
      simp only [List.filterMap_cons, rowAt_named]
      cases rowAt g b <;> rfl
  | some a =>
    cases c1 with
    | none =>
      simp only [List.filterMap_cons, rowAt_named]
      cases rowAt g a <;> rfl
    | some b =>
      simp only [List.filterMap_cons, rowAt_named]
      cases rowAt g a <;> cases rowAt g b <;> rfl

theorem metricsLoop_named : ∀ (n : Nat) (g : Graph τ) (r : Option Nat),
    dbMetricsLoop n (Graph.rename f g) r = (dbMetricsLoop n g r).map (Graph.rename f)
  | 0, g, none => rfl
  | n + 1, g, none => rfl
  | 0, g, some _ => rfl
  | n + 1, g, some r => by
    simp only [dbMetricsLoop, rowAt_named]
    cases rowAt g r with
    | none => rfl
    | some row =>
      simp only [Option.map_some, childRows_named h]
      rw [show (row.rename f).parentRid = row.parentRid from rfl, ← metricsLoop_named n]
      congr 1
      rw [List.map_map, List.map_map]
      exact updateRow_named _ _ _ _ fun _ => rfl

theorem dbUpdateMetrics_named (g : Graph τ) (r : Option Nat) :
    dbUpdateMetrics (Graph.rename f g) r = (Graph.rename f (dbUpdateMetrics g r).1, (dbUpdateMetrics g r).2) := by
  simp only [dbUpdateMetrics, graph_length, metricsLoop_named h]
  cases dbMetricsLoop g.length g r <;> rfl

theorem removeIfChild0_named (g : Graph τ) (p : Option Nat) (r : Nat) :
    removeIfChild0 (Graph.rename f g) p r = Graph.rename f (removeIfChild0 g p r) := by
  cases p with
  | none => rfl
  | some p =>
    refine updateRow_named _ _ _ _ fun row => ?_
    rw [show (row.rename f).child0 = row.child0 from rfl]
    split <;> rfl

theorem removeIfChild1_named (g : Graph τ) (p : Option Nat) (r : Nat) :
    removeIfChild1 (Graph.rename f g) p r = Graph.rename f (removeIfChild1 g p r) := by
  cases p with
  | none => rfl
  | some p =>
    refine updateRow_named _ _ _ _ fun row => ?_
    rw [show (row.rename f).child1 = row.child1 from rfl]
    split <;> rfl

theorem dbLink_named (g : Graph τ) (r n : Nat) (p : τ) (o : Option τ) :
    dbLink (Graph.rename f g) r n (f p) (o.map f) = Graph.rename f (dbLink g r n p o) := by
  cases o with
  | none =>
    simp only [dbLink, Option.map_none]
    rw [updateRow_named g r (fun row => { row with parent := some p, parentRid := some n }) _ fun _ => rfl]
    exact updateRow_named _ _ _ _ fun _ => rfl
  | some o =>
    simp only [dbLink, Option.map_some]
    rw [updateRow_named g r (fun row => { row with parent := some p, parentRid := some n }) _ fun _ => rfl]
    exact updateRow_named _ _ _ _ fun _ => rfl

theorem dbChangeParent_named (g : Graph τ) (x p : τ) :
    dbChangeParent (Graph.rename f g) (f x) (f p) =
      (Graph.rename f (dbChangeParent g x p).1, (dbChangeParent g x p).2) := by
  simp only [dbChangeParent, selectTag_named h]
  cases selectTag g x with
  | none => rfl
  | some r =>
    obtain ⟨rid, row⟩ := r
    simp only [Option.map_some]
    rw [show (row.rename f).parentRid = row.parentRid from rfl, removeIfChild0_named h, removeIfChild1_named h,
      selectTag_named h]
    cases selectTag (removeIfChild1 (removeIfChild0 g row.parentRid rid) row.parentRid rid) p with
    | none => rfl
    | some r2 =>
      obtain ⟨nrid, nrow⟩ := r2
      simp only [Option.map_some]
      rw [show (row.rename f).parent = row.parent.map f from rfl, dbLink_named h, dbUpdateMetrics_named h]
      generalize dbUpdateMetrics (dbLink _ rid nrid p row.parent) row.parentRid = r
      obtain ⟨g2, err⟩ := r
      cases err with
      | some e => rfl
      | none => exact dbUpdateMetrics_named h _ _

theorem bestRow_named : ∀ (l : List (Nat × GRow τ)),
    bestRow (l.map fun r => (r.1, r.2.rename f)) = (bestRow l).map fun r => (r.1, r.2.rename f)
  | [] => rfl
  | x :: l => by
    simp only [List.map_cons, bestRow, bestRow_named l]
    cases bestRow l with
    | none => rfl
    | some y =>
      simp only [Option.map_some]
      rw [show (y.2.rename f).height = y.2.height from rfl, show (x.2.rename f).height = x.2.height from rfl]
      split <;> rfl

theorem dbSplitLoop_named (g : Graph τ) : ∀ (n d : Nat) (x : τ) (row : GRow τ) (path : List τ),
    dbSplitLoop (Graph.rename f g) n d (f x) (row.rename f) (path.map f) =
      (dbSplitLoop g n d x row path).map fun r => (f r.1, r.2.map f)
  | 0, d, x, row, path => by
    simp only [dbSplitLoop]
    rw [show (row.rename f).height = row.height from rfl]
    split <;> rfl
  | n + 1, d, x, row, path => by
    simp only [dbSplitLoop, childRows_named h, bestRow_named h]
    rw [show (row.rename f).height = row.height from rfl]
    split
    · cases bestRow (childRows g row) with
      | none => rfl
      | some r =>
        obtain ⟨rid, r⟩ := r
        simp only [Option.map_some]
        rw [← dbSplitLoop_named g n (d + 1) r.tag r (path ++ [r.tag]), List.map_append]
        rfl
    · rfl

/-- `DBTree` commutes with renaming. -/
theorem dbTree_renames : TreeRenames f (dbTree τ) (dbTree σ) (Graph.rename f) where
  contains g x := by simp only [dbTree, dbContains, selectTag_named h, Option.isSome_map]
  baseVersion g x := by
    simp only [dbTree, dbBaseVersion, selectTag_named h]
    cases selectTag g x <;> rfl
  add g x b := by
    simp only [dbTree, dbAdd, selectTag_named h]
    cases selectTag g x with
    | none => simp [Graph.rename, GRow.rename]
    | some r => rfl
  pathTo g x := by
    simp only [dbTree, dbPathTo, dbReversePathTo, selectTag_named h, graph_length]
    cases selectTag g x with
    | none => rfl
    | some r =>
      obtain ⟨rid, row⟩ := r
      simp only [Option.map_some]
      rw [show (row.rename f).parentRid = row.parentRid from rfl, walkUp_named h]
      cases dbWalkUp g g.length row.parentRid with
      | error e => rfl
      | ok l => simp [Except.map, GRow.rename]
  changeParent := dbChangeParent_named h
  getSplit g x := by
    simp only [dbTree, dbGetSplit, selectTag_named h]
    cases selectTag g x with
    | none => rfl
    | some r =>
      obtain ⟨rid, row⟩ := r
      simp only [Option.map_some]
      rw [show (Graph.rename f g).map GRow.height = g.map GRow.height by simp [Graph.rename, GRow.rename]]
      exact dbSplitLoop_named h g _ 1 x row [x]

end

/-! ### Stores -/

section
variable {T T' Tok S : Type _} [DecidableEq Tok] {o : TreeOps τ T} {o' : TreeOps σ T'} {F : T → T'}
variable (tk : TokOps Tok S) (h : NamesApart f) (R : TreeRenames f o o' F)
include h

theorem retrieveLoop_named (d : List (τ × Bytes)) : ∀ (path : List τ) (st : S) (toks : List Tok),
    retrieveLoop tk (renameKeys f d) st toks (path.map f) = retrieveLoop tk d st toks path
  | [], _, _ => rfl
  | x :: path, st, toks => by
    simp only [List.map_cons, retrieveLoop, dget_renameKeys h]
    cases dget d x with
    | none => rfl
    | some b =>
      simp only
      cases encodeItems tk st (deserializeChangeset b).1 with
      | error e => rfl
      | ok r =>
        simp only [bind, Except.bind]
        cases (deserializeChangeset b).2 with
        | some e => rfl
        | none => exact retrieveLoop_named d path _ _

theorem retrieve_named (v : Versions τ T) (path : List τ) :
    retrieveUsingPath tk (v.rename f F) (path.map f) = retrieveUsingPath tk v path := by
  cases path with
  | nil => rfl
  | cons x path =>
    simp only [List.map_cons, retrieveUsingPath, Versions.rename, dget_renameKeys h, retrieveLoop_named tk h]

include R

theorem get_named (v : Versions τ T) (x : τ) :
    versionsGet o' tk (v.rename f F) (f x) = versionsGet o tk v x := by
  simp only [versionsGet]
  rw [show (v.rename f F).tree = F v.tree from rfl, R.pathTo]
  cases o.pathTo v.tree x with
  | error e => rfl
  | ok p =>
    cases p with
    | none => rfl
    | some p =>
      cases p with
      | nil => rfl
      | cons y p =>
        simp only [Except.map, Option.map_some, List.map_cons]
        rw [show f y :: p.map f = (y :: p).map f from rfl, retrieve_named tk h]

theorem info_named (v : Versions τ T) (x : τ) :
    versionInfo o' (v.rename f F) (f x) = (versionInfo o v x).map (Option.map (VersionInfo.rename f)) := by
  simp only [versionInfo, Versions.rename, dget_renameKeys h, R.baseVersion]
  cases dget v.diffs x with
  | some d =>
    simp only
    generalize deserializeChangeset d = r
    obtain ⟨items, err⟩ := r
    cases err with
    | some e => rfl
    | none => cases o.baseVersion v.tree x <;> rfl
  | none =>
    simp only
    cases dget v.headVersion x with
    | none => rfl
    | some hv => cases o.baseVersion v.tree x <;> rfl

theorem addEdge_named (v : Versions τ T) (p x : τ) (cs : List (PatchItem UInt8)) :
    addEdge o' (v.rename f F) (f p) (f x) cs =
      ((addEdge o v p x cs).1.rename f F, (addEdge o v p x cs).2) := by
  simp only [addEdge]
  cases serializeChangeset cs with
  | error e => rfl
  | ok d =>
    simp only [Versions.rename, dset_renameKeys h, R.changeParent, dmem_renameKeys h, ddel_renameKeys h]
    generalize o.changeParent v.tree x p = r
    obtain ⟨t, err⟩ := r
    cases err with
    | some e => rfl
    | none =>
      simp only
      split <;> rfl

theorem addSplit_named (v : Versions τ T) (x : τ) (c : Bytes) (s : τ) (path : List τ) :
    addSplit o' tk (v.rename f F) (f x) c (f s) (path.map f) =
      ((addSplit o tk v x c s path).1.rename f F, (addSplit o tk v x c s path).2) := by
  simp only [addSplit, retrieve_named tk h]
  cases retrieveUsingPath tk v path with
  | error e => rfl
  | ok sv =>
    simp only
    cases makeChangeset tk c sv with
    | error e => rfl
    | ok cs =>
      simp only [addEdge_named h R]
      generalize addEdge o v x s cs = r
      obtain ⟨v2, err⟩ := r
      cases err with
      | some e => rfl
      | none => simp only [Versions.rename, R.changeParent]

theorem addOldHead_named (v : Versions τ T) (x : τ) (c : Bytes) (b : τ) :
    addOldHead o' tk (v.rename f F) (f x) c (f b) =
      ((addOldHead o tk v x c b).1.rename f F, (addOldHead o tk v x c b).2) := by
  simp only [addOldHead]
  rw [show (v.rename f F).headVersion = renameKeys f v.headVersion from rfl, dget_renameKeys h]
  cases dget v.headVersion b with
  | none => rfl
  | some hv =>
    simp only
    cases makeChangeset tk c hv with
    | error e => rfl
    | ok cs => exact addEdge_named h R v x b cs

theorem addToHead_named (v : Versions τ T) (x : τ) (c : Bytes) (b : τ) :
    addToHead o' tk (v.rename f F) (f x) c (f b) =
      ((addToHead o tk v x c b).1.rename f F, (addToHead o tk v x c b).2) := by
  simp only [addToHead]
  rw [show (v.rename f F).tree = F v.tree from rfl, R.getSplit]
  cases o.getSplit v.tree b with
  | error e => rfl
  | ok r =>
    obtain ⟨s, path⟩ := r
    simp only [Except.map, ne_eq, h.eq_iff, addSplit_named tk h R, addOldHead_named tk h R]
    split
    · generalize addSplit o tk v x c s path = r
      obtain ⟨v2, err⟩ := r
      cases err with
      | some e => rfl
      | none => exact addOldHead_named tk h R v2 x c b
    · rfl

theorem add_named (v : Versions τ T) (x : τ) (c : Bytes) (b : Option τ) :
    versionsAdd o' tk (v.rename f F) (f x) c (b.map f) =
      ((versionsAdd o tk v x c b).1.rename f F, (versionsAdd o tk v x c b).2) := by
  simp only [versionsAdd, Versions.rename, dset_renameKeys h, R.add]
  generalize o.add v.tree x b = r
  obtain ⟨t, err⟩ := r
  cases err with
  | some e => rfl
  | none =>
    cases b with
    | none => rfl
    | some b => exact addToHead_named tk h R ⟨dset v.headVersion x c, v.diffs, t⟩ x c b

theorem run_named : ∀ (l : List (AddOp τ)) (v : Versions τ T),
    runHistory o' tk (v.rename f F) (l.map (AddOp.rename f)) = (runHistory o tk v l).rename f F ∧
    runErrors o' tk (v.rename f F) (l.map (AddOp.rename f)) = runErrors o tk v l
  | [], _ => ⟨rfl, rfl⟩
  | a :: l, v => by
    have e := add_named tk h R v a.tag a.content a.base
    have ih := run_named l (versionsAdd o tk v a.tag a.content a.base).1
    simp only [List.map_cons, runHistory, List.foldl_cons, runErrors, AddOp.rename, e] at ih ⊢
    exact ⟨ih.1, by rw [ih.2]⟩

end

end Gaspra
