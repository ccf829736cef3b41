import Verif.Proofs.RevisionTree

/-!
# `insert` of `revision_tree.py` on binary trees (used by C79)
-/

set_option linter.unusedSectionVars false
set_option linter.unusedSimpArgs false
set_option linter.unusedVariables false

namespace Gaspra

variable {τ : Type _} [DecidableEq τ]

/-- What is hung below the new root on the right, and what is left of the old tree. -/
def insBT (x : τ) (t : BT τ) : BT τ :=
  match descend 1 t [] with
  | (s, []) => .node x t .nil
  | (s, f :: fs) => .node x (plug (f :: fs) .nil) s

theorem Rep.setParent {idx : RIndex τ} {p : Option τ} {y : τ} {l r : BT τ} {nd : RNode τ} (q : Option τ)
    (h : Rep idx p (.node y l r)) (hn : (BT.node y l r).tags.Nodup) (hy : dget idx y = some nd) :
    Rep (dset idx y { nd with parent := q }) q (.node y l r) := by
  obtain ⟨⟨nd', h1, h2, h3, h4, h5⟩, hl, hr⟩ := h
  rw [hy] at h1
  cases h1
  have hn' := (List.nodup_cons.1 hn).1
  refine ⟨⟨{ nd with parent := q }, dget_dset_self _ _ _, h2, h3, rfl, h5⟩, ?_, ?_⟩
  · exact hl.congr fun z hz => dget_dset_ne _ _ fun e => by subst e; exact hn' (by simp [hz])
  · exact hr.congr fun z hz => dget_dset_ne _ _ fun e => by subst e; exact hn' (by simp [hz])

theorem Rep.reparent {idx : RIndex τ} {p : Option τ} {t : BT τ} (x : τ) (h : Rep idx p t)
    (hn : t.tags.Nodup) : ∃ idx', rSetParent idx x t.top = some idx' ∧ Rep idx' (some x) t ∧
      idx'.map Prod.fst = idx.map Prod.fst ∧ ∀ z, z ∉ t.tags → dget idx' z = dget idx z := by
  cases t with
  | nil => exact ⟨idx, rfl, trivial, rfl, fun _ _ => rfl⟩
  | node y l r =>
    obtain ⟨nd, h1, _⟩ := h.1
    refine ⟨dset idx y { nd with parent := some x }, ?_, h.setParent _ hn h1, dset_keys_of_some h1, ?_⟩
    · simp [rSetParent, BT.top, h1]
    · intro z hz
      exact dget_dset_ne _ _ fun e => hz (by simp [BT.tags, e])

theorem attachLeft {idx : RIndex τ} {x : τ} {nd : RNode τ} {l r : BT τ} {q : Option τ}
    (hx : dget idx x = some nd) (hp : nd.parent = none) (hr : nd.right = r.top)
    (Rr : Rep idx (some x) r) (Rl : Rep idx q l) (hn : (BT.node x l r).tags.Nodup) :
    ∃ idx', rSetLeft idx x l.top = some (idx', 1) ∧ Rep idx' none (.node x l r) ∧
      idx'.map Prod.fst = idx.map Prod.fst ∧
      ∀ z, z ≠ x → z ∉ l.tags → dget idx' z = dget idx z := by
  have hn' := List.nodup_cons.1 hn
  have hn2 := List.nodup_append.1 hn'.2
  have hne : ∀ z, z ∈ l.tags ++ r.tags → x ≠ z := fun z hz e => by subst e; exact hn'.1 hz
  have Rl1 : Rep (dset idx x { nd with left := l.top }) q l :=
    Rl.congr fun z hz => dget_dset_ne _ _ (hne z (by simp [hz]))
  obtain ⟨idx2, e1, e2, e3, e4⟩ := Rl1.reparent x hn2.1
  have hx2 : dget idx2 x = some { nd with left := l.top } := by
    rw [e4 x fun h => hne x (by simp [h]) rfl]
    exact dget_dset_self _ _ _
  have Rr2 : Rep idx2 (some x) r := Rr.congr fun z hz => by
    rw [e4 z fun h => hn2.2.2 z h z hz rfl]
    exact dget_dset_ne _ _ (hne z (by simp [hz]))
  obtain ⟨idx', g1, g2, g3, g4⟩ := updateStates_spec [] (idx := idx2) (f := idx2.length + 1)
    (by simp) hn hx2 rfl hr hp e2 Rr2 trivial
  refine ⟨idx', ?_, g2, ?_, ?_⟩
  · simp only [rSetLeft, hx, e1, g1]; rfl
  · rw [g4, e3, dset_keys_of_some hx]
  · intro z h1 h2
    rw [g3 z h1 (by simp), e4 z h2]
    exact dget_dset_ne _ _ h1.symm

theorem attachRight {idx : RIndex τ} {x : τ} {nd : RNode τ} {l r : BT τ} {q : Option τ}
    (hx : dget idx x = some nd) (hp : nd.parent = none) (hl : nd.left = l.top)
    (Rl : Rep idx (some x) l) (Rr : Rep idx q r) (hn : (BT.node x l r).tags.Nodup) :
    ∃ idx', rSetRight idx x r.top = some (idx', 1) ∧ Rep idx' none (.node x l r) ∧
      idx'.map Prod.fst = idx.map Prod.fst ∧
      ∀ z, z ≠ x → z ∉ r.tags → dget idx' z = dget idx z := by
  have hn' := List.nodup_cons.1 hn
  have hn2 := List.nodup_append.1 hn'.2
  have hne : ∀ z, z ∈ l.tags ++ r.tags → x ≠ z := fun z hz e => by subst e; exact hn'.1 hz
  have Rr1 : Rep (dset idx x { nd with right := r.top }) q r :=
    Rr.congr fun z hz => dget_dset_ne _ _ (hne z (by simp [hz]))
  obtain ⟨idx2, e1, e2, e3, e4⟩ := Rr1.reparent x hn2.2.1
  have hx2 : dget idx2 x = some { nd with right := r.top } := by
    rw [e4 x fun h => hne x (by simp [h]) rfl]
    exact dget_dset_self _ _ _
  have Rl2 : Rep idx2 (some x) l := Rl.congr fun z hz => by
    rw [e4 z fun h => hn2.2.2 z hz z h rfl]
    exact dget_dset_ne _ _ (hne z (by simp [hz]))
  obtain ⟨idx', g1, g2, g3, g4⟩ := updateStates_spec [] (idx := idx2) (f := idx2.length + 1)
    (by simp) hn hx2 hl rfl hp Rl2 e2 trivial
  refine ⟨idx', ?_, g2, ?_, ?_⟩
  · simp only [rSetRight, hx, e1, g1]; rfl
  · rw [g4, e3, dset_keys_of_some hx]
  · intro z h1 h2
    rw [g3 z h1 (by simp), e4 z h2]
    exact dget_dset_ne _ _ h1.symm

theorem detach_spec {idx : RIndex τ} {f : BFrame τ} {fs : List (BFrame τ)} {s : BT τ}
    (h : Rep idx none (plug (f :: fs) s)) (hn : (plug (f :: fs) s).tags.Nodup)
    (hlen : fs.length ≤ idx.length) :
    ∃ idx', (if f.dir = .left then rSetLeft idx f.tag none else rSetRight idx f.tag none) =
        some (idx', fs.length + 1) ∧
      Rep idx' none (plug (f :: fs) .nil) ∧ Rep idx' (some f.tag) s ∧
      idx'.map Prod.fst = idx.map Prod.fst ∧
      ∀ z, z ∉ ctxTags (f :: fs) → dget idx' z = dget idx z := by
  obtain ⟨Rs, hc⟩ := h.unplug
  have hn1 := (plug_perm (f :: fs) s).nodup_iff.1 hn
  have hn2 := List.nodup_append.1 hn1
  have hn3 : (plug (f :: fs) .nil).tags.Nodup :=
    (plug_perm (f :: fs) .nil).nodup_iff.2 (by simpa [BT.tags] using hn2.2.1)
  have hn4 : f.tag ∉ f.sib.tags ++ ctxTags fs := (List.nodup_cons.1 hn2.2.1).1
  have hfs : ∀ z, z ∈ s.tags → f.tag ≠ z ∧ z ∉ fs.map BFrame.tag := by
    intro z hz
    constructor
    · intro e; exact hn2.2.2 z hz z (by simp [ctxTags, e]) rfl
    · intro hm
      obtain ⟨g, hg, rfl⟩ := List.mem_map.1 hm
      exact hn2.2.2 _ hz _ (by simp [ctxTags, ctx_mem_tags hg]) rfl
  have hout : ∀ z, z ∉ ctxTags (f :: fs) → z ≠ f.tag ∧ z ∉ fs.map BFrame.tag := by
    intro z hz
    constructor
    · rintro rfl; exact hz (by simp [ctxTags])
    · intro hm
      obtain ⟨g, hg, rfl⟩ := List.mem_map.1 hm
      exact hz (by simp [ctxTags, ctx_mem_tags hg])
  cases f with
  | L p r =>
    obtain ⟨⟨nd, k1, k2, k3, k4⟩, kr, kf⟩ := hc
    simp only [BFrame.tag, BFrame.sib, BFrame.dir] at *
    have hne : ∀ z, z ∈ r.tags ++ ctxTags fs → p ≠ z := fun z hz e => by subst e; exact hn4 hz
    obtain ⟨idx', g1, g2, g3, g4⟩ := updateStates_spec fs (idx := dset idx p { nd with left := none })
      (x := p) (l := .nil) (r := r) (f := (dset idx p { nd with left := none }).length + 1)
      (by
        have := congrArg List.length (dset_keys_of_some (nd' := { nd with left := none }) k1)
        simp only [List.length_map] at this
        omega)
      hn3 (dget_dset_self _ _ _) rfl k3 k4 trivial
      (kr.congr fun z hz => dget_dset_ne _ _ (hne z (by simp [hz])))
      (kf.congr fun z hz => dget_dset_ne _ _ (hne z (by simp [hz])))
    refine ⟨idx', ?_, g2, ?_, ?_, ?_⟩
    · simp only [if_true, rSetLeft, k1, rSetParent, g1]
    · exact Rs.congr fun z hz => by
        rw [g3 z (hfs z hz).1.symm (hfs z hz).2, dget_dset_ne _ _ (hfs z hz).1]
    · rw [g4, dset_keys_of_some k1]
    · intro z hz
      rw [g3 z (hout z hz).1 (hout z hz).2, dget_dset_ne _ _ (hout z hz).1.symm]
  | R p l =>
    obtain ⟨⟨nd, k1, k2, k3, k4⟩, kr, kf⟩ := hc
    simp only [BFrame.tag, BFrame.sib, BFrame.dir] at *
    have hne : ∀ z, z ∈ l.tags ++ ctxTags fs → p ≠ z := fun z hz e => by subst e; exact hn4 hz
    obtain ⟨idx', g1, g2, g3, g4⟩ := updateStates_spec fs (idx := dset idx p { nd with right := none })
      (x := p) (l := l) (r := .nil) (f := (dset idx p { nd with right := none }).length + 1)
      (by
        have := congrArg List.length (dset_keys_of_some (nd' := { nd with right := none }) k1)
        simp only [List.length_map] at this
        omega)
      hn3 (dget_dset_self _ _ _) k2 rfl k4
      (kr.congr fun z hz => dget_dset_ne _ _ (hne z (by simp [hz]))) trivial
      (kf.congr fun z hz => dget_dset_ne _ _ (hne z (by simp [hz])))
    refine ⟨idx', ?_, g2, ?_, ?_, ?_⟩
    · simp only [reduceCtorEq, if_false, rSetRight, k1, rSetParent, g1]
    · exact Rs.congr fun z hz => by
        rw [g3 z (hfs z hz).1.symm (hfs z hz).2, dget_dset_ne _ _ (hfs z hz).1]
    · rw [g4, dset_keys_of_some k1]
    · intro z hz
      rw [g3 z (hout z hz).1 (hout z hz).2, dget_dset_ne _ _ (hout z hz).1.symm]

/-- The linked nodes of `t` form the tree `T` with the tags `tags`. -/
structure RInv (t : RTree τ) (T : BT τ) (tags : List τ) : Prop where
  root : t.root = T.top
  rep : Rep t.index none T
  keys : t.index.map Prod.fst = tags
  perm : T.tags.Perm tags
  nodup : tags.Nodup

theorem RInv.length {t : RTree τ} {T : BT τ} {tags : List τ} (I : RInv t T tags) :
    t.index.length = T.size := by
  have h1 := congrArg List.length I.keys
  have h2 := I.perm.length_eq
  have h3 := T.tags_length
  simp at h1
  omega

/-- What `insert` reports for a tree. -/
def insReport (x : τ) (t : BT τ) : List (τ × τ) × List (τ × τ) × Nat :=
  match t.top with
  | none => ([], [], 1)
  | some old =>
    match descend 1 t [] with
    | (s, []) => ([(x, old)], [], 1)
    | (s, f :: fs) =>
      match s.top with
      | none => ([], [], 0)
      | some c => ([(x, old), (x, c)], [(f.tag, c)], 2 * fs.length + 4)

theorem insBT_perm (x : τ) (t : BT τ) : (insBT x t).tags.Perm (x :: t.tags) := by
  unfold insBT
  have hp := descend_plug 1 t []
  rcases hd : descend 1 t [] with ⟨s, _ | ⟨f, fs⟩⟩
  · simp [BT.tags]
  · rw [hd] at hp
    simp only [BT.tags]
    refine List.Perm.cons x ?_
    have h1 := plug_perm (f :: fs) s
    rw [show plug (f :: fs) s = t from hp] at h1
    refine List.Perm.trans ?_ h1.symm
    refine (List.Perm.append_right _ (plug_perm (f :: fs) .nil)).trans ?_
    simpa [BT.tags] using List.perm_append_comm

theorem rInsert_spec {t : RTree τ} {T : BT τ} {tags : List τ} {x : τ} (I : RInv t T tags)
    (hx : x ∉ tags) : ∃ r, rInsert t x = some r ∧ RInv r.tree (insBT x T) (tags ++ [x]) ∧
      (r.inserted, r.removed, r.steps) = insReport x T := by
  have hxT : x ∉ T.tags := fun h => hx (I.perm.mem_iff.1 h)
  have hnT : T.tags.Nodup := I.perm.nodup_iff.2 I.nodup
  have hnone : dget t.index x = none := by
    rw [dget_eq_none_iff]
    intro a ha e
    exact hx (by rw [← I.keys, ← e]; exact List.mem_map.2 ⟨a, ha, rfl⟩)
  generalize hnew : ({ nodeId := t.index.length, left := none, right := none, parent := none, height := 1, size := 1 }
    : RNode τ) = new
  have hnl : new.left = none := by rw [← hnew]
  have hnr : new.right = none := by rw [← hnew]
  have hnp : new.parent = none := by rw [← hnew]
  generalize hidx : dset t.index x new = idx
  have hkeys : idx.map Prod.fst = tags ++ [x] := by
    rw [← hidx, dset_keys, I.keys, if_neg hx]
  have hlen : idx.length = T.size + 1 := by
    have := congrArg List.length hkeys
    have h1 := congrArg List.length I.keys
    have := I.length
    simp at *
    omega
  have hx0 : dget idx x = some new := by rw [← hidx]; exact dget_dset_self _ _ _
  have hR : Rep idx none T := I.rep.congr fun y hy => by
    rw [← hidx]; exact dget_dset_ne _ _ fun e => by subst e; exact hxT hy
  have hnodup : (tags ++ [x]).Nodup := by
    rw [List.nodup_append]
    refine ⟨I.nodup, by simp, ?_⟩
    intro a ha b hb e
    simp at hb
    subst hb; subst e
    exact hx ha
  have hperm : (insBT x T).tags.Perm (tags ++ [x]) := by
    refine (insBT_perm x T).trans ?_
    refine (List.Perm.cons x I.perm).trans ?_
    exact (List.perm_append_singleton x tags).symm
  have fin : ∀ {idx' : RIndex τ}, Rep idx' none (insBT x T) → idx'.map Prod.fst = idx.map Prod.fst →
      RInv ⟨some x, idx'⟩ (insBT x T) (tags ++ [x]) := by
    intro idx' h1 h2
    refine ⟨?_, h1, h2.trans hkeys, hperm, hnodup⟩
    unfold insBT
    split <;> rfl
  simp only [rInsert, hnew, hidx, I.root, insReport]
  cases hT : T.top with
  | none =>
    cases T with
    | node => cases hT
    | nil =>
      obtain ⟨idx', e1, e2, e3, e4⟩ := attachLeft (l := .nil) (r := .nil) (q := none) hx0 hnp hnr trivial
        trivial (by simp [BT.tags])
      have e1' : rSetLeft idx x none = some (idx', 1) := e1
      refine ⟨⟨⟨some x, idx'⟩, [], [], 1⟩, by simp only [e1'], fin e2 e3, rfl⟩
  | some old =>
    obtain ⟨y, d1, d2⟩ := findSplit_spec (idx := idx) (t := T) (d := 1) (f := idx.length + 1) (fs := [])
      (p := none) (by omega) (by omega) hR hT
    have d2' : rFindSplit idx (idx.length + 1) 1 old .none = _ := d2
    simp only [d2']
    have hpl := descend_plug 1 T []
    have hins : insBT x T = match descend 1 T [] with
      | (s, []) => BT.node x T .nil
      | (s, f :: fs) => .node x (plug (f :: fs) .nil) s := rfl
    rcases hd : descend 1 T [] with ⟨s, _ | ⟨f, fs⟩⟩
    · -- the split is the old root
      rw [hd] at d1 hpl hins
      simp only [plug] at hpl d1 hins
      rw [hpl, hT] at d1
      cases d1
      obtain ⟨idx', e1, e2, e3, e4⟩ := attachLeft (l := T) (r := .nil) (q := none) hx0 hnp hnr trivial
        hR (by
          have := (insBT_perm x T).nodup_iff.2 (List.nodup_cons.2 ⟨hxT, hnT⟩)
          rw [hins] at this
          exact this)
      rw [hT] at e1
      rw [← hins] at e2
      simp only [ne_eq, not_true_eq_false, if_false, e1]
      refine ⟨_, rfl, fin e2 e3, ?_⟩
      simp
    · rw [hd] at d1 hpl hins
      simp only at hpl d1 hins
      have hpl' : plug (f :: fs) s = T := hpl
      have hRs : Rep idx none (plug (f :: fs) s) := by rw [hpl']; exact hR
      have hns : (plug (f :: fs) s).tags.Nodup := by rw [hpl']; exact hnT
      have hpp := (plug_perm (f :: fs) s).nodup_iff.1 hns
      have hpp2 := List.nodup_append.1 hpp
      have hyT : y ∈ s.tags := by
        cases s with
        | nil => cases d1
        | node a b c => simp only [BT.top, Option.some.injEq] at d1; simp [BT.tags, d1]
      -- the old root is not the split
      have hold : old ∈ ctxTags (f :: fs) := by
        have h1 : (plug (f :: fs) .nil).top = some old := by
          rw [plug_top_nil (t' := s), hpl', hT]
        have h2 : old ∈ (plug (f :: fs) .nil).tags := by
          cases hp : plug (f :: fs) (.nil : BT τ) with
          | nil => rw [hp] at h1; cases h1
          | node a b c => rw [hp] at h1; simp only [BT.top, Option.some.injEq] at h1; simp [BT.tags, h1]
        simpa [BT.tags] using (plug_perm (f :: fs) .nil).mem_iff.1 h2
      have hne : y ≠ old := fun e => hpp2.2.2 y hyT old hold e
      obtain ⟨ndy, y1, y2⟩ : ∃ nd, dget idx y = some nd ∧ nd.parent = some f.tag := by
        have h1 := hRs.unplug.1
        cases s with
        | nil => cases d1
        | node a b c =>
          obtain ⟨⟨nd, k1, _, _, k4, _⟩, _⟩ := h1
          simp only [BT.top, Option.some.injEq] at d1
          subst d1
          exact ⟨nd, k1, k4⟩
      have hszs : fs.length ≤ idx.length := by
        have := depth_le_height (f :: fs) s
        have h2 := (plug (f :: fs) s).height_le_size
        rw [hpl'] at this h2
        simp at this
        omega
      obtain ⟨idx1, a1, a2, a3, a4, a5⟩ := detach_spec hRs hns hszs
      have hxs : x ∉ ctxTags (f :: fs) := fun h => hxT (by
        rw [← hpl']; exact (plug_perm (f :: fs) s).mem_iff.2 (by simp [h]))
      have hxs' : x ∉ s.tags := fun h => hxT (by
        rw [← hpl']; exact (plug_perm (f :: fs) s).mem_iff.2 (by simp [h]))
      have hx1 : dget idx1 x = some new := by rw [a5 x hxs]; exact hx0
      obtain ⟨idx2, b1, b2, b3, b4⟩ := attachRight (l := .nil) (r := s) hx1 hnp hnl trivial a3
        (List.nodup_cons.2 ⟨by simpa [BT.tags] using hxs', by simpa [BT.tags] using hpp2.1⟩)
      obtain ⟨⟨nd2, x1, x2, x3, x4, _⟩, _, x5⟩ := b2
      have hctxmem : ∀ z, z ∈ (plug (f :: fs) (.nil : BT τ)).tags ↔ z ∈ ctxTags (f :: fs) := fun z => by
        simpa [BT.tags] using (plug_perm (f :: fs) .nil).mem_iff
      have R2 : Rep idx2 none (plug (f :: fs) .nil) := a2.congr fun z hz => by
        rw [hctxmem] at hz
        exact b4 z (fun e => by subst e; exact hxs hz) fun h => hpp2.2.2 z h z hz rfl
      obtain ⟨idx3, c1, c2, c3, c4⟩ := attachLeft (l := plug (f :: fs) .nil) (r := s) x1 x4 x3 x5 R2 (by
          have := (insBT_perm x T).nodup_iff.2 (List.nodup_cons.2 ⟨hxT, hnT⟩)
          rw [hins] at this
          exact this)
      rw [plug_top_nil (t' := s), hpl', hT] at c1
      rw [← hins] at c2
      rw [d1] at b1
      have hdir : dirOf (f :: fs) = f.dir := rfl
      simp only [ne_eq, hne, not_false_eq_true, if_true, y1, y2, hdir, a1, b1, c1, d1]
      refine ⟨_, rfl, fin c2 (c3.trans (b3.trans a4)), ?_⟩
      simp
      omega

/-- A tree that is built by insertions. -/
def insAllBT : List τ → BT τ → BT τ
  | [], t => t
  | x :: rest, t => insAllBT rest (insBT x t)

theorem rInsertAll_spec : ∀ (xs : List τ) {t : RTree τ} {T : BT τ} {tags : List τ}, RInv t T tags →
    (tags ++ xs).Nodup → ∃ t', rInsertAll t xs = some t' ∧ RInv t' (insAllBT xs T) (tags ++ xs)
  | [], t, T, tags, I, _ => ⟨t, rfl, by simpa [insAllBT] using I⟩
  | x :: xs, t, T, tags, I, hn => by
    have hx : x ∉ tags := fun h => by
      rw [List.nodup_append] at hn
      exact hn.2.2 x h x (by simp) rfl
    obtain ⟨r, e1, e2, _⟩ := rInsert_spec I hx
    obtain ⟨t', g1, g2⟩ := rInsertAll_spec xs e2 (by simpa using hn)
    exact ⟨t', by simp only [rInsertAll, e1, g1], by simpa [insAllBT] using g2⟩

theorem RInv.empty : RInv (⟨none, []⟩ : RTree τ) .nil [] :=
  ⟨rfl, trivial, rfl, List.Perm.refl _, List.nodup_nil⟩

end Gaspra
