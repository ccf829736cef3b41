import Verif.Proofs.DBTree
import Verif.Proofs.Versions
import Verif.Spec.Versions

set_option linter.unusedSectionVars false
set_option linter.unusedSimpArgs false
set_option linter.unusedVariables false

/-! # A version store over `DBTree` behaves like one over `MemoryTree` -/

namespace Gaspra

variable {τ Tok S : Type _} [DecidableEq τ] [DecidableEq Tok] {tk : TokOps Tok S}

/-- Two stores in the same state, one over each kind of tree. -/
structure Joint (v : Versions τ (MTree τ)) (w : Versions τ (Graph τ)) : Prop where
  tree : TreeOK v.tree
  nodup : (v.headVersion.map Prod.fst).Nodup
  roots : ∀ {x c nd}, dget v.headVersion x = some c → dget v.tree x = some nd → nd.parent = none
  absent : ∀ {x}, dget v.tree x = none → dget v.headVersion x = none ∧ dget v.diffs x = none
  heads : w.headVersion = v.headVersion
  diffs : w.diffs = v.diffs
  sim : Sim v.tree w.tree

theorem Joint.retrieve {v : Versions τ (MTree τ)} {w : Versions τ (Graph τ)} (J : Joint v w)
    (path : List τ) : retrieveUsingPath tk w path = retrieveUsingPath tk v path := by
  unfold retrieveUsingPath
  rw [J.heads, J.diffs]

/-- `change_parent(c, p)` in both trees when `p` is a root. -/
theorem Joint.changeParent {v : Versions τ (MTree τ)} {w : Versions τ (Graph τ)} (J : Joint v w)
    {c p : τ} {nc np : TNode τ} (hc : dget v.tree c = some nc) (hp : dget v.tree p = some np)
    (hroot : np.parent = none) (hcp : c ≠ p)
    (hfree : SlotFree (v.tree.map Prod.fst) w.tree c nc.parent p) :
    ∃ t' g', (memoryTree τ).changeParent v.tree c p = (t', none) ∧
      (dbTree τ).changeParent w.tree c p = (g', none) ∧ TreeOK t' ∧ Sim t' g' ∧
      Moved v.tree t' c nc.parent p ∧
      (nc.parent ≠ none → ∀ b, SlotsAt w.tree p none b →
        SlotsAt g' p none (ridOf (v.tree.map Prod.fst) c)) := by
  have hup : UpPath v.tree p [p] := .root hp hroot
  have hcl : c ∉ [p] := by simpa using hcp
  obtain ⟨t1, h1, T1, M1⟩ := changeParent_spec J.tree hc hup hcl
  obtain ⟨t', g', h2, h3, h4, _, h6⟩ := J.sim.changeParent J.tree hc hup hcl hfree
  rw [h1] at h2; cases h2
  exact ⟨t1, g', h1, h3, T1, h4, M1, h6⟩

/-- `_add_edge` in both stores when the new parent is a root. -/
theorem Joint.addEdge {v : Versions τ (MTree τ)} {w : Versions τ (Graph τ)} (J : Joint v w)
    {c p : τ} {nc np : TNode τ} (hc : dget v.tree c = some nc) (hp : dget v.tree p = some np)
    (hroot : np.parent = none) (hcp : c ≠ p)
    (hfree : SlotFree (v.tree.map Prod.fst) w.tree c nc.parent p) (items : List (PatchItem UInt8)) :
    ∃ v' w' e, addEdge (memoryTree τ) v p c items = (v', e) ∧ addEdge (dbTree τ) w p c items = (w', e) ∧
      Joint v' w' ∧ (e = none → Moved v.tree v'.tree c nc.parent p ∧
        (nc.parent ≠ none → ∀ b, SlotsAt w.tree p none b →
          SlotsAt w'.tree p none (ridOf (v.tree.map Prod.fst) c))) := by
  cases hd : serializeChangeset items with
  | error e =>
    exact ⟨v, w, some e, by simp only [Gaspra.addEdge, hd], by simp only [Gaspra.addEdge, hd], J,
      by simp⟩
  | ok d =>
    obtain ⟨t', g', h1, h2, T', H', M, hs⟩ := J.changeParent hc hp hroot hcp hfree
    have key : ∀ hv : List (τ × Bytes), (∀ y, dget hv y = if c = y then none else dget v.headVersion y) →
        (hv.map Prod.fst).Nodup →
        Joint ⟨hv, dset v.diffs c d, t'⟩ (⟨hv, dset w.diffs c d, g'⟩ : Versions τ (Graph τ)) := by
      intro hv hhv hnd
      refine ⟨T', hnd, ?_, ?_, rfl, by rw [J.diffs], H'⟩
      · intro x b nd hx hnd
        simp only at hx hnd
        rw [hhv] at hx
        split at hx
        · cases hx
        · next hcx =>
          obtain ⟨nd0, k1, _, k3, _⟩ := M.back hnd
          rw [k3, if_neg (fun e => hcx e.symm)]
          exact J.roots hx k1
      · intro x hx
        simp only at hx ⊢
        rw [M.dget_none] at hx
        have hne : c ≠ x := by rintro rfl; rw [hc] at hx; cases hx
        rw [hhv, if_neg hne, dget_dset, if_neg hne]
        exact J.absent hx
    by_cases hm : dmem v.headVersion c = true
    · refine ⟨⟨ddel v.headVersion c, dset v.diffs c d, t'⟩, ⟨ddel v.headVersion c, dset w.diffs c d, g'⟩,
        none, ?_, ?_, key _ (fun y => dget_ddel J.nodup _ _) (ddel_nodup J.nodup _), fun _ => ⟨M, hs⟩⟩
      · simp only [Gaspra.addEdge, hd, h1, hm, if_true]
      · simp only [Gaspra.addEdge, hd, h2, J.heads, hm, if_true]
    · refine ⟨⟨v.headVersion, dset v.diffs c d, t'⟩, ⟨v.headVersion, dset w.diffs c d, g'⟩,
        none, ?_, ?_, key _ (fun y => ?_) J.nodup, fun _ => ⟨M, hs⟩⟩
      · simp only [Gaspra.addEdge, hd, h1, hm, if_false, Bool.false_eq_true]
      · simp only [Gaspra.addEdge, hd, h2, J.heads, hm, if_false, Bool.false_eq_true]
      · split
        · next e =>
          subst e
          simpa [dmem] using hm
        · rfl

/-- The last part of `add` in both stores. -/
theorem Joint.addOldHead {v : Versions τ (MTree τ)} {w : Versions τ (Graph τ)} (J : Joint v w)
    {b tag : τ} {nb nt : TNode τ} (hb : dget v.tree b = some nb) (ht : dget v.tree tag = some nt)
    (hroot : nt.parent = none) (hbt : b ≠ tag) {s : Option Nat} (hs : SlotsAt w.tree tag none s)
    (version : Bytes) :
    ∃ v' w' e, addOldHead (memoryTree τ) tk v tag version b = (v', e) ∧
      addOldHead (dbTree τ) tk w tag version b = (w', e) ∧ Joint v' w' ∧
      v'.tree.map Prod.fst = v.tree.map Prod.fst := by
  cases hv : dget v.headVersion b with
  | none =>
    exact ⟨v, w, some .keyError, by simp only [Gaspra.addOldHead, hv],
      by simp only [Gaspra.addOldHead, J.heads, hv], J, rfl⟩
  | some content =>
    cases hm : makeChangeset tk version content with
    | error e =>
      exact ⟨v, w, some e, by simp only [Gaspra.addOldHead, hv, hm],
        by simp only [Gaspra.addOldHead, J.heads, hv, hm], J, rfl⟩
    | ok cs =>
      have hbp := J.roots hv hb
      obtain ⟨v', w', e, h1, h2, h3, h4⟩ := J.addEdge hb ht hroot hbt (by
        intro i row hi hrow
        rw [if_pos hbp]
        exact (hs i row hi hrow).1) cs
      refine ⟨v', w', e, by simp only [Gaspra.addOldHead, hv, hm, h1],
        by simp only [Gaspra.addOldHead, J.heads, hv, hm, h2], h3, ?_⟩
      cases e with
      | none => exact (h4 rfl).1.1
      | some e =>
        -- the tree is untouched when `_add_edge` raises
        revert h1
        unfold Gaspra.addEdge
        cases hd : serializeChangeset cs with
        | error e' => intro h1; cases h1; rfl
        | ok d =>
          obtain ⟨t', g', k1, k2, T', H', M, hs⟩ := J.changeParent hb ht hroot hbt (by
            intro i row hi hrow
            rw [if_pos hbp]
            exact (hs i row hi hrow).1)
          simp only [k1]
          split <;> (intro h1; cases h1)

/-- The exception of a call over `DBTree`, given the one over `MemoryTree`. -/
def dbError (known : Bool) (e : Option PyErr) : Option PyErr :=
  if known then e else some .typeError

/-- The whole of `add` after the tag has been inserted. -/
theorem Joint.addToHead {v : Versions τ (MTree τ)} {w : Versions τ (Graph τ)} (J : Joint v w)
    {b tag : τ} {nb nt : TNode τ} (hb : dget v.tree b = some nb) (ht : dget v.tree tag = some nt)
    (hroot : nt.parent = none) (hbt : b ≠ tag) (hs : SlotsAt w.tree tag none none)
    (hleaf : nt.children = []) (version : Bytes) :
    ∃ v' w' e, addToHead (memoryTree τ) tk v tag version b = (v', e) ∧
      addToHead (dbTree τ) tk w tag version b = (w', e) ∧ Joint v' w' ∧
      v'.tree.map Prod.fst = v.tree.map Prod.fst := by
  obtain ⟨s, path, g1, g2, g3⟩ := getSplit_spec J.tree hb
  have g1m : (memoryTree τ).getSplit v.tree b = .ok (s, path) := g1
  have g1d : (dbTree τ).getSplit w.tree b = .ok (s, path) := (J.sim.getSplit J.tree hb).trans g1
  simp only [Gaspra.addToHead, g1m, g1d]
  by_cases hsb : s = b
  · simp only [hsb, ne_eq, not_true_eq_false, if_false]
    exact J.addOldHead hb ht hroot hbt hs version
  · simp only [ne_eq, hsb, not_false_eq_true, if_true]
    -- `s` is a proper descendant of `b`
    obtain ⟨ns, hns, hsp⟩ : ∃ ns, dget v.tree s = some ns ∧ ns.parent ≠ none := by
      cases g2 with
      | start => exact absurd rfl hsb
      | next k1 k2 k3 =>
        obtain ⟨nc, k4, k5⟩ := J.tree.down k2 k3.1
        exact ⟨nc, k4, by rw [k5]; simp⟩
    have hst : s ≠ tag := by
      rintro rfl
      rw [ht] at hns; cases hns
      exact hsp hroot
    simp only [addSplit, J.retrieve]
    cases hr : retrieveUsingPath tk v path with
    | error e => exact ⟨v, w, some e, rfl, rfl, J, rfl⟩
    | ok sv =>
    dsimp only
    cases hm : makeChangeset tk version sv with
    | error e => exact ⟨v, w, some e, rfl, rfl, J, rfl⟩
    | ok cs =>
    dsimp only
    obtain ⟨v1, w1, e1, a1, a2, J1, a3⟩ := J.addEdge hns ht hroot hst (by
      intro i row hi hrow
      rw [if_neg hsp]
      exact Or.inl (hs i row hi hrow).2) cs
    rw [a1, a2]
    cases e1 with
    | some e =>
      refine ⟨v1, w1, some e, rfl, rfl, J1, ?_⟩
      revert a1
      unfold Gaspra.addEdge
      cases hd : serializeChangeset cs with
      | error e' => intro h1; cases h1; rfl
      | ok d =>
        obtain ⟨t', g', k1, k2, T', H', M, _⟩ := J.changeParent hns ht hroot hst (by
          intro i row hi hrow
          rw [if_neg hsp]
          exact Or.inl (hs i row hi hrow).2)
        simp only [k1]
        split <;> (intro h1; cases h1)
    | none =>
      dsimp only
      obtain ⟨M1, hs1⟩ := a3 rfl
      have hs1 := hs1 hsp none hs
      obtain ⟨ns1, b1, _, b3, _⟩ := M1.2 _ _ hns
      rw [if_pos rfl] at b3
      obtain ⟨nt1, c1, _, c3, _⟩ := M1.2 _ _ ht
      rw [if_neg (fun e => hst e.symm)] at c3
      have hroot1 := c3.trans hroot
      obtain ⟨t2, gg2, d1, d2, T2, H2, M2, hs2⟩ := J1.changeParent b1 c1 hroot1 hst (by
        intro i row hi hrow
        rw [b3, if_neg (by simp)]
        right
        exact ⟨rfl, by rw [M1.1]; exact (hs1 i row hi hrow).2⟩)
      have hs2 := hs2 (by rw [b3]; simp) _ hs1
      rw [d1, d2]
      dsimp only
      have J2 : Joint { v1 with tree := t2 } { w1 with tree := gg2 } := by
        refine ⟨T2, J1.nodup, ?_, ?_, J1.heads, J1.diffs, H2⟩
        · intro x cc nd hx hnd
          obtain ⟨nd0, k1, _, k3, _⟩ := M2.back hnd
          have := J1.roots hx k1
          by_cases hxs : x = s
          · subst hxs
            rw [b1] at k1; cases k1
            rw [b3] at this; cases this
          · rw [k3, if_neg hxs]; exact this
        · intro x hx
          exact J1.absent (M2.dget_none.1 hx)
      obtain ⟨nb1, k1, _⟩ := M1.2 _ _ hb
      obtain ⟨nb2, k2, _⟩ := M2.2 _ _ k1
      obtain ⟨nt2, l1, _, l3, _⟩ := M2.2 _ _ c1
      rw [if_neg (fun e => hst e.symm)] at l3
      obtain ⟨v', w', e, m1, m2, m3, m4⟩ := J2.addOldHead (tk := tk) k2 l1 (l3.trans hroot1) hbt hs2 version
      exact ⟨v', w', e, m1, m2, m3, m4.trans (M2.1.trans M1.1)⟩

/-- One call of `add` in both stores. -/
theorem Joint.add {v : Versions τ (MTree τ)} {w : Versions τ (Graph τ)} (J : Joint v w) {tag : τ}
    (ht : dget v.tree tag = none) (version : Bytes) (base : Option τ) (hb : base ≠ some tag) :
    Joint (versionsAdd (memoryTree τ) tk v tag version base).1
        (versionsAdd (dbTree τ) tk w tag version base).1 ∧
      (versionsAdd (memoryTree τ) tk v tag version base).1.tree.map Prod.fst =
        v.tree.map Prod.fst ++ [tag] ∧
      (∀ b, base = some b → dget v.tree b = none →
        (versionsAdd (memoryTree τ) tk v tag version base).2 = some .keyError ∧
        (versionsAdd (dbTree τ) tk w tag version base).2 = some .typeError) ∧
      ((∀ b, base = some b → dget v.tree b ≠ none) →
        (versionsAdd (dbTree τ) tk w tag version base).2 =
          (versionsAdd (memoryTree τ) tk v tag version base).2) := by
  obtain ⟨g', h1, H1, hs⟩ := J.sim.add J.tree.nodup J.tree.toForest ht base
  have h1' : (dbTree τ).add w.tree tag base = (g', none) := h1
  have hnew : ∀ y, dget (mtAdd v.tree tag base) y =
      if tag = y then some (newNode v.tree.length base) else dget v.tree y := dget_mtAdd _ _ _
  have hk := mtAdd_keys ht base
  have J1 : Joint ⟨dset v.headVersion tag version, v.diffs, mtAdd v.tree tag base⟩
      (⟨dset w.headVersion tag version, w.diffs, g'⟩ : Versions τ (Graph τ)) := by
    refine ⟨J.tree.add ht base, dset_nodup J.nodup _ _, ?_, ?_, by rw [J.heads], J.diffs, H1⟩
    · intro x c nd hx hnd
      simp only at hx hnd
      rw [hnew] at hnd
      rw [dget_dset] at hx
      split at hnd
      · cases hnd; rfl
      · next hne => rw [if_neg hne] at hx; exact J.roots hx hnd
    · intro x hx
      simp only at hx ⊢
      rw [hnew] at hx
      split at hx
      · cases hx
      · next hne => rw [dget_dset, if_neg hne]; exact J.absent hx
  have hmem : versionsAdd (memoryTree τ) tk v tag version base =
      (match base with
      | none => (⟨dset v.headVersion tag version, v.diffs, mtAdd v.tree tag base⟩, none)
      | some head => Gaspra.addToHead (memoryTree τ) tk
          ⟨dset v.headVersion tag version, v.diffs, mtAdd v.tree tag base⟩ tag version head) := by
    cases base <;> rfl
  have hdb : versionsAdd (dbTree τ) tk w tag version base =
      (match base with
      | none => (⟨dset w.headVersion tag version, w.diffs, g'⟩, none)
      | some head => Gaspra.addToHead (dbTree τ) tk
          ⟨dset w.headVersion tag version, w.diffs, g'⟩ tag version head) := by
    unfold versionsAdd
    dsimp only
    rw [h1']
    cases base <;> rfl
  rw [hmem, hdb]
  cases base with
  | none => exact ⟨J1, hk, by simp, by simp⟩
  | some b =>
    have hbt : b ≠ tag := by simpa using hb
    have hbt' : tag ≠ b := fun e => hbt e.symm
    dsimp only
    cases hbk : dget v.tree b with
    | none =>
      have hd0 : dget (mtAdd v.tree tag (some b)) b = none := by rw [hnew, if_neg hbt', hbk]
      have e1 : (memoryTree τ).getSplit (mtAdd v.tree tag (some b)) b = .error .keyError := by
        simp only [memoryTree, mtGetSplit, hd0]
      have e2 : (dbTree τ).getSplit g' b = .error .typeError := H1.getSplit_none hd0
      simp only [Gaspra.addToHead, e1, e2]
      refine ⟨J1, hk, fun _ _ _ => ⟨trivial, trivial⟩, fun h => ?_⟩
      exact absurd hbk (h b rfl)
    | some nb =>
      obtain ⟨v', w', e, a1, a2, a3, a4⟩ := J1.addToHead (tk := tk) (b := b) (tag := tag) (nb := nb)
        (nt := newNode v.tree.length (some b)) (by
          show dget (mtAdd v.tree tag (some b)) b = _
          rw [hnew, if_neg hbt', hbk]) (by
          show dget (mtAdd v.tree tag (some b)) tag = _
          rw [hnew, if_pos rfl]) rfl hbt hs rfl version
      rw [a1, a2]
      refine ⟨a3, a4.trans hk, fun b' hb' hbk' => ?_, fun _ => rfl⟩
      cases hb'
      rw [hbk] at hbk'; cases hbk'

theorem Joint.empty : Joint (emptyVersions τ) (emptyDBVersions τ) where
  tree := {
    nodup := by simp [emptyVersions]
    up := by intro c nc p h; simp [emptyVersions, dget] at h
    down := by intro c nc p h; simp [emptyVersions, dget] at h
    chNodup := by intro c nc h; simp [emptyVersions, dget] at h
    acyc := by intro c nc h; simp [emptyVersions, dget] at h
    metric := by intro c nc h; simp [emptyVersions, dget] at h }
  nodup := by simp [emptyVersions]
  roots := by intro x c nd h; simp [emptyVersions, dget] at h
  absent := by intro x h; simp [emptyVersions, dget]
  heads := rfl
  diffs := rfl
  sim := ⟨rfl, by intro i row h; simp [emptyDBVersions] at h⟩

/-- The two stores after any history with fresh tags. -/
theorem FreshHistory.joint {h : List (AddOp τ)} (F : FreshHistory h) :
    Joint (runHistory (memoryTree τ) tk (emptyVersions τ) h)
      (runHistory (dbTree τ) tk (emptyDBVersions τ) h) ∧
    (runHistory (memoryTree τ) tk (emptyVersions τ) h).tree.map Prod.fst = addedTags h := by
  induction F with
  | nil => exact ⟨Joint.empty, rfl⟩
  | @snoc h a F ht hb ih =>
    obtain ⟨J, hk⟩ := ih
    have hd : dget (runHistory (memoryTree τ) tk (emptyVersions τ) h).tree a.tag = none := by
      cases hh : dget (runHistory (memoryTree τ) tk (emptyVersions τ) h).tree a.tag with
      | none => rfl
      | some nd => exact absurd (hk ▸ mem_keys_of_dget hh) ht
    obtain ⟨h1, h2, _⟩ := J.add (tk := tk) hd a.content a.base hb
    constructor
    · simpa [runHistory, List.foldl_append] using h1
    · have : addedTags (h ++ [a]) = addedTags h ++ [a.tag] := by simp [addedTags]
      rw [this, ← hk, ← h2]
      simp [runHistory, List.foldl_append]

/-! ### Queries -/

theorem Joint.get {v : Versions τ (MTree τ)} {w : Versions τ (Graph τ)} (J : Joint v w) (x : τ) :
    versionsGet (dbTree τ) tk w x = versionsGet (memoryTree τ) tk v x := by
  cases hx : dget v.tree x with
  | none =>
    have e1 : (memoryTree τ).pathTo v.tree x = .ok none := pathTo_none hx
    have e2 : (dbTree τ).pathTo w.tree x = .ok (some []) := J.sim.pathTo_none hx
    simp only [versionsGet, e1, e2]
  | some nd =>
    obtain ⟨l, hl⟩ := J.tree.acyc hx
    have e1 : (memoryTree τ).pathTo v.tree x = .ok (some l.reverse) := pathTo_spec hl
    have e2 : (dbTree τ).pathTo w.tree x = .ok (some l.reverse) := J.sim.pathTo J.tree.nodup hl
    simp only [versionsGet, e1, e2, J.retrieve]

theorem Joint.info {v : Versions τ (MTree τ)} {w : Versions τ (Graph τ)} (J : Joint v w) (x : τ) :
    versionInfo (dbTree τ) w x = versionInfo (memoryTree τ) v x := by
  cases hx : dget v.tree x with
  | none =>
    obtain ⟨h1, h2⟩ := J.absent hx
    simp only [versionInfo, J.heads, J.diffs, h1, h2]
  | some nd =>
    have e1 : (memoryTree τ).baseVersion v.tree x = .ok nd.baseVersion := by
      simp only [memoryTree, mtBaseVersion, hx]
    have e2 : (dbTree τ).baseVersion w.tree x = .ok nd.baseVersion := J.sim.base J.tree.nodup hx
    simp only [versionInfo, J.heads, J.diffs, e1, e2]

theorem Joint.contains {v : Versions τ (MTree τ)} {w : Versions τ (Graph τ)} (J : Joint v w) (x : τ) :
    versionsContains (dbTree τ) w x = versionsContains (memoryTree τ) v x :=
  J.sim.contains J.tree.nodup x

end Gaspra
