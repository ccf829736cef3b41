import Verif.Proofs.InterruptAdd
import Verif.Proofs.DBTags
import Verif.Spec.InterruptDB

set_option linter.unusedSectionVars false
set_option linter.unusedSimpArgs false
set_option linter.unusedVariables false

/-! # The table between two transactions of `add` -/

namespace Gaspra

variable {τ : Type _} [DecidableEq τ]

/-! ### The parents in the table, as a tree in memory -/

/-- A row as a node without children. -/
def shadowNode (r : GRow τ) : TNode τ := ⟨0, r.parent, [], r.height, r.size, r.baseVersion⟩

/-- The table as a tree in which no node lists its children. -/
def shadowTree (g : Graph τ) : MTree τ := g.map fun r => (r.tag, shadowNode r)

theorem shadow_keys (g : Graph τ) : (shadowTree g).map Prod.fst = g.map GRow.tag := by
  simp [shadowTree]

/-- What is true of the table at every moment. -/
structure GSafe (g : Graph τ) : Prop where
  nodup : (g.map GRow.tag).Nodup
  up : ∀ {i : Nat} {row : GRow τ}, g[i]? = some row → (row.parent = none ∧ row.parentRid = none) ∨
    ∃ (r : Nat) (rp : GRow τ), row.parentRid = some (r + 1) ∧ g[r]? = some rp ∧ row.parent = some rp.tag
  down : ∀ {i : Nat} {row : GRow τ} {c : Nat}, g[i]? = some row → c ∈ slotsOf row →
    ∃ rc, rowAt g c = some rc ∧ rc.parentRid = some (i + 1)
  tree : TSafe (shadowTree g)

theorem shadow_get {g : Graph τ} (hn : (g.map GRow.tag).Nodup) {i : Nat} {row : GRow τ}
    (h : g[i]? = some row) : dget (shadowTree g) row.tag = some (shadowNode row) := by
  refine dget_of_mem (by rw [shadow_keys]; exact hn) ?_
  exact List.mem_map.2 ⟨row, List.mem_of_getElem? h, rfl⟩

theorem shadow_some {g : Graph τ} {x : τ} {nd : TNode τ} (h : dget (shadowTree g) x = some nd) :
    ∃ (i : Nat) (row : GRow τ), g[i]? = some row ∧ row.tag = x ∧ nd = shadowNode row := by
  have := mem_of_dget h
  obtain ⟨row, h1, h2⟩ := List.mem_map.1 this
  obtain ⟨i, hi⟩ := List.mem_iff_getElem?.1 h1
  simp only [Prod.mk.injEq] at h2
  exact ⟨i, row, hi, h2.1, h2.2.symm⟩

theorem shadow_par {g : Graph τ} {x : τ} {q : Option τ} (h : par (shadowTree g) x = some q) :
    ∃ (i : Nat) (row : GRow τ), g[i]? = some row ∧ row.tag = x ∧ row.parent = q := by
  unfold par at h
  cases hx : dget (shadowTree g) x with
  | none => rw [hx] at h; cases h
  | some nd =>
    rw [hx] at h
    obtain ⟨i, row, h1, h2, rfl⟩ := shadow_some hx
    cases h
    exact ⟨i, row, h1, h2, rfl⟩

theorem par_shadow {g : Graph τ} (hn : (g.map GRow.tag).Nodup) {i : Nat} {row : GRow τ}
    (h : g[i]? = some row) : par (shadowTree g) row.tag = some row.parent := by
  unfold par; rw [shadow_get hn h]; rfl

theorem shadow_unknown {g : Graph τ} {x : τ} (h : par (shadowTree g) x = none) : x ∉ g.map GRow.tag := by
  rw [← shadow_keys]
  intro hm
  obtain ⟨nd, hnd⟩ := dget_isSome_iff.2 hm
  simp [par, hnd] at h

theorem links_shadow {g : Graph τ} (x : τ) :
    links (shadowTree g) x = (par (shadowTree g) x).map fun q => (q, []) := by
  unfold links par
  cases hx : dget (shadowTree g) x with
  | none => rfl
  | some nd =>
    obtain ⟨i, row, h1, h2, rfl⟩ := shadow_some hx
    rfl

/-- A tag is known to the table if it is known to its shadow. -/
theorem dbContains_par {g : Graph τ} {x : τ} :
    dbContains g x = (par (shadowTree g) x).isSome := by
  cases hp : par (shadowTree g) x with
  | none =>
    unfold dbContains
    rw [selectTag_none (shadow_unknown hp)]; rfl
  | some q =>
    obtain ⟨i, row, h1, h2, _⟩ := shadow_par hp
    unfold dbContains selectTag
    cases hf : g.findIdx? (fun r => r.tag = x) with
    | none =>
      rw [List.findIdx?_eq_none_iff] at hf
      have := hf row (List.mem_of_getElem? h1)
      simp [h2] at this
    | some j =>
      have := List.findIdx?_eq_some_iff_getElem.1 hf
      obtain ⟨hj, _⟩ := this
      simp [List.getElem?_eq_getElem hj]

theorem rowBelow_par {g : Graph τ} (hn : (g.map GRow.tag).Nodup) {c p : τ} :
    RowBelow g c p ↔ par (shadowTree g) c = some (some p) := by
  constructor
  · rintro ⟨r, h1, rfl, h3⟩
    obtain ⟨i, hi⟩ := List.mem_iff_getElem?.1 h1
    rw [par_shadow hn hi, h3]
  · intro h
    obtain ⟨i, row, h1, h2, h3⟩ := shadow_par h
    exact ⟨row, List.mem_of_getElem? h1, h2, h3⟩

/-! ### Paths -/

theorem GSafe.walkUp {g : Graph τ} (H : GSafe g) {x : τ} {l : List τ} (hp : UpPath (shadowTree g) x l) :
    ∀ {f i : Nat} {row : GRow τ}, g[i]? = some row → row.tag = x → l.length ≤ f →
      dbWalkUp g f (some (i + 1)) = .ok l := by
  induction hp with
  | @root x nd h1 h2 =>
    intro f i row hi ht hf
    cases f with
    | zero => simp at hf
    | succ f =>
      subst ht
      rw [shadow_get H.nodup hi] at h1; cases h1
      have hr : rowAt g (i + 1) = some row := hi
      rcases H.up hi with ⟨_, h4⟩ | ⟨r, rp, _, _, h4⟩
      · simp only [dbWalkUp, hr, h4]
      · rw [show (shadowNode row).parent = row.parent from rfl, h4] at h2; cases h2
  | @step x p nd l h1 h2 h3 ih =>
    intro f i row hi ht hf
    cases f with
    | zero => simp at hf
    | succ f =>
      subst ht
      rw [shadow_get H.nodup hi] at h1; cases h1
      have hr : rowAt g (i + 1) = some row := hi
      rw [show (shadowNode row).parent = row.parent from rfl] at h2
      rcases H.up hi with ⟨h4, _⟩ | ⟨r, rp, h4, h5, h6⟩
      · rw [h2] at h4; cases h4
      · rw [h2] at h6; cases h6
        have := ih (f := f) h5 rfl (by simpa using hf)
        simp only [dbWalkUp, hr, h4, this]

theorem GSafe.pathTo {g : Graph τ} (H : GSafe g) {x : τ} {l : List τ} (hp : UpPath (shadowTree g) x l) :
    dbPathTo g x = .ok (some l.reverse) := by
  have hlen : l.length ≤ g.length := by
    have := hp.length_le
    simpa [shadowTree] using this
  obtain ⟨nd, hx⟩ := hp.mem_keys x (by obtain ⟨r, rfl⟩ := hp.head; simp)
  obtain ⟨i, row, h1, rfl, rfl⟩ := shadow_some hx
  have hs := selectTag_eq H.nodup h1
  have : dbReversePathTo g row.tag = .ok (some l) := by
    have hw := H.walkUp hp (f := g.length + 1) h1 rfl (by omega)
    have hr : rowAt g (i + 1) = some row := h1
    simp only [dbWalkUp, hr] at hw
    simp only [dbReversePathTo, hs]
    cases hk : dbWalkUp g g.length row.parentRid with
    | error e => rw [hk] at hw; cases hw
    | ok r => rw [hk] at hw; cases hw; rfl
  simp only [dbPathTo, this]

theorem childRows_slot {g : Graph τ} {row : GRow τ} {c : Nat × GRow τ} (h : c ∈ childRows g row) :
    c.1 ∈ slotsOf row ∧ rowAt g c.1 = some c.2 := by
  rw [childRows_slots] at h
  obtain ⟨rid, h1, h2⟩ := List.mem_filterMap.1 h
  cases hr : rowAt g rid with
  | none => rw [hr] at h2; cases h2
  | some r => rw [hr] at h2; cases h2; exact ⟨h1, hr⟩

/-- A row that is listed as a child is below the row that lists it. -/
theorem GSafe.child {g : Graph τ} (H : GSafe g) {i : Nat} {row : GRow τ} (hi : g[i]? = some row)
    {c : Nat × GRow τ} (hc : c ∈ childRows g row) :
    (∃ j : Nat, g[j]? = some c.2) ∧ par (shadowTree g) c.2.tag = some (some row.tag) := by
  obtain ⟨h1, h2⟩ := childRows_slot hc
  obtain ⟨rc, h3, h4⟩ := H.down hi h1
  rw [h2] at h3; cases h3
  have hj : ∃ j : Nat, g[j]? = some c.2 := by
    cases hc1 : c.1 with
    | zero => rw [hc1] at h2; cases h2
    | succ j => rw [hc1] at h2; exact ⟨j, h2⟩
  refine ⟨hj, ?_⟩
  obtain ⟨j, hj⟩ := hj
  rw [par_shadow H.nodup hj]
  rcases H.up hj with ⟨_, h5⟩ | ⟨r, rp, h5, h6, h7⟩
  · rw [h4] at h5; cases h5
  · rw [h4] at h5; cases h5
    rw [hi] at h6; cases h6
    rw [h7]

theorem GSafe.splitLoop {g : Graph τ} (H : GSafe g) : ∀ (f depth : Nat) (row : GRow τ) (path : List τ)
    {i : Nat} {s : τ} {path' : List τ}, g[i]? = some row →
    dbSplitLoop g f depth row.tag row path = .ok (s, path') →
    ∃ ext, path' = path ++ ext ∧ ChainP (shadowTree g) row.tag ext ∧ ext.getLastD row.tag = s
  | 0, depth, row, path, i, s, path', hd, h => by
    simp only [dbSplitLoop] at h
    split at h
    · cases h
    · cases h; exact ⟨[], by simp, trivial, rfl⟩
  | f + 1, depth, row, path, i, s, path', hd, h => by
    simp only [dbSplitLoop] at h
    split at h
    · cases hb : bestRow (childRows g row) with
      | none => rw [hb] at h; cases h
      | some b =>
        obtain ⟨rid, r⟩ := b
        rw [hb] at h
        obtain ⟨⟨j, hj⟩, hp⟩ := H.child hd (bestRow_mem hb)
        obtain ⟨ext, h1, h2, h3⟩ := H.splitLoop f _ r _ hj h
        refine ⟨r.tag :: ext, by rw [h1]; simp, ⟨hp, h2⟩, ?_⟩
        rw [← h3]
        cases ext <;> simp [List.getLastD]
    · cases h; exact ⟨[], by simp, trivial, rfl⟩

theorem selectTag_some {g : Graph τ} {x : τ} {a : Nat × GRow τ} (h : selectTag g x = some a) :
    ∃ i : Nat, a.1 = i + 1 ∧ g[i]? = some a.2 ∧ a.2.tag = x := by
  unfold selectTag at h
  cases hf : g.findIdx? (fun r => r.tag = x) with
  | none => rw [hf] at h; cases h
  | some i =>
    rw [hf] at h
    obtain ⟨hi, h1, _⟩ := List.findIdx?_eq_some_iff_getElem.1 hf
    simp only [List.getElem?_eq_getElem hi, Option.map_some, Option.some.injEq] at h
    subst h
    exact ⟨i, rfl, List.getElem?_eq_getElem hi, by simpa using h1⟩

theorem GSafe.getSplit {g : Graph τ} (H : GSafe g) {b s : τ} {path : List τ}
    (h : dbGetSplit g b = .ok (s, path)) :
    (∃ q, par (shadowTree g) b = some q) ∧
      ∃ ext, path = b :: ext ∧ ChainP (shadowTree g) b ext ∧ ext.getLastD b = s := by
  unfold dbGetSplit at h
  cases hb : selectTag g b with
  | none => rw [hb] at h; cases h
  | some a =>
    obtain ⟨i, h1, h2, rfl⟩ := selectTag_some hb
    rw [hb] at h
    obtain ⟨ext, e1, e2, e3⟩ := H.splitLoop _ _ _ _ h2 h
    exact ⟨⟨_, par_shadow H.nodup h2⟩, ext, e1, e2, e3⟩

/-! ### Changes of the table -/

/-- The columns that hold the shape of the tree. -/
def GRow.shape (r : GRow τ) : τ × Option τ × Option Nat × Option Nat × Option Nat :=
  (r.tag, r.parent, r.parentRid, r.child0, r.child1)

theorem shape_eq {r r' : GRow τ} (h : r.shape = r'.shape) :
    r.tag = r'.tag ∧ r.parent = r'.parent ∧ r.parentRid = r'.parentRid ∧ slotsOf r = slotsOf r' := by
  simp only [GRow.shape, Prod.mk.injEq] at h
  obtain ⟨h1, h2, h3, h4, h5⟩ := h
  exact ⟨h1, h2, h3, by simp [slotsOf, h4, h5]⟩

/-- Two tables with the same tree. -/
def SameRows (g g' : Graph τ) : Prop := g.map GRow.shape = g'.map GRow.shape

theorem SameRows.get {g g' : Graph τ} (h : SameRows g g') {i : Nat} {row : GRow τ}
    (hi : g'[i]? = some row) : ∃ row', g[i]? = some row' ∧ row'.shape = row.shape := by
  have : (g.map GRow.shape)[i]? = (g'.map GRow.shape)[i]? := by rw [h]
  rw [List.getElem?_map, List.getElem?_map, hi] at this
  cases hg : g[i]? with
  | none => rw [hg] at this; cases this
  | some r => rw [hg] at this; exact ⟨r, rfl, by simpa using this⟩

theorem SameRows.symm {g g' : Graph τ} (h : SameRows g g') : SameRows g' g := Eq.symm h

theorem SameRows.tags {g g' : Graph τ} (h : SameRows g g') : g'.map GRow.tag = g.map GRow.tag := by
  have := congrArg (List.map Prod.fst) h
  simpa [List.map_map, Function.comp_def, GRow.shape] using this.symm

theorem SameRows.par {g g' : Graph τ} (h : SameRows g g') (hn : (g.map GRow.tag).Nodup) (x : τ) :
    par (shadowTree g') x = par (shadowTree g) x := by
  have hn' : (g'.map GRow.tag).Nodup := by rw [h.tags]; exact hn
  cases hp : Gaspra.par (shadowTree g') x with
  | some q =>
    obtain ⟨i, row, h1, rfl, rfl⟩ := shadow_par hp
    obtain ⟨row', h2, h3⟩ := h.get h1
    obtain ⟨e1, e2, _⟩ := shape_eq h3
    rw [← e1, par_shadow hn h2, e2]
  | none =>
    cases hp' : Gaspra.par (shadowTree g) x with
    | none => rfl
    | some q =>
      obtain ⟨i, row, h1, rfl, rfl⟩ := shadow_par hp'
      obtain ⟨row', h2, h3⟩ := h.symm.get h1
      obtain ⟨e1, e2, _⟩ := shape_eq h3
      rw [← e1, par_shadow hn' h2] at hp
      cases hp

theorem rowAt_get {g : Graph τ} {c : Nat} {r : GRow τ} (h : rowAt g c = some r) :
    ∃ j : Nat, c = j + 1 ∧ g[j]? = some r := by
  cases c with
  | zero => cases h
  | succ j => exact ⟨j, rfl, h⟩

theorem GSafe.congr {g g' : Graph τ} (H : GSafe g) (h : SameRows g g') : GSafe g' where
  nodup := by rw [h.tags]; exact H.nodup
  up := by
    intro i row hi
    obtain ⟨row', h1, h2⟩ := h.get hi
    obtain ⟨e1, e2, e3, e4⟩ := shape_eq h2
    rw [← e2, ← e3]
    rcases H.up h1 with h3 | ⟨r, rp, h3, h4, h5⟩
    · exact .inl h3
    · obtain ⟨rp', h6, h7⟩ := h.symm.get h4
      exact .inr ⟨r, rp', h3, h6, by rw [h5, (shape_eq h7).1]⟩
  down := by
    intro i row c hi hc
    obtain ⟨row', h1, h2⟩ := h.get hi
    obtain ⟨e1, e2, e3, e4⟩ := shape_eq h2
    rw [← e4] at hc
    obtain ⟨rc, h3, h4⟩ := H.down h1 hc
    obtain ⟨j, rfl, h5⟩ := rowAt_get h3
    obtain ⟨rc', h6, h7⟩ := h.symm.get h5
    exact ⟨rc', h6, by rw [(shape_eq h7).2.2.1, h4]⟩
  tree := by
    refine H.tree.congr fun y => ?_
    rw [links_shadow, links_shadow, h.par H.nodup]

theorem updateRow_shape (g : Graph τ) (r : Nat) (f : GRow τ → GRow τ) (hf : ∀ r, (f r).shape = r.shape) :
    SameRows g (updateRow g r f) := by
  unfold SameRows
  cases r with
  | zero => rfl
  | succ i =>
    apply List.ext_getElem?
    intro j
    rw [List.getElem?_map, List.getElem?_map, getElem?_updateRow]
    split
    · cases g[j]? <;> simp [hf]
    · rfl

theorem metricsLoop_shape : ∀ (f : Nat) (g : Graph τ) (x : Option Nat) {g' : Graph τ},
    dbMetricsLoop f g x = .ok g' → SameRows g g'
  | _, g, none, g', h => by simp [dbMetricsLoop] at h; rw [h]; rfl
  | 0, _, some _, _, h => by simp [dbMetricsLoop] at h
  | f + 1, g, some rid, g', h => by
    simp only [dbMetricsLoop] at h
    cases hr : rowAt g rid with
    | none => rw [hr] at h; cases h
    | some r =>
      rw [hr] at h
      simp only at h
      have h1 := metricsLoop_shape f _ _ h
      refine Eq.trans ?_ h1
      exact updateRow_shape _ _ _ (by intro r; rfl)

theorem updateMetrics_shape (g : Graph τ) (x : Option Nat) : SameRows g (dbUpdateMetrics g x).1 := by
  unfold dbUpdateMetrics
  cases h : dbMetricsLoop g.length g x with
  | error e => rfl
  | ok g' => exact metricsLoop_shape _ _ _ h

theorem slots_relinkRow {c p : Nat} {q : Option Nat} {ptag : τ} {original : Option τ} {j : Nat}
    {row : GRow τ} {x : Nat} (h : x ∈ slotsOf (relinkRow c p q ptag original j row)) :
    (x = c ∧ j + 1 = p) ∨ (x ∈ slotsOf row ∧ (x = c → q ≠ some (j + 1))) := by
  unfold relinkRow at h
  dsimp only at h
  have hd : x ∈ slotsOf (if q = some (j + 1) then dropChild c row else row) →
      x ∈ slotsOf row ∧ (x = c → q ≠ some (j + 1)) := by
    split
    · rw [slots_dropChild]
      intro hx
      have := List.mem_filter.1 hx
      exact ⟨this.1, fun e => absurd e (by simpa using this.2)⟩
    · next hq => exact fun hx => ⟨hx, fun _ => hq⟩
  generalize (if q = some (j + 1) then dropChild c row else row) = r1 at h hd
  have hs : ∀ y, y ∈ slotsOf (if j + 1 = c then { r1 with parent := some ptag, parentRid := some p } else r1) ↔
      y ∈ slotsOf r1 := by
    intro y; split <;> exact Iff.rfl
  generalize (if j + 1 = c then { r1 with parent := some ptag, parentRid := some p } else r1) = r2 at h hs
  split at h
  · next hp =>
    cases original with
    | none =>
      simp only [slotsOf, Option.toList_some, List.mem_append, List.mem_singleton] at h
      rcases h with h | h
      · exact .inl ⟨h, hp⟩
      · exact .inr (hd ((hs x).1 (List.mem_append_right _ h)))
    | some o =>
      simp only [slotsOf, Option.toList_some, List.mem_append, List.mem_singleton] at h
      rcases h with h | h
      · exact .inr (hd ((hs x).1 (List.mem_append_left _ h)))
      · exact .inl ⟨h, hp⟩
  · exact .inr (hd ((hs x).1 h))

/-- The first transaction of `change_parent`. -/
theorem GSafe.relink {g : Graph τ} (H : GSafe g) {ic ip : Nat} {rc rp : GRow τ} (hc : g[ic]? = some rc)
    (hp : g[ip]? = some rp) (hroot : rp.parent = none) (hne : rp.tag ≠ rc.tag) :
    let g3 := dbLink (removeIfChild1 (removeIfChild0 g rc.parentRid (ic + 1)) rc.parentRid (ic + 1))
      (ic + 1) (ip + 1) rp.tag rc.parent
    GSafe g3 ∧ MovedPar (shadowTree g) (shadowTree g3) rc.tag rp.tag := by
  intro g3
  have hq : ∀ x, rc.parentRid = some x → x ≠ 0 := by
    intro x hx
    rcases H.up hc with ⟨_, h⟩ | ⟨r, _, h, _, _⟩
    · rw [hx] at h; cases h
    · rw [hx] at h; cases h; omega
  have get : ∀ j, g3[j]? = (g[j]?).map (relinkRow (ic + 1) (ip + 1) rc.parentRid rp.tag rc.parent j) :=
    relink_get hq ic ip rp.tag rc.parent
  have hicp : ic ≠ ip := by
    rintro rfl
    rw [hc] at hp; cases hp; exact hne rfl
  have tags : g3.map GRow.tag = g.map GRow.tag := by
    apply List.ext_getElem?
    intro j
    rw [List.getElem?_map, List.getElem?_map, get]
    cases g[j]? with
    | none => rfl
    | some r => simp [relinkRow_tag]
  have hn3 : (g3.map GRow.tag).Nodup := by rw [tags]; exact H.nodup
  have moved : MovedPar (shadowTree g) (shadowTree g3) rc.tag rp.tag := by
    intro y
    cases hy : par (shadowTree g) y with
    | none =>
      have h1 : y ≠ rc.tag := by rintro rfl; rw [par_shadow H.nodup hc] at hy; cases hy
      rw [if_neg h1]
      cases h2 : par (shadowTree g3) y with
      | none => rfl
      | some q =>
        obtain ⟨i, row, h3, h4, _⟩ := shadow_par h2
        refine absurd ?_ (shadow_unknown hy)
        rw [← tags, ← h4]
        exact List.mem_map.2 ⟨row, List.mem_of_getElem? h3, rfl⟩
    | some q =>
      obtain ⟨i, row, h1, rfl, rfl⟩ := shadow_par hy
      have h2 : g3[i]? = some (relinkRow (ic + 1) (ip + 1) rc.parentRid rp.tag rc.parent i row) := by
        rw [get, h1]; rfl
      have h3 := par_shadow hn3 h2
      rw [relinkRow_tag, (relinkRow_parent _ _ _ _ _ _ _).1] at h3
      rw [h3]
      by_cases e : i = ic
      · subst e
        rw [hc] at h1; cases h1
        simp
      · have : row.tag ≠ rc.tag := by
          intro h
          have a := selectTag_eq H.nodup h1
          have b := selectTag_eq H.nodup hc
          rw [h, b] at a
          simp at a
          exact e a.1.symm
        rw [if_neg this, if_neg (by omega)]
  refine ⟨⟨hn3, ?_, ?_, ?_⟩, moved⟩
  · intro i row hi
    rw [get] at hi
    cases hg : g[i]? with
    | none => rw [hg] at hi; cases hi
    | some r =>
      rw [hg] at hi; cases hi
      have lift : ∀ {k : Nat} {x : GRow τ}, g[k]? = some x →
          ∃ x', g3[k]? = some x' ∧ x'.tag = x.tag := fun {k x} hk =>
        ⟨_, by rw [get, hk]; rfl, relinkRow_tag _ _ _ _ _ _ _⟩
      rw [(relinkRow_parent _ _ _ _ _ _ _).1, (relinkRow_parent _ _ _ _ _ _ _).2]
      by_cases e : i + 1 = ic + 1
      · rw [if_pos e, if_pos e]
        obtain ⟨x', h1, h2⟩ := lift hp
        exact .inr ⟨ip, x', rfl, h1, by rw [h2]⟩
      · rw [if_neg e, if_neg e]
        rcases H.up hg with h | ⟨k, rk, h1, h2, h3⟩
        · exact .inl h
        · obtain ⟨x', h4, h5⟩ := lift h2
          exact .inr ⟨k, x', h1, h4, by rw [h3, h5]⟩
  · intro i row c hi hcs
    rw [get] at hi
    cases hg : g[i]? with
    | none => rw [hg] at hi; cases hi
    | some r =>
      rw [hg] at hi; cases hi
      rcases slots_relinkRow hcs with ⟨rfl, h1⟩ | ⟨h1, h2⟩
      · refine ⟨_, (by show g3[ic]? = _; rw [get, hc]; rfl), ?_⟩
        rw [(relinkRow_parent _ _ _ _ _ _ _).2, if_pos rfl, h1]
      · obtain ⟨x, h3, h4⟩ := H.down hg h1
        obtain ⟨j, rfl, h5⟩ := rowAt_get h3
        refine ⟨_, (by show g3[j]? = _; rw [get, h5]; rfl), ?_⟩
        rw [(relinkRow_parent _ _ _ _ _ _ _).2]
        by_cases e : j + 1 = ic + 1
        · have : j = ic := by omega
          subst this
          rw [hc] at h5; cases h5
          exact absurd h4 (h2 rfl)
        · rw [if_neg e, h4]
  · have hl : ∀ y, links (shadowTree g3) y = lkParent (links (shadowTree g)) rc.tag rp.tag y := by
      intro y
      unfold lkParent
      rw [links_shadow, links_shadow, moved]
      by_cases e : y = rc.tag
      · subst e
        rw [if_pos rfl, par_shadow H.nodup hc]
        simp
      · rw [if_neg e]
        cases par (shadowTree g) y <;> simp [e]
    refine (H.tree.parent (fun {y pa ch} h => ?_) (pch := []) ?_ hne).congr hl
    · rw [links_shadow] at h
      cases hy : par (shadowTree g) y with
      | none => rw [hy] at h; cases h
      | some q => rw [hy] at h; cases h; simp
    · rw [links_shadow, par_shadow H.nodup hp, hroot]; rfl

theorem MovedPar.congr {t t' t'' : MTree τ} {c p : τ} (m : MovedPar t t' c p)
    (h : ∀ y, par t'' y = par t' y) : MovedPar t t'' c p := fun y => (h y).trans (m y)

/-- `change_parent`. -/
theorem GSafe.changeParent {g : Graph τ} (H : GSafe g) {c p : τ} {q : Option τ}
    (hc : par (shadowTree g) c = some q) (hp : par (shadowTree g) p = some none) (hpc : p ≠ c) :
    (∀ pt g', (pt, g') ∈ dbChangeParentTrace g c p →
      (pt = .linked c ∨ pt = .oldParentMetrics c ∨ pt = .newParentMetrics c) ∧
      GSafe g' ∧ MovedPar (shadowTree g) (shadowTree g') c p) ∧
    GSafe (dbChangeParent g c p).1 ∧ MovedPar (shadowTree g) (shadowTree (dbChangeParent g c p).1) c p := by
  obtain ⟨ic, rc, h1, rfl, _⟩ := shadow_par hc
  obtain ⟨ip, rp, h2, rfl, h3⟩ := shadow_par hp
  have s1 := selectTag_eq H.nodup h1
  obtain ⟨S, m⟩ := H.relink h1 h2 h3 hpc
  have hq : ∀ x, rc.parentRid = some x → x ≠ 0 := by
    intro x hx
    rcases H.up h1 with ⟨_, h⟩ | ⟨r, _, h, _, _⟩
    · rw [hx] at h; cases h
    · rw [hx] at h; cases h; omega
  have s2 : ∃ r2, selectTag (removeIfChild1 (removeIfChild0 g rc.parentRid (ic + 1)) rc.parentRid (ic + 1))
      rp.tag = some (ip + 1, r2) := by
    have get := removeIf_get g rc.parentRid hq (ic + 1)
    have htag : ∀ j (r : GRow τ),
        (if rc.parentRid = some (j + 1) then dropChild (ic + 1) r else r).tag = r.tag := by
      intro j r; split <;> rfl
    generalize removeIfChild1 (removeIfChild0 g rc.parentRid (ic + 1)) rc.parentRid (ic + 1) = g2 at get
    have tags : g2.map GRow.tag = g.map GRow.tag := by
      apply List.ext_getElem?
      intro j
      rw [List.getElem?_map, List.getElem?_map, get]
      cases g[j]? with
      | none => rfl
      | some r => simp [htag]
    have h4 := get ip
    rw [h2] at h4
    have := selectTag_eq (by rw [tags]; exact H.nodup) h4
    rw [htag] at this
    exact ⟨_, this⟩
  obtain ⟨r2, s2⟩ := s2
  simp only [dbChangeParentTrace, dbChangeParent, s1, s2]
  generalize dbLink (removeIfChild1 (removeIfChild0 g rc.parentRid (ic + 1)) rc.parentRid (ic + 1))
      (ic + 1) (ip + 1) rp.tag rc.parent = g3 at S m
  have ok : ∀ {g'}, SameRows g3 g' → GSafe g' ∧ MovedPar (shadowTree g) (shadowTree g') rc.tag rp.tag :=
    fun h => ⟨S.congr h, m.congr (h.par S.nodup)⟩
  have u1 := updateMetrics_shape g3 rc.parentRid
  generalize dbUpdateMetrics g3 rc.parentRid = r1 at u1
  obtain ⟨g4, e4⟩ := r1
  cases e4 with
  | some e =>
    refine ⟨?_, ok u1⟩
    intro pt g' h
    simp only [List.mem_singleton, Prod.mk.injEq] at h
    obtain ⟨rfl, rfl⟩ := h
    exact ⟨.inl rfl, S, m⟩
  | none =>
    have u2 := Eq.trans u1 (updateMetrics_shape g4 (some (ip + 1)))
    simp only
    generalize dbUpdateMetrics g4 (some (ip + 1)) = r5 at u2
    obtain ⟨g5, e5⟩ := r5
    refine ⟨?_, ok u2⟩
    intro pt g' h
    cases e5 with
    | some e =>
      simp only [List.mem_cons, List.not_mem_nil, or_false, Prod.mk.injEq] at h
      rcases h with ⟨rfl, rfl⟩ | ⟨rfl, rfl⟩
      · exact ⟨.inl rfl, S, m⟩
      · exact ⟨.inr (.inl rfl), ok u1⟩
    | none =>
      simp only [List.mem_cons, List.not_mem_nil, or_false, Prod.mk.injEq] at h
      rcases h with ⟨rfl, rfl⟩ | ⟨rfl, rfl⟩ | ⟨rfl, rfl⟩
      · exact ⟨.inl rfl, S, m⟩
      · exact ⟨.inr (.inl rfl), ok u1⟩
      · exact ⟨.inr (.inr rfl), ok u2⟩

/-- `add`. -/
theorem GSafe.add {g : Graph τ} (H : GSafe g) {x : τ} (hx : par (shadowTree g) x = none) (b : Option τ) :
    (dbAdd g x b).2 = none ∧ GSafe (dbAdd g x b).1 ∧
    ∀ y, par (shadowTree (dbAdd g x b).1) y = if x = y then some none else par (shadowTree g) y := by
  have hu := shadow_unknown hx
  have hs := selectTag_none hu
  simp only [dbAdd, hs]
  generalize hr : ({ tag := x, parent := none, parentRid := none, child0 := none, child1 := none, height := 1, size := 1, baseVersion := b } : GRow τ) = row
  have ht : row.tag = x := by rw [← hr]
  have hpa : row.parent = none := by rw [← hr]
  have hpr : row.parentRid = none := by rw [← hr]
  have hsl : slotsOf row = [] := by rw [← hr]; rfl
  have get : ∀ {i : Nat} {r : GRow τ}, (g ++ [row])[i]? = some r → g[i]? = some r ∨ r = row := by
    intro i r h
    by_cases hi : i < g.length
    · rw [List.getElem?_append_left hi] at h; exact .inl h
    · rw [List.getElem?_append_right (by omega)] at h
      have := List.mem_of_getElem? h
      exact .inr (List.mem_singleton.1 this)
  have get' : ∀ {i : Nat} {r : GRow τ}, g[i]? = some r → (g ++ [row])[i]? = some r := by
    intro i r h
    rw [List.getElem?_append_left (List.getElem?_eq_some_iff.1 h).1]; exact h
  have hn : ((g ++ [row]).map GRow.tag).Nodup := by
    rw [List.map_append, List.nodup_append]
    refine ⟨H.nodup, by simp, ?_⟩
    intro a ha b hb
    simp only [List.map_cons, List.map_nil, List.mem_singleton] at hb
    rintro rfl
    rw [hb, ht] at ha
    exact hu ha
  have hpar : ∀ y, par (shadowTree (g ++ [row])) y = if x = y then some none else par (shadowTree g) y := by
    intro y
    by_cases e : x = y
    · subst e
      rw [if_pos rfl]
      have : (g ++ [row])[g.length]? = some row := by simp
      have := par_shadow hn this
      rw [ht, hpa] at this
      exact this
    · rw [if_neg e]
      cases hy : par (shadowTree g) y with
      | some q =>
        obtain ⟨i, r, h1, rfl, rfl⟩ := shadow_par hy
        exact par_shadow hn (get' h1)
      | none =>
        cases hy' : par (shadowTree (g ++ [row])) y with
        | none => rfl
        | some q =>
          obtain ⟨i, r, h1, rfl, rfl⟩ := shadow_par hy'
          rcases get h1 with h1 | rfl
          · rw [par_shadow H.nodup h1] at hy; cases hy
          · exact absurd ht.symm e
  refine ⟨trivial, ⟨hn, ?_, ?_, ?_⟩, hpar⟩
  · intro i r hi
    rcases get hi with hi | rfl
    · rcases H.up hi with h | ⟨k, rk, h1, h2, h3⟩
      · exact .inl h
      · exact .inr ⟨k, rk, h1, get' h2, h3⟩
    · exact .inl ⟨hpa, hpr⟩
  · intro i r c hi hc
    rcases get hi with hi | rfl
    · obtain ⟨rc, h1, h2⟩ := H.down hi hc
      obtain ⟨j, rfl, h3⟩ := rowAt_get h1
      exact ⟨rc, get' h3, h2⟩
    · rw [hsl] at hc; cases hc
  · refine LSafe.add H.tree (x := x) (fun p ch h => ?_) fun y => ?_
    · rw [links_shadow, hx] at h; cases h
    · rw [links_shadow, links_shadow, hpar]
      split <;> rfl

end Gaspra
