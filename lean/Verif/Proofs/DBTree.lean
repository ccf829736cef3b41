import Verif.Proofs.MemoryTreeQueries
import Verif.Model.DBTree

set_option linter.unusedSectionVars false
set_option linter.unusedSimpArgs false
set_option linter.unusedVariables false

/-! # The table `graph` represents the same tree as `MemoryTree.nodes` -/

namespace Gaspra

variable {τ : Type _} [DecidableEq τ]

/-! ### Row numbers -/

/-- The rowid of a tag, given the tags in order of insertion. -/
def ridOf (keys : List τ) (x : τ) : Option Nat := (keys.findIdx? (fun y => y = x)).map (· + 1)

theorem findIdx?_nodup {keys : List τ} (hn : keys.Nodup) {x : τ} {i : Nat} :
    keys.findIdx? (fun y => y = x) = some i ↔ keys[i]? = some x := by
  rw [List.findIdx?_eq_some_iff_getElem]
  constructor
  · rintro ⟨h, h1, _⟩
    rw [List.getElem?_eq_getElem h]
    simpa using h1
  · intro h
    obtain ⟨hi, he⟩ := List.getElem?_eq_some_iff.1 h
    refine ⟨hi, by simpa using he, fun j hji => ?_⟩
    simp only [decide_eq_true_eq]
    intro e
    have := (List.getElem_inj (h₀ := by omega) (h₁ := hi) hn).1 (e.trans he.symm)
    omega

theorem ridOf_some {keys : List τ} (hn : keys.Nodup) {x : τ} {r : Nat} :
    ridOf keys x = some r ↔ ∃ i, r = i + 1 ∧ keys[i]? = some x := by
  unfold ridOf
  rw [Option.map_eq_some_iff]
  constructor
  · rintro ⟨i, h, rfl⟩; exact ⟨i, rfl, (findIdx?_nodup hn).1 h⟩
  · rintro ⟨i, rfl, h⟩; exact ⟨i, (findIdx?_nodup hn).2 h, rfl⟩

theorem ridOf_inj {keys : List τ} (hn : keys.Nodup) {x y : τ} {r : Nat}
    (hx : ridOf keys x = some r) (hy : ridOf keys y = some r) : x = y := by
  obtain ⟨i, rfl, h1⟩ := (ridOf_some hn).1 hx
  obtain ⟨j, h, h2⟩ := (ridOf_some hn).1 hy
  obtain rfl : i = j := by omega
  rw [h1] at h2; exact Option.some.inj h2

theorem ridOf_known {keys : List τ} {x : τ} (h : x ∈ keys) : ∃ i, ridOf keys x = some (i + 1) := by
  unfold ridOf
  cases h' : keys.findIdx? (fun y => y = x) with
  | some i => exact ⟨i, rfl⟩
  | none =>
    rw [List.findIdx?_eq_none_iff] at h'
    have := h' x h
    simp at this

/-! ### The relation -/

/-- The rowids in the two slots for children. -/
def slotsOf (r : GRow τ) : List Nat := r.child0.toList ++ r.child1.toList

/-- The row number `i + 1` represents a node. -/
structure NodeRow (keys : List τ) (i : Nat) (nd : TNode τ) (row : GRow τ) : Prop where
  order : nd.orderId = i
  parent : row.parent = nd.parent
  parentRid : row.parentRid = nd.parent.bind (ridOf keys)
  slots : (slotsOf row).Perm (nd.children.filterMap (ridOf keys))
  height : row.height = nd.height
  size : row.size = nd.size
  base : row.baseVersion = nd.baseVersion

/-- The table represents the tree. -/
structure Sim (t : MTree τ) (g : Graph τ) : Prop where
  keys : g.map GRow.tag = t.map Prod.fst
  node : ∀ {i row}, g[i]? = some row →
    ∃ nd, dget t row.tag = some nd ∧ NodeRow (t.map Prod.fst) i nd row

theorem Sim.length {t : MTree τ} {g : Graph τ} (H : Sim t g) : g.length = t.length := by
  simpa using congrArg List.length H.keys

theorem Sim.tagAt {t : MTree τ} {g : Graph τ} (H : Sim t g) {i : Nat} {row : GRow τ}
    (h : g[i]? = some row) : (t.map Prod.fst)[i]? = some row.tag := by
  rw [← H.keys, List.getElem?_map, h]; rfl

theorem Sim.rowOf {t : MTree τ} {g : Graph τ} (H : Sim t g) (hn : (t.map Prod.fst).Nodup) {x : τ}
    {nd : TNode τ} (hx : dget t x = some nd) :
    ∃ i row, g[i]? = some row ∧ row.tag = x ∧ ridOf (t.map Prod.fst) x = some (i + 1) ∧
      NodeRow (t.map Prod.fst) i nd row := by
  obtain ⟨i, hi⟩ := ridOf_known (mem_keys_of_dget hx)
  obtain ⟨j, e, hj⟩ := (ridOf_some hn).1 hi
  obtain rfl : i = j := by omega
  have hj' := hj
  rw [← H.keys, List.getElem?_map, Option.map_eq_some_iff] at hj'
  obtain ⟨row, h1, h2⟩ := hj'
  obtain ⟨nd', h3, h4⟩ := H.node h1
  rw [h2, hx] at h3; cases h3
  exact ⟨i, row, h1, h2, hi, h4⟩

theorem Sim.rowAt {t : MTree τ} {g : Graph τ} (H : Sim t g) (hn : (t.map Prod.fst).Nodup) {x : τ}
    {nd : TNode τ} (hx : dget t x = some nd) {r : Nat} (hr : ridOf (t.map Prod.fst) x = some r) :
    ∃ row, rowAt g r = some row ∧ row.tag = x ∧ NodeRow (t.map Prod.fst) (r - 1) nd row := by
  obtain ⟨i, row, h1, h2, h3, h4⟩ := H.rowOf hn hx
  rw [hr] at h3; cases h3
  exact ⟨row, h1, h2, h4⟩

theorem selectTag_eq {g : Graph τ} (hn : (g.map GRow.tag).Nodup) {i : Nat} {row : GRow τ}
    (h : g[i]? = some row) : selectTag g row.tag = some (i + 1, row) := by
  have : g.findIdx? (fun r => r.tag = row.tag) = some i := by
    have := (findIdx?_nodup hn (x := row.tag) (i := i)).2 (by rw [List.getElem?_map, h]; rfl)
    rw [List.findIdx?_map] at this
    exact this
  unfold selectTag
  rw [this]
  simp [h]

theorem selectTag_none {g : Graph τ} {x : τ} (h : x ∉ g.map GRow.tag) : selectTag g x = none := by
  have : g.findIdx? (fun r => r.tag = x) = none := by
    rw [List.findIdx?_eq_none_iff]
    intro r hr
    simp only [decide_eq_false_iff_not]
    intro e
    exact h (List.mem_map.2 ⟨r, hr, e⟩)
  unfold selectTag
  rw [this]

theorem Sim.select {t : MTree τ} {g : Graph τ} (H : Sim t g) (hn : (t.map Prod.fst).Nodup) {x : τ}
    {nd : TNode τ} (hx : dget t x = some nd) :
    ∃ i row, selectTag g x = some (i + 1, row) ∧ g[i]? = some row ∧ row.tag = x ∧
      ridOf (t.map Prod.fst) x = some (i + 1) ∧ NodeRow (t.map Prod.fst) i nd row := by
  obtain ⟨i, row, h1, h2, h3, h4⟩ := H.rowOf hn hx
  exact ⟨i, row, h2 ▸ selectTag_eq (H.keys ▸ hn) h1, h1, h2, h3, h4⟩

theorem Sim.select_none {t : MTree τ} {g : Graph τ} (H : Sim t g) {x : τ}
    (hx : dget t x = none) : selectTag g x = none := by
  apply selectTag_none
  rw [H.keys]
  intro h
  obtain ⟨nd, hnd⟩ := dget_isSome_iff.2 h
  rw [hx] at hnd; cases hnd

/-! ### Children -/

theorem childRows_slots (g : Graph τ) (r : GRow τ) :
    childRows g r = (slotsOf r).filterMap fun rid => (rowAt g rid).map fun row => (rid, row) := by
  unfold childRows slotsOf
  cases r.child0 <;> cases r.child1 <;> simp [List.filterMap_cons]

theorem Sim.joined {t : MTree τ} {g : Graph τ} (H : Sim t g) (hn : (t.map Prod.fst).Nodup) :
    ∀ (l : List τ), (∀ c ∈ l, ∃ nc, dget t c = some nc) →
    ∃ rows : List (Nat × GRow τ), ((l.filterMap (ridOf (t.map Prod.fst))).filterMap fun rid =>
        (Gaspra.rowAt g rid).map fun row => (rid, row)) = rows ∧
      rows.map (fun x => x.2.tag) = l ∧ ∀ x ∈ rows, Gaspra.rowAt g x.1 = some x.2
  | [], _ => ⟨[], rfl, rfl, by simp⟩
  | c :: l, h => by
    obtain ⟨nc, hc⟩ := h c (by simp)
    obtain ⟨i, row, h1, h2, h3, h4⟩ := H.rowOf hn hc
    obtain ⟨rows, e1, e2, e3⟩ := Sim.joined H hn l fun c' hc' => h c' (by simp [hc'])
    refine ⟨(i + 1, row) :: rows, ?_, by simp [h2, e2], ?_⟩
    · have : Gaspra.rowAt g (i + 1) = some row := h1
      simp only [List.filterMap_cons, h3, this, Option.map_some, e1]
    · intro x hx
      rcases List.mem_cons.1 hx with rfl | hx
      · exact h1
      · exact e3 x hx

theorem Sim.childRows {t : MTree τ} {g : Graph τ} (H : Sim t g) (F : Forest t) {x : τ}
    {nd : TNode τ} (hx : dget t x = some nd) {i : Nat} {row : GRow τ}
    (hr : NodeRow (t.map Prod.fst) i nd row) :
    ∃ rows : List (Nat × GRow τ), (childRows g row).Perm rows ∧
      rows.map (fun x => x.2.tag) = nd.children ∧ ∀ x ∈ rows, Gaspra.rowAt g x.1 = some x.2 := by
  obtain ⟨rows, e1, e2, e3⟩ := H.joined F.nodup nd.children fun c hc => by
    obtain ⟨nc, h1, _⟩ := F.down hx hc; exact ⟨nc, h1⟩
  refine ⟨rows, ?_, e2, e3⟩
  rw [childRows_slots, ← e1]
  exact hr.slots.filterMap _

theorem Sim.ofRowAt {t : MTree τ} {g : Graph τ} (H : Sim t g) {r : Nat} {row : GRow τ}
    (h : Gaspra.rowAt g r = some row) :
    ∃ nd, dget t row.tag = some nd ∧ NodeRow (t.map Prod.fst) (r - 1) nd row ∧ 0 < r := by
  cases r with
  | zero => cases h
  | succ r =>
    obtain ⟨nd, h1, h2⟩ := H.node (i := r) h
    exact ⟨nd, h1, h2, by omega⟩

theorem maxNat_perm {l l' : List Nat} (h : l.Perm l') : maxNat l = maxNat l' :=
  Nat.le_antisymm (maxNat_le fun x hx => le_maxNat (h.mem_iff.1 hx))
    (maxNat_le fun x hx => le_maxNat (h.mem_iff.2 hx))

theorem Sim.childHeights {t : MTree τ} {g : Graph τ} (H : Sim t g) (F : Forest t) {x : τ}
    {nd : TNode τ} (hx : dget t x = some nd) {i : Nat} {row : GRow τ}
    (hr : NodeRow (t.map Prod.fst) i nd row) :
    maxNat ((Gaspra.childRows g row).map fun c => c.2.height) =
        maxNat (nd.children.map (heightOf t)) ∧
      ((Gaspra.childRows g row).map fun c => c.2.size).sum =
        (nd.children.map (sizeOfTag t)).sum := by
  obtain ⟨rows, e1, e2, e3⟩ := H.childRows F hx hr
  have hh : rows.map (fun c => c.2.height) = nd.children.map (heightOf t) := by
    rw [← e2, List.map_map]
    apply List.map_congr_left
    intro y hy
    obtain ⟨ny, h1, h2, _⟩ := H.ofRowAt (e3 y hy)
    simp [heightOf, h1, h2.height]
  have hs : rows.map (fun c => c.2.size) = nd.children.map (sizeOfTag t) := by
    rw [← e2, List.map_map]
    apply List.map_congr_left
    intro y hy
    obtain ⟨ny, h1, h2, _⟩ := H.ofRowAt (e3 y hy)
    simp [sizeOfTag, h1, h2.size]
  rw [← hh, ← hs]
  exact ⟨maxNat_perm (e1.map _), (e1.map _).sum_nat⟩

/-! ### Updating a row -/

theorem getElem?_updateRow (g : Graph τ) (i j : Nat) (f : GRow τ → GRow τ) :
    (updateRow g (i + 1) f)[j]? = if i = j then (g[j]?).map f else g[j]? := by
  unfold updateRow
  simp only [List.getElem?_modify]
  split <;> simp

theorem updateRow_tags (g : Graph τ) (r : Nat) (f : GRow τ → GRow τ) (hf : ∀ r, (f r).tag = r.tag) :
    (updateRow g r f).map GRow.tag = g.map GRow.tag := by
  cases r with
  | zero => rfl
  | succ i =>
    apply List.ext_getElem?
    intro j
    rw [List.getElem?_map, List.getElem?_map, getElem?_updateRow]
    split
    · cases g[j]? <;> simp [hf]
    · rfl

/-- The contents of the slots for children. -/
def slotMap (g : Graph τ) : List (τ × Option Nat × Option Nat) :=
  g.map fun r => (r.tag, r.child0, r.child1)

theorem updateRow_slotMap (g : Graph τ) (r : Nat) (f : GRow τ → GRow τ)
    (hf : ∀ r, (f r).tag = r.tag ∧ (f r).child0 = r.child0 ∧ (f r).child1 = r.child1) :
    slotMap (updateRow g r f) = slotMap g := by
  cases r with
  | zero => rfl
  | succ i =>
    apply List.ext_getElem?
    intro j
    unfold slotMap
    rw [List.getElem?_map, List.getElem?_map, getElem?_updateRow]
    split
    · cases g[j]? <;> simp [hf]
    · rfl

theorem Sim.setMetrics {t : MTree τ} {g : Graph τ} (H : Sim t g) (hn : (t.map Prod.fst).Nodup)
    {x : τ} {nd : TNode τ} (hx : dget t x = some nd) {i : Nat}
    (hi : ridOf (t.map Prod.fst) x = some (i + 1)) (hh ss : Nat) :
    Sim (dset t x { nd with height := hh, size := ss })
      (updateRow g (i + 1) fun r => { r with height := hh, size := ss }) := by
  have hk : (dset t x { nd with height := hh, size := ss }).map Prod.fst = t.map Prod.fst := by
    rw [dset_keys, if_pos (mem_keys_of_dget hx)]
  constructor
  · exact hk ▸ (updateRow_tags _ _ _ (by intro r; rfl)).trans H.keys
  · intro j row hj
    rw [hk]
    rw [getElem?_updateRow] at hj
    by_cases hij : i = j
    · subst hij
      rw [if_pos rfl, Option.map_eq_some_iff] at hj
      obtain ⟨row0, h1, rfl⟩ := hj
      obtain ⟨nd0, h2, h3⟩ := H.node h1
      have hx0 : row0.tag = x := by
        obtain ⟨k, e, hk⟩ := (ridOf_some hn).1 hi
        obtain rfl : i = k := by omega
        have := H.tagAt h1
        rw [this] at hk; exact Option.some.inj hk
      rw [hx0, hx] at h2; cases h2
      refine ⟨{ nd with height := hh, size := ss }, ?_, ?_⟩
      · show dget _ row0.tag = _
        rw [hx0, dget_dset, if_pos rfl]
      · exact ⟨h3.order, h3.parent, h3.parentRid, h3.slots, rfl, rfl, h3.base⟩
    · rw [if_neg hij] at hj
      obtain ⟨nd0, h2, h3⟩ := H.node hj
      refine ⟨nd0, ?_, h3⟩
      rw [dget_dset, if_neg]
      · exact h2
      · intro e
        obtain ⟨k, e', hk'⟩ := (ridOf_some hn).1 hi
        obtain rfl : i = k := by omega
        have h4 := H.tagAt hj
        rw [← e] at h4
        have := (findIdx?_nodup hn).2 h4
        rw [(findIdx?_nodup hn).2 hk'] at this
        exact hij (Option.some.inj this)

/-! ### Metrics -/

theorem updateMetrics_step {t : MTree τ} (F : Forest t) {x : τ} {nd : TNode τ}
    (hx : dget t x = some nd) (f : Nat) : mtUpdateMetrics (f + 1) t (some x) = mtUpdateMetrics f
        (dset t x { nd with height := maxNat (nd.children.map (heightOf t)) + 1,
                            size := (nd.children.map (sizeOfTag t)).sum + 1 }) nd.parent := by
  have hch : ∀ c ∈ nd.children, ∃ nc, dget t c = some nc := fun c hc => by
    obtain ⟨nc, h1, _⟩ := F.down hx hc; exact ⟨nc, h1⟩
  simp only [mtUpdateMetrics, hx, childAttrs_eq _ _ hch]
  have e1 : (if nd.children.isEmpty = true then 0 else
      maxNat (nd.children.map fun c => ((dget t c).map TNode.height).getD 0)) =
      maxNat (nd.children.map (heightOf t)) := by
    split
    · next h => simp [List.isEmpty_iff.1 h, maxNat]
    · rfl
  have e2 : (if nd.children.isEmpty = true then 0 else
      (nd.children.map fun c => ((dget t c).map TNode.size).getD 0).sum) =
      (nd.children.map (sizeOfTag t)).sum := by
    split
    · next h => simp [List.isEmpty_iff.1 h]
    · rfl
  rw [e1, e2]

theorem Sim.metricsLoop {x : τ} {l : List τ} : ∀ {t : MTree τ} {g : Graph τ} {f : Nat},
    Sim t g → Forest t → UpPath t x l → l.length ≤ f →
    ∃ t' g', mtUpdateMetrics f t (some x) = (t', none) ∧
      dbMetricsLoop f g (ridOf (t.map Prod.fst) x) = .ok g' ∧ Sim t' g' ∧ slotMap g' = slotMap g := by
  induction l generalizing x with
  | nil => intro t g f H F hp; cases hp
  | cons a l ih =>
    intro t g f H F hp hf
    cases f with
    | zero => simp at hf
    | succ f =>
    obtain ⟨r, hr⟩ := hp.head
    obtain rfl : x = a := (List.cons.inj hr).1.symm
    obtain ⟨nd, hx⟩ := hp.mem_keys x (by simp)
    obtain ⟨i, row, h1, h2, h3, h4⟩ := H.rowOf F.nodup hx
    have hrow : Gaspra.rowAt g (i + 1) = some row := h1
    obtain ⟨c1, c2⟩ := H.childHeights F hx h4
    rw [updateMetrics_step F hx]
    rw [h3]
    simp only [dbMetricsLoop, hrow, c1, c2]
    rw [Nat.add_comm 1, Nat.add_comm 1]
    have H1 := H.setMetrics F.nodup hx h3 (maxNat (nd.children.map (heightOf t)) + 1)
      ((nd.children.map (sizeOfTag t)).sum + 1)
    have hs := sameShape_setMetrics hx (maxNat (nd.children.map (heightOf t)) + 1)
      ((nd.children.map (sizeOfTag t)).sum + 1)
    have hsm := updateRow_slotMap g (i + 1) (fun r =>
      { r with height := maxNat (nd.children.map (heightOf t)) + 1,
               size := (nd.children.map (sizeOfTag t)).sum + 1 }) (fun r => ⟨rfl, rfl, rfl⟩)
    generalize dset t x { nd with height := maxNat (nd.children.map (heightOf t)) + 1,
                                  size := (nd.children.map (sizeOfTag t)).sum + 1 } = t1 at H1 hs ⊢
    generalize (updateRow g (i + 1) fun r =>
      { r with height := maxNat (nd.children.map (heightOf t)) + 1,
               size := (nd.children.map (sizeOfTag t)).sum + 1 }) = g1 at H1 hsm ⊢
    cases hp with
    | root a1 a2 =>
      rw [hx] at a1; cases a1
      rw [h4.parentRid, a2]
      exact ⟨t1, g1, by simp [mtUpdateMetrics], by simp [dbMetricsLoop], H1, hsm⟩
    | @step _ p _ _ a1 a2 a3 =>
      rw [hx] at a1; cases a1
      rw [h4.parentRid, a2]
      obtain ⟨t', g', b1, b2, b3, b4⟩ := ih H1 (hs.forest F) (hs.upPath a3) (by simpa using hf)
      rw [hs.1] at b2
      exact ⟨t', g', b1, b2, b3, b4.trans hsm⟩

theorem Sim.updateMetrics {x : τ} {l : List τ} {t : MTree τ} {g : Graph τ} (H : Sim t g)
    (F : Forest t) (hp : UpPath t x l) :
    ∃ t' g', mtUpdateMetrics t.length t (some x) = (t', none) ∧
      dbUpdateMetrics g (ridOf (t.map Prod.fst) x) = (g', none) ∧ Sim t' g' ∧
      slotMap g' = slotMap g := by
  obtain ⟨t', g', b1, b2, b3, b4⟩ := H.metricsLoop F hp hp.length_le
  refine ⟨t', g', b1, ?_, b3, b4⟩
  rw [← H.length] at b2
  simp only [dbUpdateMetrics, b2]

/-- Right metrics are determined by the structure. -/
theorem metrics_unique {ta tb : MTree τ} (Ta : TreeOK ta) (Tb : TreeOK tb)
    (S : SameTreeShape ta tb) {x : τ} {nd : TNode τ} (hx : dget ta x = some nd) :
    dget tb x = some nd := by
  have key : ∀ n x nd, dget ta x = some nd → nd.height ≤ n →
      heightOf tb x = nd.height ∧ sizeOfTag tb x = nd.size := by
    intro n
    induction n with
    | zero =>
      intro x nd hx h
      have := Ta.height_pos hx
      omega
    | succ n ih =>
      intro x nd hx h
      obtain ⟨nd', a1, a2, a3, a4, a5⟩ := S.2 x nd hx
      have hc : ∀ c ∈ nd.children, heightOf tb c = heightOf ta c ∧ sizeOfTag tb c = sizeOfTag ta c := by
        intro c hc
        obtain ⟨nc, b1, _⟩ := Ta.down hx hc
        have hlt : nc.height < nd.height := by
          have := (Ta.metric x nd hx).1
          have h2 := le_maxNat (List.mem_map_of_mem (f := heightOf ta) hc)
          rw [heightOf_eq b1] at h2
          omega
        have := ih c nc b1 (by omega)
        rw [this.1, this.2]
        simp [heightOf, sizeOfTag, b1]
      have m1 := Ta.metric x nd hx
      have m2 := Tb.metric x nd' a1
      rw [a4, List.map_congr_left (fun c h => (hc c h).1), List.map_congr_left (fun c h => (hc c h).2)]
        at m2
      simp only [heightOf, sizeOfTag, a1, Option.map_some, Option.getD_some]
      exact ⟨by rw [m2.1, m1.1], by rw [m2.2, m1.2]⟩
  obtain ⟨nd', a1, a2, a3, a4, a5⟩ := S.2 x nd hx
  obtain ⟨k1, k2⟩ := key _ x nd hx (Nat.le_refl _)
  simp only [heightOf, sizeOfTag, a1, Option.map_some, Option.getD_some] at k1 k2
  rw [a1]
  cases nd; cases nd'
  simp_all

theorem Sim.congr {ta tb : MTree τ} {g : Graph τ} (H : Sim ta g)
    (hk : tb.map Prod.fst = ta.map Prod.fst) (hd : ∀ {x nd}, dget ta x = some nd → dget tb x = some nd) :
    Sim tb g := by
  refine ⟨hk ▸ H.keys, fun {i row} h => ?_⟩
  obtain ⟨nd, h1, h2⟩ := H.node h
  exact ⟨nd, hd h1, hk ▸ h2⟩

/-! ### Relinking -/

/-- The row of the old parent after `REMOVE_IF_CHILDx`. -/
def dropChild (r : Nat) (row : GRow τ) : GRow τ :=
  { row with child0 := if row.child0 = some r then none else row.child0,
             child1 := if row.child1 = some r then none else row.child1 }

theorem slots_dropChild (r : Nat) (row : GRow τ) :
    slotsOf (dropChild r row) = (slotsOf row).filter (fun x => x ≠ r) := by
  unfold slotsOf dropChild
  cases h0 : row.child0 with
  | none =>
    cases h1 : row.child1 with
    | none => simp
    | some b => by_cases hb : b = r <;> simp [hb]
  | some a =>
    cases h1 : row.child1 with
    | none => by_cases ha : a = r <;> simp [ha]
    | some b => by_cases ha : a = r <;> by_cases hb : b = r <;> simp [ha, hb]

/-- A row after the transaction of `change_parent`. -/
def relinkRow (c p : Nat) (q : Option Nat) (ptag : τ) (original : Option τ) (j : Nat) (row : GRow τ) :
    GRow τ :=
  let r1 := if q = some (j + 1) then dropChild c row else row
  let r2 := if j + 1 = c then { r1 with parent := some ptag, parentRid := some p } else r1
  if j + 1 = p then
    (match original with
    | none => { r2 with child0 := some c }
    | some _ => { r2 with child1 := some c })
  else r2

theorem removeIf_get (g : Graph τ) (q : Option Nat) (hq : ∀ x, q = some x → x ≠ 0) (c j : Nat) :
    (removeIfChild1 (removeIfChild0 g q c) q c)[j]? =
      (g[j]?).map fun row => if q = some (j + 1) then dropChild c row else row := by
  cases q with
  | none => simp [removeIfChild0, removeIfChild1]
  | some q =>
    cases q with
    | zero => exact absurd rfl (hq 0 rfl)
    | succ q =>
      simp only [removeIfChild0, removeIfChild1, getElem?_updateRow]
      by_cases h : q = j
      · subst h
        simp only [if_true]
        cases g[q]? with
        | none => rfl
        | some row =>
          simp only [Option.map_some, dropChild]
          cases row
          simp only
          split <;> split <;> simp_all
      · have : ¬ (some (q + 1) = some (j + 1)) := by simpa using h
        simp [h]

theorem dbLink_get (g : Graph τ) (c p : Nat) (ptag : τ) (original : Option τ) (j : Nat) :
    (dbLink g (c + 1) (p + 1) ptag original)[j]? = (g[j]?).map fun row =>
      let r2 := if j + 1 = c + 1 then { row with parent := some ptag, parentRid := some (p + 1) } else row
      if j + 1 = p + 1 then
        (match original with
        | none => { r2 with child0 := some (c + 1) }
        | some _ => { r2 with child1 := some (c + 1) })
      else r2 := by
  have e1 : (j + 1 = c + 1) ↔ c = j := by omega
  have e2 : (j + 1 = p + 1) ↔ p = j := by omega
  simp only [e1, e2]
  unfold dbLink
  cases original with
  | none =>
    simp only [getElem?_updateRow]
    by_cases h1 : c = j <;> by_cases h2 : p = j <;> cases g[j]? <;> simp [h1, h2]
  | some o =>
    simp only [getElem?_updateRow]
    by_cases h1 : c = j <;> by_cases h2 : p = j <;> cases g[j]? <;> simp [h1, h2]

theorem filterMap_erase_rid {keys l : List τ} (hn : keys.Nodup) (hl : l.Nodup) {c : τ} {r : Nat}
    (hr : ridOf keys c = some r) :
    (l.erase c).filterMap (ridOf keys) = (l.filterMap (ridOf keys)).filter (fun x => x ≠ r) := by
  rw [List.Nodup.erase_eq_filter hl, List.filterMap_filter, List.filter_filterMap]
  congr 1
  funext x
  by_cases h : x = c
  · subst h
    simp [hr, Option.filter]
  · have hb : (x != c) = true := by simpa using h
    rw [hb, if_pos rfl]
    cases hx : ridOf keys x with
    | none => rfl
    | some y =>
      have : y ≠ r := by
        rintro rfl
        exact h (ridOf_inj hn hx hr)
      simp [Option.filter, this]

theorem relinkRow_tag (c p : Nat) (q : Option Nat) (ptag : τ) (original : Option τ) (j : Nat)
    (row : GRow τ) : (relinkRow c p q ptag original j row).tag = row.tag := by
  unfold relinkRow dropChild
  cases original <;> dsimp only <;> split <;> split <;> split <;> rfl

theorem relinkRow_other (c p : Nat) (q : Option Nat) (ptag : τ) (original : Option τ) (j : Nat)
    (row : GRow τ) : (relinkRow c p q ptag original j row).height = row.height ∧
      (relinkRow c p q ptag original j row).size = row.size ∧
      (relinkRow c p q ptag original j row).baseVersion = row.baseVersion := by
  unfold relinkRow dropChild
  cases original <;> dsimp only <;> split <;> split <;> split <;> exact ⟨rfl, rfl, rfl⟩

theorem relinkRow_parent (c p : Nat) (q : Option Nat) (ptag : τ) (original : Option τ) (j : Nat)
    (row : GRow τ) : (relinkRow c p q ptag original j row).parent =
        (if j + 1 = c then some ptag else row.parent) ∧
      (relinkRow c p q ptag original j row).parentRid =
        (if j + 1 = c then some p else row.parentRid) := by
  unfold relinkRow dropChild
  cases original <;> dsimp only <;> split <;> split <;> split <;> exact ⟨rfl, rfl⟩

theorem relinkRow_slots (c p : Nat) (q : Option Nat) (ptag : τ) (original : Option τ) (j : Nat)
    (row : GRow τ)
    (hfree : j + 1 = p → if original = none then row.child0 = none
      else row.child1 = none ∨ (q = some p ∧ row.child1 = some c)) (hq0 : original = none → q = none) :
    (slotsOf (relinkRow c p q ptag original j row)).Perm
      ((if q = some (j + 1) then (slotsOf row).filter (fun x => x ≠ c) else slotsOf row) ++
        (if j + 1 = p then [c] else [])) := by
  have e1 : ∀ r : GRow τ, ∀ a b, slotsOf { r with parent := a, parentRid := b } = slotsOf r :=
    fun r a b => rfl
  have hd : slotsOf (if q = some (j + 1) then dropChild c row else row) =
      if q = some (j + 1) then (slotsOf row).filter (fun x => x ≠ c) else slotsOf row := by
    split
    · exact slots_dropChild c row
    · rfl
  rw [← hd]
  have hf1 : ∀ _ : j + 1 = p, if original = none then
        (if q = some (j + 1) then dropChild c row else row).child0 = none
      else (if q = some (j + 1) then dropChild c row else row).child1 = none := by
    intro hjp
    have := hfree hjp
    split
    · next h =>
      rw [if_pos h] at this
      rw [hq0 h]
      simpa using this
    · next h =>
      rw [if_neg h] at this
      rcases this with h' | ⟨h', h''⟩
      · split
        · simp [dropChild, h']
        · exact h'
      · rw [if_pos (hjp ▸ h')]
        simp [dropChild, h'']
  unfold relinkRow
  generalize (if q = some (j + 1) then dropChild c row else row) = r1 at hf1 ⊢
  dsimp only
  by_cases hjp : j + 1 = p
  · have hf := hf1 hjp
    simp only [if_pos hjp]
    cases original with
    | none =>
      rw [if_pos rfl] at hf
      by_cases hjc : j + 1 = c <;> (simp only [hjc, if_true, if_false, slotsOf, hf, Option.toList_none, List.nil_append, Option.toList_some]; exact List.perm_append_comm)
    | some o =>
      rw [if_neg (by simp)] at hf
      by_cases hjc : j + 1 = c <;> (simp only [hjc, if_true, if_false, slotsOf, hf, Option.toList_none, List.append_nil, Option.toList_some]; exact List.Perm.refl _)
  · simp only [if_neg hjp, List.append_nil]
    split
    · exact List.Perm.refl _
    · exact List.Perm.refl _

/-- The slot of the new parent that `change_parent` is going to fill is free. -/
def SlotFree (keys : List τ) (g : Graph τ) (c : τ) (q : Option τ) (p : τ) : Prop :=
  ∀ (i : Nat) (row : GRow τ), g[i]? = some row → row.tag = p →
    if q = none then row.child0 = none
    else row.child1 = none ∨ (q = some p ∧ row.child1 = ridOf keys c)

theorem ridOf_iff {keys : List τ} (hn : keys.Nodup) {x y : τ} {i j : Nat}
    (hi : ridOf keys x = some (i + 1)) (hj : keys[j]? = some y) : j + 1 = i + 1 ↔ y = x := by
  have hj' : ridOf keys y = some (j + 1) := (ridOf_some hn).2 ⟨j, rfl, hj⟩
  constructor
  · intro h
    rw [h] at hj'
    exact ridOf_inj hn hj' hi
  · rintro rfl
    rw [hi] at hj'
    exact (Option.some.inj hj').symm

theorem relink_get {g : Graph τ} {q : Option Nat} (hq : ∀ x, q = some x → x ≠ 0) (c p : Nat)
    (ptag : τ) (original : Option τ) (j : Nat) :
    (dbLink (removeIfChild1 (removeIfChild0 g q (c + 1)) q (c + 1)) (c + 1) (p + 1) ptag original)[j]? =
      (g[j]?).map (relinkRow (c + 1) (p + 1) q ptag original j) := by
  rw [dbLink_get, removeIf_get _ _ hq, Option.map_map]
  rfl

theorem Sim.relink {t t3 : MTree τ} {g : Graph τ} (H : Sim t g) (F : Forest t) {c p : τ}
    {nc np : TNode τ} (hc : dget t c = some nc) (hp : dget t p = some np) (hpc : p ≠ c)
    (R : Relinked t t3 c nc.parent p) {ic ip : Nat}
    (hic : ridOf (t.map Prod.fst) c = some (ic + 1)) (hip : ridOf (t.map Prod.fst) p = some (ip + 1))
    {q : Option Nat} (hq : q = nc.parent.bind (ridOf (t.map Prod.fst)))
    (hfree : SlotFree (t.map Prod.fst) g c nc.parent p) :
    Sim t3 (dbLink (removeIfChild1 (removeIfChild0 g q (ic + 1)) q (ic + 1)) (ic + 1) (ip + 1) p
      nc.parent) := by
  have hq0 : ∀ x, q = some x → x ≠ 0 := by
    intro x hx
    rw [hq] at hx
    obtain ⟨y, _, h2⟩ := Option.bind_eq_some_iff.1 hx
    obtain ⟨i, rfl, _⟩ := (ridOf_some F.nodup).1 h2
    omega
  constructor
  · rw [R.1, ← H.keys]
    apply List.ext_getElem?
    intro j
    rw [List.getElem?_map, List.getElem?_map, relink_get hq0]
    cases g[j]? <;> simp [relinkRow_tag]
  · intro j row3 hj
    rw [relink_get hq0, Option.map_eq_some_iff] at hj
    obtain ⟨row, hrow, rfl⟩ := hj
    obtain ⟨nd, h1, h2⟩ := H.node hrow
    have hkey := H.tagAt hrow
    rw [relinkRow_tag, R.1, R.2, h1]
    refine ⟨_, rfl, ?_⟩
    have ec : j + 1 = ic + 1 ↔ row.tag = c := ridOf_iff F.nodup hic hkey
    have ep : j + 1 = ip + 1 ↔ row.tag = p := ridOf_iff F.nodup hip hkey
    have eq : q = some (j + 1) ↔ nc.parent = some row.tag := by
      rw [hq]
      have hj' : ridOf (t.map Prod.fst) row.tag = some (j + 1) := (ridOf_some F.nodup).2 ⟨j, rfl, hkey⟩
      constructor
      · intro h
        obtain ⟨y, e1, e2⟩ := Option.bind_eq_some_iff.1 h
        rw [e1, ridOf_inj F.nodup e2 hj']
      · intro h; rw [h]; exact hj'
    obtain ⟨o1, o2, o3⟩ := relinkRow_other (ic + 1) (ip + 1) q p nc.parent j row
    obtain ⟨p1, p2⟩ := relinkRow_parent (ic + 1) (ip + 1) q p nc.parent j row
    refine ⟨h2.order, ?_, ?_, ?_, o1.trans h2.height, o2.trans h2.size, o3.trans h2.base⟩
    · rw [p1, h2.parent]; simp only [ec]
    · rw [p2, h2.parentRid]; simp only [ec]
      split
      · exact hip.symm
      · rfl
    · refine (relinkRow_slots _ _ _ _ _ _ _ ?_ ?_).trans ?_
      · intro hjp
        have := hfree j row hrow (ep.1 hjp)
        split at this
        · next h => rw [if_pos h]; exact this
        · next h =>
          rw [if_neg h]
          rcases this with h' | ⟨h', h''⟩
          · exact Or.inl h'
          · refine Or.inr ⟨?_, h''.trans hic⟩
            rw [hq, h']; exact hip
      · intro h; rw [hq, h]; rfl
      · dsimp only [movedChildren]
        have hl := F.chNodup h1
        have s1 : (if q = some (j + 1) then (slotsOf row).filter (fun x => x ≠ ic + 1) else slotsOf row).Perm
            ((if nc.parent = some row.tag then nd.children.erase c else nd.children).filterMap
              (ridOf (t.map Prod.fst))) := by
          by_cases h : nc.parent = some row.tag
          · rw [if_pos h, if_pos (eq.2 h), filterMap_erase_rid F.nodup hl hic]
            exact h2.slots.filter _
          · rw [if_neg h, if_neg (fun e => h (eq.1 e))]
            exact h2.slots
        by_cases h : row.tag = p
        · rw [if_pos h, if_pos (ep.2 h), List.filterMap_append]
          refine s1.append ?_
          simp [List.filterMap_cons, hic]
        · rw [if_neg h, if_neg (fun e => h (ep.1 e)), List.append_nil]
          exact s1

/-! ### `change_parent` -/

/-- The contents of the two slots of a tag. -/
def SlotsAt (g : Graph τ) (p : τ) (a b : Option Nat) : Prop :=
  ∀ (i : Nat) (row : GRow τ), g[i]? = some row → row.tag = p → row.child0 = a ∧ row.child1 = b

theorem SlotsAt.of_slotMap {g g' : Graph τ} {p : τ} {a b : Option Nat} (h : SlotsAt g p a b)
    (e : slotMap g' = slotMap g) : SlotsAt g' p a b := by
  intro i row' hi hp
  have h1 : (slotMap g')[i]? = some (row'.tag, row'.child0, row'.child1) := by
    unfold slotMap; rw [List.getElem?_map, hi]; rfl
  rw [e] at h1
  unfold slotMap at h1
  rw [List.getElem?_map, Option.map_eq_some_iff] at h1
  obtain ⟨row, h2, h3⟩ := h1
  simp only [Prod.mk.injEq] at h3
  have := h i row h2 (h3.1.trans hp)
  exact ⟨h3.2.1 ▸ this.1, h3.2.2 ▸ this.2⟩

/-- `change_parent(c, p)` does the same in the table and in the dictionary, if the slot is free. -/
theorem Sim.changeParent {t : MTree τ} {g : Graph τ} (H : Sim t g) (T : TreeOK t) {c p : τ}
    {nc : TNode τ} (hc : dget t c = some nc) {lp : List τ} (hp : UpPath t p lp) (hcp : c ∉ lp)
    (hfree : SlotFree (t.map Prod.fst) g c nc.parent p) :
    ∃ t' g', mtChangeParent t c (some p) = (t', none) ∧ dbChangeParent g c p = (g', none) ∧
      Sim t' g' ∧
      (nc.parent = none → ∀ a b, SlotsAt g p a b → SlotsAt g' p (ridOf (t.map Prod.fst) c) b) ∧
      (nc.parent ≠ none → ∀ b, SlotsAt g p none b → SlotsAt g' p none (ridOf (t.map Prod.fst) c)) := by
  have hpc : p ≠ c := by
    rintro rfl; obtain ⟨r, rfl⟩ := hp.head; simp at hcp
  obtain ⟨np, hnp⟩ : ∃ np, dget t p = some np := hp.mem_keys p (by
    obtain ⟨r, rfl⟩ := hp.head; simp)
  obtain ⟨tb, htb, Tb, Mb⟩ := changeParent_spec T hc hp hcp
  obtain ⟨t3, R, _⟩ := changeParent_struct T.toForest hc hp hcp
  have F3 : Forest t3 := R.moved.forest T.toForest hc hp hcp
  have hp3 := R.moved.upPath hp hcp
  have hM3 := R.metric T
  obtain ⟨ic, rowc, sc1, sc2, sc3, sc4, sc5⟩ := H.select T.nodup hc
  obtain ⟨ip, rowp, sp2, sp3, sp4, sp5⟩ := H.rowOf T.nodup hnp
  have H3 := H.relink T.toForest hc hnp hpc R sc4 sp4 rfl hfree
  have hq0 : ∀ x, nc.parent.bind (ridOf (t.map Prod.fst)) = some x → x ≠ 0 := by
    intro x hx
    obtain ⟨y, _, h2⟩ := Option.bind_eq_some_iff.1 hx
    obtain ⟨i, rfl, _⟩ := (ridOf_some T.nodup).1 h2
    omega
  -- the slots of `p` after the transaction
  have hslots : ∀ a b, SlotsAt g p a b →
      SlotsAt (dbLink (removeIfChild1 (removeIfChild0 g (nc.parent.bind (ridOf (t.map Prod.fst)))
        (ic + 1)) (nc.parent.bind (ridOf (t.map Prod.fst))) (ic + 1)) (ic + 1) (ip + 1) p nc.parent) p
        (if nc.parent = none then some (ic + 1) else if nc.parent = some p ∧ a = some (ic + 1) then none else a)
        (if nc.parent = none then b else some (ic + 1)) := by
    intro a b hab j row3 hj htag
    rw [relink_get hq0, Option.map_eq_some_iff] at hj
    obtain ⟨row, hrow, rfl⟩ := hj
    rw [relinkRow_tag] at htag
    obtain ⟨rfl, rfl⟩ := hab j row hrow htag
    have ep : j + 1 = ip + 1 := (ridOf_iff T.nodup sp4 (H.tagAt hrow)).2 htag
    have ec : ¬ (j + 1 = ic + 1) := by
      rw [ridOf_iff T.nodup sc4 (H.tagAt hrow), htag]; exact hpc
    have eq : nc.parent.bind (ridOf (t.map Prod.fst)) = some (j + 1) ↔ nc.parent = some p := by
      constructor
      · intro h
        obtain ⟨y, e1, e2⟩ := Option.bind_eq_some_iff.1 h
        rw [e1]
        rw [ep] at e2
        rw [ridOf_inj T.nodup e2 sp4]
      · intro h; rw [h, ep]; exact sp4
    unfold relinkRow
    dsimp only
    rw [if_pos ep, if_neg ec]
    simp only [eq]
    cases hpar : nc.parent with
    | none => simp
    | some q =>
      simp only [Option.some.injEq]
      by_cases hqp : q = p
      · subst hqp; simp [dropChild]
      · simp [hqp]
  -- `SELECT` finds the new parent in the table without the old link
  have hsel : selectTag (removeIfChild1 (removeIfChild0 g (nc.parent.bind (ridOf (t.map Prod.fst)))
        (ic + 1)) (nc.parent.bind (ridOf (t.map Prod.fst))) (ic + 1)) p = some (ip + 1,
        if nc.parent.bind (ridOf (t.map Prod.fst)) = some (ip + 1) then dropChild (ic + 1) rowp else rowp) := by
    have hg := removeIf_get g (nc.parent.bind (ridOf (t.map Prod.fst))) hq0 (ic + 1)
    generalize hG : removeIfChild1 (removeIfChild0 g (nc.parent.bind (ridOf (t.map Prod.fst)))
        (ic + 1)) (nc.parent.bind (ridOf (t.map Prod.fst))) (ic + 1) = G at hg
    have htags : G.map GRow.tag = g.map GRow.tag := by
      apply List.ext_getElem?
      intro j
      rw [List.getElem?_map, List.getElem?_map, hg]
      cases g[j]? with
      | none => rfl
      | some row => simp only [Option.map_some]; split <;> rfl
    have h1 := hg ip
    rw [sp2] at h1
    have := selectTag_eq (by rw [htags, H.keys]; exact T.nodup) h1
    have htag : (if nc.parent.bind (ridOf (t.map Prod.fst)) = some (ip + 1) then
        dropChild (ic + 1) rowp else rowp).tag = p := by
      split
      · exact sp3
      · exact sp3
    rw [htag] at this
    exact this
  have hstep : dbChangeParent g c p =
      (match dbUpdateMetrics (dbLink (removeIfChild1 (removeIfChild0 g (nc.parent.bind (ridOf (t.map Prod.fst)))
        (ic + 1)) (nc.parent.bind (ridOf (t.map Prod.fst))) (ic + 1)) (ic + 1) (ip + 1) p nc.parent)
          (nc.parent.bind (ridOf (t.map Prod.fst))) with
      | (g, some e) => (g, some e)
      | (g, none) => dbUpdateMetrics g (some (ip + 1))) := by
    unfold dbChangeParent
    rw [sc1]
    simp only [sc5.parentRid, sc5.parent, hsel]
    rfl
  generalize (dbLink (removeIfChild1 (removeIfChild0 g (nc.parent.bind (ridOf (t.map Prod.fst)))
        (ic + 1)) (nc.parent.bind (ridOf (t.map Prod.fst))) (ic + 1)) (ic + 1) (ip + 1) p nc.parent) = g3
    at H3 hslots hstep
  -- the two metric updates
  obtain ⟨ta, ga, e1, e2, e3, e4, e5⟩ : ∃ ta ga, dbChangeParent g c p = (ga, none) ∧ Sim ta ga ∧
      SameTreeShape t3 ta ∧ TreeOK ta ∧ slotMap ga = slotMap g3 := by
    cases hq : nc.parent with
    | none =>
      rw [hq] at hstep hM3
      obtain ⟨ta, ga, a1, a2, a3, a4⟩ := H3.updateMetrics F3 hp3
      obtain ⟨ta', b1, b2, b3⟩ := updateMetrics_spec (fun _ => False) (f := t3.length) F3 hp3
        hp3.length_le (fun y _ hy => hM3 y (by simp) hy)
      rw [a1] at b1; cases b1
      refine ⟨ta, ga, ?_, a3, b2, ⟨b2.forest F3, fun x => b3 x (by simp)⟩, a4⟩
      rw [hstep]
      rw [R.1, sp4] at a2
      simp only [Option.bind_none, dbUpdateMetrics, dbMetricsLoop] at a2 ⊢
      exact a2
    | some q =>
      rw [hq] at hstep hM3
      obtain ⟨nq, hnq, _⟩ := T.up hc hq
      obtain ⟨lq, hlq⟩ := T.acyc hnq
      have hq3 := R.moved.upPath hlq (hlq.not_mem_parent hc hq)
      obtain ⟨t4, g4, a1, a2, a3, a4⟩ := H3.updateMetrics F3 hq3
      obtain ⟨t4', b1, b2, b3⟩ := updateMetrics_spec (fun y => y = p) (f := t3.length) F3 hq3
        hq3.length_le (fun y hyp hyq => hM3 y (by simpa using fun e => hyq e.symm) hyp)
      rw [a1] at b1; cases b1
      have hp4 := b2.upPath hp3
      obtain ⟨ta, ga, c1, c2, c3, c4⟩ := a3.updateMetrics (b2.forest F3) hp4
      obtain ⟨ta', d1, d2, d3⟩ := updateMetrics_spec (fun _ => False) (f := t4.length) (b2.forest F3) hp4
        hp4.length_le (fun y _ hy => b3 y hy)
      rw [c1] at d1; cases d1
      refine ⟨ta, ga, ?_, c3, b2.trans d2, ⟨(b2.trans d2).forest F3, fun x => d3 x (by simp)⟩, c4.trans a4⟩
      rw [hstep]
      rw [R.1] at a2
      rw [b2.1, R.1, sp4] at c2
      simp only [Option.bind_some, a2, c2]
  -- the memory tree has the same shape, hence the same metrics
  have S : SameTreeShape ta tb := by
    refine ⟨Mb.1.trans (e3.1.trans R.1).symm, fun x nd hx => ?_⟩
    obtain ⟨nd3, f1, f2, f3, f4, f5⟩ := e3.back hx
    obtain ⟨nd0, k1, k2, k3, k4, k5⟩ := R.moved.back f1
    obtain ⟨ndb, m1, m2, m3, m4, m5⟩ := Mb.2 x nd0 k1
    exact ⟨ndb, m1, by rw [m2, f2, k2], by rw [m3, f3, k3], by rw [m4, f4, k4], by rw [m5, f5, k5]⟩
  refine ⟨tb, ga, htb, e1, e2.congr S.1 (fun h => metrics_unique e4 Tb S h), ?_, ?_⟩
  · intro h a b hab
    have := (hslots a b hab).of_slotMap e5
    simp only [h, if_true] at this
    rw [sc4]; exact this
  · intro h b hab
    have := (hslots none b hab).of_slotMap e5
    simp only [if_neg h] at this
    rw [sc4]
    simpa using this

/-! ### `add` -/

theorem filterMap_congr' {α β : Type _} {f f' : α → Option β} : ∀ {l : List α},
    (∀ x ∈ l, f x = f' x) → l.filterMap f = l.filterMap f'
  | [], _ => rfl
  | x :: l, h => by
    rw [List.filterMap_cons, List.filterMap_cons, h x (by simp),
      filterMap_congr' (l := l) fun y hy => h y (by simp [hy])]

theorem Sim.add {t : MTree τ} {g : Graph τ} (H : Sim t g) {x : τ} (hn : (t.map Prod.fst).Nodup)
    (F : Forest t) (hx : dget t x = none) (b : Option τ) :
    ∃ g', dbAdd g x b = (g', none) ∧ Sim (mtAdd t x b) g' ∧ SlotsAt g' x none none := by
  have hk : (mtAdd t x b).map Prod.fst = t.map Prod.fst ++ [x] := by
    unfold mtAdd
    rw [dset_keys, if_neg]
    intro h
    obtain ⟨v, hv⟩ := dget_isSome_iff.2 h
    rw [hx] at hv; cases hv
  have hxk : x ∉ t.map Prod.fst := by
    intro h
    obtain ⟨v, hv⟩ := dget_isSome_iff.2 h
    rw [hx] at hv; cases hv
  have hrid : ∀ y, y ∈ t.map Prod.fst → ridOf (t.map Prod.fst ++ [x]) y = ridOf (t.map Prod.fst) y := by
    intro y hy
    unfold ridOf
    rw [List.findIdx?_append]
    cases h : (t.map Prod.fst).findIdx? (fun z => z = y) with
    | none =>
      rw [List.findIdx?_eq_none_iff] at h
      have := h y hy
      simp at this
    | some i => simp
  refine ⟨_, by simp only [dbAdd, H.select_none hx]; rfl, ⟨?_, ?_⟩, ?_⟩
  · rw [hk, List.map_append, H.keys]; rfl
  · intro i row hi
    rw [hk]
    rw [List.getElem?_append] at hi
    split at hi
    · next hlt =>
      obtain ⟨nd, h1, h2⟩ := H.node hi
      have hne : x ≠ row.tag := by rintro rfl; rw [hx] at h1; cases h1
      refine ⟨nd, by unfold mtAdd; rw [dget_dset, if_neg hne]; exact h1, h2.order, h2.parent, ?_, ?_,
        h2.height, h2.size, h2.base⟩
      · rw [h2.parentRid]
        cases hp : nd.parent with
        | none => rfl
        | some p =>
          obtain ⟨np, hnp, _⟩ := F.up h1 hp
          exact (hrid p (mem_keys_of_dget hnp)).symm
      · have : nd.children.filterMap (ridOf (t.map Prod.fst ++ [x])) =
            nd.children.filterMap (ridOf (t.map Prod.fst)) := by
          have hkn : ∀ c ∈ nd.children, ridOf (t.map Prod.fst ++ [x]) c = ridOf (t.map Prod.fst) c := by
            intro c hc
            obtain ⟨nc, k1, _⟩ := F.down h1 hc
            exact hrid c (mem_keys_of_dget k1)
          exact filterMap_congr' hkn
        rw [this]
        exact h2.slots
    · next hge =>
      have h0 : i - g.length = 0 := by
        cases h : i - g.length with
        | zero => rfl
        | succ n => rw [h] at hi; simp at hi
      rw [h0] at hi
      simp only [List.getElem?_cons_zero, Option.some.injEq] at hi
      subst hi
      refine ⟨_, by unfold mtAdd; rw [dget_dset, if_pos rfl], ?_, rfl, rfl, ?_, rfl, rfl, rfl⟩
      · show t.length = i
        have := H.length
        omega
      · simp [slotsOf]
  · intro i row hi hp
    rw [List.getElem?_append] at hi
    split at hi
    · exfalso
      obtain ⟨nd, h1, h2⟩ := H.node hi
      rw [hp, hx] at h1; cases h1
    · have := List.mem_of_getElem? hi
      simp only [List.mem_singleton] at this
      subst this
      exact ⟨rfl, rfl⟩

/-! ### Queries -/

theorem Sim.contains {t : MTree τ} {g : Graph τ} (H : Sim t g) (hn : (t.map Prod.fst).Nodup) (x : τ) :
    dbContains g x = mtContains t x := by
  unfold dbContains mtContains dmem
  cases h : dget t x with
  | none => rw [H.select_none h]; rfl
  | some nd =>
    obtain ⟨i, row, h1, _⟩ := H.select hn h
    rw [h1]; rfl

theorem Sim.base {t : MTree τ} {g : Graph τ} (H : Sim t g) (hn : (t.map Prod.fst).Nodup) {x : τ}
    {nd : TNode τ} (hx : dget t x = some nd) : dbBaseVersion g x = .ok nd.baseVersion := by
  obtain ⟨i, row, h1, _, _, _, h2⟩ := H.select hn hx
  unfold dbBaseVersion
  rw [h1]
  simp only [h2.base]

theorem Sim.walkUp {t : MTree τ} {g : Graph τ} (H : Sim t g) (hn : (t.map Prod.fst).Nodup) {x : τ}
    {l : List τ} (hp : UpPath t x l) : ∀ {f : Nat}, l.length ≤ f →
    dbWalkUp g f (ridOf (t.map Prod.fst) x) = .ok l := by
  induction hp with
  | @root x nd h1 h2 =>
    intro f hf
    cases f with
    | zero => simp at hf
    | succ f =>
      obtain ⟨i, row, a1, a2, a3, a4⟩ := H.rowOf hn h1
      have : Gaspra.rowAt g (i + 1) = some row := a1
      rw [a3]
      simp only [dbWalkUp, this, a4.parentRid, h2, Option.bind_none, a2]
  | @step x p nd l h1 h2 h3 ih =>
    intro f hf
    cases f with
    | zero => simp at hf
    | succ f =>
      obtain ⟨i, row, a1, a2, a3, a4⟩ := H.rowOf hn h1
      have : Gaspra.rowAt g (i + 1) = some row := a1
      have := ih (f := f) (by simpa using hf)
      rw [a3]
      simp only [dbWalkUp, *, a4.parentRid, h2, Option.bind_some]

theorem Sim.pathTo {t : MTree τ} {g : Graph τ} (H : Sim t g) (hn : (t.map Prod.fst).Nodup) {x : τ}
    {l : List τ} (hp : UpPath t x l) : dbPathTo g x = .ok (some l.reverse) := by
  have hlen := hp.length_le
  obtain ⟨nd, hx⟩ := hp.mem_keys x (by obtain ⟨r, rfl⟩ := hp.head; simp)
  obtain ⟨i, row, h1, _, h3, _, h2⟩ := H.select hn hx
  have : dbReversePathTo g x = .ok (some l) := by
    cases hp with
    | root a1 a2 =>
      rw [hx] at a1; cases a1
      simp only [dbReversePathTo, h1, h2.parentRid, a2, Option.bind_none, dbWalkUp, h3]
    | @step _ p _ l a1 a2 a3 =>
      rw [hx] at a1; cases a1
      have := H.walkUp hn a3 (f := g.length) (by rw [H.length]; simp at hlen; omega)
      simp only [dbReversePathTo, h1, h2.parentRid, a2, Option.bind_some, this, h3]
  simp only [dbPathTo, this]

theorem Sim.pathTo_none {t : MTree τ} {g : Graph τ} (H : Sim t g) {x : τ}
    (hx : dget t x = none) : dbPathTo g x = .ok (some []) := by
  simp [dbPathTo, dbReversePathTo, H.select_none hx]

theorem bestRow_spec : ∀ (l : List (Nat × GRow τ)), l ≠ [] → ∃ b, bestRow l = some b ∧ b ∈ l ∧
    ∀ x ∈ l, x.2.height < b.2.height ∨ (x.2.height = b.2.height ∧ x.1 ≤ b.1)
  | [], h => absurd rfl h
  | x :: xs, _ => by
    by_cases hxs : xs = []
    · subst hxs
      exact ⟨x, rfl, by simp, by simp⟩
    · obtain ⟨b, h1, h2, h3⟩ := bestRow_spec xs hxs
      simp only [bestRow, h1]
      split
      · next h =>
        refine ⟨x, rfl, by simp, fun y hy => ?_⟩
        rcases List.mem_cons.1 hy with rfl | hy
        · omega
        · have := h3 y hy; omega
      · next h =>
        refine ⟨b, rfl, by simp [h2], fun y hy => ?_⟩
        rcases List.mem_cons.1 hy with rfl | hy
        · omega
        · exact h3 y hy

theorem Sim.orderOf_inj {t : MTree τ} {g : Graph τ} (H : Sim t g) (hn : (t.map Prod.fst).Nodup)
    {x y : τ} {nx ny : TNode τ} (hx : dget t x = some nx) (hy : dget t y = some ny)
    (h : nx.orderId = ny.orderId) : x = y := by
  obtain ⟨i, row, h1, h2, h3, h4⟩ := H.rowOf hn hx
  obtain ⟨j, row', k1, k2, k3, k4⟩ := H.rowOf hn hy
  obtain rfl : i = j := by rw [← h4.order, ← k4.order, h]
  rw [h1] at k1; cases k1
  rw [← h2, ← k2]

theorem Sim.splitLoop {t : MTree τ} {g : Graph τ} (H : Sim t g) (T : TreeOK t) :
    ∀ (f depth : Nat) {y : τ} {nd : TNode τ} {i : Nat} {row : GRow τ} (path : List τ), 1 ≤ depth →
      dget t y = some nd → NodeRow (t.map Prod.fst) i nd row →
      dbSplitLoop g f depth y row path = mtSplitLoop t f depth y nd path
  | 0, depth, y, nd, i, row, path, hd, hy, hr => by
    simp only [dbSplitLoop, mtSplitLoop, hr.height]
  | f + 1, depth, y, nd, i, row, path, hd, hy, hr => by
    simp only [dbSplitLoop, mtSplitLoop, hr.height]
    split
    · next hlt =>
      have hne := T.children_ne hy (by omega)
      obtain ⟨keys, m, c, s1, s2, s3, s4⟩ := splitStep hne (fun c hc => by
        obtain ⟨nc, h1, _⟩ := T.down hy hc; exact ⟨nc, h1⟩)
      obtain ⟨nc, hc, _⟩ := T.down hy s4.1
      obtain ⟨rows, e1, e2, e3⟩ := H.childRows T.toForest hy hr
      have hrows : Gaspra.childRows g row ≠ [] := by
        intro h
        rw [h] at e1
        rw [List.nil_perm.1 e1] at e2
        exact hne e2.symm
      obtain ⟨b, b1, b2, b3⟩ := bestRow_spec _ hrows
      have hb' := e3 b (e1.mem_iff.1 b2)
      obtain ⟨nb, hb, hnb, hpos⟩ := H.ofRowAt hb'
      -- the row for the child chosen by `MemoryTree`
      obtain ⟨rc, hrc, hrc'⟩ : ∃ rc ∈ rows, rc.2.tag = c := by
        have := s4.1
        rw [← e2, List.mem_map] at this
        exact this
      obtain ⟨nc', hc', hnc, hposc⟩ := H.ofRowAt (e3 rc hrc)
      rw [hrc', hc] at hc'; cases hc'
      have hbc : b.2.tag ∈ nd.children := by
        rw [← e2, List.mem_map]
        exact ⟨b, e1.mem_iff.1 b2, rfl⟩
      have h1 := b3 rc (e1.mem_iff.2 hrc)
      have h2 := s4.2 _ hbc
      rw [heightOf_eq hc, heightOf_eq hb] at h2
      simp only [orderOf, hc, hb, Option.map_some, Option.getD_some, hnb.order, hnc.order] at h2
      rw [hnb.height, hnc.height] at h1
      have heq : nb.orderId = nc.orderId := by
        rw [hnb.order, hnc.order]; omega
      have htag : b.2.tag = c := H.orderOf_inj T.nodup hb hc heq
      rw [htag, hc] at hb; cases hb
      have hm : m = (m.1, m.2.1, m.2.2) := rfl
      simp only [b1, s1, s2, s3, hc, htag]
      exact Sim.splitLoop H T f (depth + 1) _ (by omega) hc hnb
    · rfl

theorem Sim.heights {t : MTree τ} {g : Graph τ} (H : Sim t g) (hn : (t.map Prod.fst).Nodup) :
    g.map GRow.height = t.map fun x => x.2.height := by
  apply List.ext_getElem?
  intro i
  rw [List.getElem?_map, List.getElem?_map]
  cases hg : g[i]? with
  | none =>
    have : t[i]? = none := by
      rw [List.getElem?_eq_none_iff] at hg ⊢
      rw [← H.length]; exact hg
    rw [this]; rfl
  | some row =>
    obtain ⟨nd, h1, h2⟩ := H.node hg
    have h3 := H.tagAt hg
    rw [List.getElem?_map, Option.map_eq_some_iff] at h3
    obtain ⟨e, h4, h5⟩ := h3
    have h6 : dget t e.1 = some e.2 := dget_of_mem hn (List.mem_of_getElem? h4)
    rw [h5, h1] at h6
    cases h6
    rw [h4]
    simp [h2.height]

theorem Sim.getSplit {t : MTree τ} {g : Graph τ} (H : Sim t g) (T : TreeOK t) {x : τ}
    {nd : TNode τ} (hx : dget t x = some nd) : dbGetSplit g x = mtGetSplit t x := by
  obtain ⟨i, row, h1, _, h3, _, h2⟩ := H.select T.nodup hx
  simp only [dbGetSplit, mtGetSplit, h1, hx]
  rw [H.heights T.nodup]
  exact H.splitLoop T _ _ _ (by omega) hx h2

theorem Sim.getSplit_none {t : MTree τ} {g : Graph τ} (H : Sim t g) {x : τ}
    (hx : dget t x = none) : dbGetSplit g x = .error .typeError := by
  simp [dbGetSplit, H.select_none hx]

end Gaspra
