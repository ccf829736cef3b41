import Verif.Proofs.DBVersions
import Verif.Proofs.History
import Verif.Proofs.LinearHistory
import Verif.Proofs.LineVersions
import Verif.Spec.Isolate

set_option linter.unusedSectionVars false
set_option linter.unusedSimpArgs false
set_option linter.unusedVariables false

/-! # Lines of versions that do not touch do not affect each other -/

namespace Gaspra

variable {τ Tok S : Type _} [DecidableEq τ] [DecidableEq Tok] {tk : TokOps Tok S} {P : τ → Prop}

/-! ### Trees that agree on a set of tags -/

/-- The part of a node that does not depend on the rest of the tree. -/
def nodeShape (nd : TNode τ) : Option τ × List τ × Option τ :=
  (nd.parent, nd.children, nd.baseVersion)

/-- `t` and `t'` have the same nodes for the tags of `P`, which is closed in `t`. -/
structure PartTree (P : τ → Prop) (t t' : MTree τ) : Prop where
  node : ∀ {x}, P x → (dget t' x).map nodeShape = (dget t x).map nodeShape
  closed : ∀ {x nd}, P x → dget t x = some nd →
    (∀ p, nd.parent = some p → P p) ∧ ∀ c ∈ nd.children, P c
  order : ∀ {x y}, P x → P y → dget t x ≠ none → dget t y ≠ none →
    (orderOf t x ≤ orderOf t y ↔ orderOf t' x ≤ orderOf t' y)

/-- Different tags have different order numbers, all smaller than the number of tags. -/
structure OrderOK (t : MTree τ) : Prop where
  lt : ∀ {x nd}, dget t x = some nd → nd.orderId < t.length
  inj : ∀ {x y nd nd'}, dget t x = some nd → dget t y = some nd' → nd.orderId = nd'.orderId → x = y

theorem PartTree.known {t t' : MTree τ} (Q : PartTree P t t') {x : τ} {nd : TNode τ} (hx : P x)
    (h : dget t x = some nd) : ∃ nd', dget t' x = some nd' ∧ nd'.parent = nd.parent ∧
      nd'.children = nd.children ∧ nd'.baseVersion = nd.baseVersion := by
  have := Q.node hx
  rw [h] at this
  cases h' : dget t' x with
  | none => rw [h'] at this; cases this
  | some nd' =>
    rw [h'] at this
    simp only [Option.map_some, Option.some.injEq, nodeShape, Prod.mk.injEq] at this
    exact ⟨nd', rfl, this⟩

theorem PartTree.unknown {t t' : MTree τ} (Q : PartTree P t t') {x : τ} (hx : P x)
    (h : dget t x = none) : dget t' x = none := by
  have := Q.node hx
  rw [h] at this
  cases h' : dget t' x with
  | none => rfl
  | some nd' => rw [h'] at this; cases this

theorem OrderOK.moved {t t1 : MTree τ} (O : OrderOK t) {c p : τ} {q : Option τ}
    (M : Moved t t1 c q p) : OrderOK t1 := by
  have hl : t1.length = t.length := length_eq_of_keys M.1
  refine ⟨fun {x nd} h => ?_, fun {x y nd nd'} h h' e => ?_⟩
  · obtain ⟨n0, k1, k2, _⟩ := M.back h
    rw [k2, hl]; exact O.lt k1
  · obtain ⟨n0, k1, k2, _⟩ := M.back h
    obtain ⟨n1, k3, k4, _⟩ := M.back h'
    exact O.inj k1 k3 (by rw [← k2, ← k4, e])

theorem OrderOK.add {t : MTree τ} (O : OrderOK t) {x : τ} (hx : dget t x = none) (b : Option τ) :
    OrderOK (mtAdd t x b) := by
  have hl : (mtAdd t x b).length = t.length + 1 := by
    have := congrArg List.length (mtAdd_keys hx b)
    simpa using this
  have lt : ∀ {y nd}, dget (mtAdd t x b) y = some nd → nd.orderId < t.length ∧ dget t y = some nd ∨
      y = x ∧ nd.orderId = t.length := by
    intro y nd h
    rw [dget_mtAdd] at h
    split at h
    · next e => cases h; exact Or.inr ⟨e.symm, rfl⟩
    · exact Or.inl ⟨O.lt h, h⟩
  refine ⟨fun {y nd} h => ?_, fun {y z nd nd'} h h' e => ?_⟩
  · rw [hl]; rcases lt h with ⟨h1, _⟩ | ⟨_, h1⟩ <;> omega
  · rcases lt h with ⟨h1, k1⟩ | ⟨rfl, h1⟩ <;> rcases lt h' with ⟨h2, k2⟩ | ⟨rfl, h2⟩
    · exact O.inj k1 k2 e
    · omega
    · omega
    · rfl

theorem Moved.orderOf_eq {t t1 : MTree τ} {c p : τ} {q : Option τ} (M : Moved t t1 c q p) (y : τ) :
    orderOf t1 y = orderOf t y := by
  unfold orderOf
  cases h : dget t y with
  | none => rw [M.dget_none.2 h]
  | some nd =>
    obtain ⟨nd', k1, k2, _⟩ := M.2 _ _ h
    rw [k1]; simp [k2]

theorem Moved.shape {t t1 : MTree τ} {c p : τ} {q : Option τ} (M : Moved t t1 c q p) (y : τ) :
    (dget t1 y).map nodeShape = ((dget t y).map nodeShape).map fun s =>
      (if y = c then Option.some p else s.1, movedChildren c q p y s.2.1, s.2.2) := by
  cases h : dget t y with
  | none => rw [M.dget_none.2 h]; rfl
  | some nd =>
    obtain ⟨nd', k1, k2, k3, k4, k5⟩ := M.2 _ _ h
    rw [k1]; simp [nodeShape, k3, k4, k5]

theorem mem_movedChildren {c p y z : τ} {q : Option τ} {l : List τ}
    (h : z ∈ movedChildren c q p y l) : z ∈ l ∨ (z = c ∧ y = p) := by
  unfold movedChildren at h
  split at h <;> split at h <;> first
    | exact Or.inl (List.mem_of_mem_erase h)
    | exact Or.inl h
    | (rename_i h1
       rcases List.mem_append.1 h with h | h
       · exact Or.inl (List.mem_of_mem_erase h)
       · exact Or.inr ⟨by simpa using h, by assumption⟩)
    | (rcases List.mem_append.1 h with h | h
       · exact Or.inl h
       · exact Or.inr ⟨by simpa using h, by assumption⟩)

/-- The same move inside `P` in both trees. -/
theorem PartTree.movedBoth {t t' t1 t1' : MTree τ} (Q : PartTree P t t') {c p : τ} {q : Option τ}
    (M : Moved t t1 c q p) (M' : Moved t' t1' c q p) (hc : P c) (hp : P p) : PartTree P t1 t1' where
  node := by intro x hx; rw [M.shape, M'.shape, Q.node hx]
  closed := by
    intro x nd hx h
    obtain ⟨n0, k1, _, k3, k4, _⟩ := M.back h
    obtain ⟨c1, c2⟩ := Q.closed hx k1
    refine ⟨fun y hy => ?_, fun y hy => ?_⟩
    · rw [k3] at hy
      split at hy
      · cases hy; exact hp
      · exact c1 y hy
    · rw [k4] at hy
      rcases mem_movedChildren hy with h1 | ⟨rfl, _⟩
      · exact c2 y h1
      · exact hc
  order := by
    intro x y hx hy kx ky
    rw [M.orderOf_eq, M.orderOf_eq, M'.orderOf_eq, M'.orderOf_eq]
    exact Q.order hx hy (fun e => kx (M.dget_none.2 e)) (fun e => ky (M.dget_none.2 e))

/-- A move outside `P`. -/
theorem PartTree.movedLeft {t t' t1 : MTree τ} (Q : PartTree P t t') {c p : τ} {q : Option τ}
    (M : Moved t t1 c q p) (hc : ¬ P c) (hp : ¬ P p) (hq : ∀ y, q = Option.some y → ¬ P y) :
    PartTree P t1 t' := by
  have key : ∀ {x}, P x → (dget t1 x).map nodeShape = (dget t x).map nodeShape := by
    intro x hx
    rw [M.shape]
    have h1 : x ≠ c := by rintro rfl; exact hc hx
    have h2 : x ≠ p := by rintro rfl; exact hp hx
    have h3 : q ≠ Option.some x := fun e => hq _ e hx
    cases dget t x with
    | none => rfl
    | some nd => simp [nodeShape, movedChildren, h1, h2, h3]
  refine ⟨fun {x} hx => by rw [key hx, Q.node hx], fun {x nd} hx h => ?_,
    fun {x y} hx hy kx ky => ?_⟩
  · have := key hx
    rw [h] at this
    cases h0 : dget t x with
    | none => rw [h0] at this; cases this
    | some n0 =>
      rw [h0] at this
      simp only [Option.map_some, Option.some.injEq, nodeShape, Prod.mk.injEq] at this
      obtain ⟨e1, e2, e3⟩ := this
      rw [e1, e2]
      exact Q.closed hx h0
  · rw [M.orderOf_eq, M.orderOf_eq]
    exact Q.order hx hy (fun e => kx (M.dget_none.2 e)) (fun e => ky (M.dget_none.2 e))

theorem orderOf_mtAdd (t : MTree τ) (x : τ) (b : Option τ) (y : τ) :
    orderOf (mtAdd t x b) y = if x = y then t.length else orderOf t y := by
  unfold orderOf
  rw [dget_mtAdd]
  split <;> rfl

theorem orderOf_lt {t : MTree τ} (O : OrderOK t) {x : τ} (h : dget t x ≠ none) :
    orderOf t x < t.length := by
  unfold orderOf
  cases h' : dget t x with
  | none => exact absurd h' h
  | some nd => exact O.lt h'

/-- The same new tag in both trees. -/
theorem PartTree.addBoth {t t' : MTree τ} (Q : PartTree P t t') (O : OrderOK t) (O' : OrderOK t')
    {x : τ} (b : Option τ) : PartTree P (mtAdd t x b) (mtAdd t' x b) where
  node := by
    intro y hy
    rw [dget_mtAdd, dget_mtAdd]
    split
    · rfl
    · exact Q.node hy
  closed := by
    intro y nd hy h
    rw [dget_mtAdd] at h
    split at h
    · cases h; exact ⟨fun p hp => by simp [newNode] at hp, fun c hc => by simp [newNode] at hc⟩
    · exact Q.closed hy h
  order := by
    intro y z hy hz ky kz
    rw [dget_mtAdd] at ky kz
    rw [orderOf_mtAdd, orderOf_mtAdd, orderOf_mtAdd, orderOf_mtAdd]
    by_cases e1 : x = y <;> by_cases e2 : x = z
    · subst e1; subst e2; simp
    · simp only [e1, if_true]
      rw [if_neg e2] at kz
      have a1 := orderOf_lt O kz
      have a2 := orderOf_lt O' (x := z) (by
        intro e
        cases h : dget t z with
        | none => exact kz h
        | some nd => obtain ⟨nd', h', _⟩ := Q.known hz h; rw [e] at h'; cases h')
      rw [if_neg (by rintro rfl; exact e2 e1), if_neg (by rintro rfl; exact e2 e1)]
      omega
    · simp only [e2, if_true]
      rw [if_neg e1] at ky
      have a1 := orderOf_lt O ky
      have a2 := orderOf_lt O' (x := y) (by
        intro e
        cases h : dget t y with
        | none => exact ky h
        | some nd => obtain ⟨nd', h', _⟩ := Q.known hy h; rw [e] at h'; cases h')
      rw [if_neg (by rintro rfl; exact e1 e2), if_neg (by rintro rfl; exact e1 e2)]
      omega
    · rw [if_neg e1] at ky
      rw [if_neg e2] at kz
      simp only [e1, e2, if_false]
      exact Q.order hy hz ky kz

/-- A new tag outside `P`. -/
theorem PartTree.addLeft {t t' : MTree τ} (Q : PartTree P t t') {x : τ} (hx : ¬ P x)
    (b : Option τ) : PartTree P (mtAdd t x b) t' := by
  have ne : ∀ {y}, P y → x ≠ y := by rintro y hy rfl; exact hx hy
  refine ⟨fun {y} hy => ?_, fun {y nd} hy h => ?_, fun {y z} hy hz ky kz => ?_⟩
  · rw [dget_mtAdd, if_neg (ne hy)]; exact Q.node hy
  · rw [dget_mtAdd, if_neg (ne hy)] at h; exact Q.closed hy h
  · rw [dget_mtAdd, if_neg (ne hy)] at ky
    rw [dget_mtAdd, if_neg (ne hz)] at kz
    rw [orderOf_mtAdd, orderOf_mtAdd, if_neg (ne hy), if_neg (ne hz)]
    exact Q.order hy hz ky kz

/-- Heights inside `P` agree. -/
theorem PartTree.height {t t' : MTree τ} (Q : PartTree P t t') (T : TreeOK t) (T' : TreeOK t') :
    ∀ (n : Nat) {x : τ}, P x → heightOf t x ≤ n → heightOf t' x = heightOf t x
  | n, x, hx, hn => by
    cases h : dget t x with
    | none =>
      have h' := Q.unknown hx h
      simp [heightOf, h, h']
    | some nd =>
      obtain ⟨nd', h', _, e, _⟩ := Q.known hx h
      rw [heightOf_eq h] at hn ⊢
      rw [heightOf_eq h', (T'.metric x nd' h').1, (T.metric x nd h).1, e]
      cases n with
      | zero => have := T.height_pos h; omega
      | succ n =>
        congr 2
        apply List.map_congr_left
        intro c hc
        apply Q.height T T' n ((Q.closed hx h).2 c hc)
        have := (T.metric x nd h).1
        have := le_maxNat (List.mem_map_of_mem (f := heightOf t) hc)
        omega

theorem PartTree.bestPath {t t' : MTree τ} (Q : PartTree P t t') (T : TreeOK t) (T' : TreeOK t')
    {x y : τ} {l : List τ} (h : BestPath t x l y) (hx : P x) :
    BestPath t' x l y ∧ P y ∧ ∀ z ∈ l, P z := by
  induction h with
  | start h =>
    obtain ⟨nd', h', _⟩ := Q.known hx h
    exact ⟨.start h', hx, by simpa using hx⟩
  | @next l y nd c h1 h2 h3 ih =>
    obtain ⟨i1, i2, i3⟩ := ih
    obtain ⟨nd', h', _, e, _⟩ := Q.known i2 h2
    have cl := (Q.closed i2 h2).2
    have hc := cl c h3.1
    refine ⟨.next i1 h' ?_, hc, ?_⟩
    · rw [e]
      refine ⟨h3.1, fun c' hc' => ?_⟩
      have e1 := Q.height T T' _ hc (Nat.le_refl _)
      have e2 := Q.height T T' _ (cl c' hc') (Nat.le_refl _)
      rw [e1, e2]
      obtain ⟨n1, k1, _⟩ := T.down h2 h3.1
      obtain ⟨n2, k2, _⟩ := T.down h2 hc'
      rcases h3.2 c' hc' with h4 | ⟨h4, h5⟩
      · exact Or.inl h4
      · exact Or.inr ⟨h4, (Q.order (cl c' hc') hc (by rw [k2]; simp) (by rw [k1]; simp)).1 h5⟩
    · intro z hz
      rcases List.mem_append.1 hz with hz | hz
      · exact i3 z hz
      · simp at hz; exact hz ▸ hc

/-- Paths from a tag outside `P` stay outside. -/
theorem PartTree.bestPath_out {t t' : MTree τ} (Q : PartTree P t t') (T : TreeOK t)
    {x y : τ} {l : List τ} (h : BestPath t x l y) (hx : ¬ P x) : ¬ P y := by
  induction h with
  | start h => exact hx
  | @next l y nd c h1 h2 h3 ih =>
    intro hc
    obtain ⟨nc, k1, k2⟩ := T.down h2 h3.1
    exact ih ((Q.closed hc k1).1 _ k2)

theorem BestPath.unique {t : MTree τ} (T : TreeOK t) (O : OrderOK t) {x y : τ} {l : List τ}
    (h : BestPath t x l y) : ∀ {l' y'}, BestPath t x l' y' → l'.length = l.length →
    l' = l ∧ y' = y := by
  induction h with
  | start h =>
    intro l' y' h' e
    cases h' with
    | start => exact ⟨rfl, rfl⟩
    | next k1 k2 k3 =>
      obtain ⟨r, rfl⟩ := k1.head
      simp at e
  | @next l y nd c h1 h2 h3 ih =>
    intro l' y' h' e
    cases h' with
    | start =>
      obtain ⟨r, rfl⟩ := h1.head
      simp at e
    | @next l2 y2 nd2 c2 k1 k2 k3 =>
      obtain ⟨rfl, rfl⟩ := ih k1 (by simpa using e)
      rw [h2] at k2; cases k2
      obtain ⟨n1, a1, _⟩ := T.down h2 h3.1
      obtain ⟨n2, a2, _⟩ := T.down h2 k3.1
      have b1 := h3.2 _ k3.1
      have b2 := k3.2 _ h3.1
      have : orderOf t y' = orderOf t c := by
        rcases b1 with b1 | b1 <;> rcases b2 with b2 | b2 <;> omega
      have : y' = c := O.inj a2 a1 (by simpa [orderOf, a1, a2] using this)
      exact ⟨by rw [this], this⟩

/-- `get_split` inside `P` gives the same answer in both trees. -/
theorem PartTree.getSplit {t t' : MTree τ} (Q : PartTree P t t') (T : TreeOK t) (T' : TreeOK t')
    (O' : OrderOK t') {x : τ} {nd : TNode τ} (hx : P x) (h : dget t x = some nd) :
    ∃ split path, mtGetSplit t x = .ok (split, path) ∧ mtGetSplit t' x = .ok (split, path) ∧
      BestPath t x path split ∧ P split ∧ ∀ z ∈ path, P z := by
  obtain ⟨s, p, g1, g2, g3⟩ := getSplit_spec T h
  obtain ⟨nd', h', _⟩ := Q.known hx h
  obtain ⟨s', p', k1, k2, k3⟩ := getSplit_spec T' h'
  obtain ⟨m1, m2, m3⟩ := Q.bestPath T T' g2 hx
  have hh := Q.height T T' _ hx (Nat.le_refl _)
  rw [heightOf_eq h, heightOf_eq h'] at hh
  obtain ⟨rfl, rfl⟩ := m1.unique T' O' k2 (by rw [g3, k3, hh])
  exact ⟨_, _, g1, k1, g2, m2, m3⟩

theorem PartTree.upPath {t t' : MTree τ} (Q : PartTree P t t') {x : τ} {l : List τ}
    (h : UpPath t x l) (hx : P x) : UpPath t' x l ∧ ∀ z ∈ l, P z := by
  induction h with
  | root h1 h2 =>
    obtain ⟨nd', h', e, _⟩ := Q.known hx h1
    exact ⟨.root h' (e.trans h2), by simpa using hx⟩
  | step h1 h2 h3 ih =>
    obtain ⟨nd', h', e, _⟩ := Q.known hx h1
    obtain ⟨i1, i2⟩ := ih ((Q.closed hx h1).1 _ h2)
    refine ⟨.step h' (e.trans h2) i1, fun z hz => ?_⟩
    rcases List.mem_cons.1 hz with rfl | hz
    · exact hx
    · exact i2 z hz

/-! ### Stores -/

/-- What is true of every store reached by a history with fresh tags. -/
structure StoreSide (v : Versions τ (MTree τ)) : Prop where
  tree : TreeOK v.tree
  ord : OrderOK v.tree
  nodup : (v.headVersion.map Prod.fst).Nodup
  roots : ∀ {x c nd}, dget v.headVersion x = some c → dget v.tree x = some nd → nd.parent = none
  absent : ∀ {x}, dget v.tree x = none → dget v.headVersion x = none ∧ dget v.diffs x = none

/-- `v` and `w` agree on the tags of `P`. -/
structure SamePart (P : τ → Prop) (v w : Versions τ (MTree τ)) : Prop where
  heads : ∀ {x}, P x → dget w.headVersion x = dget v.headVersion x
  diffs : ∀ {x}, P x → dget w.diffs x = dget v.diffs x
  tree : PartTree P v.tree w.tree

/-- The effect of `_add_edge(p, c, …)`. -/
structure EdgeStep (v v' : Versions τ (MTree τ)) (c : τ) (q : Option τ) (p : τ) (d : Bytes) :
    Prop where
  moved : Moved v.tree v'.tree c q p
  heads : ∀ y, dget v'.headVersion y = if c = y then none else dget v.headVersion y
  diffs : ∀ y, dget v'.diffs y = if c = y then some d else dget v.diffs y
  side : StoreSide v'

theorem StoreSide.addEdge {v : Versions τ (MTree τ)} (V : StoreSide v) {c p : τ} {nc np : TNode τ}
    (hc : dget v.tree c = some nc) (hp : dget v.tree p = some np) (hroot : np.parent = none)
    (hcp : c ≠ p) {items : List (PatchItem UInt8)} {d : Bytes}
    (hd : serializeChangeset items = .ok d) :
    ∃ v', addEdge (memoryTree τ) v p c items = (v', none) ∧ EdgeStep v v' c nc.parent p d := by
  obtain ⟨t', h1, T', M⟩ := changeParent_spec V.tree hc (.root hp hroot) (by simpa using hcp)
  have h1' : (memoryTree τ).changeParent v.tree c p = (t', none) := h1
  have key : ∀ hv : List (τ × Bytes), (∀ y, dget hv y = if c = y then none else dget v.headVersion y) →
      (hv.map Prod.fst).Nodup → EdgeStep v ⟨hv, dset v.diffs c d, t'⟩ c nc.parent p d := by
    intro hv hhv hnd
    refine ⟨M, hhv, fun y => dget_dset _ _ _ _, T', V.ord.moved M, hnd, ?_, ?_⟩
    · intro x b nd hx hnd
      simp only at hx hnd
      rw [hhv] at hx
      split at hx
      · cases hx
      · next hcx =>
        obtain ⟨nd0, k1, _, k3, _⟩ := M.back hnd
        rw [k3, if_neg (fun e => hcx e.symm)]
        exact V.roots hx k1
    · intro x hx
      simp only at hx ⊢
      rw [M.dget_none] at hx
      have hne : c ≠ x := by rintro rfl; rw [hc] at hx; cases hx
      rw [hhv, if_neg hne, dget_dset, if_neg hne]
      exact V.absent hx
  by_cases hm : dmem v.headVersion c = true
  · refine ⟨_, ?_, key _ (fun y => dget_ddel V.nodup _ _) (ddel_nodup V.nodup _)⟩
    simp only [Gaspra.addEdge, hd, h1', hm, if_true]
  · refine ⟨_, ?_, key v.headVersion (fun y => ?_) V.nodup⟩
    · simp only [Gaspra.addEdge, hd, h1', hm, if_false, Bool.false_eq_true]
    · split
      · next e =>
        subst e
        simpa [dmem] using hm
      · rfl

theorem SamePart.edgeBoth {v w v' w' : Versions τ (MTree τ)} (Q : SamePart P v w) {c p : τ}
    {q : Option τ} {d : Bytes} (E : EdgeStep v v' c q p d) (E' : EdgeStep w w' c q p d)
    (hc : P c) (hp : P p) : SamePart P v' w' where
  heads := by intro x hx; rw [E.heads, E'.heads, Q.heads hx]
  diffs := by intro x hx; rw [E.diffs, E'.diffs, Q.diffs hx]
  tree := Q.tree.movedBoth E.moved E'.moved hc hp

theorem SamePart.edgeLeft {v w v' : Versions τ (MTree τ)} (Q : SamePart P v w) {c p : τ}
    {q : Option τ} {d : Bytes} (E : EdgeStep v v' c q p d) (hc : ¬ P c) (hp : ¬ P p)
    (hq : ∀ y, q = some y → ¬ P y) : SamePart P v' w where
  heads := by
    intro x hx; rw [E.heads, if_neg (by rintro rfl; exact hc hx), Q.heads hx]
  diffs := by
    intro x hx; rw [E.diffs, if_neg (by rintro rfl; exact hc hx), Q.diffs hx]
  tree := Q.tree.movedLeft E.moved hc hp hq

/-- The second `change_parent(split, tag)` of `add`. -/
theorem StoreSide.again {v : Versions τ (MTree τ)} (V : StoreSide v) {c p : τ} {nc np : TNode τ}
    (hc : dget v.tree c = some nc) (hcp' : nc.parent ≠ none) (hp : dget v.tree p = some np)
    (hroot : np.parent = none) (hcp : c ≠ p) :
    ∃ t', (memoryTree τ).changeParent v.tree c p = (t', none) ∧
      Moved v.tree t' c nc.parent p ∧ StoreSide { v with tree := t' } := by
  obtain ⟨t', h1, T', M⟩ := changeParent_spec V.tree hc (.root hp hroot) (by simpa using hcp)
  refine ⟨t', h1, M, T', V.ord.moved M, V.nodup, ?_, fun {x} hx => V.absent (M.dget_none.1 hx)⟩
  intro x b nd hx hnd
  obtain ⟨nd0, k1, _, k3, _⟩ := M.back hnd
  have := V.roots hx k1
  by_cases e : x = c
  · subst e
    rw [hc] at k1; cases k1
    exact absurd this hcp'
  · rw [k3, if_neg e]; exact this

theorem retrieveLoop_congr {d d' : List (τ × Bytes)} : ∀ (path : List τ) (st : S) (acc : List Tok),
    (∀ z ∈ path, dget d' z = dget d z) →
    retrieveLoop tk d' st acc path = retrieveLoop tk d st acc path
  | [], _, _, _ => rfl
  | z :: path, st, acc, h => by
    unfold retrieveLoop
    rw [h z (by simp)]
    cases dget d z with
    | none => rfl
    | some b =>
      dsimp only
      cases encodeItems tk st (deserializeChangeset b).1 with
      | error e => rfl
      | ok r =>
        simp only [bind, Except.bind]
        split
        · rfl
        · exact retrieveLoop_congr path _ _ fun z' hz' => h z' (by simp [hz'])

theorem SamePart.retrieve {v w : Versions τ (MTree τ)} (Q : SamePart P v w) {path : List τ}
    (h : ∀ z ∈ path, P z) : retrieveUsingPath tk w path = retrieveUsingPath tk v path := by
  unfold retrieveUsingPath
  cases path with
  | nil => rfl
  | cons r path =>
    simp only [Q.heads (h r (by simp))]
    cases dget v.headVersion r with
    | none => rfl
    | some b =>
      dsimp only
      cases tk.encode tk.init b with
      | error e => rfl
      | ok z =>
        show (retrieveLoop tk w.diffs z.2 z.1 path >>= fun y => tk.decode y.2 y.1) = _
        rw [retrieveLoop_congr (d := v.diffs) path _ _
          fun z' hz' => Q.diffs (h z' (by simp [hz']))]
        rfl

/-! ### One call inside `P` -/

theorem SamePart.oldHeadBoth {v w : Versions τ (MTree τ)} (V : StoreSide v) (W : StoreSide w)
    (Q : SamePart P v w) {b tag : τ} {nb nt : TNode τ} (hb : dget v.tree b = some nb)
    (ht : dget v.tree tag = some nt) (hroot : nt.parent = none) (hbt : b ≠ tag) (hPb : P b)
    (hPt : P tag) (version : Bytes) :
    ∃ v' w' e, addOldHead (memoryTree τ) tk v tag version b = (v', e) ∧
      addOldHead (memoryTree τ) tk w tag version b = (w', e) ∧ StoreSide v' ∧ StoreSide w' ∧
      SamePart P v' w' := by
  cases hv : dget v.headVersion b with
  | none =>
    exact ⟨v, w, some .keyError, by simp only [Gaspra.addOldHead, hv],
      by simp only [Gaspra.addOldHead, Q.heads hPb, hv], V, W, Q⟩
  | some content =>
    cases hm : makeChangeset tk version content with
    | error e =>
      exact ⟨v, w, some e, by simp only [Gaspra.addOldHead, hv, hm],
        by simp only [Gaspra.addOldHead, Q.heads hPb, hv, hm], V, W, Q⟩
    | ok cs =>
      cases hd : serializeChangeset cs with
      | error e =>
        exact ⟨v, w, some e, by simp only [Gaspra.addOldHead, Gaspra.addEdge, hv, hm, hd],
          by simp only [Gaspra.addOldHead, Gaspra.addEdge, Q.heads hPb, hv, hm, hd], V, W, Q⟩
      | ok d =>
        obtain ⟨nb', hb', eb, _⟩ := Q.tree.known hPb hb
        obtain ⟨nt', ht', et, _⟩ := Q.tree.known hPt ht
        obtain ⟨v', a1, E1⟩ := V.addEdge hb ht hroot hbt hd
        obtain ⟨w', a2, E2⟩ := W.addEdge hb' ht' (et.trans hroot) hbt hd
        rw [eb] at E2
        exact ⟨v', w', none, by simp only [Gaspra.addOldHead, hv, hm, a1],
          by simp only [Gaspra.addOldHead, Q.heads hPb, hv, hm, a2], E1.side, E2.side,
          Q.edgeBoth E1 E2 hPb hPt⟩

theorem SamePart.toHeadBoth {v w : Versions τ (MTree τ)} (V : StoreSide v) (W : StoreSide w)
    (Q : SamePart P v w) {b tag : τ} {nb nt : TNode τ} (hb : dget v.tree b = some nb)
    (ht : dget v.tree tag = some nt) (hroot : nt.parent = none) (hbt : b ≠ tag) (hPb : P b)
    (hPt : P tag) (version : Bytes) :
    ∃ v' w' e, addToHead (memoryTree τ) tk v tag version b = (v', e) ∧
      addToHead (memoryTree τ) tk w tag version b = (w', e) ∧ StoreSide v' ∧ StoreSide w' ∧
      SamePart P v' w' := by
  obtain ⟨s, path, g1, g1', g2, hPs, hPp⟩ := Q.tree.getSplit V.tree W.tree W.ord hPb hb
  have g1m : (memoryTree τ).getSplit v.tree b = .ok (s, path) := g1
  have g1d : (memoryTree τ).getSplit w.tree b = .ok (s, path) := g1'
  simp only [Gaspra.addToHead, g1m, g1d]
  by_cases hsb : s = b
  · simp only [hsb, ne_eq, not_true_eq_false, if_false]
    exact Q.oldHeadBoth V W hb ht hroot hbt hPb hPt version
  · simp only [ne_eq, hsb, not_false_eq_true, if_true]
    obtain ⟨ns, hns, hsp⟩ : ∃ ns, dget v.tree s = some ns ∧ ns.parent ≠ none := by
      cases g2 with
      | start => exact absurd rfl hsb
      | next k1 k2 k3 =>
        obtain ⟨nc, k4, k5⟩ := V.tree.down k2 k3.1
        exact ⟨nc, k4, by rw [k5]; simp⟩
    have hst : s ≠ tag := by
      rintro rfl
      rw [ht] at hns; cases hns
      exact hsp hroot
    obtain ⟨ns', hns', es, _⟩ := Q.tree.known hPs hns
    obtain ⟨nt', ht', et, _⟩ := Q.tree.known hPt ht
    simp only [addSplit, Q.retrieve (tk := tk) hPp]
    cases hr : retrieveUsingPath tk v path with
    | error e => exact ⟨v, w, some e, rfl, rfl, V, W, Q⟩
    | ok sv =>
    dsimp only
    cases hm : makeChangeset tk version sv with
    | error e => exact ⟨v, w, some e, rfl, rfl, V, W, Q⟩
    | ok cs =>
    dsimp only
    cases hd : serializeChangeset cs with
    | error e =>
      exact ⟨v, w, some e, by simp only [Gaspra.addEdge, hd], by simp only [Gaspra.addEdge, hd], V, W, Q⟩
    | ok d =>
      obtain ⟨v1, a1, E1⟩ := V.addEdge hns ht hroot hst hd
      obtain ⟨w1, a2, E2⟩ := W.addEdge hns' ht' (et.trans hroot) hst hd
      rw [es] at E2
      have Q1 := Q.edgeBoth E1 E2 hPs hPt
      rw [a1, a2]
      dsimp only
      obtain ⟨ns1, b1, _, b3, _⟩ := E1.moved.2 _ _ hns
      rw [if_pos rfl] at b3
      obtain ⟨nt1, c1, _, c3, _⟩ := E1.moved.2 _ _ ht
      rw [if_neg (fun e => hst e.symm)] at c3
      have hroot1 := c3.trans hroot
      obtain ⟨ns1', b1', eb1, _⟩ := Q1.tree.known hPs b1
      obtain ⟨nt1', c1', ec1, _⟩ := Q1.tree.known hPt c1
      obtain ⟨t2, d1, M2, V2⟩ := E1.side.again b1 (by rw [b3]; simp) c1 hroot1 hst
      obtain ⟨t2', d2, M2', W2⟩ := E2.side.again b1' (by rw [eb1, b3]; simp) c1' (ec1.trans hroot1) hst
      rw [eb1] at M2'
      rw [d1, d2]
      dsimp only
      have Q2 : SamePart P { v1 with tree := t2 } { w1 with tree := t2' } :=
        ⟨Q1.heads, Q1.diffs, Q1.tree.movedBoth M2 M2' hPs hPt⟩
      obtain ⟨nb1, k1, _⟩ := E1.moved.2 _ _ hb
      obtain ⟨nb2, k2, _⟩ := M2.2 _ _ k1
      obtain ⟨nt2, l1, _, l3, _⟩ := M2.2 _ _ c1
      rw [if_neg (fun e => hst e.symm)] at l3
      exact Q2.oldHeadBoth V2 W2 k2 l1 (l3.trans hroot1) hbt hPb hPt version

/-! ### One call outside `P` -/

theorem SamePart.oldHeadLeft {v w : Versions τ (MTree τ)} (V : StoreSide v)
    (Q : SamePart P v w) {b tag : τ} {nb nt : TNode τ} (hb : dget v.tree b = some nb)
    (ht : dget v.tree tag = some nt) (hroot : nt.parent = none) (hbt : b ≠ tag) (hPb : ¬ P b)
    (hPt : ¬ P tag) (version : Bytes) :
    StoreSide (addOldHead (memoryTree τ) tk v tag version b).1 ∧
      SamePart P (addOldHead (memoryTree τ) tk v tag version b).1 w := by
  cases hv : dget v.headVersion b with
  | none => simp only [Gaspra.addOldHead, hv]; exact ⟨V, Q⟩
  | some content =>
    cases hm : makeChangeset tk version content with
    | error e => simp only [Gaspra.addOldHead, hv, hm]; exact ⟨V, Q⟩
    | ok cs =>
      cases hd : serializeChangeset cs with
      | error e => simp only [Gaspra.addOldHead, Gaspra.addEdge, hv, hm, hd]; exact ⟨V, Q⟩
      | ok d =>
        obtain ⟨v', a1, E1⟩ := V.addEdge hb ht hroot hbt hd
        simp only [Gaspra.addOldHead, hv, hm, a1]
        refine ⟨E1.side, Q.edgeLeft E1 hPb hPt ?_⟩
        rw [V.roots hv hb]; simp

theorem SamePart.toHeadLeft {v w : Versions τ (MTree τ)} (V : StoreSide v)
    (Q : SamePart P v w) {b tag : τ} {nb nt : TNode τ} (hb : dget v.tree b = some nb)
    (ht : dget v.tree tag = some nt) (hroot : nt.parent = none) (hbt : b ≠ tag) (hPb : ¬ P b)
    (hPt : ¬ P tag) (version : Bytes) :
    StoreSide (addToHead (memoryTree τ) tk v tag version b).1 ∧
      SamePart P (addToHead (memoryTree τ) tk v tag version b).1 w := by
  obtain ⟨s, path, g1, g2, g3⟩ := getSplit_spec V.tree hb
  have g1m : (memoryTree τ).getSplit v.tree b = .ok (s, path) := g1
  have hPs := Q.tree.bestPath_out V.tree g2 hPb
  simp only [Gaspra.addToHead, g1m]
  by_cases hsb : s = b
  · simp only [hsb, ne_eq, not_true_eq_false, if_false]
    exact Q.oldHeadLeft V hb ht hroot hbt hPb hPt version
  · simp only [ne_eq, hsb, not_false_eq_true, if_true]
    obtain ⟨ns, hns, y, hsp, hPy⟩ : ∃ ns, dget v.tree s = some ns ∧ ∃ y, ns.parent = some y ∧ ¬ P y := by
      cases g2 with
      | start => exact absurd rfl hsb
      | next k1 k2 k3 =>
        obtain ⟨nc, k4, k5⟩ := V.tree.down k2 k3.1
        exact ⟨nc, k4, _, k5, Q.tree.bestPath_out V.tree k1 hPb⟩
    have hst : s ≠ tag := by
      rintro rfl
      rw [ht] at hns; cases hns
      rw [hroot] at hsp; cases hsp
    simp only [addSplit]
    cases hr : retrieveUsingPath tk v path with
    | error e => exact ⟨V, Q⟩
    | ok sv =>
    dsimp only
    cases hm : makeChangeset tk version sv with
    | error e => exact ⟨V, Q⟩
    | ok cs =>
    dsimp only
    cases hd : serializeChangeset cs with
    | error e => simp only [Gaspra.addEdge, hd]; exact ⟨V, Q⟩
    | ok d =>
      obtain ⟨v1, a1, E1⟩ := V.addEdge hns ht hroot hst hd
      have Q1 := Q.edgeLeft E1 hPs hPt (by rw [hsp]; rintro z e; cases e; exact hPy)
      rw [a1]
      dsimp only
      obtain ⟨ns1, b1, _, b3, _⟩ := E1.moved.2 _ _ hns
      rw [if_pos rfl] at b3
      obtain ⟨nt1, c1, _, c3, _⟩ := E1.moved.2 _ _ ht
      rw [if_neg (fun e => hst e.symm)] at c3
      have hroot1 := c3.trans hroot
      obtain ⟨t2, d1, M2, V2⟩ := E1.side.again b1 (by rw [b3]; simp) c1 hroot1 hst
      rw [d1]
      dsimp only
      have Q2 : SamePart P { v1 with tree := t2 } w :=
        ⟨Q1.heads, Q1.diffs, Q1.tree.movedLeft M2 hPs hPt
          (by rw [b3]; rintro z e; cases e; exact hPt)⟩
      obtain ⟨nb1, k1, _⟩ := E1.moved.2 _ _ hb
      obtain ⟨nb2, k2, _⟩ := M2.2 _ _ k1
      obtain ⟨nt2, l1, _, l3, _⟩ := M2.2 _ _ c1
      rw [if_neg (fun e => hst e.symm)] at l3
      exact Q2.oldHeadLeft V2 k2 l1 (l3.trans hroot1) hbt hPb hPt version

/-! ### `add` -/

theorem StoreSide.insert {v : Versions τ (MTree τ)} (V : StoreSide v) {tag : τ} (ht : dget v.tree tag = none)
    (version : Bytes) (base : Option τ) :
    StoreSide ⟨dset v.headVersion tag version, v.diffs, mtAdd v.tree tag base⟩ := by
  have hnew : ∀ y, dget (mtAdd v.tree tag base) y =
      if tag = y then some (newNode v.tree.length base) else dget v.tree y := dget_mtAdd _ _ _
  refine ⟨V.tree.add ht base, V.ord.add ht base, dset_nodup V.nodup _ _, ?_, ?_⟩
  · intro x c nd hx hnd
    simp only at hx hnd
    rw [hnew] at hnd
    rw [dget_dset] at hx
    split at hnd
    · cases hnd; rfl
    · next hne => rw [if_neg hne] at hx; exact V.roots hx hnd
  · intro x hx
    simp only at hx ⊢
    rw [hnew] at hx
    split at hx
    · cases hx
    · next hne => rw [dget_dset, if_neg hne]; exact V.absent hx

theorem versionsAdd_memory (v : Versions τ (MTree τ)) (tag : τ) (version : Bytes)
    (base : Option τ) : versionsAdd (memoryTree τ) tk v tag version base =
      (match base with
      | none => (⟨dset v.headVersion tag version, v.diffs, mtAdd v.tree tag base⟩, none)
      | some head => Gaspra.addToHead (memoryTree τ) tk
          ⟨dset v.headVersion tag version, v.diffs, mtAdd v.tree tag base⟩ tag version head) := by
  cases base <;> rfl

theorem addToHead_unknown {v : Versions τ (MTree τ)} {tag b : τ} {version : Bytes}
    (h : dget v.tree b = none) :
    addToHead (memoryTree τ) tk v tag version b = (v, some .keyError) := by
  have : (memoryTree τ).getSplit v.tree b = .error .keyError := by
    simp only [memoryTree, mtGetSplit, h]
  simp only [addToHead, this]

/-- A call whose tag is in `P`, in both stores. -/
theorem SamePart.addBoth {v w : Versions τ (MTree τ)} (V : StoreSide v) (W : StoreSide w)
    (Q : SamePart P v w) {tag : τ} (ht : dget v.tree tag = none) (version : Bytes)
    {base : Option τ} (hb : base ≠ some tag) (hPt : P tag) (hPb : ∀ b, base = some b → P b) :
    ∃ v' w' e, versionsAdd (memoryTree τ) tk v tag version base = (v', e) ∧
      versionsAdd (memoryTree τ) tk w tag version base = (w', e) ∧ StoreSide v' ∧ StoreSide w' ∧
      SamePart P v' w' := by
  have V1 := V.insert ht version base
  have W1 := W.insert (Q.tree.unknown hPt ht) version base
  have Q1 : SamePart P ⟨dset v.headVersion tag version, v.diffs, mtAdd v.tree tag base⟩
      ⟨dset w.headVersion tag version, w.diffs, mtAdd w.tree tag base⟩ := by
    refine ⟨fun {x} hx => ?_, fun {x} hx => Q.diffs hx, Q.tree.addBoth V.ord W.ord base⟩
    simp only [dget_dset, Q.heads hx]
  rw [versionsAdd_memory, versionsAdd_memory]
  cases base with
  | none => exact ⟨_, _, none, rfl, rfl, V1, W1, Q1⟩
  | some b =>
    have hbt : b ≠ tag := by simpa using hb
    have hPb := hPb b rfl
    dsimp only
    cases hbk : dget v.tree b with
    | none =>
      have hd0 : dget (mtAdd v.tree tag (some b)) b = none := by
        rw [dget_mtAdd, if_neg (fun e => hbt e.symm), hbk]
      exact ⟨_, _, _, addToHead_unknown hd0, addToHead_unknown (Q1.tree.unknown hPb hd0), V1, W1, Q1⟩
    | some nb =>
      exact Q1.toHeadBoth V1 W1 (nb := nb) (nt := newNode v.tree.length (some b))
        (by show dget (mtAdd v.tree tag (some b)) b = _
            rw [dget_mtAdd, if_neg (fun e => hbt e.symm), hbk])
        (by show dget (mtAdd v.tree tag (some b)) tag = _
            rw [dget_mtAdd, if_pos rfl]) rfl hbt hPb hPt version

/-- A call whose tag is not in `P`. -/
theorem SamePart.addLeft {v w : Versions τ (MTree τ)} (V : StoreSide v)
    (Q : SamePart P v w) {tag : τ} (ht : dget v.tree tag = none) (version : Bytes)
    {base : Option τ} (hb : base ≠ some tag) (hPt : ¬ P tag) (hPb : ∀ b, base = some b → ¬ P b) :
    StoreSide (versionsAdd (memoryTree τ) tk v tag version base).1 ∧
      SamePart P (versionsAdd (memoryTree τ) tk v tag version base).1 w := by
  have V1 := V.insert ht version base
  have Q1 : SamePart P ⟨dset v.headVersion tag version, v.diffs, mtAdd v.tree tag base⟩ w := by
    refine ⟨fun {x} hx => ?_, fun {x} hx => Q.diffs hx, Q.tree.addLeft hPt base⟩
    simp only
    rw [dget_dset, if_neg (by rintro rfl; exact hPt hx), Q.heads hx]
  rw [versionsAdd_memory]
  cases base with
  | none => exact ⟨V1, Q1⟩
  | some b =>
    have hbt : b ≠ tag := by simpa using hb
    have hPb := hPb b rfl
    dsimp only
    cases hbk : dget v.tree b with
    | none =>
      have hd0 : dget (mtAdd v.tree tag (some b)) b = none := by
        rw [dget_mtAdd, if_neg (fun e => hbt e.symm), hbk]
      rw [addToHead_unknown hd0]
      exact ⟨V1, Q1⟩
    | some nb =>
      exact Q1.toHeadLeft V1 (nb := nb) (nt := newNode v.tree.length (some b))
        (by show dget (mtAdd v.tree tag (some b)) b = _
            rw [dget_mtAdd, if_neg (fun e => hbt e.symm), hbk])
        (by show dget (mtAdd v.tree tag (some b)) tag = _
            rw [dget_mtAdd, if_pos rfl]) rfl hbt hPb hPt version

/-! ### Queries -/

theorem SamePart.pathTo {v w : Versions τ (MTree τ)} (V : StoreSide v) (Q : SamePart P v w) {x : τ}
    (hx : P x) : mtPathTo w.tree x = mtPathTo v.tree x ∧
      ∀ l, mtPathTo v.tree x = .ok (some l) → ∀ z ∈ l, P z := by
  cases h : dget v.tree x with
  | none =>
    rw [pathTo_none h, pathTo_none (Q.tree.unknown hx h)]
    exact ⟨rfl, fun l e => by simp at e⟩
  | some nd =>
    obtain ⟨l, hl⟩ := V.tree.acyc h
    obtain ⟨h1, h2⟩ := Q.tree.upPath hl hx
    rw [pathTo_spec hl, pathTo_spec h1]
    refine ⟨rfl, fun l' e z hz => ?_⟩
    simp only [Except.ok.injEq, Option.some.injEq] at e
    subst e
    exact h2 z (by simpa using hz)

theorem SamePart.get {v w : Versions τ (MTree τ)} (V : StoreSide v) (Q : SamePart P v w) {x : τ}
    (hx : P x) : versionsGet (memoryTree τ) tk w x = versionsGet (memoryTree τ) tk v x := by
  obtain ⟨h1, h2⟩ := Q.pathTo V hx
  have e : (memoryTree τ).pathTo w.tree x = mtPathTo v.tree x := h1
  have e' : (memoryTree τ).pathTo v.tree x = mtPathTo v.tree x := rfl
  unfold versionsGet
  rw [e, e']
  cases h : mtPathTo v.tree x with
  | error e => rfl
  | ok o =>
    cases o with
    | none => rfl
    | some l =>
      cases l with
      | nil => rfl
      | cons a l =>
        dsimp only
        rw [Q.retrieve (tk := tk) (h2 _ h)]

theorem SamePart.info {v w : Versions τ (MTree τ)} (V : StoreSide v) (Q : SamePart P v w) {x : τ}
    (hx : P x) : versionInfo (memoryTree τ) w x = versionInfo (memoryTree τ) v x := by
  have e : (memoryTree τ).baseVersion w.tree x = (memoryTree τ).baseVersion v.tree x := by
    simp only [memoryTree, mtBaseVersion]
    cases h : dget v.tree x with
    | none => rw [Q.tree.unknown hx h]
    | some nd =>
      obtain ⟨nd', h', _, _, e⟩ := Q.tree.known hx h
      rw [h']; simp [e]
  unfold versionInfo
  rw [Q.diffs hx, Q.heads hx, e]

theorem SamePart.contains {v w : Versions τ (MTree τ)} (Q : SamePart P v w) {x : τ}
    (hx : P x) : versionsContains (memoryTree τ) w x = versionsContains (memoryTree τ) v x := by
  simp only [versionsContains, memoryTree, mtContains, dmem]
  cases h : dget v.tree x with
  | none => rw [Q.tree.unknown hx h]
  | some nd =>
    obtain ⟨nd', h', _⟩ := Q.tree.known hx h
    rw [h']; rfl

theorem StoreSide.empty : StoreSide (emptyVersions τ) where
  tree := (Joint.empty (τ := τ)).tree
  ord := ⟨by intro x nd h; simp [emptyVersions, dget] at h,
    by intro x y nd nd' h; simp [emptyVersions, dget] at h⟩
  nodup := by simp [emptyVersions]
  roots := by intro x c nd h; simp [emptyVersions, dget] at h
  absent := by intro x h; simp [emptyVersions, dget]

theorem SamePart.empty : SamePart P (emptyVersions τ) (emptyVersions τ) where
  heads := fun _ => rfl
  diffs := fun _ => rfl
  tree := ⟨fun _ => rfl, by intro x nd _ h; simp [emptyVersions, dget] at h,
    fun _ _ _ _ => Iff.rfl⟩

/-! ### Histories -/

theorem callsIn_snoc (P : τ → Bool) (h : List (AddOp τ)) (a : AddOp τ) :
    callsIn P (h ++ [a]) = if P a.tag then callsIn P h ++ [a] else callsIn P h := by
  unfold callsIn
  rw [List.filter_append]
  by_cases e : P a.tag = true
  · simp [e]
  · simp [e]

theorem mem_callsIn {P : τ → Bool} {h : List (AddOp τ)} {a : AddOp τ} (ha : a ∈ callsIn P h) :
    a ∈ h := (List.mem_filter.1 ha).1

theorem FreshHistory.callsIn (P : τ → Bool) {h : List (AddOp τ)} (F : FreshHistory h) :
    FreshHistory (callsIn P h) := by
  induction F with
  | nil => exact .nil
  | @snoc h a F h1 h2 ih =>
    rw [callsIn_snoc]
    split
    · refine .snoc ih (fun e => ?_) h2
      obtain ⟨o, k1, k2⟩ := List.mem_map.1 e
      exact h1 (List.mem_map.2 ⟨o, mem_callsIn k1, k2⟩)
    · exact ih

theorem runErrors_length {T : Type _} (ops : TreeOps τ T) : ∀ (h : List (AddOp τ)) (v : Versions τ T),
    (runErrors ops tk v h).length = h.length
  | [], _ => rfl
  | a :: h, v => by simp only [runErrors, List.length_cons, runErrors_length ops h]

theorem resultsIn_snoc {β : Type _} (P : τ → Bool) {h : List (AddOp τ)} {r : List β}
    (hl : r.length = h.length) (a : AddOp τ) (e : β) :
    resultsIn P (h ++ [a]) (r ++ [e]) =
      if P a.tag then resultsIn P h r ++ [e] else resultsIn P h r := by
  unfold resultsIn
  rw [List.zip_append hl.symm, List.filter_append]
  by_cases e : P a.tag = true
  · simp [e]
  · simp [e]

/-- The store after the whole history and after the calls of `P` only. -/
theorem FreshHistory.samePart {P : τ → Bool} {h : List (AddOp τ)} (F : FreshHistory h)
    (hs : Separate P h) :
    StoreSide (runHistory (memoryTree τ) tk (emptyVersions τ) h) ∧
    StoreSide (runHistory (memoryTree τ) tk (emptyVersions τ) (Gaspra.callsIn P h)) ∧
    SamePart (fun x => P x = true) (runHistory (memoryTree τ) tk (emptyVersions τ) h)
      (runHistory (memoryTree τ) tk (emptyVersions τ) (Gaspra.callsIn P h)) ∧
    runErrors (memoryTree τ) tk (emptyVersions τ) (Gaspra.callsIn P h) =
      resultsIn P h (runErrors (memoryTree τ) tk (emptyVersions τ) h) := by
  induction F with
  | nil => exact ⟨StoreSide.empty, StoreSide.empty, SamePart.empty, rfl⟩
  | @snoc h a F ht hb ih =>
    obtain ⟨V, W, Q, E⟩ := ih fun o ho => hs o (by simp [ho])
    have hk := (F.joint (tk := tk)).2
    have hd : dget (runHistory (memoryTree τ) tk (emptyVersions τ) h).tree a.tag = none := by
      cases hh : dget (runHistory (memoryTree τ) tk (emptyVersions τ) h).tree a.tag with
      | none => rfl
      | some nd => exact absurd (hk ▸ mem_keys_of_dget hh) ht
    have hp := hs a (by simp)
    rw [callsIn_snoc, runErrors_snoc, resultsIn_snoc P (runErrors_length _ _ _), runHistory_snoc]
    by_cases hP : P a.tag = true
    · simp only [hP, if_true]
      obtain ⟨v', w', e, a1, a2, V', W', Q'⟩ := Q.addBoth (tk := tk) V W hd a.content hb hP
        (fun b hb' => (hp b hb').symm.trans hP)
      rw [runHistory_snoc, runErrors_snoc, a1, a2, E]
      exact ⟨V', W', Q', rfl⟩
    · simp only [hP, if_false, Bool.false_eq_true]
      obtain ⟨V', Q'⟩ := Q.addLeft (tk := tk) V hd a.content hb hP
        (fun b hb' e => hP ((hp b hb').trans e))
      exact ⟨V', W, Q', E⟩

/-! ### The line of a head -/

theorem GoodHistory.base_unique {h : List (AddOp τ)} (G : GoodHistory h) {o o' : AddOp τ} {b : τ}
    (ho : o ∈ h) (ho' : o' ∈ h) (e : o.base = some b) (e' : o'.base = some b) : o = o' := by
  induction G with
  | nil => cases ho
  | @snoc h a G h1 h2 ih =>
    rcases List.mem_append.1 ho with m | m <;> rcases List.mem_append.1 ho' with m' | m'
    · exact ih m m'
    · simp at m'; subst m'
      exact absurd e ((h2 b e').2 o m)
    · simp at m; subst m
      exact absurd e' ((h2 b e).2 o' m')
    · simp at m m'; rw [m, m']

theorem BaseLine.down {h : List (AddOp τ)} (hn : (addedTags h).Nodup) {t : τ} {l : List τ}
    (B : BaseLine h t l) {a : AddOp τ} {b : τ} (ha : a ∈ h) (hb : a.base = some b)
    (hl : a.tag ∈ l) : b ∈ l := by
  induction B with
  | @root a' h1 h2 =>
    have := addOp_unique hn ha h1 (by simpa using hl)
    subst this
    rw [h2] at hb; cases hb
  | @step a' b' l h1 h2 B ih =>
    rcases List.mem_cons.1 hl with e | e
    · have := addOp_unique hn ha h1 e
      subst this
      rw [h2] at hb; cases hb
      cases B <;> simp
    · exact List.mem_cons_of_mem _ (ih e)

theorem BaseLine.up {h : List (AddOp τ)} {t : τ} {l : List τ}
    (B : BaseLine h t l) {b : τ} (hl : b ∈ l) :
    b = t ∨ ∃ o ∈ h, o.tag ∈ l ∧ o.base = some b := by
  induction B with
  | root h1 h2 => exact Or.inl (by simpa using hl)
  | @step a' b' l h1 h2 B ih =>
    rcases List.mem_cons.1 hl with e | e
    · exact Or.inl e
    · rcases ih e with rfl | ⟨o, k1, k2, k3⟩
      · exact Or.inr ⟨a', h1, by simp, h2⟩
      · exact Or.inr ⟨o, k1, by simp [k2], k3⟩

theorem GoodHistory.separate_line {h : List (AddOp τ)} (G : GoodHistory h) {t : τ} {l : List τ}
    (ht : IsHead h t) (B : BaseLine h t l) : Separate (fun x => decide (x ∈ l)) h := by
  intro a ha b hb
  apply decide_eq_decide.2
  refine ⟨B.down G.fresh.nodup ha hb, fun hl => ?_⟩
  rcases B.up hl with rfl | ⟨o, k1, k2, k3⟩
  · exact absurd hb (ht.2 a ha)
  · exact G.base_unique k1 ha k3 hb ▸ k2

end Gaspra
