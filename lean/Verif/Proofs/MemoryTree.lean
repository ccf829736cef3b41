import Verif.Proofs.Dict
import Verif.Model.MemoryTree

set_option linter.unusedSectionVars false
set_option linter.unusedSimpArgs false
set_option linter.unusedVariables false

/-! # The spanning forest kept by `MemoryTree` -/

namespace Gaspra

variable {τ : Type _} [DecidableEq τ]

/-- The tags from `x` up to the root, following parent links. -/
inductive UpPath (t : MTree τ) : τ → List τ → Prop
  | root {x : τ} {nd : TNode τ} : dget t x = some nd → nd.parent = none → UpPath t x [x]
  | step {x p : τ} {nd : TNode τ} {l : List τ} : dget t x = some nd → nd.parent = some p →
      UpPath t p l → UpPath t x (x :: l)

theorem UpPath.head {t : MTree τ} {x : τ} {l : List τ} (h : UpPath t x l) :
    ∃ r, l = x :: r := by cases h <;> exact ⟨_, rfl⟩

theorem UpPath.unique {t : MTree τ} {x : τ} {l : List τ} (h : UpPath t x l) :
    ∀ {l'}, UpPath t x l' → l = l' := by
  induction h with
  | root h1 h2 =>
    intro l' h'
    cases h' with
    | root => rfl
    | step h3 h4 _ => rw [h1] at h3; cases h3; rw [h2] at h4; cases h4
  | step h1 h2 _ ih =>
    intro l' h'
    cases h' with
    | root h3 h4 => rw [h1] at h3; cases h3; rw [h2] at h4; cases h4
    | step h3 h4 h5 =>
      rw [h1] at h3; cases h3; rw [h2] at h4; cases h4
      rw [ih h5]

theorem UpPath.suffix {t : MTree τ} {x : τ} {l : List τ} (h : UpPath t x l) :
    ∀ {y}, y ∈ l → ∃ l', UpPath t y l' ∧ l' <:+ l := by
  induction h with
  | root h1 h2 =>
    intro y hy
    simp at hy; subst hy
    exact ⟨_, .root h1 h2, List.suffix_refl _⟩
  | @step x p nd l h1 h2 h3 ih =>
    intro y hy
    rcases List.mem_cons.1 hy with rfl | hy
    · exact ⟨_, .step h1 h2 h3, List.suffix_refl _⟩
    · obtain ⟨l', h4, h5⟩ := ih hy
      exact ⟨l', h4, h5.trans (List.suffix_cons _ _)⟩

/-- The path above a node does not contain the node. -/
theorem UpPath.not_mem_parent {t : MTree τ} {x p : τ} {nd : TNode τ} {l : List τ}
    (h1 : dget t x = some nd) (h2 : nd.parent = some p) (h : UpPath t p l) : x ∉ l := by
  intro hx
  obtain ⟨l', h3, h4⟩ := h.suffix hx
  have := h3.unique (.step h1 h2 h)
  subst this
  have := h4.length_le
  simp only [List.length_cons] at this
  omega

theorem UpPath.nodup {t : MTree τ} {x : τ} {l : List τ} (h : UpPath t x l) : l.Nodup := by
  induction h with
  | root => simp
  | step h1 h2 h3 ih => exact List.nodup_cons.2 ⟨h3.not_mem_parent h1 h2, ih⟩

theorem UpPath.mem_keys {t : MTree τ} {x : τ} {l : List τ} (h : UpPath t x l) :
    ∀ y ∈ l, ∃ nd, dget t y = some nd := by
  induction h with
  | root h1 => simp; exact ⟨_, h1⟩
  | step h1 h2 h3 ih =>
    intro y hy
    rcases List.mem_cons.1 hy with rfl | hy
    · exact ⟨_, h1⟩
    · exact ih y hy

theorem mem_keys_of_dget {κ β : Type _} [DecidableEq κ] {d : List (κ × β)} {k : κ} {v : β}
    (h : dget d k = some v) : k ∈ d.map Prod.fst :=
  List.mem_map_of_mem (f := Prod.fst) (mem_of_dget h)

theorem nodup_subset_length {α : Type _} [DecidableEq α] : ∀ {l l' : List α}, l.Nodup →
    (∀ x ∈ l, x ∈ l') → l.length ≤ l'.length
  | [], _, _, _ => by simp
  | a :: l, l', hn, hs => by
    rw [List.nodup_cons] at hn
    have ha : a ∈ l' := hs a (by simp)
    have := nodup_subset_length (l := l) (l' := l'.erase a) hn.2 (by
      intro x hx
      have hxa : x ≠ a := by rintro rfl; exact hn.1 hx
      exact (List.mem_erase_of_ne hxa).2 (hs x (by simp [hx])))
    rw [List.length_erase_of_mem ha] at this
    have : 0 < l'.length := List.length_pos_of_mem ha
    simp; omega

theorem UpPath.length_le {t : MTree τ} {x : τ} {l : List τ} (h : UpPath t x l) :
    l.length ≤ t.length := by
  have := nodup_subset_length (l' := t.map Prod.fst) h.nodup (by
    intro y hy
    obtain ⟨nd, h⟩ := h.mem_keys y hy
    exact mem_keys_of_dget h)
  simpa using this

/-- `UpPath` only depends on the parents of the nodes on it. -/
theorem UpPath.transfer {t t' : MTree τ} {x : τ} {l : List τ} (h : UpPath t x l) :
    (∀ y ∈ l, (dget t' y).map TNode.parent = (dget t y).map TNode.parent) → UpPath t' x l := by
  induction h with
  | @root x nd h1 h2 =>
    intro H
    have := H x (by simp)
    rw [h1] at this
    simp only [Option.map_some, Option.map_eq_some_iff] at this
    obtain ⟨nd', h3, h4⟩ := this
    exact .root h3 (h4.trans h2)
  | @step x p nd l h1 h2 h3 ih =>
    intro H
    have := H x (by simp)
    rw [h1] at this
    simp only [Option.map_some, Option.map_eq_some_iff] at this
    obtain ⟨nd', h4, h5⟩ := this
    exact .step h4 (h5.trans h2) (ih fun y hy => H y (by simp [hy]))

/-! ### The invariant -/

/-- Parent links and child lists agree, and every node has a finite path to a root. -/
structure Forest (t : MTree τ) : Prop where
  nodup : (t.map Prod.fst).Nodup
  up : ∀ {c nc p}, dget t c = some nc → nc.parent = some p →
    ∃ np, dget t p = some np ∧ c ∈ np.children
  down : ∀ {p np c}, dget t p = some np → c ∈ np.children →
    ∃ nc, dget t c = some nc ∧ nc.parent = some p
  chNodup : ∀ {p np}, dget t p = some np → np.children.Nodup
  acyc : ∀ {x nd}, dget t x = some nd → ∃ l, UpPath t x l

/-- The height stored for `x` (0 when `x` is unknown). -/
def heightOf (t : MTree τ) (x : τ) : Nat := ((dget t x).map TNode.height).getD 0

/-- The size stored for `x` (0 when `x` is unknown). -/
def sizeOfTag (t : MTree τ) (x : τ) : Nat := ((dget t x).map TNode.size).getD 0

/-- The metrics of `x` are right with respect to those of its children. -/
def MetricAt (t : MTree τ) (x : τ) : Prop :=
  ∀ nd, dget t x = some nd →
    nd.height = maxNat (nd.children.map (heightOf t)) + 1 ∧
    nd.size = (nd.children.map (sizeOfTag t)).sum + 1

theorem childAttrs_eq {t : MTree τ} (attr : TNode τ → Nat) (l : List τ)
    (h : ∀ c ∈ l, ∃ nd, dget t c = some nd) :
    mtChildAttrs t attr l = some (l.map fun c => ((dget t c).map attr).getD 0) := by
  unfold mtChildAttrs
  induction l with
  | nil => simp
  | cons c l ih =>
    obtain ⟨nd, hc⟩ := h c (by simp)
    rw [List.mapM_cons, ih fun c' hc' => h c' (by simp [hc'])]
    simp [hc]

/-- Two trees with the same keys, in the same order, and the same structure. -/
def SameTreeShape (t t' : MTree τ) : Prop :=
  t'.map Prod.fst = t.map Prod.fst ∧
  ∀ x nd, dget t x = some nd → ∃ nd', dget t' x = some nd' ∧ nd'.orderId = nd.orderId ∧
    nd'.parent = nd.parent ∧ nd'.children = nd.children ∧ nd'.baseVersion = nd.baseVersion

theorem SameTreeShape.refl (t : MTree τ) : SameTreeShape t t :=
  ⟨rfl, fun _ nd h => ⟨nd, h, rfl, rfl, rfl, rfl⟩⟩

theorem SameTreeShape.trans {t t' t'' : MTree τ} (h : SameTreeShape t t') (h' : SameTreeShape t' t'') :
    SameTreeShape t t'' := by
  refine ⟨h'.1.trans h.1, fun x nd hx => ?_⟩
  obtain ⟨nd', a1, a2, a3, a4, a5⟩ := h.2 x nd hx
  obtain ⟨nd'', b1, b2, b3, b4, b5⟩ := h'.2 x nd' a1
  exact ⟨nd'', b1, b2.trans a2, b3.trans a3, b4.trans a4, b5.trans a5⟩

theorem dget_isSome_iff {κ β : Type _} [DecidableEq κ] {d : List (κ × β)} {k : κ} :
    (∃ v, dget d k = some v) ↔ k ∈ d.map Prod.fst := by
  constructor
  · rintro ⟨v, h⟩; exact mem_keys_of_dget h
  · intro h
    cases h' : dget d k with
    | some v => exact ⟨v, rfl⟩
    | none =>
      obtain ⟨x, hx, rfl⟩ := List.mem_map.1 h
      exact absurd rfl (dget_eq_none_iff.1 h' x hx)

theorem SameTreeShape.back {t t' : MTree τ} (h : SameTreeShape t t') {x : τ} {nd' : TNode τ}
    (hx : dget t' x = some nd') : ∃ nd, dget t x = some nd ∧ nd'.orderId = nd.orderId ∧
    nd'.parent = nd.parent ∧ nd'.children = nd.children ∧ nd'.baseVersion = nd.baseVersion := by
  have := mem_keys_of_dget hx
  rw [h.1] at this
  obtain ⟨nd, hnd⟩ := dget_isSome_iff.2 this
  obtain ⟨nd'', a1, a2⟩ := h.2 x nd hnd
  rw [hx] at a1; cases a1
  exact ⟨nd, hnd, a2⟩

theorem SameTreeShape.upPath {t t' : MTree τ} (h : SameTreeShape t t') {x : τ} {l : List τ}
    (hp : UpPath t x l) : UpPath t' x l := by
  refine hp.transfer fun y hy => ?_
  obtain ⟨nd, hnd⟩ := hp.mem_keys y hy
  obtain ⟨nd', a1, _, a3, _⟩ := h.2 y nd hnd
  simp [a1, hnd, a3]

theorem SameTreeShape.forest {t t' : MTree τ} (h : SameTreeShape t t') (F : Forest t) : Forest t' where
  nodup := h.1 ▸ F.nodup
  up := by
    intro c nc p hc hp
    obtain ⟨nd, a1, a2, a3, a4, a5⟩ := h.back hc
    obtain ⟨np, b1, b2⟩ := F.up a1 (a3 ▸ hp)
    obtain ⟨np', c1, c2, c3, c4, c5⟩ := h.2 p np b1
    exact ⟨np', c1, c4 ▸ b2⟩
  down := by
    intro p np c hp hc
    obtain ⟨nd, a1, a2, a3, a4, a5⟩ := h.back hp
    obtain ⟨nc, b1, b2⟩ := F.down a1 (a4 ▸ hc)
    obtain ⟨nc', c1, c2, c3, c4, c5⟩ := h.2 c nc b1
    exact ⟨nc', c1, c3.trans b2⟩
  chNodup := by
    intro p np hp
    obtain ⟨nd, a1, a2, a3, a4, a5⟩ := h.back hp
    exact a4 ▸ F.chNodup a1
  acyc := by
    intro x nd hx
    obtain ⟨nd, a1, _⟩ := h.back hx
    obtain ⟨l, hl⟩ := F.acyc a1
    exact ⟨l, h.upPath hl⟩

/-- Changing only the metrics of one node. -/
theorem sameShape_setMetrics {t : MTree τ} {x : τ} {nd : TNode τ} (hx : dget t x = some nd)
    (hh ss : Nat) : SameTreeShape t (dset t x { nd with height := hh, size := ss }) := by
  refine ⟨?_, fun y ndy hy => ?_⟩
  · rw [dset_keys, if_pos (mem_keys_of_dget hx)]
  · rw [dget_dset]
    by_cases hxy : x = y
    · subst hxy; rw [hx] at hy; cases hy
      rw [if_pos rfl]
      exact ⟨_, rfl, rfl, rfl, rfl, rfl⟩
    · rw [if_neg hxy]; exact ⟨ndy, hy, rfl, rfl, rfl, rfl⟩

theorem Forest.not_own_child {t : MTree τ} (F : Forest t) {x : τ} {nd : TNode τ}
    (hx : dget t x = some nd) : x ∉ nd.children := by
  intro h
  obtain ⟨nc, h1, h2⟩ := F.down hx h
  obtain ⟨l, hl⟩ := F.acyc h1
  obtain ⟨r, rfl⟩ := hl.head
  exact hl.not_mem_parent h1 h2 (by simp)

theorem heightOf_dset (t : MTree τ) (x y : τ) (nd : TNode τ) :
    heightOf (dset t x nd) y = if x = y then nd.height else heightOf t y := by
  unfold heightOf; rw [dget_dset]; split <;> simp

theorem sizeOfTag_dset (t : MTree τ) (x y : τ) (nd : TNode τ) :
    sizeOfTag (dset t x nd) y = if x = y then nd.size else sizeOfTag t y := by
  unfold sizeOfTag; rw [dget_dset]; split <;> simp

theorem map_heightOf_dset {t : MTree τ} {x : τ} {nd : TNode τ} {l : List τ} (h : x ∉ l) :
    l.map (heightOf (dset t x nd)) = l.map (heightOf t) := by
  apply List.map_congr_left
  intro y hy
  rw [heightOf_dset, if_neg]; rintro rfl; exact h hy

theorem map_sizeOf_dset {t : MTree τ} {x : τ} {nd : TNode τ} {l : List τ} (h : x ∉ l) :
    l.map (sizeOfTag (dset t x nd)) = l.map (sizeOfTag t) := by
  apply List.map_congr_left
  intro y hy
  rw [sizeOfTag_dset, if_neg]; rintro rfl; exact h hy

/-- `_update_metrics(x)`: if all nodes outside `B` and other than `x` have right metrics before,
all nodes outside `B` have right metrics afterwards; nothing else changes. -/
theorem updateMetrics_spec (B : τ → Prop) {x : τ} {l : List τ} : ∀ {t : MTree τ} {f : Nat},
    Forest t → UpPath t x l → l.length ≤ f → (∀ y, ¬ B y → y ≠ x → MetricAt t y) →
    ∃ t', mtUpdateMetrics f t (some x) = (t', none) ∧ SameTreeShape t t' ∧
      ∀ y, ¬ B y → MetricAt t' y := by
  induction l generalizing x with
  | nil => intro t f F hp; cases hp
  | cons a l ih =>
    intro t f F hp hf hM
    cases f with
    | zero => simp at hf
    | succ f =>
    obtain ⟨r, hr⟩ := hp.head
    obtain rfl : x = a := (List.cons.inj hr).1.symm
    have hxk : ∃ nd, dget t x = some nd := hp.mem_keys x (by simp)
    obtain ⟨nd, hx⟩ := hxk
    have hch : ∀ c ∈ nd.children, ∃ nc, dget t c = some nc := fun c hc => by
      obtain ⟨nc, h1, _⟩ := F.down hx hc; exact ⟨nc, h1⟩
    have hs := sameShape_setMetrics hx (maxNat (nd.children.map (heightOf t)) + 1)
      ((nd.children.map (sizeOfTag t)).sum + 1)
    have hstep : mtUpdateMetrics (f + 1) t (some x) = mtUpdateMetrics f
        (dset t x { nd with height := maxNat (nd.children.map (heightOf t)) + 1,
                            size := (nd.children.map (sizeOfTag t)).sum + 1 }) nd.parent := by
      simp only [mtUpdateMetrics, hx, childAttrs_eq _ _ hch]
      have e1 : (if nd.children.isEmpty = true then 0 else
          maxNat (nd.children.map fun c => ((dget t c).map TNode.height).getD 0)) =
          maxNat (nd.children.map (heightOf t)) := by
        split
        · next h => simp [List.isEmpty_iff.1 h, maxNat]
        · rfl
      have e2 : (if nd.children.isEmpty = true then 0 else
          (nd.children.map fun c => ((dget t c).map TNode.size).getD 0).sum) =
          (nd.children.map (sizeOfTag t)).sum := by
        split
        · next h => simp [List.isEmpty_iff.1 h]
        · rfl
      rw [e1, e2]
    have hxn := F.not_own_child hx
    -- metrics after the assignment: right everywhere except possibly at the parent
    have hM' : ∀ y, ¬ B y → some y ≠ nd.parent →
        MetricAt (dset t x { nd with height := maxNat (nd.children.map (heightOf t)) + 1,
                                     size := (nd.children.map (sizeOfTag t)).sum + 1 }) y := by
      intro y hy hyp ndy hdy
      rw [dget_dset] at hdy
      by_cases hxy : x = y
      · subst hxy
        rw [if_pos rfl] at hdy; cases hdy
        simp only [map_heightOf_dset hxn, map_sizeOf_dset hxn, and_self]
      · rw [if_neg hxy] at hdy
        have hnc : x ∉ ndy.children := by
          intro h
          obtain ⟨nc, h1, h2⟩ := F.down hdy h
          rw [hx] at h1; cases h1
          exact hyp h2.symm
        rw [map_heightOf_dset hnc, map_sizeOf_dset hnc]
        exact hM y hy (fun e => hxy e.symm) ndy hdy
    rw [hstep]
    generalize dset t x { nd with height := maxNat (nd.children.map (heightOf t)) + 1,
                                  size := (nd.children.map (sizeOfTag t)).sum + 1 } = t1 at hs hM' ⊢
    cases hp with
    | root h1 h2 =>
      rw [hx] at h1; cases h1
      rw [h2] at hM' ⊢
      refine ⟨_, by simp [mtUpdateMetrics], hs, fun y hy => hM' y hy (by simp)⟩
    | @step _ p _ _ h1 h2 h3 =>
      rw [hx] at h1; cases h1
      rw [h2] at hM' ⊢
      obtain ⟨t', a1, a2, a3⟩ := ih (hs.forest F) (hs.upPath h3) (by simpa using hf)
        (fun y hy hyp => hM' y hy (by simpa using hyp))
      exact ⟨t', a1, hs.trans a2, a3⟩

/-- The complete invariant of the tree. -/
structure TreeOK (t : MTree τ) : Prop extends Forest t where
  metric : ∀ x, MetricAt t x

/-! ### `add` -/

theorem TreeOK.add {t : MTree τ} (T : TreeOK t) {x : τ} (hx : dget t x = none) (b : Option τ) :
    TreeOK (mtAdd t x b) := by
  have hg : ∀ y, dget (mtAdd t x b) y = if x = y then some
      { orderId := t.length, parent := none, children := [], height := 1, size := 1,
        baseVersion := b } else dget t y := fun y => dget_dset _ _ _ _
  have hchild : ∀ {p np c}, dget t p = some np → c ∈ np.children → x ≠ c := by
    rintro p np c hp hc rfl
    obtain ⟨nc, h1, _⟩ := T.down hp hc
    rw [hx] at h1; cases h1
  have hold : ∀ {y nd}, dget t y = some nd → x ≠ y := by
    rintro y nd h rfl; rw [hx] at h; cases h
  constructor
  · constructor
    · exact dset_nodup T.nodup _ _
    · intro c nc p hc hp
      rw [hg] at hc
      split at hc
      · cases hc; cases hp
      · obtain ⟨np, h1, h2⟩ := T.up hc hp
        exact ⟨np, by rw [hg, if_neg (hold h1)]; exact h1, h2⟩
    · intro p np c hp hc
      rw [hg] at hp
      split at hp
      · cases hp; simp at hc
      · obtain ⟨nc, h1, h2⟩ := T.down hp hc
        exact ⟨nc, by rw [hg, if_neg (hchild hp hc)]; exact h1, h2⟩
    · intro p np hp
      rw [hg] at hp
      split at hp
      · cases hp; simp
      · exact T.chNodup hp
    · intro y nd hy
      by_cases hxy : x = y
      · subst hxy
        rw [hg, if_pos rfl] at hy; cases hy
        exact ⟨_, .root (by rw [hg, if_pos rfl]) rfl⟩
      · rw [hg, if_neg hxy] at hy
        obtain ⟨l, hl⟩ := T.acyc hy
        refine ⟨l, hl.transfer fun z hz => ?_⟩
        obtain ⟨nz, hnz⟩ := hl.mem_keys z hz
        rw [hg, if_neg (hold hnz)]
  · intro y nd hy
    rw [hg] at hy
    split at hy
    · cases hy; simp [maxNat]
    · have hn : x ∉ nd.children := fun h => hchild hy h rfl
      have := T.metric y nd hy
      unfold mtAdd
      rw [map_heightOf_dset hn, map_sizeOf_dset hn]
      exact this

/-! ### `change_parent` -/

/-- The children of `y` after `c` was taken from `q` and given to `p`. -/
def movedChildren (c : τ) (q : Option τ) (p y : τ) (l : List τ) : List τ :=
  let l := if q = some y then l.erase c else l
  if y = p then l ++ [c] else l

/-- What `change_parent(c, p)` does to the structure. -/
def Moved (t t' : MTree τ) (c : τ) (q : Option τ) (p : τ) : Prop :=
  t'.map Prod.fst = t.map Prod.fst ∧
  ∀ y nd, dget t y = some nd → ∃ nd', dget t' y = some nd' ∧ nd'.orderId = nd.orderId ∧
    nd'.parent = (if y = c then some p else nd.parent) ∧
    nd'.children = movedChildren c q p y nd.children ∧ nd'.baseVersion = nd.baseVersion

theorem Moved.back {t t' : MTree τ} {c p : τ} {q : Option τ} (h : Moved t t' c q p) {x : τ}
    {nd' : TNode τ} (hx : dget t' x = some nd') : ∃ nd, dget t x = some nd ∧
    nd'.orderId = nd.orderId ∧ nd'.parent = (if x = c then some p else nd.parent) ∧
    nd'.children = movedChildren c q p x nd.children ∧ nd'.baseVersion = nd.baseVersion := by
  have := mem_keys_of_dget hx
  rw [h.1] at this
  obtain ⟨nd, hnd⟩ := dget_isSome_iff.2 this
  obtain ⟨nd'', a1, a2⟩ := h.2 x nd hnd
  rw [hx] at a1; cases a1
  exact ⟨nd, hnd, a2⟩

theorem Moved.upPath {t t' : MTree τ} {c p : τ} {q : Option τ} (h : Moved t t' c q p) {x : τ}
    {l : List τ} (hp : UpPath t x l) (hc : c ∉ l) : UpPath t' x l := by
  refine hp.transfer fun y hy => ?_
  obtain ⟨nd, hnd⟩ := hp.mem_keys y hy
  obtain ⟨nd', a1, _, a3, _⟩ := h.2 y nd hnd
  have : y ≠ c := by rintro rfl; exact hc hy
  simp [a1, hnd, a3, this]

/-- Paths after the move. -/
theorem Moved.upPath_new {t t' : MTree τ} {c p : τ} {q : Option τ} (h : Moved t t' c q p)
    {lp : List τ} (hp : UpPath t p lp) (hcp : c ∉ lp) {x : τ} {l : List τ} (hl : UpPath t x l) :
    ∃ l', UpPath t' x l' := by
  have hp' := h.upPath hp hcp
  induction hl with
  | @root x nd h1 h2 =>
    obtain ⟨nd', a1, _, a3, _⟩ := h.2 _ _ h1
    by_cases hxc : x = c
    · rw [if_pos hxc] at a3
      exact ⟨_, .step a1 a3 hp'⟩
    · rw [if_neg hxc] at a3
      exact ⟨_, .root a1 (a3.trans h2)⟩
  | @step x r nd l h1 h2 h3 ih =>
    obtain ⟨nd', a1, _, a3, _⟩ := h.2 _ _ h1
    by_cases hxc : x = c
    · rw [if_pos hxc] at a3
      exact ⟨_, .step a1 a3 hp'⟩
    · rw [if_neg hxc] at a3
      obtain ⟨l', hl'⟩ := ih
      exact ⟨_, .step a1 (a3.trans h2) hl'⟩

theorem Moved.forest {t t' : MTree τ} {c p : τ} {nc : TNode τ} (F : Forest t)
    (hc : dget t c = some nc) (h : Moved t t' c nc.parent p)
    {lp : List τ} (hp : UpPath t p lp) (hcp : c ∉ lp) : Forest t' := by
  have hpc : p ≠ c := by
    rintro rfl; obtain ⟨r, rfl⟩ := hp.head; simp at hcp
  have hpk : ∃ np, dget t p = some np := hp.mem_keys p (by
    obtain ⟨r, rfl⟩ := hp.head; simp)
  -- if `c` is a child of `y` then `y` is the old parent
  have hown : ∀ {y ndy}, dget t y = some ndy → c ∈ ndy.children → nc.parent = some y := by
    intro y ndy hy hcy
    obtain ⟨n', b1, b2⟩ := F.down hy hcy
    rw [hc] at b1; cases b1; exact b2
  constructor
  · exact h.1 ▸ F.nodup
  · intro x nx r hx hr
    obtain ⟨nd, a1, a2, a3, a4, a5⟩ := h.back hx
    by_cases hxc : x = c
    · subst hxc
      rw [if_pos rfl, hr] at a3; cases a3
      obtain ⟨np, hnp⟩ := hpk
      obtain ⟨np', b1, b2, b3, b4, b5⟩ := h.2 _ _ hnp
      refine ⟨np', b1, ?_⟩
      rw [b4]; simp [movedChildren]
    · rw [if_neg hxc] at a3
      obtain ⟨nr, b1, b2⟩ := F.up a1 (a3 ▸ hr)
      obtain ⟨nr', c1, c2, c3, c4, c5⟩ := h.2 _ _ b1
      refine ⟨nr', c1, ?_⟩
      rw [c4]
      have : x ∈ (if nc.parent = some r then nr.children.erase c else nr.children) := by
        split
        · exact (List.mem_erase_of_ne hxc).2 b2
        · exact b2
      simp only [movedChildren]
      split
      · exact List.mem_append_left _ this
      · exact this
  · intro y ny x hy hx
    obtain ⟨nd, a1, a2, a3, a4, a5⟩ := h.back hy
    rw [a4] at hx
    simp only [movedChildren] at hx
    have key : x ∈ (if nc.parent = some y then nd.children.erase c else nd.children) →
        ∃ nc_1, dget t' x = some nc_1 ∧ nc_1.parent = some y := by
      intro hx
      have hxc : x ≠ c := by
        rintro rfl
        split at hx
        · next hq =>
          exact absurd rfl ((List.Nodup.mem_erase_iff (F.chNodup a1)).1 hx).1
        · next hq => exact hq (hown a1 hx)
      have hx' : x ∈ nd.children := by
        split at hx
        · exact List.mem_of_mem_erase hx
        · exact hx
      obtain ⟨nx, b1, b2⟩ := F.down a1 hx'
      obtain ⟨nx', c1, c2, c3, c4, c5⟩ := h.2 _ _ b1
      exact ⟨nx', c1, by rw [c3, if_neg hxc, b2]⟩
    split at hx
    · next hyp =>
      rcases List.mem_append.1 hx with hx | hx
      · exact key hx
      · simp at hx; subst hx
        obtain ⟨nx', c1, c2, c3, c4, c5⟩ := h.2 _ _ hc
        exact ⟨nx', c1, by rw [c3, if_pos rfl, hyp]⟩
    · exact key hx
  · intro y ny hy
    obtain ⟨nd, a1, a2, a3, a4, a5⟩ := h.back hy
    rw [a4]
    simp only [movedChildren]
    have h1 : (if nc.parent = some y then nd.children.erase c else nd.children).Nodup := by
      split
      · exact (F.chNodup a1).erase _
      · exact F.chNodup a1
    have h2 : c ∉ (if nc.parent = some y then nd.children.erase c else nd.children) := by
      intro hx
      split at hx
      · exact absurd rfl ((List.Nodup.mem_erase_iff (F.chNodup a1)).1 hx).1
      · next hq => exact hq (hown a1 hx)
    split
    · rw [List.nodup_append]
      refine ⟨h1, by simp, ?_⟩
      intro a ha b hb
      simp at hb; subst hb
      rintro rfl; exact h2 ha
    · exact h1
  · intro x nx hx
    obtain ⟨nd, a1, _⟩ := h.back hx
    obtain ⟨l, hl⟩ := F.acyc a1
    exact h.upPath_new hp hcp hl

theorem Moved.sameShape {t t' t'' : MTree τ} {c p : τ} {q : Option τ} (h : Moved t t' c q p)
    (h' : SameTreeShape t' t'') : Moved t t'' c q p := by
  refine ⟨h'.1.trans h.1, fun y nd hy => ?_⟩
  obtain ⟨nd', a1, a2, a3, a4, a5⟩ := h.2 y nd hy
  obtain ⟨nd'', b1, b2, b3, b4, b5⟩ := h'.2 y nd' a1
  exact ⟨nd'', b1, b2.trans a2, b3.trans a3, b4.trans a4, b5.trans a5⟩

theorem length_eq_of_keys {κ β : Type _} {d d' : List (κ × β)}
    (h : d'.map Prod.fst = d.map Prod.fst) : d'.length = d.length := by
  simpa using congrArg List.length h

/-- The tree after `change_parent(c, p)` has changed the links and before it updates metrics. -/
def Relinked (t t3 : MTree τ) (c : τ) (q : Option τ) (p : τ) : Prop :=
  t3.map Prod.fst = t.map Prod.fst ∧
  ∀ y, dget t3 y = (dget t y).map fun nd =>
      { nd with parent := if y = c then some p else nd.parent,
                children := movedChildren c q p y nd.children }

/-- The trees that `change_parent(c, p)` makes before it updates metrics. -/
theorem changeParent_links {t : MTree τ} (T : Forest t) {c p : τ} {nc : TNode τ}
    (hc : dget t c = some nc) {lp : List τ} (hp : UpPath t p lp) (hcp : c ∉ lp) :
    ∃ t1 np', mtDetach t c nc.parent = some t1 ∧ dget t1 c = some nc ∧
      dget (dset t1 c { nc with parent := some p }) p = some np' ∧
      Relinked t (dset (dset t1 c { nc with parent := some p }) p
        { np' with children := np'.children ++ [c] }) c nc.parent p := by
  have hpc : p ≠ c := by
    rintro rfl; obtain ⟨r, rfl⟩ := hp.head; simp at hcp
  obtain ⟨np, hnp⟩ : ∃ np, dget t p = some np := hp.mem_keys p (by
    obtain ⟨r, rfl⟩ := hp.head; simp)
  -- the tree after removing `c` from its old parent
  obtain ⟨t1, ht1, hk1, hg1⟩ : ∃ t1,
      mtDetach t c nc.parent = some t1 ∧ t1.map Prod.fst = t.map Prod.fst ∧
      ∀ y, dget t1 y = (dget t y).map fun nd =>
        { nd with children := if nc.parent = some y then nd.children.erase c else nd.children } := by
    cases hq : nc.parent with
    | none =>
      refine ⟨t, rfl, rfl, fun y => ?_⟩
      cases dget t y <;> simp
    | some q =>
      obtain ⟨nq, b1, b2⟩ := T.up hc hq
      refine ⟨dset t q { nq with children := nq.children.erase c }, by simp only [mtDetach, b1, if_pos b2],
        by rw [dset_keys, if_pos (mem_keys_of_dget b1)], fun y => ?_⟩
      rw [dget_dset]
      by_cases hqy : q = y
      · subst hqy; rw [if_pos rfl, b1]; simp
      · rw [if_neg hqy]
        have : ¬ (some q = some y) := by simpa using hqy
        simp only [this, if_false]
        cases dget t y <;> simp
  have hcc : c ∉ nc.children := T.not_own_child hc
  have hqc : nc.parent ≠ some c := by
    intro h
    obtain ⟨nq, b1, b2⟩ := T.up hc h
    rw [hc] at b1; cases b1; exact hcc b2
  have hc1 : dget t1 c = some nc := by
    rw [hg1, hc]; simp [hqc]
  -- after replacing the parent
  have hg2 : ∀ y, dget (dset t1 c { nc with parent := some p }) y =
      if c = y then some { nc with parent := some p } else dget t1 y := fun y => dget_dset _ _ _ _
  have hp2 : dget (dset t1 c { nc with parent := some p }) p =
      some { np with children := if nc.parent = some p then np.children.erase c else np.children } := by
    rw [hg2, if_neg (fun e => hpc e.symm), hg1, hnp]; rfl
  -- after adding to the new parent
  let t3 := dset (dset t1 c { nc with parent := some p }) p
    { np with children := (if nc.parent = some p then np.children.erase c else np.children) ++ [c] }
  have hk3 : t3.map Prod.fst = t.map Prod.fst := by
    show (dset (dset t1 c _) p _).map Prod.fst = _
    rw [dset_keys, if_pos (mem_keys_of_dget hp2), dset_keys, if_pos (mem_keys_of_dget hc1), hk1]
  have hg3 : ∀ y, dget t3 y = (dget t y).map fun nd =>
      { nd with parent := if y = c then some p else nd.parent,
                children := movedChildren c nc.parent p y nd.children } := by
    intro y
    show dget (dset (dset t1 c _) p _) y = _
    rw [dget_dset]
    by_cases hpy : p = y
    · subst hpy
      rw [if_pos rfl, hnp]
      simp [movedChildren, hpc]
    · rw [if_neg hpy, hg2]
      by_cases hcy : c = y
      · subst hcy
        rw [if_pos rfl, hc]
        have e : c ≠ p := fun e => hpy e.symm
        simp [movedChildren, hqc, e]
      · rw [if_neg hcy, hg1]
        have e : y ≠ p := fun e => hpy e.symm
        have e' : y ≠ c := fun e => hcy e.symm
        simp [movedChildren, e, e']
  exact ⟨t1, _, ht1, hc1, hp2, hk3, hg3⟩

/-- `change_parent(c, p)` changes the links, then updates the metrics above the new parent, then
those above the old one. -/
theorem changeParent_struct {t : MTree τ} (T : Forest t) {c p : τ} {nc : TNode τ}
    (hc : dget t c = some nc) {lp : List τ} (hp : UpPath t p lp) (hcp : c ∉ lp) :
    ∃ t3, Relinked t t3 c nc.parent p ∧ mtChangeParent t c (some p) =
      (match mtUpdateMetrics t3.length t3 (some p) with
      | (t, some e) => (t, some e)
      | (t, none) => mtUpdateMetrics t.length t nc.parent) := by
  obtain ⟨t1, np', ht1, hc1, hp2, R⟩ := changeParent_links T hc hp hcp
  refine ⟨_, R, ?_⟩
  simp only [mtChangeParent, hc]
  rw [ht1]
  simp only [hc1, Option.getD_some, mtAttach, hp2]
  rfl

theorem Relinked.moved {t t3 : MTree τ} {c p : τ} {q : Option τ} (h : Relinked t t3 c q p) :
    Moved t t3 c q p := by
  refine ⟨h.1, fun y nd hy => ?_⟩
  rw [h.2, hy]
  exact ⟨_, rfl, rfl, rfl, rfl, rfl⟩

/-- After relinking, only the old and the new parent can have wrong metrics. -/
theorem Relinked.metric {t t3 : MTree τ} (T : TreeOK t) {c p : τ} {q : Option τ}
    (h : Relinked t t3 c q p) : ∀ y, ¬ (q = some y) → y ≠ p → MetricAt t3 y := by
  intro y hyq hyp nd hy
  have hg3 := h.2
  have hh3 : ∀ y, heightOf t3 y = heightOf t y := by
    intro y; unfold heightOf; rw [hg3]; cases dget t y <;> simp
  have hs3 : ∀ y, sizeOfTag t3 y = sizeOfTag t y := by
    intro y; unfold sizeOfTag; rw [hg3]; cases dget t y <;> simp
  rw [hg3, Option.map_eq_some_iff] at hy
  obtain ⟨nd0, h1, rfl⟩ := hy
  have := T.metric y nd0 h1
  simp only [movedChildren, hyq, hyp, if_false, List.map_congr_left (fun y _ => hh3 y),
    List.map_congr_left (fun y _ => hs3 y)]
  exact this

/-- `change_parent(c, p)` when `p` is not below `c`. -/
theorem changeParent_spec {t : MTree τ} (T : TreeOK t) {c p : τ} {nc : TNode τ}
    (hc : dget t c = some nc) {lp : List τ} (hp : UpPath t p lp) (hcp : c ∉ lp) :
    ∃ t', mtChangeParent t c (some p) = (t', none) ∧ TreeOK t' ∧ Moved t t' c nc.parent p := by
  obtain ⟨t3, R, hcpeq⟩ := changeParent_struct T.toForest hc hp hcp
  have hk3 := R.1
  have M3 := R.moved
  have F3 : Forest t3 := M3.forest T.toForest hc hp hcp
  have hlen : t3.length = t.length := length_eq_of_keys hk3
  have hp3 := M3.upPath hp hcp
  have hM3 := R.metric T
  obtain ⟨t4, h4, S4, M4⟩ := updateMetrics_spec (fun y => nc.parent = some y) (f := t3.length) F3 hp3
    (by rw [hlen]; exact hp.length_le) hM3
  have hstep : mtChangeParent t c (some p) = mtUpdateMetrics t4.length t4 nc.parent := by
    rw [hcpeq, h4]
  have hlen4 : t4.length = t.length := by rw [length_eq_of_keys S4.1, hlen]
  rw [hstep]
  cases hq : nc.parent with
  | none =>
    rw [hq] at M4 M3
    exact ⟨t4, by simp [mtUpdateMetrics], ⟨S4.forest F3, fun x => M4 x (by simp)⟩, M3.sameShape S4⟩
  | some q =>
    obtain ⟨nq, b1, b2⟩ := T.up hc hq
    obtain ⟨lq, hlq⟩ := T.acyc b1
    have hcq : c ∉ lq := hlq.not_mem_parent hc hq
    have hq4 := S4.upPath (M3.upPath hlq hcq)
    obtain ⟨t5, h5, S5, M5⟩ := updateMetrics_spec (fun _ => False) (f := t4.length) (S4.forest F3) hq4
      (by rw [hlen4]; exact hlq.length_le) (by
        intro y _ hyq
        refine M4 y ?_
        rw [hq]; simpa using fun e => hyq e.symm)
    exact ⟨t5, h5, ⟨S5.forest (S4.forest F3), fun x => M5 x (by simp)⟩,
      hq ▸ M3.sameShape (S4.trans S5)⟩

end Gaspra
