import Verif.Proofs.VersionsCost
import Verif.Proofs.LinearHistory

set_option linter.unusedSectionVars false
set_option linter.unusedSimpArgs false
set_option linter.unusedVariables false

/-! # Bounds for the steps of a version store -/

namespace Gaspra

variable {τ : Type _} [DecidableEq τ]

theorem ok_of_map_fst {ε A B : Type _} {x : Except ε (A × B)} {a : A} (h : x.map Prod.fst = .ok a) :
    ∃ n, x = .ok (a, n) := by
  cases x with
  | error e => simp [Except.map] at h
  | ok r =>
    obtain ⟨a', n⟩ := r
    simp only [Except.map, Except.ok.injEq] at h
    exact ⟨n, by rw [h]⟩

/-! ## Reading -/

/-- Between contents of at most `L` bytes the deltas have at most `D` bytes. -/
def DeltasLe (L D : Nat) : Prop := ∀ {a b : Bytes} {items : List (PatchItem UInt8)} {d : Bytes},
  a.length ≤ L → b.length ≤ L → makeChangeset nullTok a b = .ok items →
  serializeChangeset items = .ok d → d.length ≤ D

/-- The steps for one delta of at most `D` bytes that makes at most `L` bytes. -/
def deltaBound (L D : Nat) : Nat := 1 + D * (D + 1) + 2 * D + 2 * L

theorem retrieveLoopC_append (diffs : List (τ × Bytes)) {b' c : Bytes} {n m : Nat} :
    ∀ {l l' : List τ} {b : Bytes}, retrieveLoopC diffs b l = .ok (b', n) →
    retrieveLoopC diffs b' l' = .ok (c, m) → retrieveLoopC diffs b (l ++ l') = .ok (c, n + m) := by
  intro l
  induction l generalizing n with
  | nil =>
    intro l' b h1 h2
    simp only [retrieveLoopC, Except.ok.injEq, Prod.mk.injEq] at h1
    obtain ⟨rfl, rfl⟩ := h1
    simpa using h2
  | cons x l ih =>
    intro l' b h1 h2
    simp only [List.cons_append, retrieveLoopC] at h1 ⊢
    cases hd : dget diffs x with
    | none => rw [hd] at h1; cases h1
    | some d =>
      rw [hd] at h1
      simp only at h1 ⊢
      cases he : (deserializeChangesetC d).1.2 with
      | some e => rw [he] at h1; cases h1
      | none =>
        rw [he] at h1
        simp only at h1 ⊢
        cases hr : retrieveLoopC diffs (applyPatch (deserializeChangesetC d).1.1 b) l with
        | error e => rw [hr] at h1; cases h1
        | ok r =>
          obtain ⟨b1, n1⟩ := r
          rw [hr] at h1
          simp only [Except.ok.injEq, Prod.mk.injEq] at h1
          obtain ⟨rfl, rfl⟩ := h1
          rw [ih hr h2]
          simp only [Except.ok.injEq, Prod.mk.injEq, true_and]
          omega

variable {content : τ → Bytes} {v : Versions τ (MTree τ)}

theorem retrieveStepC {diffs : List (τ × Bytes)} {x : τ} {a b d : Bytes} {L D : Nat}
    (hd : dget diffs x = some d) (hD : DeltaBytes nullLawful a b d) (h1 : d.length ≤ D)
    (h2 : b.length ≤ L) :
    ∃ n, retrieveLoopC diffs a [x] = .ok (b, n) ∧ n ≤ deltaBound L D := by
  obtain ⟨toks, st, k1, _, _, k2⟩ := retrieveStep nullLawful trivial hd hD (st := ()) (toks := a) trivial rfl
  have e : toks = b := map_some_inj k2
  subst e
  rw [retrieveLoopC_fst] at k1
  obtain ⟨n, hn⟩ : ∃ n, retrieveLoopC diffs a [x] = .ok (toks, n) := by
    cases hr : retrieveLoopC diffs a [x] with
    | error e => rw [hr] at k1; simp [Except.map] at k1
    | ok r =>
      rw [hr] at k1
      simp only [Except.map, Except.ok.injEq, Prod.mk.injEq] at k1
      exact ⟨r.2, by rw [← k1.1]⟩
  refine ⟨n, hn, ?_⟩
  have hl := deserializeLoopC_le d.length true d
  have hg := (deserializeLoopC_ge d.length true d).1
  have hq : d.length * (d.length + 1) ≤ D * (D + 1) := Nat.mul_le_mul h1 (by omega)
  have hs : (deserializeChangesetC d).2 ≤ d.length * (d.length + 1) ∧
      (deserializeChangesetC d).1.1.length ≤ d.length := by
    simp only [deserializeChangesetC]
    exact ⟨hl, hg⟩
  simp only [retrieveLoopC, hd] at hn
  cases he : (deserializeChangesetC d).1.2 with
  | some e => rw [he] at hn; cases hn
  | none =>
    rw [he] at hn
    simp only [Except.ok.injEq, Prod.mk.injEq] at hn
    obtain ⟨e1, e2⟩ := hn
    have ha := applySteps_le (deserializeChangesetC d).1.1 a
    rw [e1] at ha
    unfold deltaBound
    omega

theorem StoreOK.delta_length (I : StoreOK nullLawful content v) {L D : Nat} (hD : DeltasLe L D)
    (hL : ∀ {x nd}, dget v.tree x = some nd → (content x).length ≤ L) {x p : τ} {nd : TNode τ}
    (hx : dget v.tree x = some nd) (hp : nd.parent = some p) :
    ∃ d, dget v.diffs x = some d ∧ DeltaBytes nullLawful (content p) (content x) d ∧ d.length ≤ D := by
  obtain ⟨_, d, h1, h2⟩ := I.inner hx hp
  obtain ⟨np, h3, _⟩ := I.tree.up hx hp
  obtain ⟨items, k1, k2, k3, k4⟩ := h2
  exact ⟨d, h1, ⟨items, k1, k2, k3, k4⟩, hD (hL h3) (hL hx) k3 k4⟩

/-- The steps of following a path of the tree. -/
theorem StoreOK.retrieveC_le (I : StoreOK nullLawful content v) {L D : Nat} (hD : DeltasLe L D)
    (hL : ∀ {x nd}, dget v.tree x = some nd → (content x).length ≤ L) {x : τ} {l : List τ}
    (h : UpPath v.tree x l) :
    ∃ n, retrieveUsingPathC v l.reverse = .ok (content x, n) ∧ n ≤ (l.length - 1) * deltaBound L D := by
  obtain ⟨root, rest, n, e1, e2, e3, e4⟩ : ∃ root rest n, l.reverse = root :: rest ∧
      dget v.headVersion root = some (content root) ∧
      retrieveLoopC v.diffs (content root) rest = .ok (content x, n) ∧ n ≤ rest.length * deltaBound L D := by
    induction h with
    | @root x nd h1 h2 => exact ⟨x, [], 0, rfl, (I.root h1 h2).1, rfl, by simp⟩
    | @step x p nd l h1 h2 h3 ih =>
      obtain ⟨root, rest, n, e1, e2, e3, e4⟩ := ih
      obtain ⟨d, hd, hB, hl⟩ := I.delta_length hD hL h1 h2
      obtain ⟨m, hm, hle⟩ := retrieveStepC hd hB hl (hL h1)
      refine ⟨root, rest ++ [x], n + m, by simp [e1], e2, retrieveLoopC_append _ e3 hm, ?_⟩
      rw [List.length_append, List.length_singleton, Nat.add_mul, Nat.one_mul]
      omega
  have hlen : l.length = rest.length + 1 := by
    have := congrArg List.length e1
    simpa using this
  refine ⟨n, ?_, by rw [hlen]; exact e4⟩
  rw [e1]
  simp only [retrieveUsingPathC, e2, e3]

theorem mtPathLoopC_spec {t : MTree τ} {x : τ} {l : List τ} (h : UpPath t x l) :
    ∀ {f : Nat} {p : List τ}, l.length ≤ f → mtPathLoopC t f (some x) p = .ok (some (p ++ l), l.length) := by
  induction h with
  | @root x nd h1 h2 =>
    intro f p hf
    cases f with
    | zero => simp at hf
    | succ f =>
      simp only [mtPathLoopC, h1, h2]
      cases f <;> simp [mtPathLoopC]
  | @step x q nd l h1 h2 h3 ih =>
    intro f p hf
    cases f with
    | zero => simp at hf
    | succ f =>
      simp only [List.length_cons] at hf
      simp only [mtPathLoopC, h1, h2, ih (f := f) (p := p ++ [x]) (by omega)]
      simp

theorem mtPathToC_spec {t : MTree τ} {x : τ} {l : List τ} (h : UpPath t x l) :
    mtPathToC t x = .ok (some l.reverse, 2 * l.length) := by
  have := mtPathLoopC_spec h (f := t.length + 1) (p := []) (by have := h.length_le; omega)
  simp only [mtPathToC, this, List.nil_append]
  simp only [Except.ok.injEq, Prod.mk.injEq, true_and]
  omega

/-- The steps of `get_version`. -/
theorem StoreOK.getC_le (I : StoreOK nullLawful content v) {L D : Nat} (hD : DeltasLe L D)
    (hL : ∀ {x nd}, dget v.tree x = some nd → (content x).length ≤ L) {x : τ} {l : List τ}
    (h : UpPath v.tree x l) :
    ∃ n, versionsGetC v x = .ok (some (content x), n) ∧ n ≤ l.length * (deltaBound L D + 2) := by
  obtain ⟨n, h1, h2⟩ := I.retrieveC_le hD hL h
  refine ⟨2 * l.length + n, ?_, ?_⟩
  · unfold versionsGetC
    rw [mtPathToC_spec h]
    cases hlr : l.reverse with
    | nil => rw [hlr] at h1; simp [retrieveUsingPathC] at h1
    | cons a r => rw [hlr] at h1; simp only [h1]
  · have : (l.length - 1) * deltaBound L D ≤ l.length * deltaBound L D :=
      Nat.mul_le_mul_right _ (by omega)
    rw [Nat.mul_add]
    omega

/-! ## The tree -/

/-- No tag has more than `K` children. -/
def ChildrenLe (t : MTree τ) (K : Nat) : Prop := ∀ y nd, dget t y = some nd → nd.children.length ≤ K

theorem ChildrenLe.shape {t t' : MTree τ} {K : Nat} (h : ChildrenLe t K) (S : SameTreeShape t t') :
    ChildrenLe t' K := by
  intro y nd hy
  obtain ⟨nd0, h0, h1⟩ := S.back hy
  have := h _ _ h0
  obtain ⟨_, _, h2, _⟩ := h1
  rw [h2]
  exact this

theorem updateMetricsC_le {K : Nat} : ∀ (f : Nat) {t : MTree τ} {x : τ} {l : List τ}, UpPath t x l →
    ChildrenLe t K → (mtUpdateMetricsC f t (some x)).2 ≤ l.length * (1 + 2 * K)
  | 0, t, x, l, h, hK => by simp [mtUpdateMetricsC]
  | f + 1, t, x, l, h, hK => by
    obtain ⟨nd, hnd⟩ := h.mem_keys x (by obtain ⟨r, rfl⟩ := h.head; simp)
    have hk := hK _ _ hnd
    have hpos : 1 + 2 * K ≤ l.length * (1 + 2 * K) := by
      obtain ⟨r, rfl⟩ := h.head
      rw [List.length_cons, Nat.add_mul, Nat.one_mul]
      omega
    simp only [mtUpdateMetricsC, hnd]
    cases mtChildAttrs t TNode.height nd.children with
    | none => simp only; omega
    | some hs =>
      cases mtChildAttrs t TNode.size nd.children with
      | none => simp only; omega
      | some ss =>
        simp only
        generalize hS : dset t x { nd with
          height := (if nd.children.isEmpty then 0 else maxNat hs) + 1,
          size := (if nd.children.isEmpty then 0 else ss.sum) + 1 } = t'
        have S : SameTreeShape t t' := hS ▸ sameShape_setMetrics hnd _ _
        cases h with
        | root h1 h2 =>
          rw [hnd] at h1; cases h1
          rw [h2]
          have : (mtUpdateMetricsC f t' none).2 = 0 := by cases f <;> rfl
          omega
        | @step _ p _ l h1 h2 h3 =>
          rw [hnd] at h1; cases h1
          rw [h2]
          have := updateMetricsC_le f (S.upPath h3) (hK.shape S)
          rw [List.length_cons, Nat.add_mul, Nat.one_mul]
          omega

theorem ChildrenLe.moved {t t' : MTree τ} {c p : τ} {q : Option τ} {K : Nat} (h : ChildrenLe t K)
    (hp : ∀ {np}, dget t p = some np → np.children.length + 1 ≤ K) (M : Moved t t' c q p) :
    ChildrenLe t' K := by
  intro y nd hy
  obtain ⟨nd0, h0, _, _, h1, _⟩ := M.back hy
  rw [h1]
  have := h _ _ h0
  have he : (if q = some y then nd0.children.erase c else nd0.children).length ≤ nd0.children.length := by
    split
    · exact List.length_erase_le
    · exact Nat.le_refl _
  unfold movedChildren
  simp only
  by_cases hy : y = p
  · subst hy
    have := hp h0
    rw [if_pos rfl, List.length_append, List.length_singleton]
    omega
  · rw [if_neg hy]; omega

/-- The steps of `change_parent`. -/
theorem changeParentC_le {t : MTree τ} (T : TreeOK t) {c p : τ} {nc : TNode τ} (hc : dget t c = some nc)
    {lp lq : List τ} (hp : UpPath t p lp) (hcp : c ∉ lp)
    (hq : ∀ q, nc.parent = some q → UpPath t q lq) {K : Nat} (hK : ChildrenLe t K)
    (hKp : ∀ {np}, dget t p = some np → np.children.length + 1 ≤ K) :
    (mtChangeParentC t c (some p)).2 ≤ 1 + 2 * K + (lp.length + lq.length) * (1 + 2 * K) := by
  obtain ⟨t1, np', ht1, hc1, hp2, R⟩ := changeParent_links T.toForest hc hp hcp
  have M3 := R.moved
  have F3 := M3.forest T.toForest hc hp hcp
  have hlen := length_eq_of_keys R.1
  have hp3 := M3.upPath hp hcp
  have K3 := hK.moved hKp M3
  generalize ht3 : dset (dset t1 c { nc with parent := some p }) p
    { np' with children := np'.children ++ [c] } = t3 at R M3 F3 hlen hp3 K3
  obtain ⟨t4, h4, S4, M4⟩ := updateMetrics_spec (fun y => nc.parent = some y) (f := t3.length) F3 hp3
    (by rw [hlen]; exact hp.length_le) (R.metric T)
  have c3 := updateMetricsC_le t3.length hp3 K3
  have e4 : (mtUpdateMetricsC t3.length t3 (some p)).1 = (t4, none) := by rw [mtUpdateMetricsC_fst, h4]
  have hdet : detachSteps t nc.parent ≤ 2 * K := by
    cases hq : nc.parent with
    | none => simp [detachSteps]
    | some q =>
      obtain ⟨nq, b1, _⟩ := T.up hc hq
      have := hK _ _ b1
      simp only [detachSteps, b1, Option.map_some, Option.getD_some]
      omega
  have c4 : (mtUpdateMetricsC t4.length t4 nc.parent).2 ≤ lq.length * (1 + 2 * K) := by
    cases hqe : nc.parent with
    | none =>
      have : (mtUpdateMetricsC t4.length t4 none).2 = 0 := by cases t4.length <;> rfl
      omega
    | some q =>
      have hlq := hq q hqe
      have hcq : c ∉ lq := hlq.not_mem_parent hc hqe
      exact updateMetricsC_le _ (S4.upPath (M3.upPath hlq hcq)) (K3.shape S4)
  simp only [mtChangeParentC, hc]
  rw [ht1]
  simp only [hc1, Option.getD_some, mtAttachC, hp2]
  rw [ht3]
  generalize mtUpdateMetricsC t3.length t3 (some p) = r at c3 e4 ⊢
  obtain ⟨r1, r2⟩ := r
  simp only at e4
  subst e4
  simp only at c3 ⊢
  rw [Nat.add_mul]
  omega

theorem mtSplitLoopC_le {t : MTree τ} {K : Nat} (hK : ChildrenLe t K) : ∀ (f d : Nat) {x : τ} {nd : TNode τ}
    {p : List τ} {y : τ} {path : List τ} {n : Nat}, dget t x = some nd →
    mtSplitLoopC t f d x nd p = .ok ((y, path), n) →
    p.length ≤ path.length ∧ n ≤ (path.length - p.length) * (1 + K)
  | 0, d, x, nd, p, y, path, n, hx, h => by
    simp only [mtSplitLoopC] at h
    split at h
    · cases h
    · cases h; simp
  | f + 1, d, x, nd, p, y, path, n, hx, h => by
    simp only [mtSplitLoopC] at h
    split at h
    · cases h1 : mtChildKeys t nd.children with
      | none => rw [h1] at h; cases h
      | some keys =>
        rw [h1] at h
        simp only at h
        cases h2 : maxTriple keys with
        | none => rw [h2] at h; cases h
        | some k =>
          obtain ⟨_, _, i⟩ := k
          rw [h2] at h
          simp only at h
          cases h3 : nd.children[i]? with
          | none => rw [h3] at h; cases h
          | some z =>
            rw [h3] at h
            simp only at h
            cases h4 : dget t z with
            | none => rw [h4] at h; cases h
            | some nz =>
              rw [h4] at h
              simp only at h
              cases h5 : mtSplitLoopC t f (d + 1) z nz (p ++ [z]) with
              | error e => rw [h5] at h; cases h
              | ok r =>
                obtain ⟨⟨y', path'⟩, m⟩ := r
                rw [h5] at h
                simp only [Except.ok.injEq, Prod.mk.injEq] at h
                obtain ⟨⟨rfl, rfl⟩, rfl⟩ := h
                obtain ⟨i1, i2⟩ := mtSplitLoopC_le hK f (d + 1) h4 h5
                simp only [List.length_append, List.length_singleton] at i1 i2
                have := hK _ _ hx
                refine ⟨by omega, ?_⟩
                have e : path'.length - p.length = path'.length - (p.length + 1) + 1 := by omega
                rw [e, Nat.add_mul, Nat.one_mul]
                omega
    · cases h; simp

theorem getSplitC_le {t : MTree τ} {K : Nat} (hK : ChildrenLe t K) {x y : τ} {path : List τ} {n : Nat}
    (h : mtGetSplitC t x = .ok ((y, path), n)) : n ≤ (path.length - 1) * (1 + K) := by
  simp only [mtGetSplitC] at h
  cases hx : dget t x with
  | none => rw [hx] at h; cases h
  | some nd =>
    rw [hx] at h
    exact (mtSplitLoopC_le hK _ _ hx h).2

/-! ## Adding -/

/-- The steps of one `_make_changeset` and of writing its result. -/
def edgeBound (L D : Nat) : Nat := (2 * L + 1) * (26 * L + 9) + (2 * L + 1) * (5 + 4 * D)

theorem makeEdgeC {L D : Nat} (hD : DeltasLe L D) (hL : L < 2 ^ 64) {a b : Bytes} (ha : a.length ≤ L)
    (hb : b.length ≤ L) :
    ∃ items t d n, makeChangesetC a b = .ok (items, t) ∧ makeChangeset nullTok a b = .ok items ∧
      DeltaOK nullLawful a b items ∧ serializeChangesetC items = .ok (d, n) ∧ t + n ≤ edgeBound L D := by
  obtain ⟨items, t, h1, h2, h3⟩ := makeChangesetC_cost a b
  have h4 : makeChangeset nullTok a b = .ok items := by rw [← makeChangesetC_fst, h1]; rfl
  obtain ⟨items', m1, m2⟩ := makeChangeset_ok nullLawful (a := a) (b := b) trivial trivial
  rw [h4] at m1
  cases m1
  obtain ⟨d, s1, s2⟩ := serializeDelta nullLawful trivial trivial (by omega) (by omega) m2 h4
  have s3 : (serializeChangesetC items).map Prod.fst = .ok d := by
    rw [← s1]; exact serializeLoopC_fst _ _ _
  obtain ⟨n, hn⟩ := ok_of_map_fst s3
  have s4 := (serializeLoopC_le _ _ _ _ _ hn).2
  have s5 := hD ha hb h4 s1
  refine ⟨items, t, d, n, h1, h4, m2, hn, ?_⟩
  have e1 : (a.length + b.length + 1) * (13 * (a.length + b.length) + 9) ≤ (2 * L + 1) * (26 * L + 9) :=
    Nat.mul_le_mul (by omega) (by omega)
  have e2 : items.length * (5 + 4 * d.length) ≤ (2 * L + 1) * (5 + 4 * D) :=
    Nat.mul_le_mul (by omega) (by omega)
  unfold edgeBound
  omega

theorem addEdgeC_snd_le {p c : τ} {items : List (PatchItem UInt8)} {d : Bytes} {n : Nat}
    (hs : serializeChangesetC items = .ok (d, n)) :
    (addEdgeC v p c items).2 ≤ n + (mtChangeParentC v.tree c (some p)).2 + 1 := by
  simp only [addEdgeC, hs]
  generalize mtChangeParentC v.tree c (some p) = r
  obtain ⟨⟨t, e⟩, m⟩ := r
  cases e with
  | some e => simp only; omega
  | none =>
    simp only
    split <;> exact Nat.le_refl _

/-- The steps of making the old head a child of the new version. -/
theorem StoreOK.addOldHeadC_le (I : StoreOK nullLawful content v) {L D : Nat} (hD : DeltasLe L D)
    (hL64 : L < 2 ^ 64) (hL : ∀ {x nd}, dget v.tree x = some nd → (content x).length ≤ L)
    (hK : ChildrenLe v.tree 2) {tag b : τ} {nt nb : TNode τ} (ht : dget v.tree tag = some nt)
    (htp : nt.parent = none) (hb : dget v.tree b = some nb) (hbp : nb.parent = none) (hbt : b ≠ tag)
    (hch : nt.children.length ≤ 1) :
    (addOldHeadC v tag (content tag) b).2 ≤ edgeBound L D + 11 := by
  obtain ⟨items, t, d, n, h1, h2, h3, h4, h5⟩ := makeEdgeC hD hL64 (hL ht) (hL hb)
  simp only [addOldHeadC, (I.root hb hbp).1, h1]
  have e1 := addEdgeC_snd_le (v := v) (p := tag) (c := b) h4
  have e2 := changeParentC_le I.tree hb (lp := [tag]) (lq := []) (.root ht htp) (by simpa using hbt)
    (fun q hq => by rw [hbp] at hq; cases hq) hK (fun {np} hnp => by
      rw [ht] at hnp; cases hnp; omega)
  simp only [List.length_singleton, List.length_nil] at e2
  omega

/-- The steps of `add` on top of a head. -/
theorem StoreOK.addC_le (I : StoreOK nullLawful content v) {L D : Nat} (hD : DeltasLe L D)
    (hL64 : L < 2 ^ 64) (hL : ∀ {x nd}, dget v.tree x = some nd → (content x).length ≤ L)
    (hK : ChildrenLe v.tree 2) {tag b : τ} {nb : TNode τ} {c : Bytes} (hc : c.length ≤ L)
    (ht : dget v.tree tag = none) (hb : dget v.tree b = some nb) (hp : nb.parent = none) :
    (versionsAddC v tag c (some b)).2 ≤
      nb.height / 2 * (deltaBound L D + 8) + 2 * edgeBound L D + 38 := by
  have hbt : tag ≠ b := by rintro rfl; rw [ht] at hb; cases hb
  obtain ⟨content', hc1, hc2⟩ : ∃ content' : τ → Bytes, content' tag = c ∧
      ∀ y, y ≠ tag → content' y = content y :=
    ⟨fun y => if y = tag then c else content y, by simp, fun y hy => by simp [hy]⟩
  have I1 : StoreOK nullLawful content' (withRoot v tag c (some b)) :=
    I.addRoot ht trivial (by omega) hc1 hc2
  have hdg : ∀ y, dget (withRoot v tag c (some b)).tree y =
      if tag = y then some (newNode v.tree.length (some b)) else dget v.tree y := fun y => dget_mtAdd _ _ _ _
  have hb1 : dget (withRoot v tag c (some b)).tree b = some nb := by rw [hdg, if_neg hbt]; exact hb
  have htag1 : dget (withRoot v tag c (some b)).tree tag = some (newNode v.tree.length (some b)) := by
    rw [hdg, if_pos rfl]
  have hL1 : ∀ {x nd}, dget (withRoot v tag c (some b)).tree x = some nd → (content' x).length ≤ L := by
    intro x nd hx
    rw [hdg] at hx
    by_cases e : tag = x
    · subst e; rw [hc1]; exact hc
    · rw [if_neg e] at hx; rw [hc2 x (fun e' => e e'.symm)]; exact hL hx
  have hK1 : ChildrenLe (withRoot v tag c (some b)).tree 2 := by
    intro x nd hx
    rw [hdg] at hx
    by_cases e : tag = x
    · rw [if_pos e] at hx; cases hx; simp [newNode]
    · rw [if_neg e] at hx; exact hK _ _ hx
  obtain ⟨s, path, g1, g2, g3⟩ := getSplit_spec I1.tree hb1
  rw [← mtGetSplitC_fst] at g1
  obtain ⟨n1, g1⟩ := ok_of_map_fst g1
  have hn1 := getSplitC_le hK1 g1
  have hpl : path.length - 1 = nb.height / 2 := by omega
  rw [hpl] at hn1
  show (1 + (addToHeadC (withRoot v tag c (some b)) tag c b).2) ≤ _
  rw [Nat.mul_add]
  simp only [addToHeadC, g1]
  by_cases hsb : s = b
  · rw [if_neg (by simp [hsb])]
    have := I1.addOldHeadC_le hD hL64 hL1 hK1 htag1 rfl hb1 hp (fun e => hbt e.symm) (by simp [newNode])
    rw [hc1] at this
    simp only
    omega
  rw [if_pos hsb]
  have hup : UpPath (withRoot v tag c (some b)).tree s path.reverse := by
    have := g2.upPath I1.tree.toForest (.root hb1 hp)
    simpa using this
  obtain ⟨n2, r1, r2⟩ := I1.retrieveC_le hD hL1 hup
  rw [List.reverse_reverse, List.length_reverse, hpl] at *
  obtain ⟨ns, hns⟩ := hup.mem_keys s (by obtain ⟨r, hr⟩ := hup.head; rw [hr]; simp)
  obtain ⟨q, hq, hqs⟩ : ∃ q, ns.parent = some q ∧ UpPath (withRoot v tag c (some b)).tree q path.reverse.tail := by
    generalize path.reverse = lr at hup
    cases hup with
    | root k1 k2 =>
      exfalso
      cases g2 with
      | start => exact hsb rfl
      | next j1 j2 j3 =>
        obtain ⟨nc, j4, j5⟩ := I1.tree.down j2 j3.1
        rw [k1] at j4; cases j4; rw [k2] at j5; cases j5
    | step k1 k2 k3 => rw [hns] at k1; cases k1; exact ⟨_, k2, k3⟩
  have hst : s ≠ tag := by
    rintro rfl
    rw [htag1] at hns; cases hns; cases hq
  obtain ⟨items, t, d, n3, m1, m2, m3, m4, m5⟩ := makeEdgeC hD hL64 (hL1 htag1) (hL1 hns)
  rw [hc1] at m1 m2 m3
  have huptag : UpPath (withRoot v tag c (some b)).tree tag [tag] := .root htag1 rfl
  have hst' : s ∉ [tag] := by simpa using hst
  obtain ⟨v1, a1, a2, a3⟩ := I1.addEdge_ok hns huptag hst' (by rw [hc1]; exact m3) (by rw [hc1]; exact m2)
  have k1 := addEdgeC_snd_le (v := withRoot v tag c (some b)) (p := tag) (c := s) m4
  have k2 := changeParentC_le I1.tree hns huptag hst' (lq := path.reverse.tail)
    (fun q' hq' => by rw [hq] at hq'; cases hq'; exact hqs) hK1 (fun {np} hnp => by
      rw [htag1] at hnp; cases hnp; simp [newNode])
  have htl : path.reverse.tail.length = nb.height / 2 := by
    rw [List.length_tail, List.length_reverse]; omega
  rw [htl, List.length_singleton] at k2
  -- the second call of `change_parent`
  obtain ⟨ns1, c1, c2, c3, c4, c5⟩ := a3.2 _ _ hns
  rw [if_pos rfl] at c3
  obtain ⟨nt1, e1, e2, e3, e4, e5⟩ := a3.2 _ _ htag1
  have hts : tag ≠ s := fun e => hst e.symm
  rw [if_neg hts] at e3
  have hK2 : ChildrenLe v1.tree 2 := hK1.moved (fun {np} hnp => by
    rw [htag1] at hnp; cases hnp; simp [newNode]) a3
  have hnt1 : nt1.children.length ≤ 1 := by
    rw [e4]
    unfold movedChildren
    simp only [newNode, if_true]
    split <;> simp
  have huptag1 : UpPath v1.tree tag [tag] := .root e1 (by rw [e3]; rfl)
  have k3 := changeParentC_le a2.tree c1 huptag1 hst' (lq := [tag])
    (fun q' hq' => by rw [c3] at hq'; cases hq'; exact huptag1) hK2 (fun {np} hnp => by
      rw [e1] at hnp; cases hnp; omega)
  rw [List.length_singleton] at k3
  obtain ⟨t2, d1, d2, d3⟩ := a2.sameParent c1 c3
  -- the last call
  obtain ⟨nt2, f1, f2, f3, f4, f5⟩ := d3.2 _ _ e1
  rw [if_neg hts, e3] at f3
  have hK3 : ChildrenLe t2 2 := hK2.moved (fun {np} hnp => by
    rw [e1] at hnp; cases hnp; omega) d3
  have hmem : s ∈ nt1.children := by
    rw [e4]
    unfold movedChildren
    simp
  have hnt2 : nt2.children.length ≤ 1 := by
    rw [f4]
    unfold movedChildren
    simp only [if_true, List.length_append, List.length_singleton]
    rw [List.length_erase_of_mem hmem]
    omega
  obtain ⟨nb1, b1, b2, b3, b4, b5⟩ := a3.2 _ _ hb1
  obtain ⟨nb2, b6, b7, b8, b9, b10⟩ := d3.2 _ _ b1
  have hbs : b ≠ s := fun e => hsb e.symm
  rw [if_neg hbs] at b3 b8
  have hL2 : ∀ {x nd}, dget t2 x = some nd → (content' x).length ≤ L := by
    intro x nd hx
    obtain ⟨x1, y1, _⟩ := d3.back hx
    obtain ⟨x2, y2, _⟩ := a3.back y1
    exact hL1 y2
  have k4 := d2.addOldHeadC_le hD hL64 hL2 hK3 f1 (by rw [f3]; rfl) b6 (by rw [b8, b3]; exact hp)
    (fun e => hbt e.symm) hnt2
  rw [hc1] at k4
  have hcp : (mtChangeParentC v1.tree s (some tag)).1 = (t2, none) := by rw [mtChangeParentC_fst]; exact d1
  have hae : (addEdgeC (withRoot v tag c (some b)) tag s items).1 = (v1, none) := by
    rw [addEdgeC_fst]; exact a1
  simp only [addSplitC, r1, m1]
  generalize addEdgeC (withRoot v tag c (some b)) tag s items = r at k1 hae ⊢
  obtain ⟨r, rn⟩ := r
  simp only at hae
  subst hae
  simp only at k1 ⊢
  generalize mtChangeParentC v1.tree s (some tag) = r at k3 hcp ⊢
  obtain ⟨r, rm⟩ := r
  simp only at hcp
  subst hcp
  simp only at k3 ⊢
  omega

/-! ## The tree of a documented history -/

theorem LinesOK.in_comb {h : List (AddOp τ)} {f : τ → List (τ × List τ)} (H : HistoryOK nullLawful h v)
    (J : LinesOK h v.tree f) {y : τ} {nd : TNode τ} (hy : dget v.tree y = some nd) :
    ∃ b, b ∈ headsOf h ∧ y ∈ combTags (f b) := by
  obtain ⟨u, hu⟩ := H.store.tree.acyc hy
  clear hy
  induction hu with
  | @root x nd h1 h2 =>
    have hx := (H.heads h1).1 h2
    obtain ⟨l, _, k, _⟩ := J.line hx
    exact ⟨x, hx, k.top_mem⟩
  | @step x p nd l h1 h2 h3 ih =>
    obtain ⟨b, hb, hp⟩ := ih
    obtain ⟨l, _, k, _⟩ := J.line hb
    obtain ⟨np, h4, h5⟩ := H.store.tree.up h1 h2
    exact ⟨b, hb, k.comb.closed hp h4 h5⟩

/-- In a documented history a tag has at most two children. -/
theorem LinesOK.children {h : List (AddOp τ)} {f : τ → List (τ × List τ)} (H : HistoryOK nullLawful h v)
    (J : LinesOK h v.tree f) : ChildrenLe v.tree 2 := by
  intro y nd hy
  obtain ⟨b, hb, hyc⟩ := J.in_comb H hy
  obtain ⟨l, _, k, _⟩ := J.line hb
  obtain ⟨⟨s, C⟩, h1, h2⟩ := mem_combTags.1 hyc
  obtain ⟨i, hi⟩ := List.getElem?_of_mem h1
  have hn := H.store.tree.chNodup hy
  rcases h2 with rfl | h2
  · obtain ⟨nd', k1, k2⟩ := k.comb.node hi
    rw [hy] at k1; cases k1
    have := nodup_subset_length (l' := C.head?.toList ++ (((f b)[i + 1]?).map Prod.fst).toList) hn (by
      intro c hc
      rw [List.mem_append, Option.mem_toList, Option.mem_toList]
      exact (k2 c).1 hc)
    have h1 : C.head?.toList.length ≤ 1 := by cases C.head? <;> simp
    have h2 : (((f b)[i + 1]?).map Prod.fst).toList.length ≤ 1 := by
      cases ((f b)[i + 1]?).map Prod.fst <;> simp
    rw [List.length_append] at this
    omega
  · obtain ⟨j, hj⟩ := List.getElem?_of_mem h2
    obtain ⟨nd', k1, k2⟩ := k.comb.chain hi j y hj
    rw [hy] at k1; cases k1
    have := nodup_subset_length (l' := (C[j + 1]?).toList) hn (by
      intro c hc
      rw [Option.mem_toList]
      exact (k2 c).1 hc)
    have h1 : (C[j + 1]?).toList.length ≤ 1 := by cases C[j + 1]? <;> simp
    omega

theorem LinesOK.height {h : List (AddOp τ)} {f : τ → List (τ × List τ)} (H : HistoryOK nullLawful h v)
    (J : LinesOK h v.tree f) {b : τ} (hb : b ∈ headsOf h) {l : List τ} (hl : BaseLine h b l)
    (hn : (addedTags h).Nodup) {nb : TNode τ} (hgb : dget v.tree b = some nb) :
    (nb.height + 1) ^ 2 ≤ 4 * l.length + 1 ∧ 4 * l.length + 1 < (nb.height + 2) ^ 2 := by
  obtain ⟨l', k1, k2, k3⟩ := J.line hb
  have := hl.unique hn k1
  subst this
  have hheight : heightOf v.tree b = combHeight (combLens (f b)) := by
    obtain ⟨⟨b', C⟩, e1, e2⟩ := Option.map_eq_some_iff.1 k2.top
    simp only at e2
    subst e2
    have := k2.comb.height_at H.store.tree e1
    simpa using this
  rw [heightOf_eq hgb] at hheight
  rw [hheight]
  exact k2.shape.height

theorem deltasLe {L w : Nat} (hL : L < 2 ^ 64)
    (hw : ∀ k e, k ≤ L → vserializeInt k = .ok e → e.length ≤ w) : DeltasLe L ((1 + 2 * w) * L) := by
  intro a b items d ha hb h1 h2
  have := delta_le h1 hL ha hb (fun k hk => hw k _ hk (vser_encV (by omega))) h2
  exact Nat.le_trans this (Nat.mul_le_mul_left _ hb)

end Gaspra
