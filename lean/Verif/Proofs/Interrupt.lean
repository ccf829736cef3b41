import Verif.Proofs.History
import Verif.Spec.Interrupt

set_option linter.unusedSectionVars false
set_option linter.unusedSimpArgs false
set_option linter.unusedVariables false

/-! # The version store between two writes of `add` -/

namespace Gaspra

variable {τ : Type _} [DecidableEq τ]

/-! ### Links -/

/-- Parent and children of a tag. -/
def links (t : MTree τ) (y : τ) : Option (Option τ × List τ) :=
  (dget t y).map fun nd => (nd.parent, nd.children)

theorem links_dset (t : MTree τ) (x y : τ) (nd : TNode τ) :
    links (dset t x nd) y = if x = y then some (nd.parent, nd.children) else links t y := by
  unfold links; rw [dget_dset]; split <;> simp

theorem links_some {t : MTree τ} {x : τ} {nd : TNode τ} (h : dget t x = some nd) :
    links t x = some (nd.parent, nd.children) := by simp [links, h]

theorem links_eq_some {t : MTree τ} {x : τ} {pa : Option τ} {ch : List τ} :
    links t x = some (pa, ch) ↔ ∃ nd, dget t x = some nd ∧ nd.parent = pa ∧ nd.children = ch := by
  unfold links
  cases h : dget t x <;> simp

theorem links_none {t : MTree τ} {x : τ} : links t x = none ↔ dget t x = none := by
  simp [links]

/-- A path upwards along parent links. -/
inductive LUp (lk : τ → Option (Option τ × List τ)) : τ → List τ → Prop
  | root {x : τ} {ch : List τ} : lk x = some (none, ch) → LUp lk x [x]
  | step {x p : τ} {ch l : List τ} : lk x = some (some p, ch) → LUp lk p l → LUp lk x (x :: l)

theorem LUp.upPath {t : MTree τ} {x : τ} {l : List τ} (h : LUp (links t) x l) : UpPath t x l := by
  induction h with
  | root h =>
    obtain ⟨nd, h1, h2, _⟩ := links_eq_some.1 h
    exact .root h1 h2
  | step h _ ih =>
    obtain ⟨nd, h1, h2, _⟩ := links_eq_some.1 h
    exact .step h1 h2 ih

/-- Only the parents matter for paths. -/
theorem LUp.transfer {lk lk' : τ → Option (Option τ × List τ)} {x : τ} {l : List τ}
    (h : LUp lk x l) (H : ∀ y, (lk' y).map Prod.fst = (lk y).map Prod.fst) : LUp lk' x l := by
  induction h with
  | @root x ch h =>
    have := H x
    rw [h] at this
    cases h' : lk' x with
    | none => rw [h'] at this; simp at this
    | some a =>
      obtain ⟨pa, ch'⟩ := a
      rw [h'] at this; simp at this; subst this
      exact .root h'
  | @step x p ch l h _ ih =>
    have := H x
    rw [h] at this
    cases h' : lk' x with
    | none => rw [h'] at this; simp at this
    | some a =>
      obtain ⟨pa, ch'⟩ := a
      rw [h'] at this; simp at this; subst this
      exact .step h' ih

/-- What is true of the links at every moment: a listed child has the right parent, no child is
listed twice, and every tag has a path to a root. -/
structure LSafe (lk : τ → Option (Option τ × List τ)) : Prop where
  down : ∀ {p pa ch c}, lk p = some (pa, ch) → c ∈ ch → ∃ ch', lk c = some (some p, ch')
  nodup : ∀ {p pa ch}, lk p = some (pa, ch) → ch.Nodup
  acyc : ∀ {x a}, lk x = some a → ∃ l, LUp lk x l

theorem LSafe.congr {lk lk' : τ → Option (Option τ × List τ)} (H : LSafe lk) (h : ∀ y, lk' y = lk y) :
    LSafe lk' := by
  have : lk' = lk := funext h
  rw [this]; exact H

/-- The links after `c` was taken out of the list of children of its parent `q`. -/
def lkDetach (lk : τ → Option (Option τ × List τ)) (c : τ) (q : Option τ) (y : τ) :
    Option (Option τ × List τ) :=
  (lk y).map fun a => (a.1, if q = some y then a.2.erase c else a.2)

/-- The links after the parent of `c` was replaced. -/
def lkParent (lk : τ → Option (Option τ × List τ)) (c p : τ) (y : τ) :
    Option (Option τ × List τ) :=
  (lk y).map fun a => (if y = c then some p else a.1, a.2)

/-- The links after `c` was put at the end of the children of `p`. -/
def lkAttach (lk : τ → Option (Option τ × List τ)) (c p : τ) (y : τ) :
    Option (Option τ × List τ) :=
  (lk y).map fun a => (a.1, if y = p then a.2 ++ [c] else a.2)

theorem lkDetach_some {lk : τ → Option (Option τ × List τ)} {c y : τ} {q pa : Option τ} {ch : List τ} :
    lkDetach lk c q y = some (pa, ch) ↔
      ∃ ch0, lk y = some (pa, ch0) ∧ ch = if q = some y then ch0.erase c else ch0 := by
  unfold lkDetach
  cases h : lk y with
  | none => simp
  | some a =>
    obtain ⟨pa0, ch0⟩ := a
    simp only [Option.map_some, Option.some.injEq, Prod.mk.injEq]
    constructor
    · rintro ⟨rfl, rfl⟩; exact ⟨ch0, ⟨rfl, rfl⟩, rfl⟩
    · rintro ⟨_, ⟨rfl, rfl⟩, rfl⟩; exact ⟨rfl, rfl⟩

theorem lkParent_some {lk : τ → Option (Option τ × List τ)} {c p y : τ} {pa : Option τ} {ch : List τ} :
    lkParent lk c p y = some (pa, ch) ↔
      ∃ pa0, lk y = some (pa0, ch) ∧ pa = if y = c then some p else pa0 := by
  unfold lkParent
  cases h : lk y with
  | none => simp
  | some a =>
    obtain ⟨pa0, ch0⟩ := a
    simp only [Option.map_some, Option.some.injEq, Prod.mk.injEq]
    constructor
    · rintro ⟨rfl, rfl⟩; exact ⟨pa0, ⟨rfl, rfl⟩, rfl⟩
    · rintro ⟨_, ⟨rfl, rfl⟩, rfl⟩; exact ⟨rfl, rfl⟩

theorem lkAttach_some {lk : τ → Option (Option τ × List τ)} {c p y : τ} {pa : Option τ} {ch : List τ} :
    lkAttach lk c p y = some (pa, ch) ↔
      ∃ ch0, lk y = some (pa, ch0) ∧ ch = if y = p then ch0 ++ [c] else ch0 := by
  unfold lkAttach
  cases h : lk y with
  | none => simp
  | some a =>
    obtain ⟨pa0, ch0⟩ := a
    simp only [Option.map_some, Option.some.injEq, Prod.mk.injEq]
    constructor
    · rintro ⟨rfl, rfl⟩; exact ⟨ch0, ⟨rfl, rfl⟩, rfl⟩
    · rintro ⟨_, ⟨rfl, rfl⟩, rfl⟩; exact ⟨rfl, rfl⟩

theorem LSafe.detach {lk : τ → Option (Option τ × List τ)} (H : LSafe lk) (c : τ) (q : Option τ) :
    LSafe (lkDetach lk c q) where
  down := by
    intro p pa ch x hp hx
    obtain ⟨ch0, h1, rfl⟩ := lkDetach_some.1 hp
    have hx0 : x ∈ ch0 := by
      split at hx
      · exact List.mem_of_mem_erase hx
      · exact hx
    obtain ⟨ch', h2⟩ := H.down h1 hx0
    exact ⟨_, lkDetach_some.2 ⟨ch', h2, rfl⟩⟩
  nodup := by
    intro p pa ch hp
    obtain ⟨ch0, h1, rfl⟩ := lkDetach_some.1 hp
    split
    · exact (H.nodup h1).erase _
    · exact H.nodup h1
  acyc := by
    rintro x ⟨pa, ch⟩ hx
    obtain ⟨ch0, h1, rfl⟩ := lkDetach_some.1 hx
    obtain ⟨l, hl⟩ := H.acyc h1
    refine ⟨l, hl.transfer fun y => ?_⟩
    unfold lkDetach
    cases lk y <;> simp

/-- After the removal nobody lists `c`. -/
theorem LSafe.detach_unlisted {lk : τ → Option (Option τ × List τ)} (H : LSafe lk) {c : τ}
    {q : Option τ} {cc : List τ} (hc : lk c = some (q, cc)) {y : τ} {pa : Option τ} {ch : List τ}
    (h : lkDetach lk c q y = some (pa, ch)) : c ∉ ch := by
  obtain ⟨ch0, h1, rfl⟩ := lkDetach_some.1 h
  intro hm
  split at hm
  · exact absurd rfl ((List.Nodup.mem_erase_iff (H.nodup h1)).1 hm).1
  · next hq =>
    obtain ⟨ch', h2⟩ := H.down h1 hm
    rw [hc] at h2
    simp at h2
    exact hq h2.1

theorem LSafe.parent {lk : τ → Option (Option τ × List τ)} (H : LSafe lk) {c p : τ}
    (hc : ∀ {y pa ch}, lk y = some (pa, ch) → c ∉ ch) {pch : List τ} (hp : lk p = some (none, pch))
    (hpc : p ≠ c) : LSafe (lkParent lk c p) where
  down := by
    intro y pa ch x hy hx
    obtain ⟨pa0, h1, rfl⟩ := lkParent_some.1 hy
    obtain ⟨ch', h2⟩ := H.down h1 hx
    have : x ≠ c := by rintro rfl; exact hc h1 hx
    exact ⟨ch', lkParent_some.2 ⟨_, h2, by rw [if_neg this]⟩⟩
  nodup := by
    intro y pa ch hy
    obtain ⟨pa0, h1, rfl⟩ := lkParent_some.1 hy
    exact H.nodup h1
  acyc := by
    rintro x ⟨pa, ch⟩ hx
    obtain ⟨pa0, h1, -⟩ := lkParent_some.1 hx
    obtain ⟨l, hl⟩ := H.acyc h1
    have hroot : LUp (lkParent lk c p) p [p] :=
      .root (lkParent_some.2 ⟨_, hp, by rw [if_neg hpc]⟩)
    clear hx h1
    induction hl with
    | @root x ch h =>
      by_cases e : x = c
      · exact ⟨_, .step (lkParent_some.2 ⟨_, h, by rw [if_pos e]⟩) hroot⟩
      · exact ⟨_, .root (lkParent_some.2 ⟨_, h, by rw [if_neg e]⟩)⟩
    | @step x r ch l h h' ih =>
      by_cases e : x = c
      · exact ⟨_, .step (lkParent_some.2 ⟨_, h, by rw [if_pos e]⟩) hroot⟩
      · obtain ⟨l', hl'⟩ := ih
        exact ⟨_, .step (lkParent_some.2 ⟨_, h, by rw [if_neg e]⟩) hl'⟩

theorem LSafe.attach {lk : τ → Option (Option τ × List τ)} (H : LSafe lk) {c p : τ}
    (hc : ∀ {y pa ch}, lk y = some (pa, ch) → c ∉ ch) {cc : List τ} (hcp : lk c = some (some p, cc)) :
    LSafe (lkAttach lk c p) where
  down := by
    intro y pa ch x hy hx
    obtain ⟨ch0, h1, rfl⟩ := lkAttach_some.1 hy
    by_cases hx0 : x ∈ ch0
    · obtain ⟨ch', h2⟩ := H.down h1 hx0
      exact ⟨_, lkAttach_some.2 ⟨ch', h2, rfl⟩⟩
    · split at hx
      · next e =>
        simp [hx0] at hx
        subst hx; subst e
        exact ⟨_, lkAttach_some.2 ⟨cc, hcp, rfl⟩⟩
      · exact absurd hx hx0
  nodup := by
    intro y pa ch hy
    obtain ⟨ch0, h1, rfl⟩ := lkAttach_some.1 hy
    split
    · rw [List.nodup_append]
      refine ⟨H.nodup h1, by simp, ?_⟩
      intro a ha b hb
      simp at hb; subst hb
      rintro rfl
      exact hc h1 ha
    · exact H.nodup h1
  acyc := by
    rintro x ⟨pa, ch⟩ hx
    obtain ⟨ch0, h1, rfl⟩ := lkAttach_some.1 hx
    obtain ⟨l, hl⟩ := H.acyc h1
    refine ⟨l, hl.transfer fun y => ?_⟩
    unfold lkAttach
    cases lk y <;> simp

/-- A new tag, or a root again. -/
theorem LSafe.add {lk lk' : τ → Option (Option τ × List τ)} (H : LSafe lk) {x : τ}
    (hx : ∀ p ch, lk x ≠ some (some p, ch))
    (h : ∀ y, lk' y = if x = y then some (none, []) else lk y) : LSafe lk' where
  down := by
    intro p pa ch c hp hc
    rw [h] at hp
    split at hp
    · cases hp; simp at hc
    · obtain ⟨ch', h2⟩ := H.down hp hc
      have : x ≠ c := by rintro rfl; exact hx _ _ h2
      exact ⟨ch', by rw [h, if_neg this]; exact h2⟩
  nodup := by
    intro p pa ch hp
    rw [h] at hp
    split at hp
    · cases hp; simp
    · exact H.nodup hp
  acyc := by
    intro y a hy
    by_cases e : x = y
    · subst e
      exact ⟨_, .root (by rw [h, if_pos rfl])⟩
    · rw [h, if_neg e] at hy
      obtain ⟨l, hl⟩ := H.acyc hy
      clear hy
      induction hl with
      | @root y ch h1 =>
        exact ⟨_, .root (by rw [h, if_neg e]; exact h1)⟩
      | @step y p ch l h1 h2 ih =>
        by_cases e' : x = p
        · subst e'
          exact ⟨_, .step (by rw [h, if_neg e]; exact h1) (.root (by rw [h, if_pos rfl]))⟩
        · obtain ⟨l', hl'⟩ := ih e'
          exact ⟨_, .step (by rw [h, if_neg e]; exact h1) hl'⟩

/-! ### The trees during `change_parent` -/

theorem metricsTrace_links : ∀ (f : Nat) (t : MTree τ) (x : Option τ) {pt : AddPoint τ} {t' : MTree τ},
    (pt, t') ∈ mtMetricsTrace f t x → (∃ y, pt = .metricSet y) ∧ ∀ y, links t' y = links t y
  | _, _, none, _, _, h => by simp [mtMetricsTrace] at h
  | 0, _, some _, _, _, h => by simp [mtMetricsTrace] at h
  | f + 1, t, some x, pt, t', h => by
    simp only [mtMetricsTrace] at h
    cases hx : dget t x with
    | none => rw [hx] at h; simp at h
    | some nd =>
      rw [hx] at h
      simp only at h
      split at h
      · next hh ss e1 e2 =>
        have key : ∀ (a b : Nat) y,
            links (dset t x { nd with height := a, size := b }) y = links t y := by
          intro a b y
          rw [links_dset]
          split
          · next e => subst e; simp [links, hx]
          · rfl
        rcases List.mem_cons.1 h with h | h
        · cases h
          exact ⟨⟨x, rfl⟩, key _ _⟩
        · obtain ⟨h1, h2⟩ := metricsTrace_links f _ _ h
          exact ⟨h1, fun y => (h2 y).trans (key _ _ y)⟩
      · simp at h

theorem updateMetrics_links : ∀ (f : Nat) (t : MTree τ) (x : Option τ) (y : τ),
    links (mtUpdateMetrics f t x).1 y = links t y
  | _, _, none, _ => by simp [mtUpdateMetrics]
  | 0, _, some _, _ => by simp [mtUpdateMetrics]
  | f + 1, t, some x, y => by
    simp only [mtUpdateMetrics]
    cases hx : dget t x with
    | none => rfl
    | some nd =>
      simp only
      split
      · rw [updateMetrics_links f]
        rw [links_dset]
        split
        · next e => subst e; simp [links, hx]
        · rfl
      · rfl

theorem detach_links {t t1 : MTree τ} {c : τ} {q : Option τ} (h : mtDetach t c q = some t1) (y : τ) :
    links t1 y = lkDetach (links t) c q y := by
  unfold lkDetach
  cases q with
  | none =>
    simp [mtDetach] at h; subst h
    cases links t y <;> simp
  | some p =>
    simp only [mtDetach] at h
    cases hp : dget t p with
    | none => rw [hp] at h; simp at h
    | some pn =>
      rw [hp] at h
      simp only at h
      split at h
      · cases h
        rw [links_dset]
        split
        · next e => subst e; simp [links, hp]
        · next e => cases links t y <;> simp [e]
      · next hm =>
        cases h
        cases hy : links t y with
        | none => rfl
        | some a =>
          obtain ⟨pa, ch⟩ := a
          simp only [Option.map_some]
          split
          · next e =>
            cases e
            rw [links_some hp] at hy
            cases hy
            rw [List.erase_of_not_mem hm]
          · rfl

theorem setParent_links {t : MTree τ} {c p : τ} {nd : TNode τ} (h : dget t c = some nd) (y : τ) :
    links (dset t c { nd with parent := some p }) y = lkParent (links t) c p y := by
  rw [links_dset]
  unfold lkParent
  split
  · next e => subst e; simp [links, h]
  · next e =>
    have : y ≠ c := fun h => e h.symm
    cases links t y <;> simp [this]

theorem attach_links {t : MTree τ} {c p : τ} {pn : TNode τ} (h : dget t p = some pn) (y : τ) :
    links (dset t p { pn with children := pn.children ++ [c] }) y = lkAttach (links t) c p y := by
  rw [links_dset]
  unfold lkAttach
  split
  · next e => subst e; simp [links, h]
  · next e =>
    have : y ≠ p := fun h => e h.symm
    cases links t y <;> simp [this]

/-- The parent of a tag: `none` for an unknown tag, `some none` for a root. -/
def par (t : MTree τ) (y : τ) : Option (Option τ) := (dget t y).map TNode.parent

theorem par_links {t : MTree τ} (y : τ) : par t y = (links t y).map Prod.fst := by
  unfold par links; cases dget t y <;> rfl

theorem par_some {t : MTree τ} {y : τ} {q : Option τ} : par t y = some q ↔ ∃ ch, links t y = some (q, ch) := by
  rw [par_links]
  cases links t y with
  | none => simp
  | some a => obtain ⟨a, b⟩ := a; simp

theorem parentOf_par {t : MTree τ} {c p : τ} : ParentOf t c p ↔ par t c = some (some p) := by
  unfold ParentOf par
  cases dget t c <;> simp

/-- The tree is sound: see `LSafe`. -/
def TSafe (t : MTree τ) : Prop := LSafe (links t)

theorem par_detach {lk : τ → Option (Option τ × List τ)} (c : τ) (q : Option τ) (y : τ) :
    (lkDetach lk c q y).map Prod.fst = (lk y).map Prod.fst := by
  unfold lkDetach; cases lk y <;> simp

theorem par_attach {lk : τ → Option (Option τ × List τ)} (c p y : τ) :
    (lkAttach lk c p y).map Prod.fst = (lk y).map Prod.fst := by
  unfold lkAttach; cases lk y <;> simp

theorem par_parent {lk : τ → Option (Option τ × List τ)} {c p : τ} {q : Option τ}
    (hc : (lk c).map Prod.fst = some q) (y : τ) :
    (lkParent lk c p y).map Prod.fst = if y = c then some (some p) else (lk y).map Prod.fst := by
  unfold lkParent
  split
  · next e =>
    subst e
    cases h : lk y with
    | none => rw [h] at hc; simp at hc
    | some a => simp
  · cases lk y <;> simp

/-- `c` has been moved below `p`. -/
def MovedPar (t t' : MTree τ) (c p : τ) : Prop :=
  ∀ y, par t' y = if y = c then some (some p) else par t y

theorem changeParent_steps {t : MTree τ} (T : TSafe t) {c p : τ} {q : Option τ}
    (hc : par t c = some q) (hp : par t p = some none) (hpc : p ≠ c) :
    ∃ t1 t2 t3 r, mtChangeParentTrace t c p =
        (.detached c, t1) :: (.parentSet c, t2) :: (.attached c, t3) :: r ∧
      TSafe t1 ∧ (∀ y, par t1 y = par t y) ∧ TSafe t2 ∧ MovedPar t t2 c p ∧
      TSafe t3 ∧ MovedPar t t3 c p ∧
      (∀ pt t', (pt, t') ∈ r → (∃ x, pt = .metricSet x) ∧ TSafe t' ∧ MovedPar t t' c p) ∧
      TSafe (mtChangeParent t c (some p)).1 ∧ MovedPar t (mtChangeParent t c (some p)).1 c p := by
  obtain ⟨cc, hlc⟩ := par_some.1 hc
  obtain ⟨nc, hnc, hq, hcc⟩ := links_eq_some.1 hlc
  obtain ⟨pch, hlp⟩ := par_some.1 hp
  -- the old parent is known
  have hdet : ∃ t1, mtDetach t c q = some t1 := by
    cases q with
    | none => exact ⟨t, rfl⟩
    | some p0 =>
      obtain ⟨l, hl⟩ := T.acyc hlc
      have : ∃ np, dget t p0 = some np := by
        cases hl with
        | root h => rw [hlc] at h; cases h
        | step h h' =>
          rw [hlc] at h; cases h
          have := h'.upPath.mem_keys p0 (by obtain ⟨r, e⟩ := h'.upPath.head; rw [e]; simp)
          exact this
      obtain ⟨np, hnp⟩ := this
      simp only [mtDetach, hnp]
      split <;> exact ⟨_, rfl⟩
  obtain ⟨t1, ht1⟩ := hdet
  have l1 : ∀ y, links t1 y = lkDetach (links t) c q y := detach_links ht1
  have S1 : TSafe t1 := (T.detach c q).congr l1
  have p1 : ∀ y, par t1 y = par t y := fun y => by rw [par_links, par_links, l1, par_detach]
  have un1 : ∀ {y pa ch}, links t1 y = some (pa, ch) → c ∉ ch := fun {y pa ch} h => by
    rw [l1] at h; exact T.detach_unlisted hlc h
  obtain ⟨cc1, hlc1⟩ := par_some.1 ((p1 c).trans hc)
  obtain ⟨nc1, hnc1, _, _⟩ := links_eq_some.1 hlc1
  obtain ⟨pch1, hlp1⟩ := par_some.1 ((p1 p).trans hp)
  have l2 : ∀ y, links (dset t1 c { nc1 with parent := some p }) y = lkParent (links t1) c p y :=
    setParent_links hnc1
  have S2 : TSafe (dset t1 c { nc1 with parent := some p }) := (S1.parent un1 hlp1 hpc).congr l2
  have m2 : MovedPar t (dset t1 c { nc1 with parent := some p }) c p := fun y => by
    have hcq : (links t1 c).map Prod.fst = some q := by rw [hlc1]; rfl
    rw [par_links, l2, par_parent hcq, ← par_links, p1]
  generalize ht2 : dset t1 c { nc1 with parent := some p } = t2 at l2 S2 m2
  have un2 : ∀ {y pa ch}, links t2 y = some (pa, ch) → c ∉ ch := fun {y pa ch} h => by
    rw [l2] at h
    obtain ⟨pa0, h1, _⟩ := lkParent_some.1 h
    exact un1 h1
  have hp2 : par t2 p = some none := by rw [m2, if_neg hpc]; exact hp
  obtain ⟨pch2, hlp2⟩ := par_some.1 hp2
  obtain ⟨np2, hnp2, _, _⟩ := links_eq_some.1 hlp2
  have hc2 : par t2 c = some (some p) := by rw [m2, if_pos rfl]
  obtain ⟨cc2, hlc2⟩ := par_some.1 hc2
  have l3 : ∀ y, links (dset t2 p { np2 with children := np2.children ++ [c] }) y =
      lkAttach (links t2) c p y := attach_links hnp2
  have S3 : TSafe (dset t2 p { np2 with children := np2.children ++ [c] }) :=
    (S2.attach un2 hlc2).congr l3
  have m3 : MovedPar t (dset t2 p { np2 with children := np2.children ++ [c] }) c p := fun y => by
    rw [par_links, l3, par_attach, ← par_links, m2]
  generalize ht3 : dset t2 p { np2 with children := np2.children ++ [c] } = t3 at l3 S3 m3
  have same : ∀ t', (∀ y, links t' y = links t3 y) → TSafe t' ∧ MovedPar t t' c p := by
    intro t' h
    exact ⟨S3.congr h, fun y => by rw [par_links, h, ← par_links, m3]⟩
  have hdget : (dget t1 c).getD nc = nc1 := by rw [hnc1]; rfl
  have hatt : mtAttach t2 c (some p) = mtUpdateMetrics t3.length t3 (some p) := by
    simp only [mtAttach, hnp2, ht3]
  have l4 := updateMetrics_links t3.length t3 (some p)
  refine ⟨t1, t2, t3, mtMetricsTrace t3.length t3 (some p) ++
    (match mtAttach t2 c (some p) with
      | (_, some _) => []
      | (t4, none) => mtMetricsTrace t4.length t4 q), ?_, S1, p1, S2, m2, S3, m3, ?_, ?_⟩
  · have hta : mtAttachTrace t2 c p = (.attached c, t3) :: mtMetricsTrace t3.length t3 (some p) := by
      simp only [mtAttachTrace, hnp2, ht3]
    simp only [mtChangeParentTrace, hnc, hq, ht1, hdget, ht2, hta, List.cons_append]
    rfl
  · intro pt t' h
    rcases List.mem_append.1 h with h | h
    · obtain ⟨h1, h2⟩ := metricsTrace_links _ _ _ h
      exact ⟨h1, same _ h2⟩
    · rw [hatt] at h
      cases hu : mtUpdateMetrics t3.length t3 (some p) with
      | mk t4 e =>
        rw [hu] at h
        cases e with
        | some e => simp at h
        | none =>
          simp only at h
          obtain ⟨h1, h2⟩ := metricsTrace_links _ _ _ h
          refine ⟨h1, same _ fun y => (h2 y).trans ?_⟩
          have := l4 y
          rwa [hu] at this
  · have hfin : ∀ y, links (mtChangeParent t c (some p)).1 y = links t3 y := by
      intro y
      simp only [mtChangeParent, hnc, hq, ht1, hdget, ht2, hatt]
      cases hu : mtUpdateMetrics t3.length t3 (some p) with
      | mk t4 e =>
        have := l4 y
        rw [hu] at this
        cases e with
        | some e => exact this
        | none =>
          simp only
          rw [updateMetrics_links]; exact this
    exact same _ hfin

/-! ### Stores -/

variable {Tok S P : Type _} [DecidableEq Tok] {tk : TokOps Tok S} {Ok : Bytes → Prop}

/-- The store holds `content x` for every tag `x` of its tree, except that the deltas of the tags
in `E` may be wrong. -/
structure SafeBut (L : LawfulTok tk P Ok) (content : τ → Bytes) (E : τ → Prop)
    (v : Versions τ (MTree τ)) : Prop where
  tree : TSafe v.tree
  hvNodup : (v.headVersion.map Prod.fst).Nodup
  ok : ∀ {x q}, par v.tree x = some q → Ok (content x) ∧ (content x).length < 2 ^ 64
  root : ∀ {x}, par v.tree x = some none → dget v.headVersion x = some (content x)
  inner : ∀ {x p}, par v.tree x = some (some p) → ¬ E x →
    ∃ d, dget v.diffs x = some d ∧ DeltaBytes L (content p) (content x) d
  head : ∀ {x q b}, par v.tree x = some q → dget v.headVersion x = some b → b = content x

/-- The store holds `content x` for every tag `x` of its tree. -/
abbrev Safe (L : LawfulTok tk P Ok) (content : τ → Bytes) (v : Versions τ (MTree τ)) : Prop :=
  SafeBut L content (fun _ => False) v

variable {L : LawfulTok tk P Ok} {content : τ → Bytes} {v : Versions τ (MTree τ)} {E : τ → Prop}

theorem Safe.empty : Safe L content (⟨[], [], []⟩ : Versions τ (MTree τ)) where
  tree := by
    have e : ∀ y : τ, links ([] : MTree τ) y = none := fun y => rfl
    constructor
    · intro p pa ch c h; rw [e] at h; cases h
    · intro p pa ch h; rw [e] at h; cases h
    · intro p a h; rw [e] at h; cases h
  hvNodup := by simp
  ok := by intro x q h; cases h
  root := by intro x h; cases h
  inner := by intro x p h; cases h
  head := by intro x q b h; cases h

theorem SafeBut.mono {E' : τ → Prop} (H : SafeBut L content E v) (h : ∀ x, E x → E' x) :
    SafeBut L content E' v :=
  ⟨H.tree, H.hvNodup, H.ok, H.root, fun h1 h2 => H.inner h1 fun e => h2 (h _ e), H.head⟩

/-- Each tag of `rest` is below the one before it, the first one below `y`. -/
def ChainP (t : MTree τ) : τ → List τ → Prop
  | _, [] => True
  | y, z :: r => par t z = some (some y) ∧ ChainP t z r

theorem ChainP.append {t : MTree τ} : ∀ {l : List τ} {y : τ} {z : τ}, ChainP t y l →
    par t z = some (some (l.getLastD y)) → ChainP t y (l ++ [z])
  | [], y, z, _, h => ⟨h, trivial⟩
  | a :: l, y, z, h1, h => by
    refine ⟨h1.1, ChainP.append h1.2 ?_⟩
    rw [h]
    cases l <;> simp [List.getLastD]

theorem SafeBut.chain (H : SafeBut L content E v) : ∀ {rest : List τ} {y : τ} {st : S} {toks : List Tok},
    ChainP v.tree y rest → (∀ z ∈ rest, ¬ E z) → L.Inv st →
    toks.map (L.den st) = (L.split (content y)).map some →
    ∃ toks' st', retrieveLoop tk v.diffs st toks rest = .ok (toks', st') ∧ L.Inv st' ∧
      (L.Ready st → L.Ready st') ∧
      toks'.map (L.den st') = (L.split (content (rest.getLastD y))).map some
  | [], y, st, toks, _, _, hi, ht => ⟨toks, st, rfl, hi, id, ht⟩
  | z :: rest, y, st, toks, hc, hE, hi, ht => by
    obtain ⟨d, hd, hD⟩ := H.inner hc.1 (hE z (by simp))
    obtain ⟨t1, s1, k1, k2, k3, k4⟩ := retrieveStep L (H.ok hc.1).1 hd hD hi ht
    obtain ⟨t2, s2, g1, g2, g3, g4⟩ := H.chain hc.2 (fun w hw => hE w (by simp [hw])) k2 k4
    refine ⟨t2, s2, ?_, g2, fun h => g3 (k3 h), ?_⟩
    · have := retrieveLoop_append (tk := tk) v.diffs [z] rest st toks
      rw [k1] at this
      exact this.trans g1
    · rw [g4]
      cases rest <;> simp [List.getLastD]

theorem ChainP.known {t : MTree τ} : ∀ {rest : List τ} {y : τ}, ChainP t y rest →
    (∃ q, par t y = some q) → ∃ q, par t (rest.getLastD y) = some q
  | [], _, _, h => h
  | z :: rest, y, h, _ => by
    have := ChainP.known h.2 ⟨_, h.1⟩
    cases rest with
    | nil => exact this
    | cons a r => simpa [List.getLastD] using this

/-- Retrieval along a path that starts at a tag stored in full. -/
theorem SafeBut.retrieve (H : SafeBut L content E v) {rest : List τ} {y : τ} {q : Option τ}
    (hy : par v.tree y = some q) (hh : dget v.headVersion y = some (content y))
    (hc : ChainP v.tree y rest) (hE : ∀ z ∈ rest, ¬ E z) :
    retrieveUsingPath tk v (y :: rest) = .ok (content (rest.getLastD y)) := by
  obtain ⟨toks, st, a1, a2, a3, a4, a5⟩ := L.encode_ok L.init_inv (H.ok hy).1
  obtain ⟨toks', st', g1, g2, g3, g4⟩ := H.chain hc hE a2 a4
  obtain ⟨q', hq'⟩ := hc.known ⟨_, hy⟩
  simp only [retrieveUsingPath, hh, a1, bind, Except.bind, g1, L.decode_ok g2 (g3 a3) g4,
    L.split_text (H.ok hq').1]

theorem LUp.chain {t : MTree τ} {x : τ} {l : List τ} (h : LUp (links t) x l) :
    ∃ root rest, l.reverse = root :: rest ∧ par t root = some none ∧ ChainP t root rest ∧
      rest.getLastD root = x := by
  induction h with
  | @root x ch h => exact ⟨x, [], rfl, par_some.2 ⟨_, h⟩, trivial, rfl⟩
  | @step x p ch l h h' ih =>
    obtain ⟨root, rest, e1, e2, e3, e4⟩ := ih
    refine ⟨root, rest ++ [x], by simp [e1], e2, e3.append ?_, by simp⟩
    rw [e4]; exact par_some.2 ⟨_, h⟩

/-- Retrieval of a tag whose path avoids the exceptions. -/
theorem SafeBut.get (H : SafeBut L content E v) {x : τ} {q : Option τ} (hx : par v.tree x = some q) :
    ∃ l, mtPathTo v.tree x = .ok (some l) ∧ ((∀ z ∈ l, ¬ E z) →
      versionsGet (memoryTree τ) tk v x = .ok (some (content x))) := by
  obtain ⟨ch, hlx⟩ := par_some.1 hx
  obtain ⟨l, hl⟩ := H.tree.acyc hlx
  have hp : mtPathTo v.tree x = .ok (some l.reverse) := pathTo_spec hl.upPath
  obtain ⟨root, rest, e1, e2, e3, e4⟩ := hl.chain
  refine ⟨l.reverse, hp, fun hE => ?_⟩
  rw [e1] at hE hp
  have hr := H.retrieve e2 (H.root e2) e3 fun z hz => hE z (by simp [hz])
  have hp' : (memoryTree τ).pathTo v.tree x = .ok (some (root :: rest)) := hp
  unfold versionsGet
  rw [hp']
  simp only [hr, e4]

theorem get_unknown {x : τ} (hx : par v.tree x = none) :
    versionsGet (memoryTree τ) tk v x = .ok none := by
  have h : dget v.tree x = none := by simpa [par] using hx
  have hp : (memoryTree τ).pathTo v.tree x = .ok none := pathTo_none h
  unfold versionsGet
  rw [hp]

/-- The path found by `get_split` leads down from its start. -/
theorem splitLoop_chain {t : MTree τ} (T : TSafe t) : ∀ (f depth : Nat) (tag : τ) (nd : TNode τ)
    (path : List τ) {s : τ} {path' : List τ}, dget t tag = some nd →
    mtSplitLoop t f depth tag nd path = .ok (s, path') →
    ∃ ext, path' = path ++ ext ∧ ChainP t tag ext ∧ ext.getLastD tag = s
  | 0, depth, tag, nd, path, s, path', hd, h => by
    simp only [mtSplitLoop] at h
    split at h
    · cases h
    · cases h; exact ⟨[], by simp, trivial, rfl⟩
  | f + 1, depth, tag, nd, path, s, path', hd, h => by
    simp only [mtSplitLoop] at h
    split at h
    · split at h
      · cases h
      · split at h
        · cases h
        · split at h
          · cases h
          · next idx _ c hcx =>
            split at h
            · cases h
            · next nd' hc =>
              obtain ⟨ext, h1, h2, h3⟩ := splitLoop_chain T f _ _ _ _ hc h
              have hm : c ∈ nd.children := List.mem_of_getElem? hcx
              obtain ⟨ch', hpar⟩ := T.down (links_some hd) hm
              refine ⟨c :: ext, by rw [h1]; simp, ⟨par_some.2 ⟨_, hpar⟩, h2⟩, ?_⟩
              rw [← h3]
              cases ext <;> simp [List.getLastD]
    · cases h; exact ⟨[], by simp, trivial, rfl⟩

theorem getSplit_chain {t : MTree τ} (T : TSafe t) {b s : τ} {path : List τ}
    (h : mtGetSplit t b = .ok (s, path)) :
    (∃ q, par t b = some q) ∧ ∃ ext, path = b :: ext ∧ ChainP t b ext ∧ ext.getLastD b = s := by
  unfold mtGetSplit at h
  cases hb : dget t b with
  | none => rw [hb] at h; cases h
  | some nd =>
    rw [hb] at h
    obtain ⟨ext, h1, h2, h3⟩ := splitLoop_chain T _ _ _ _ _ hb h
    exact ⟨⟨nd.parent, by simp [par, hb]⟩, ext, h1, h2, h3⟩

/-- The last tag of a chain has a parent. -/
theorem ChainP.last_parent {t : MTree τ} : ∀ {rest : List τ} {y : τ}, ChainP t y rest → rest ≠ [] →
    ∃ p, par t (rest.getLastD y) = some (some p)
  | [], _, _, h => absurd rfl h
  | [z], y, h, _ => ⟨y, h.1⟩
  | z :: a :: r, y, h, _ => by
    have := ChainP.last_parent (rest := a :: r) h.2 (by simp)
    simpa [List.getLastD] using this

end Gaspra
