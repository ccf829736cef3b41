import Verif.Model.NoneTag
import Verif.Proofs.Unknown
import Verif.Proofs.Interrupt
import Verif.Proofs.Isolate
import Verif.Proofs.RevisionState

/-! # Making a node a root, and adding a version with the tag `None` -/

set_option linter.unusedSectionVars false
set_option linter.unusedSimpArgs false
set_option linter.unusedVariables false

namespace Gaspra

variable {τ : Type _} [DecidableEq τ]

/-- Every child is a key of the dictionary. -/
def ChildrenKnown (t : MTree τ) : Prop :=
  ∀ {p np c}, dget t p = some np → c ∈ np.children → ∃ nc, dget t c = some nc

/-- `_update_metrics` does not raise if all children are known and the path ends. -/
theorem updateMetrics_ok {x : τ} {l : List τ} : ∀ {t : MTree τ} {f : Nat}, ChildrenKnown t →
    UpPath t x l → l.length ≤ f → (mtUpdateMetrics f t (some x)).2 = none := by
  induction l generalizing x with
  | nil => intro t f _ hp; cases hp
  | cons a l ih =>
    intro t f K hp hf
    cases f with
    | zero => simp at hf
    | succ f =>
      obtain ⟨r, hr⟩ := hp.head
      obtain rfl : x = a := (List.cons.inj hr).1.symm
      obtain ⟨nd, hx⟩ : ∃ nd, dget t x = some nd := hp.mem_keys x (by simp)
      have hch : ∀ c ∈ nd.children, ∃ nc, dget t c = some nc := fun c hc => K hx hc
      simp only [mtUpdateMetrics, hx, childAttrs_eq _ _ hch]
      generalize (if nd.children.isEmpty = true then 0 else
          maxNat (nd.children.map fun c => ((dget t c).map TNode.height).getD 0)) + 1 = hh
      generalize (if nd.children.isEmpty = true then 0 else
          (nd.children.map fun c => ((dget t c).map TNode.size).getD 0).sum) + 1 = ss
      have hs := sameShape_setMetrics hx hh ss
      cases hp with
      | root h1 h2 =>
        rw [hx] at h1; cases h1
        simp [h2, mtUpdateMetrics]
      | @step _ p _ _ h1 h2 h3 =>
        rw [hx] at h1; cases h1
        have e : mtUpdateMetrics f (dset t x { nd with height := hh, size := ss }) nd.parent =
            mtUpdateMetrics f (dset t x { nd with height := hh, size := ss }) (some p) :=
          congrArg _ h2
        rw [e]
        refine ih ?_ (hs.upPath h3) (by simpa using hf)
        intro p np c hp hc
        obtain ⟨n0, a1, _, _, a4, _⟩ := hs.back hp
        obtain ⟨nc, b1⟩ := K a1 (a4 ▸ hc)
        obtain ⟨nc', b2, _⟩ := hs.2 _ _ b1
        exact ⟨nc', b2⟩

/-- `change_parent(x, None)` for a root changes nothing. -/
theorem changeParent_root {t : MTree τ} {x : τ} {nd : TNode τ} (hx : dget t x = some nd)
    (hp : nd.parent = none) : mtChangeParent t x none = (t, none) := by
  have e : ({ nd with parent := none } : TNode τ) = nd := by cases nd; simp_all
  simp only [mtChangeParent, hx, hp, mtDetach, mtAttach, Option.getD_some, mtUpdateMetrics]
  rw [e, dset_same hx]

/-- `change_parent(x, None)` makes any other node a root and keeps all other parents. -/
theorem changeParent_cut {t : MTree τ} (F : Forest t) {x q : τ} {nd : TNode τ}
    (hx : dget t x = some nd) (hq : nd.parent = some q) :
    ∃ t', mtChangeParent t x none = (t', none) ∧
      ∀ y, par t' y = if y = x then some none else par t y := by
  obtain ⟨nq, hnq, hc⟩ := F.up hx hq
  obtain ⟨lq, hlq⟩ := F.acyc hnq
  have hxl := hlq.not_mem_parent hx hq
  have hqx : q ≠ x := by
    rintro rfl
    obtain ⟨r, hr⟩ := hlq.head
    rw [hr] at hxl
    simp at hxl
  have key : ∀ t2, t2 = dset (dset t q { nq with children := nq.children.erase x }) x
      { nd with parent := none } →
      mtChangeParent t x none = mtUpdateMetrics t2.length t2 (some q) := by
    rintro t2 rfl
    simp only [mtChangeParent, hx, hq, mtDetach, hnq, if_pos hc, mtAttach]
    rw [dget_dset_ne _ _ hqx, hx]
    rfl
  have get2 : ∀ y, dget (dset (dset t q { nq with children := nq.children.erase x }) x
      { nd with parent := none }) y = if x = y then some { nd with parent := none } else
        if q = y then some { nq with children := nq.children.erase x } else dget t y := by
    intro y
    rw [dget_dset, dget_dset]
  generalize ht2 : dset (dset t q { nq with children := nq.children.erase x }) x
      { nd with parent := none } = t2 at get2
  rw [key t2 ht2.symm]
  have par2 : ∀ y, par t2 y = if y = x then some none else par t y := by
    intro y
    unfold par
    rw [get2]
    by_cases h1 : x = y
    · rw [if_pos h1, if_pos h1.symm]; rfl
    · rw [if_neg h1]
      by_cases h2 : q = y
      · rw [if_pos h2, if_neg (fun e => h1 e.symm), ← h2, hnq]; rfl
      · rw [if_neg h2, if_neg (fun e => h1 e.symm)]
  have up2 : UpPath t2 q lq := hlq.transfer fun y hy => by
    have := par2 y
    rw [if_neg (by rintro rfl; exact hxl hy)] at this
    exact this
  have known2 : ∀ {y ny}, dget t y = some ny → ∃ ny', dget t2 y = some ny' := by
    intro y ny hy
    rw [get2]
    split
    · exact ⟨_, rfl⟩
    · split
      · exact ⟨_, rfl⟩
      · exact ⟨_, hy⟩
  have K2 : ChildrenKnown t2 := by
    intro p np c hp hc'
    have : ∃ np0, dget t p = some np0 ∧ c ∈ np0.children := by
      rw [get2] at hp
      split at hp
      · next e => cases hp; exact ⟨nd, e ▸ hx, hc'⟩
      · split at hp
        · next e => cases hp; exact ⟨nq, e ▸ hnq, List.mem_of_mem_erase hc'⟩
        · exact ⟨np, hp, hc'⟩
    obtain ⟨np0, h1, h2⟩ := this
    obtain ⟨nc, h3, _⟩ := F.down h1 h2
    exact known2 h3
  refine ⟨(mtUpdateMetrics t2.length t2 (some q)).1, ?_, fun y => ?_⟩
  · rw [← updateMetrics_ok K2 up2 up2.length_le]
  · rw [← par2 y, par_links, par_links, updateMetrics_links]

/-- The way up after a node was made a root: as before, or ending there. -/
theorem UpPath.cut {t t' : MTree τ} {x : τ}
    (h : ∀ y, par t' y = if y = x then some none else par t y) {z : τ} {l : List τ}
    (hz : UpPath t z l) : ∃ l', UpPath t' z l' ∧
      (x ∉ l → l' = l) ∧ (x ∈ l → l'.getLast? = some x) := by
  induction hz with
  | @root z nd h1 h2 =>
    have e : par t' z = some none := by
      rw [h]
      split
      · rfl
      · simp [par, h1, h2]
    obtain ⟨nd', k1, k2⟩ := Option.map_eq_some_iff.1 e
    refine ⟨[z], .root k1 k2, fun _ => rfl, fun hx => ?_⟩
    simp at hx
    simp [hx]
  | @step z p nd l h1 h2 h3 ih =>
    obtain ⟨l', k1, k2, k3⟩ := ih
    by_cases hzx : z = x
    · subst hzx
      have e : par t' z = some none := by rw [h, if_pos rfl]
      obtain ⟨nd', e1, e2⟩ := Option.map_eq_some_iff.1 e
      exact ⟨[z], .root e1 e2, fun hn => absurd (by simp) hn, fun _ => rfl⟩
    · have e : par t' z = some (some p) := by rw [h, if_neg hzx]; simp [par, h1, h2]
      obtain ⟨nd', e1, e2⟩ := Option.map_eq_some_iff.1 e
      refine ⟨z :: l', .step e1 e2 k1, ?_, ?_⟩
      · intro hn
        rw [k2 (fun hm => hn (by simp [hm]))]
      · intro hm
        rcases List.mem_cons.1 hm with e | e
        · exact absurd e.symm hzx
        · have := k3 e
          cases l' with
          | nil => simp at this
          | cons a l' => simpa using this

/-- The root of a path is the last tag on the way up. -/
theorem UpPath.last_root {t : MTree τ} {z : τ} {l : List τ} (h : UpPath t z l) :
    ∃ r, l.getLast? = some r ∧ par t r = some none := by
  induction h with
  | root h1 h2 => exact ⟨_, rfl, by simp [par, h1, h2]⟩
  | @step z p nd l h1 h2 h3 ih =>
    obtain ⟨r, k1, k2⟩ := ih
    refine ⟨r, ?_, k2⟩
    cases l with
    | nil => simp at k1
    | cons a l => simpa using k1

theorem UpPath.last_of_mem {t : MTree τ} {z y r : τ} {l : List τ} (h : UpPath t z l) (hy : y ∈ l)
    {m : List τ} (hm : UpPath t y m) (hr : m.getLast? = some r) : l.getLast? = some r := by
  obtain ⟨l', k1, k2, k3⟩ := h.suffix hy
  rw [hm.unique k1] at hr
  rw [← k3, List.getLast?_append, hr]
  rfl

/-! ### The store -/

variable {Tok S P : Type _} [DecidableEq Tok] {tk : TokOps Tok S} {Ok : Bytes → Prop}
  {L : LawfulTok tk P Ok} {content content' : Option τ → Bytes}
  {v : Versions (Option τ) (MTree (Option τ))}

/-- `_add_edge(None, y, …)`. -/
theorem noneEdge {v1 : Versions (Option τ) (MTree (Option τ))} {y : Option τ} {t' : MTree (Option τ)}
    {items : List (PatchItem UInt8)} {d : Bytes} (hd : serializeChangeset items = .ok d)
    (ht : mtChangeParent v1.tree y none = (t', none)) (hn : (v1.headVersion.map Prod.fst).Nodup) :
    ∃ hv, addEdge (noneTree τ) v1 none y items = (⟨hv, dset v1.diffs y d, t'⟩, none) ∧
      (hv.map Prod.fst).Nodup ∧
      ∀ z, dget hv z = if z = y then none else dget v1.headVersion z := by
  have ht' : (noneTree τ).changeParent v1.tree y none = (t', none) := ht
  simp only [addEdge, hd, ht']
  by_cases hm : dmem v1.headVersion y = true
  · simp only [if_pos hm]
    refine ⟨_, rfl, ddel_nodup hn y, fun z => ?_⟩
    rw [dget_ddel hn]
    by_cases e : z = y
    · rw [if_pos e, if_pos e.symm]
    · rw [if_neg e, if_neg fun h => e h.symm]
  · simp only [if_neg hm]
    refine ⟨_, rfl, hn, fun z => ?_⟩
    split
    · next e =>
      subst e
      simpa [dmem] using hm
    · rfl

/-- `add(None, c, b)` for a head `b`: no exception; the split becomes a root; the contents of `b` and
of the split are not among the full texts afterwards. -/
theorem StoreOK.add_noneTag (I : StoreOK L content v) {b : Option τ} {nb : TNode (Option τ)}
    {c : Bytes} (ht : dget v.tree none = none) (hb : dget v.tree b = some nb)
    (hp : nb.parent = none) (hc : Ok c) (hl : c.length < 2 ^ 64)
    (h1 : content' none = c) (h2 : ∀ y, y ≠ none → content' y = content y) :
    StoreOK L content' (withRoot v none c (some b)) ∧
    ∃ v' s ls, versionsAdd (noneTree τ) tk v none c (some b) = (v', none) ∧
      UpPath (withRoot v none c (some b)).tree s ls ∧ ls.getLast? = some b ∧
      (∀ y, par v'.tree y = if y = s then some none else
        par (withRoot v none c (some b)).tree y) ∧
      (∀ y, dget v'.headVersion y = if y = b then none else
        dget (withRoot v none c (some b)).headVersion y) ∧
      dget v'.headVersion s = none ∧
      ∀ y, y ≠ s → y ≠ b → dget v'.diffs y = dget v.diffs y := by
  have hbt : b ≠ none := by rintro rfl; rw [ht] at hb; cases hb
  have I1 : StoreOK L content' (withRoot v none c (some b)) := I.addRoot ht hc hl h1 h2
  refine ⟨I1, ?_⟩
  have hb1 : dget (withRoot v none c (some b)).tree b = some nb := by
    show dget (mtAdd v.tree none (some b)) b = _
    rw [dget_mtAdd, if_neg (Ne.symm hbt)]; exact hb
  have hn1 : dget (withRoot v none c (some b)).tree none = some (newNode v.tree.length (some b)) := by
    show dget (mtAdd v.tree none (some b)) none = _
    rw [dget_mtAdd, if_pos rfl]
  obtain ⟨s, path, g1, g2, g3⟩ := getSplit_spec I1.tree hb1
  have g1' : (noneTree τ).getSplit (withRoot v none c (some b)).tree b = .ok (s, path) := g1
  have hup : UpPath (withRoot v none c (some b)).tree s path.reverse := by
    have := g2.upPath I1.tree.toForest (.root hb1 hp)
    simpa using this
  have hlast : path.reverse.getLast? = some b := by
    obtain ⟨r, rfl⟩ := g2.head
    simp
  -- the delta from the new version to any other one
  have delta : ∀ {y ny}, dget (withRoot v none c (some b)).tree y = some ny →
      ∃ items d, makeChangeset tk c (content' y) = .ok items ∧ serializeChangeset items = .ok d := by
    intro y ny hy
    obtain ⟨items, m1, m2⟩ := makeChangeset_ok L (a := content' none) (b := content' y)
      (h1 ▸ hc) (I1.ok hy).1
    obtain ⟨d, s1, s2⟩ := serializeDelta L (I1.ok hn1).1 (I1.ok hy).1 (I1.ok hn1).2 (I1.ok hy).2
      m2 m1
    exact ⟨items, d, h1 ▸ m1, s1⟩
  -- the last part: the full text of the old head is dropped
  have last : ∀ v2 : Versions (Option τ) (MTree (Option τ)), (v2.headVersion.map Prod.fst).Nodup →
      par v2.tree b = some none → dget v2.headVersion b = some (content' b) →
      ∃ hv d, addOldHead (noneTree τ) tk v2 none c b = (⟨hv, dset v2.diffs b d, v2.tree⟩, none) ∧
        ∀ y, dget hv y = if y = b then none else dget v2.headVersion y := by
    intro v2 n2 p2 e2
    obtain ⟨items, d, m1, m2⟩ := delta hb1
    obtain ⟨nb2, k1, k2⟩ := Option.map_eq_some_iff.1 p2
    obtain ⟨hv, f1, f2, f3⟩ := noneEdge m2 (changeParent_root k1 k2) n2
    refine ⟨hv, d, ?_, f3⟩
    simp only [addOldHead, e2, m1, f1]
  show ∃ v' s ls, addToHead (noneTree τ) tk (withRoot v none c (some b)) none c b = (v', none) ∧ _
  simp only [addToHead, g1']
  by_cases hsb : s = b
  · subst hsb
    rw [if_neg (by simp)]
    obtain ⟨hv, d, l1, l2⟩ := last (withRoot v none c (some s)) I1.hvNodup (by simp [par, hb1, hp])
      (I1.root hb1 hp).1
    refine ⟨_, s, _, l1, hup, hlast, fun y => ?_, l2, ?_, fun y hy _ => ?_⟩
    · split
      · next e => subst e; simp [par, hb1, hp]
      · rfl
    · show dget hv s = none
      rw [l2, if_pos rfl]
    · exact dget_dset_ne _ _ (Ne.symm hy)
  · rw [if_pos hsb]
    have hr := I1.retrieve_ok hup
    rw [List.reverse_reverse] at hr
    obtain ⟨ns, hns⟩ := hup.mem_keys s (by obtain ⟨r, hr⟩ := hup.head; rw [hr]; simp)
    have hsp : ∃ q, ns.parent = some q := by
      cases g2 with
      | start => exact absurd rfl hsb
      | next k1 k2 k3 =>
        obtain ⟨nc, k4, k5⟩ := I1.tree.down k2 k3.1
        rw [hns] at k4; cases k4; exact ⟨_, k5⟩
    obtain ⟨q, hsp⟩ := hsp
    obtain ⟨items, d, m1, m2⟩ := delta hns
    obtain ⟨t1, c1, c2⟩ := changeParent_cut I1.tree.toForest hns hsp
    obtain ⟨hv1, f1, f2, f3⟩ := noneEdge m2 c1 I1.hvNodup
    have ps : par t1 s = some none := by rw [c2, if_pos rfl]
    obtain ⟨ns1, k1, k2⟩ := Option.map_eq_some_iff.1 ps
    have again : (noneTree τ).changeParent t1 s none = (t1, none) := changeParent_root k1 k2
    have hsplit : addSplit (noneTree τ) tk (withRoot v none c (some b)) none c s path =
        (⟨hv1, dset (withRoot v none c (some b)).diffs s d, t1⟩, none) := by
      simp only [addSplit, hr, m1, f1, again]
    rw [hsplit]
    obtain ⟨hv, d', l1, l2⟩ := last ⟨hv1, dset (withRoot v none c (some b)).diffs s d, t1⟩ f2
      (by show par t1 b = _; rw [c2, if_neg (Ne.symm hsb)]; simp [par, hb1, hp])
      (by show dget hv1 b = _; rw [f3, if_neg (Ne.symm hsb)]; exact (I1.root hb1 hp).1)
    have hs0 := (I1.inner hns hsp).1
    refine ⟨_, s, _, l1, hup, hlast, c2, fun y => ?_, ?_, fun y hy hy' => ?_⟩
    · show dget hv y = _
      rw [l2, f3]
      split
      · rfl
      · split
        · next e => rw [e, hs0]
        · rfl
    · show dget hv s = none
      rw [l2, f3, if_neg hsb, if_pos rfl]
    · show dget (dset (dset v.diffs s d) b d') y = _
      rw [dget_dset_ne _ _ (Ne.symm hy'), dget_dset_ne _ _ (Ne.symm hy)]

/-- After `add(None, c, b)` every version whose path started at `b` cannot be read, all others can. -/
theorem StoreOK.get_noneTag (I : StoreOK L content v) {b : Option τ} {nb : TNode (Option τ)}
    {c : Bytes} (ht : dget v.tree none = none) (hb : dget v.tree b = some nb)
    (hp : nb.parent = none) (hc : Ok c) (hl : c.length < 2 ^ 64) :
    ∃ v', versionsAdd (noneTree τ) tk v none c (some b) = (v', none) ∧
      (∀ y, dmem v'.tree y = (dmem v.tree y || decide (y = none))) ∧
      ∀ {x l}, UpPath v.tree x l → versionsGet (noneTree τ) tk v' x =
        if l.getLast? = some b then .error .keyError else .ok (some (content x)) := by
  obtain ⟨I1, v', s, ls, e, hs, hsl, hpar, hhv, hs0, hdf⟩ := I.add_noneTag (L := L)
    (content' := fun y => if y = none then c else content y) ht hb hp hc hl (by simp)
    (fun y hy => by simp [hy])
  refine ⟨v', e, fun y => ?_, fun {x l} hx => ?_⟩
  · have h1 : dmem v'.tree y = (par v'.tree y).isSome := by simp [dmem, par]
    have h2 : dmem v.tree y = (par v.tree y).isSome := by simp [dmem, par]
    rw [h1, h2, hpar]
    have h3 : par (withRoot v none c (some b)).tree y = if none = y then some none else par v.tree y := by
      show par (mtAdd v.tree none (some b)) y = _
      unfold par; rw [dget_mtAdd]; split <;> rfl
    obtain ⟨ns, hns⟩ := hs.mem_keys s (by obtain ⟨r, hr⟩ := hs.head; rw [hr]; simp)
    by_cases hy : y = none
    · subst hy
      rw [h3]
      by_cases e : none = s
      · simp [e]
      · simp [e]
    · rw [if_neg (fun h => hy h.symm)] at h3
      rw [h3]
      by_cases hys : y = s
      · subst hys
        have : par v.tree y = some ns.parent := by
          rw [← h3]; simp [par, hns]
        simp [this]
      · simp [hy, hys]
  · have hxn : x ≠ none := by
      rintro rfl
      obtain ⟨n, hn⟩ := hx.mem_keys none (by obtain ⟨r, hr⟩ := hx.head; rw [hr]; simp)
      rw [ht] at hn; cases hn
    have hx1 : UpPath (withRoot v none c (some b)).tree x l := hx.transfer fun y hy => by
      show par (mtAdd v.tree none (some b)) y = par v.tree y
      obtain ⟨n, hn⟩ := hx.mem_keys y hy
      unfold par; rw [dget_mtAdd, if_neg (by rintro rfl; rw [ht] at hn; cases hn)]
    obtain ⟨l', k1, k2, k3⟩ := hx1.cut hpar
    obtain ⟨x', rfl⟩ : ∃ x', x = some x' := by cases x <;> simp_all
    have hpath : (noneTree τ).pathTo v'.tree (some x') = .ok (some l'.reverse) := pathTo_spec k1
    obtain ⟨r, hr, hr0⟩ := k1.last_root
    have hrev : ∃ rest, l'.reverse = r :: rest := by
      rw [List.getLast?_eq_head?_reverse] at hr
      cases h : l'.reverse with
      | nil => rw [h] at hr; cases hr
      | cons a rest => rw [h] at hr; cases hr; exact ⟨rest, rfl⟩
    obtain ⟨rest, hrev⟩ := hrev
    unfold versionsGet
    rw [hpath, hrev]
    dsimp only
    by_cases hlb : l.getLast? = some b
    · rw [if_pos hlb]
      have : dget v'.headVersion r = none := by
        by_cases hm : s ∈ l
        · rw [k3 hm] at hr; cases hr; exact hs0
        · rw [k2 hm, hlb] at hr; cases hr; rw [hhv, if_pos rfl]
      simp only [retrieveUsingPath, this]
    · rw [if_neg hlb]
      have hsl' : s ∉ l := fun hm => hlb (hx1.last_of_mem hm hs hsl)
      have hbl : b ∉ l := fun hm => hlb (hx.last_of_mem hm (.root hb hp) rfl)
      obtain rfl := k2 hsl'
      have hmem : ∀ y ∈ r :: rest, y ∈ l' := fun y hy => by
        rw [← hrev] at hy; simpa using hy
      have same : retrieveUsingPath tk v' (r :: rest) =
          retrieveUsingPath tk (withRoot v none c (some b)) (r :: rest) := by
        have e1 : dget v'.headVersion r = dget (withRoot v none c (some b)).headVersion r := by
          rw [hhv, if_neg (by rintro rfl; exact hbl (hmem _ (by simp)))]
        have e2 : ∀ (st : S) (acc : List Tok), retrieveLoop tk v'.diffs st acc rest =
            retrieveLoop tk (withRoot v none c (some b)).diffs st acc rest := fun st acc =>
          retrieveLoop_congr rest st acc fun z hz => hdf z
            (by rintro rfl; exact hsl' (hmem _ (by simp [hz])))
            (by rintro rfl; exact hbl (hmem _ (by simp [hz])))
        simp only [retrieveUsingPath, e1, e2]
      have hg := I1.retrieve_ok hx1
      rw [hrev] at hg
      rw [same, hg]
      simp

end Gaspra
