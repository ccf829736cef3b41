import Verif.Proofs.NoneTag
import Verif.Spec.NoneTag
import Verif.Props.Depth

set_option linter.unusedSectionVars false
set_option linter.unusedVariables false

/-!
# C112: `None` as a tag

`None` is hashable, so the types allow it as a tag.  It is not one: a version with the tag `None`
cannot be read, and adding one on top of another version makes all versions of that line unreadable
in a store over a `MemoryTree`, without an exception.
-/

namespace Gaspra

variable {τ : Type} [DecidableEq τ]

/-- Without `None`, or with `None` only as the tag of a version without a base, `add` does the same
as for any other tags. -/
theorem noneAdd_eq {Tok S : Type} [DecidableEq Tok] (tk : TokOps Tok S)
    (v : Versions (Option τ) (MTree (Option τ))) {a : NAdd τ} (ha : a.tag = none → a.base = none) :
    noneAdd tk v a = versionsAdd (memoryTree (Option τ)) tk v a.op.tag a.op.content a.op.base := by
  obtain ⟨tag, c, base⟩ := a
  cases tag with
  | none => obtain rfl : base = none := ha rfl; rfl
  | some x => rfl

theorem noneStore_eq {h : List (NAdd τ)} (hn : ∀ a ∈ h, a.tag = none → a.base = none) :
    noneStore h = storeAfter (h.map NAdd.op) := by
  unfold noneStore storeAfter runHistory
  rw [List.foldl_map]
  generalize emptyVersions (Option τ) = v
  induction h generalizing v with
  | nil => rfl
  | cons a h ih =>
    rw [List.foldl_cons, List.foldl_cons, noneAdd_eq _ _ (hn a (by simp))]
    exact ih (fun a ha => hn a (by simp [ha])) _

/-- C112.  In a documented history over a `MemoryTree` a version without a base may have the tag
`None`.  No call raises, all other versions are read back, and the tag `None` is known.  But reading
it returns `None`, as for an unknown tag. -/
theorem C112_memory_root {h : List (NAdd τ)} (G : GoodHistory (h.map NAdd.op))
    (hc : ContentsFit (h.map NAdd.op)) (hn : ∀ a ∈ h, a.tag = none → a.base = none) :
    (∀ {h₁ a h₂}, h = h₁ ++ a :: h₂ → (noneAdd nullTok (noneStore h₁) a).2 = none) ∧
    (∀ a ∈ h, versionsContains (noneTree τ) (noneStore h) a.tag = true) ∧
    (∀ a ∈ h, a.tag ≠ none →
      versionsGet (noneTree τ) nullTok (noneStore h) a.tag = .ok (some a.content)) ∧
    versionsGet (noneTree τ) nullTok (noneStore h) none = .ok none := by
  refine ⟨fun {h₁ a h₂} e => ?_, fun a ha => ?_, fun a ha ht => ?_, rfl⟩
  · subst e
    rw [noneAdd_eq _ _ (hn a (by simp)), noneStore_eq fun a ha => hn a (by simp [ha])]
    have := @(C27_get_exact G hc).1 (h₁.map NAdd.op) a.op (h₂.map NAdd.op) (by simp)
    exact this
  · rw [noneStore_eq hn]
    refine ((C28_membership G.fresh hc a.tag).1).2 ?_
    exact List.mem_map.2 ⟨a.op, List.mem_map.2 ⟨a, ha, rfl⟩, rfl⟩
  · have := (C27_get_exact G hc).2 a.op (List.mem_map.2 ⟨a, ha, rfl⟩)
    rw [noneStore_eq hn]
    refine Eq.trans ?_ this
    obtain ⟨tag, c, base⟩ := a
    cases tag with
    | none => exact absurd rfl ht
    | some x => rfl

/-- C112.  `add(None, c, b)` for a head `b` of a documented history without `None`, over a
`MemoryTree`: there is no exception, but from then on reading any version of the line of `b` raises a
`KeyError`, and the new version is not readable either.  The versions of the other lines are read
back. -/
theorem C112_memory_line_lost {h : List (NAdd τ)} (G : GoodHistory (h.map NAdd.op))
    (hc : ContentsFit (h.map NAdd.op)) (hn : ∀ a ∈ h, a.tag ≠ none) {b : τ} {l : List (Option τ)}
    (hb : IsHead (h.map NAdd.op) (some b)) (hl : BaseLine (h.map NAdd.op) (some b) l) {c : Bytes}
    (hcl : c.length < 2 ^ 64) :
    ∃ v', noneAdd nullTok (noneStore h) ⟨none, c, some b⟩ = (v', none) ∧
      (∀ t, versionsContains (noneTree τ) v' t = true ↔ t = none ∨ ∃ a ∈ h, a.tag = t) ∧
      versionsGet (noneTree τ) nullTok v' none = .ok none ∧
      ∀ a ∈ h, versionsGet (noneTree τ) nullTok v' a.tag =
        if a.tag ∈ l then .error .keyError else .ok (some a.content) := by
  have H := historyOK G.fresh hc
  have tags : ∀ {t}, t ∈ addedTags (h.map NAdd.op) ↔ ∃ a ∈ h, a.tag = t := by
    intro t
    simp only [addedTags, List.map_map, List.mem_map, Function.comp, NAdd.op]
  have hnone : dget (storeAfter (h.map NAdd.op)).tree none = none := by
    cases e : dget (storeAfter (h.map NAdd.op)).tree none with
    | none => rfl
    | some nd =>
      obtain ⟨a, ha, e⟩ := tags.1 (H.dget_some.1 ⟨nd, e⟩)
      exact absurd e (hn a ha)
  have hbh := G.heads.2.2 hb
  obtain ⟨nb, hnb⟩ := H.dget_some.2 (H.headsAdded hbh)
  have hbp := (H.heads hnb).2 hbh
  obtain ⟨v', e, hmem, hget⟩ := H.store.get_noneTag hnone hnb hbp (c := c) trivial hcl
  refine ⟨v', ?_, fun t => ?_, rfl, fun a ha => ?_⟩
  · rw [noneStore_eq fun a ha e => absurd e (hn a ha)]
    exact e
  · show dmem v'.tree t = true ↔ _
    rw [hmem, Bool.or_eq_true, decide_eq_true_iff]
    have : dmem (storeAfter (h.map NAdd.op)).tree t = true ↔ t ∈ addedTags (h.map NAdd.op) :=
      (C28_membership G.fresh hc t).1
    rw [this, tags]
    exact Or.comm
  · obtain ⟨nd, hnd⟩ := H.dget_some.2 (tags.2 ⟨a, ha, rfl⟩)
    obtain ⟨u, hu⟩ := H.store.tree.acyc hnd
    have hp := pathTo_spec hu
    have first : ∀ {t p}, mtPathTo (storeAfter (h.map NAdd.op)).tree a.tag = .ok (some (t :: p)) →
        u.getLast? = some t := by
      intro t p e
      rw [hp] at e
      rw [List.getLast?_eq_head?_reverse, Option.some.inj (Except.ok.inj e)]
      rfl
    have key : u.getLast? = some (some b) ↔ a.tag ∈ l := by
      constructor
      · intro hlast
        obtain ⟨t, l', p, k1, k2, k3, k4⟩ := C51_lines G hc (tags.2 ⟨a, ha, rfl⟩)
        have := first k4
        rw [hlast] at this
        cases this
        have : l' = l := BaseLine.unique G.fresh.nodup k2 hl
        exact this ▸ k3
      · intro hm
        obtain ⟨N, _, _, k, _⟩ := C51_depth G hc hb hl
        obtain ⟨p, k1, _⟩ := k _ hm
        exact first k1
    have hcont : contentOf (h.map NAdd.op) a.tag = a.content :=
      contentOf_mem G.fresh.nodup (List.mem_map.2 ⟨a, ha, rfl⟩)
    rw [hget hu, hcont]
    by_cases hm : a.tag ∈ l
    · rw [if_pos hm, if_pos (key.2 hm)]
    · rw [if_neg hm, if_neg fun e => hm (key.1 e)]

/-- C112.  The path to the tag `None` is empty in any `MemoryTree`, whether `None` was added or not,
while there is no path to other tags that were not added. -/
theorem C112_memory_path (t : MTree (Option τ)) :
    (noneTree τ).pathTo t none = .ok (some []) ∧
    ∀ x, (noneTree τ).contains t (some x) = false → (noneTree τ).pathTo t (some x) = .ok none := by
  refine ⟨rfl, fun x hx => ?_⟩
  have hn : dget t (some x) = none := by
    have : (dget t (some x)).isSome = false := hx
    simpa using this
  show mtPathTo t (some x) = .ok none
  simp [mtPathTo, mtPathLoop, hn]

/-- The sample history with its tags wrapped. -/
def noneSample : List (NAdd Nat) :=
  [⟨some 0, [1, 2, 3], none⟩, ⟨some 1, [1, 2, 3, 4], some 0⟩, ⟨some 2, [1, 9, 3, 4], some 1⟩,
   ⟨some 10, [], none⟩, ⟨some 3, [1, 9, 9, 4], some 2⟩, ⟨some 4, [7, 1, 9, 9, 4], some 3⟩]

theorem noneSample_good : GoodHistory (noneSample.map NAdd.op) := by
  have d : ∀ {h : List (AddOp (Option Nat))} {a : AddOp (Option Nat)}, GoodHistory h →
      a.tag ∉ addedTags h → (∀ b, a.base = some b → IsHead h b) → GoodHistory (h ++ [a]) :=
    fun h1 h2 h3 => .snoc h1 h2 h3
  refine d (h := [_, _, _, _, _]) (d (h := [_, _, _, _]) (d (h := [_, _, _]) (d (h := [_, _])
    (d (h := [_]) (d (h := []) .nil ?_ ?_) ?_ ?_) ?_ ?_) ?_ ?_) ?_ ?_) ?_ ?_
  all_goals first
    | (simp [addedTags, NAdd.op]; done)
    | (intro b hb; simp [NAdd.op] at hb; try subst hb; simp [IsHead, addedTags, NAdd.op])

/-- Adding `None` on top of 4 loses 0, …, 4; the version 10 of the other line remains. -/
example :
    let r := noneAdd nullTok (noneStore noneSample) ⟨none, [1, 2], some 4⟩
    r.2 = none ∧ (noneSample.map fun a => versionsGet (noneTree Nat) nullTok r.1 a.tag) =
      noneSample.map (fun a => if a.tag = some 10 then .ok (some a.content) else .error .keyError) := by
  decide +kernel

/-! ### `DBTree` -/

/-- The row that `INSERT` adds for the tag `None`. -/
def nullRow (base : Option (Option τ)) : GRow (Option τ) :=
  { tag := none, parent := none, parentRid := none, child0 := none, child1 := none,
    height := 1, size := 1, baseVersion := base }

/-- C112.  Over a `DBTree` `add(None, c, b)` always raises, for any store and any `b`.  Of the table
`graph` nothing changes except that it has one more row, in which the tag is `NULL`. -/
theorem C112_db_base {Tok S : Type} [DecidableEq Tok] (tk : TokOps Tok S)
    (v : Versions (Option τ) (Graph (Option τ))) (c : Bytes) (b : τ) :
    (nullAdd tk v ⟨none, c, some b⟩).2 ≠ none ∧
      (nullAdd tk v ⟨none, c, some b⟩).1.tree = v.tree ++ [nullRow (some (some b))] := by
  have edge : ∀ (v : Versions (Option τ) (Graph (Option τ))) (y : Option τ)
      (items : List (PatchItem UInt8)), (addEdge (nullTree τ) v none y items).2 ≠ none ∧
      (addEdge (nullTree τ) v none y items).1.tree = v.tree := by
    intro v y items
    unfold addEdge
    cases serializeChangeset items with
    | error e => simp
    | ok d =>
      have : ∀ g, (nullTree τ).changeParent g y none = (g, some .typeError) := by
        intro g; cases y <;> rfl
      simp [this]
  have old : ∀ (v : Versions (Option τ) (Graph (Option τ))) (y : Option τ),
      (addOldHead (nullTree τ) tk v none c y).2 ≠ none ∧
      (addOldHead (nullTree τ) tk v none c y).1.tree = v.tree := by
    intro v y
    unfold addOldHead
    cases dget v.headVersion y with
    | none => simp
    | some t =>
      dsimp only
      cases makeChangeset tk c t with
      | error e => simp
      | ok cs => exact edge v y cs
  have split : ∀ (v : Versions (Option τ) (Graph (Option τ))) (y : Option τ) (path : List (Option τ)),
      (addSplit (nullTree τ) tk v none c y path).2 ≠ none ∧
      (addSplit (nullTree τ) tk v none c y path).1.tree = v.tree := by
    intro v y path
    unfold addSplit
    cases retrieveUsingPath tk v path with
    | error e => simp
    | ok t =>
      dsimp only
      cases makeChangeset tk c t with
      | error e => simp
      | ok cs =>
        have h := edge v y cs
        cases hr : addEdge (nullTree τ) v none y cs with
        | mk w e =>
          rw [hr] at h
          cases e with
          | none => exact absurd rfl h.1
          | some e => simpa [hr] using h.2
  have main : ∀ (v : Versions (Option τ) (Graph (Option τ))),
      (addToHead (nullTree τ) tk v none c (some b)).2 ≠ none ∧
      (addToHead (nullTree τ) tk v none c (some b)).1.tree = v.tree := by
    intro v
    unfold addToHead
    cases (nullTree τ).getSplit v.tree (some b) with
    | error e => simp
    | ok sp =>
      obtain ⟨s, path⟩ := sp
      dsimp only
      split
      · have h := split v s path
        cases hr : addSplit (nullTree τ) tk v none c s path with
        | mk w e =>
          rw [hr] at h
          cases e with
          | none => exact absurd rfl h.1
          | some e => simpa [hr] using h.2
      · exact old v _
  exact main _

theorem findIdx_append_row {g : Graph (Option τ)} {x : τ} (base : Option (Option τ)) :
    selectTag (g ++ [nullRow base]) (some x) = selectTag g (some x) := by
  unfold selectTag
  rw [List.findIdx?_append]
  cases h : g.findIdx? (fun r => r.tag = some x) with
  | some i =>
    have hi : i < g.length := (List.findIdx?_eq_some_iff_getElem.1 h).1
    have e : (g ++ [nullRow base])[i]? = g[i]? := List.getElem?_append_left hi
    simp [e]
  | none => simp [nullRow]

theorem rowAt_append {g : Graph (Option τ)} {p : Nat} {q : GRow (Option τ)} (row : GRow (Option τ))
    (h : rowAt g p = some q) : rowAt (g ++ [row]) p = some q := by
  cases p with
  | zero => cases h
  | succ p =>
    have hp : p < g.length := (List.getElem?_eq_some_iff.1 h).1
    show (g ++ [row])[p]? = some q
    rw [List.getElem?_append_left hp]
    exact h

theorem rowAt_in {g : Graph (Option τ)} {p : Nat} {q : GRow (Option τ)}
    (h : rowAt g p = some q) : q ∈ g := by
  cases p with
  | zero => cases h
  | succ p => exact List.mem_of_getElem? h

theorem walkUp_append {g : Graph (Option τ)} (K : ParentsKnown g) (row : GRow (Option τ)) :
    ∀ {f f' : Nat} {rid : Option Nat} {l : List (Option τ)}, f ≤ f' →
      (∀ p, rid = some p → ∃ q, rowAt g p = some q ∧ q.tag ≠ none) → dbWalkUp g f rid = .ok l →
      dbWalkUp (g ++ [row]) f' rid = .ok l ∧ none ∉ l
  | f, f', none, l, _, _, h => by
    have e : ∀ (g : Graph (Option τ)) f, dbWalkUp g f none = .ok [] := by
      intro g f; cases f <;> rfl
    rw [e] at h
    cases h
    exact ⟨e _ _, by simp⟩
  | 0, _, some p, l, _, _, h => by cases h
  | f + 1, 0, some p, l, hf, _, _ => by omega
  | f + 1, f' + 1, some p, l, hf, hp, h => by
    obtain ⟨q, e1, hq⟩ := hp p rfl
    simp only [dbWalkUp, e1] at h
    simp only [dbWalkUp, rowAt_append row e1]
    cases h3 : dbWalkUp g f q.parentRid with
    | error e => rw [h3] at h; cases h
    | ok l' =>
      rw [h3] at h
      obtain ⟨k1, k2⟩ := walkUp_append K row (Nat.le_of_succ_le_succ hf) (K q (rowAt_in e1)) h3
      rw [k1]
      refine ⟨h, ?_⟩
      cases h
      simp only [List.mem_cons, not_or]
      exact ⟨fun e => hq e.symm, k2⟩

theorem selectTag_row {g : Graph (Option τ)} {x : Option τ} {i : Nat} {r : GRow (Option τ)}
    (h : selectTag g x = some (i, r)) : r ∈ g ∧ r.tag = x := by
  unfold selectTag at h
  split at h
  · cases h
  · next j hj =>
    obtain ⟨q, e1, e2⟩ := Option.map_eq_some_iff.1 h
    cases e2
    obtain ⟨k1, k2, _⟩ := List.findIdx?_eq_some_iff_getElem.1 hj
    rw [List.getElem?_eq_getElem k1] at e1
    cases e1
    exact ⟨List.getElem_mem k1, by simpa using k2⟩

theorem pathTo_append {g : Graph (Option τ)} (K : ParentsKnown g) (base : Option (Option τ)) {x : τ}
    {l : List (Option τ)} (h : dbPathTo g (some x) = .ok (some l)) :
    dbPathTo (g ++ [nullRow base]) (some x) = .ok (some l) ∧ none ∉ l := by
  unfold dbPathTo dbReversePathTo at h ⊢
  rw [findIdx_append_row]
  cases hs : selectTag g (some x) with
  | none => rw [hs] at h; cases h; simp
  | some ir =>
    obtain ⟨i, r⟩ := ir
    rw [hs] at h
    dsimp only at h ⊢
    cases hw : dbWalkUp g g.length r.parentRid with
    | error e => rw [hw] at h; cases h
    | ok l' =>
      rw [hw] at h
      obtain ⟨hr, ht⟩ := selectTag_row hs
      obtain ⟨k1, k2⟩ := walkUp_append K (nullRow base) (f' := (g ++ [nullRow base]).length)
        (by simp) (K r hr) hw
      rw [k1]
      refine ⟨h, ?_⟩
      cases h
      simp [k2, ht]

/-- C112.  Over a `DBTree` `add(None, c)` succeeds any number of times, but `None` is not among the
known tags then and reading it returns `None`.  What is known of other tags and what they read as
remains. -/
theorem C112_db_root {Tok S : Type} [DecidableEq Tok] (tk : TokOps Tok S)
    (v : Versions (Option τ) (Graph (Option τ))) (K : ParentsKnown v.tree) (c : Bytes) :
    ∃ v', nullAdd tk v ⟨none, c, none⟩ = (v', none) ∧ v'.tree = v.tree ++ [nullRow none] ∧
      ParentsKnown v'.tree ∧
      versionsContains (nullTree τ) v' none = false ∧
      versionsGet (nullTree τ) tk v' none = .ok none ∧
      ∀ x : τ, versionsContains (nullTree τ) v' (some x) =
          versionsContains (nullTree τ) v (some x) ∧
        ∀ r, versionsGet (nullTree τ) tk v (some x) = .ok r →
          versionsGet (nullTree τ) tk v' (some x) = .ok r := by
  refine ⟨⟨dset v.headVersion none c, v.diffs, v.tree ++ [nullRow none]⟩, rfl, rfl, ?_, rfl, rfl,
    fun x => ⟨?_, fun r h => ?_⟩⟩
  · intro r hr p hp
    rcases List.mem_append.1 hr with hr | hr
    · obtain ⟨q, k1, k2⟩ := K r hr p hp
      exact ⟨q, rowAt_append _ k1, k2⟩
    · obtain rfl := List.mem_singleton.1 hr
      cases hp
  · show (selectTag (v.tree ++ [nullRow none]) (some x)).isSome = (selectTag v.tree (some x)).isSome
    rw [findIdx_append_row]
  · have hpt : ∀ g, (nullTree τ).pathTo g (some x) = dbPathTo g (some x) := fun _ => rfl
    unfold versionsGet at h ⊢
    rw [hpt] at h ⊢
    cases hg : dbPathTo v.tree (some x) with
    | error e => rw [hg] at h; cases h
    | ok o =>
      cases o with
      | none =>
        exfalso
        unfold dbPathTo dbReversePathTo at hg
        cases hs : selectTag v.tree (some x) with
        | none => rw [hs] at hg; cases hg
        | some ir =>
          rw [hs] at hg
          dsimp only at hg
          cases hw : dbWalkUp v.tree v.tree.length ir.2.parentRid with
          | error e => rw [hw] at hg; cases hg
          | ok l' => rw [hw] at hg; cases hg
      | some l =>
        obtain ⟨k1, k2⟩ := pathTo_append K none hg
        rw [hg] at h
        rw [k1]
        cases l with
        | nil => exact h
        | cons a l =>
          have ha : a ≠ none := fun e => k2 (by simp [e])
          have e1 : dget (dset v.headVersion none c) a = dget v.headVersion a :=
            dget_dset_ne _ _ (Ne.symm ha)
          dsimp only at h ⊢
          simp only [retrieveUsingPath, e1] at h ⊢
          exact h

/-- C112.  When `add(None, c, b)` raises over a `DBTree`, the stored changes of an older version may
already be replaced, so that it reads as something else afterwards. -/
theorem C112_db_damage : ∃ (h : List (NAdd Nat)) (c : Bytes) (b : Nat), (∀ a ∈ h, a.tag ≠ none) ∧
    GoodHistory (h.map NAdd.op) ∧
    ∃ a ∈ h, versionsGet (nullTree Nat) nullTok (nullStore h) a.tag = .ok (some a.content) ∧
      ∃ t, versionsGet (nullTree Nat) nullTok (nullAdd nullTok (nullStore h) ⟨none, c, some b⟩).1
        a.tag = .ok (some t) ∧ t ≠ a.content := by
  refine ⟨noneSample, [1, 2], 4, by decide, noneSample_good, ⟨some 1, [1, 2, 3, 4], some 0⟩,
    by decide, by decide +kernel, [7, 2, 3, 4], by decide +kernel, by decide⟩

/-- All calls of the sample succeed over a `DBTree`; the one with `None` raises a `TypeError`, and
after it the versions 1 and 3 read as something else. -/
example :
    let r := nullAdd nullTok (nullStore noneSample) ⟨none, [1, 2], some 4⟩
    r.2 = some .typeError ∧ ParentsKnown (nullStore noneSample).tree ∧
    (noneSample.filter fun a =>
      versionsGet (nullTree Nat) nullTok r.1 a.tag ≠ .ok (some a.content)).map NAdd.tag =
        [some 1, some 3] := by
  refine ⟨by decide +kernel, ?_, by decide +kernel⟩
  have : ∀ r ∈ (nullStore noneSample).tree, ∀ p ∈ r.parentRid.toList,
      ((rowAt (nullStore noneSample).tree p).any fun q => decide (q.tag ≠ none)) = true := by
    decide +kernel
  intro r hr p hp
  have h := this r hr p (by simp [hp])
  cases hq : rowAt (nullStore noneSample).tree p with
  | none => rw [hq] at h; cases h
  | some q => rw [hq] at h; exact ⟨q, rfl, by simpa using h⟩

/-- Two versions without a base may both have the tag `None` over a `DBTree`; over a `MemoryTree` one
may. -/
example : (nullAdd nullTok (nullStore (noneSample ++ [⟨none, [5], none⟩])) ⟨none, [6], none⟩).2 = none ∧
    versionsGet (noneTree Nat) nullTok (noneStore (noneSample ++ [⟨none, [5], none⟩])) none =
      .ok none ∧
    versionsContains (noneTree Nat) (noneStore (noneSample ++ [⟨none, [5], none⟩])) none = true := by
  decide +kernel

end Gaspra
