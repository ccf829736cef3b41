import Verif.Proofs.History

set_option linter.unusedSectionVars false
set_option linter.unusedVariables false

/-!
# C27 – C35: the version store and its tree

A history is the list of `add` calls in chronological order.  `GoodHistory` are the documented
ones (new tag, no base or a current head as base), `FreshHistory` also contains calls with an
arbitrary base other than the new tag itself.  The bound `2 ^ 64` is the limit of `struct` 'Q'
in the serialization of a delta (C25).
-/

namespace Gaspra

variable {τ : Type _} [DecidableEq τ]

/-- The store after a history, with the default tree and the default tokenizer. -/
abbrev storeAfter (h : List (AddOp τ)) : Versions τ (MTree τ) :=
  runHistory (memoryTree τ) nullTok (emptyVersions τ) h

/-- Every content can be serialized. -/
def ContentsFit (h : List (AddOp τ)) : Prop := ∀ a ∈ h, a.content.length < 2 ^ 64

theorem historyOK {h : List (AddOp τ)} (F : FreshHistory h) (hc : ContentsFit h) :
    HistoryOK nullLawful h (storeAfter h) :=
  F.ok nullLawful fun a ha => ⟨trivial, hc a ha⟩

theorem ContentsFit.left {h h' : List (AddOp τ)} (hc : ContentsFit (h ++ h')) : ContentsFit h :=
  fun a ha => hc a (by simp [ha])

/-- A history used in the examples: two roots, a chain of five on the first one. -/
def sampleHistory : List (AddOp Nat) :=
  [⟨0, [1, 2, 3], none⟩, ⟨1, [1, 2, 3, 4], some 0⟩, ⟨2, [1, 9, 3, 4], some 1⟩,
   ⟨10, [], none⟩, ⟨3, [1, 9, 9, 4], some 2⟩, ⟨4, [7, 1, 9, 9, 4], some 3⟩]

theorem sampleHistory_good : GoodHistory sampleHistory := by
  have d : ∀ {h : List (AddOp Nat)} {a : AddOp Nat}, GoodHistory h → a.tag ∉ addedTags h →
      (∀ b, a.base = some b → IsHead h b) → GoodHistory (h ++ [a]) := fun h1 h2 h3 => .snoc h1 h2 h3
  refine d (h := [_, _, _, _, _]) (d (h := [_, _, _, _]) (d (h := [_, _, _]) (d (h := [_, _])
    (d (h := [_]) (d (h := []) .nil ?_ ?_) ?_ ?_) ?_ ?_) ?_ ?_) ?_ ?_) ?_ ?_
  all_goals first
    | (simp [addedTags]; done)
    | (intro b hb; simp at hb; try subst hb; simp [IsHead, addedTags])

theorem sampleHistory_fit : ContentsFit sampleHistory := by
  intro a ha
  simp [sampleHistory] at ha
  rcases ha with rfl | rfl | rfl | rfl | rfl | rfl <;> decide

/-- C27.  Every call of a documented history succeeds and afterwards every version is retrieved
exactly. -/
theorem C27_get_exact {h : List (AddOp τ)} (G : GoodHistory h) (hc : ContentsFit h) :
    (∀ {h₁ a h₂}, h = h₁ ++ a :: h₂ →
      (versionsAdd (memoryTree τ) nullTok (storeAfter h₁) a.tag a.content a.base).2 = none) ∧
    ∀ a ∈ h, versionsGet (memoryTree τ) nullTok (storeAfter h) a.tag = .ok (some a.content) := by
  constructor
  · -- a prefix of a documented history is one
    have pre : ∀ {h : List (AddOp τ)}, GoodHistory h → ∀ {h₁ a h₂}, h = h₁ ++ a :: h₂ →
        GoodHistory (h₁ ++ [a]) := by
      intro h G
      induction G with
      | nil => intro h₁ a h₂ e; simp at e
      | @snoc h a' G h1 h2 ih =>
        intro h₁ a h₂ e
        rcases List.eq_nil_or_concat h₂ with rfl | ⟨h₃, o, rfl⟩
        · obtain ⟨rfl, e2⟩ := List.append_inj' e rfl
          simp at e2; subst e2
          exact .snoc G h1 h2
        · rw [List.concat_eq_append, ← List.cons_append, ← List.append_assoc] at e
          exact ih (List.append_inj' e rfl).1
    intro h₁ a h₂ e
    have G' := pre G e
    have hc' : ContentsFit (h₁ ++ [a]) := by
      subst e; intro o ho; exact hc o (by simp at ho ⊢; rcases ho with h | h <;> simp [h])
    generalize hh : h₁ ++ [a] = hx at G'
    cases G' with
    | nil => simp at hh
    | @snoc h0 a0 G0 k1 k2 =>
      obtain ⟨rfl, e2⟩ := List.append_inj' hh rfl
      simp at e2; subst e2
      have := ((historyOK G0.fresh hc'.left).step k1 (fun e => k1 (k2 _ e).1) trivial
        (hc' a (by simp))).2
      rw [this]
      cases hb : a.base with
      | none => rfl
      | some b => simp [G0.heads.2.2 (k2 b hb)]
  · intro a ha
    have H := historyOK G.fresh hc
    obtain ⟨nd, hnd⟩ := H.dget_some.2 (List.mem_map.2 ⟨a, ha, rfl⟩)
    rw [H.store.get_ok hnd, contentOf_mem G.fresh.nodup ha]

example : (sampleHistory.map fun a =>
    versionsGet (memoryTree Nat) nullTok (storeAfter sampleHistory) a.tag) =
    sampleHistory.map fun a => .ok (some a.content) := by decide +kernel

/-- C28.  `in`, `get` and `version_info` know exactly the added tags. -/
theorem C28_membership {h : List (AddOp τ)} (F : FreshHistory h) (hc : ContentsFit h) (t : τ) :
    (versionsContains (memoryTree τ) (storeAfter h) t = true ↔ t ∈ addedTags h) ∧
    (versionsGet (memoryTree τ) nullTok (storeAfter h) t = .ok none ↔ t ∉ addedTags h) ∧
    (versionInfo (memoryTree τ) (storeAfter h) t = .ok none ↔ t ∉ addedTags h) := by
  have H := historyOK F hc
  refine ⟨?_, ?_, ?_⟩
  · rw [← H.dget_some]
    show dmem (storeAfter h).tree t = true ↔ _
    simp [dmem, Option.isSome_iff_exists]
  · rw [← H.dget_none]
    constructor
    · intro e
      cases hd : dget (storeAfter h).tree t with
      | none => rfl
      | some nd => rw [H.store.get_ok hd] at e; simp at e
    · intro e; exact H.store.get_none e
  · rw [← H.dget_none]
    constructor
    · intro e
      cases hd : dget (storeAfter h).tree t with
      | none => rfl
      | some nd =>
        have hb : (memoryTree τ).baseVersion (storeAfter h).tree t = .ok nd.baseVersion := by
          simp [memoryTree, mtBaseVersion, hd]
        cases hp : nd.parent with
        | none =>
          obtain ⟨h1, h2⟩ := H.store.root hd hp
          simp [versionInfo, h1, h2, hb] at e
        | some p =>
          obtain ⟨h1, d, h2, items, h3, _⟩ := H.store.inner hd hp
          simp [versionInfo, h2, h3, hb] at e
    · intro e
      obtain ⟨h1, h2⟩ := H.store.absent e
      simp [versionInfo, h1, h2]

example : versionsContains (memoryTree Nat) (storeAfter sampleHistory) 10 = true ∧
    versionsContains (memoryTree Nat) (storeAfter sampleHistory) 5 = false ∧
    versionInfo (memoryTree Nat) (storeAfter sampleHistory) 5 = .ok none := by decide +kernel

/-- C29.  Exactly the heads are stored verbatim and exactly the other added tags as a delta; no
tag occurs twice, so the number of entries is the number of versions. -/
theorem C29_storage {h : List (AddOp τ)} (G : GoodHistory h) (hc : ContentsFit h) :
    (∀ t c, (t, c) ∈ (storeAfter h).headVersion ↔
      IsHead h t ∧ ∃ a ∈ h, a.tag = t ∧ a.content = c) ∧
    (∀ t, t ∈ (storeAfter h).diffs.map Prod.fst ↔ t ∈ addedTags h ∧ ¬ IsHead h t) ∧
    ((storeAfter h).headVersion.map Prod.fst).Nodup ∧ ((storeAfter h).diffs.map Prod.fst).Nodup := by
  have H := historyOK G.fresh hc
  have I := H.store
  refine ⟨?_, ?_, I.hvNodup, I.dfNodup⟩
  · intro t c
    have key : (t, c) ∈ (storeAfter h).headVersion ↔ dget (storeAfter h).headVersion t = some c :=
      ⟨dget_of_mem I.hvNodup, mem_of_dget⟩
    rw [key]
    constructor
    · intro e
      cases hd : dget (storeAfter h).tree t with
      | none => rw [(I.absent hd).1] at e; cases e
      | some nd =>
        cases hp : nd.parent with
        | some p => rw [(I.inner hd hp).1] at e; cases e
        | none =>
          rw [(I.root hd hp).1] at e
          cases e
          refine ⟨G.heads.2.1 ((H.heads hd).1 hp), ?_⟩
          obtain ⟨a, ha, rfl⟩ := List.mem_map.1 (H.dget_some.1 ⟨nd, hd⟩)
          exact ⟨a, ha, rfl, (contentOf_mem G.fresh.nodup ha).symm⟩
    · rintro ⟨h1, a, ha, rfl, rfl⟩
      obtain ⟨nd, hd⟩ := H.dget_some.2 h1.1
      have hp := (H.heads hd).2 (G.heads.2.2 h1)
      rw [(I.root hd hp).1, contentOf_mem G.fresh.nodup ha]
  · intro t
    rw [← dget_isSome_iff]
    constructor
    · rintro ⟨d, e⟩
      cases hd : dget (storeAfter h).tree t with
      | none => rw [(I.absent hd).2] at e; cases e
      | some nd =>
        refine ⟨H.dget_some.1 ⟨nd, hd⟩, fun hh => ?_⟩
        have hp := (H.heads hd).2 (G.heads.2.2 hh)
        rw [(I.root hd hp).2] at e; cases e
    · rintro ⟨h1, h2⟩
      obtain ⟨nd, hd⟩ := H.dget_some.2 h1
      cases hp : nd.parent with
      | none => exact absurd (G.heads.2.1 ((H.heads hd).1 hp)) h2
      | some p =>
        obtain ⟨_, d, h3, _⟩ := I.inner hd hp
        exact ⟨d, h3⟩

example : (storeAfter sampleHistory).headVersion = [(10, []), (4, [7, 1, 9, 9, 4])] ∧
    (storeAfter sampleHistory).diffs.map Prod.fst = [0, 1, 2, 3] := by decide +kernel

/-- C30.  `version_info` reports the base given in the call; for a head the content length and no
changes; for the others the counts of the stored delta, whose literal bytes are never more than
the version has. -/
theorem C30_version_info {h : List (AddOp τ)} (G : GoodHistory h) (hc : ContentsFit h)
    {a : AddOp τ} (ha : a ∈ h) :
    ∃ n k, versionInfo (memoryTree τ) (storeAfter h) a.tag = .ok (some ⟨a.base, n, k⟩) ∧
      (IsHead h a.tag → n = a.content.length ∧ k = 0) ∧
      (¬ IsHead h a.tag → ∃ d items, (a.tag, d) ∈ (storeAfter h).diffs ∧
        deserializeChangeset d = (items, none) ∧
        n = ((items.map fun c => match c with | .piece p => p.length | .slice _ => 0).sum) ∧
        k = items.length) ∧
      n ≤ a.content.length := by
  have H := historyOK G.fresh hc
  have I := H.store
  obtain ⟨i, hi⟩ := List.mem_iff_getElem?.1 ha
  obtain ⟨nd, hd, hbv, _⟩ := H.base hi
  have hb : (memoryTree τ).baseVersion (storeAfter h).tree a.tag = .ok a.base := by
    simp [memoryTree, mtBaseVersion, hd, hbv]
  have hco := contentOf_mem G.fresh.nodup ha
  cases hp : nd.parent with
  | none =>
    obtain ⟨h1, h2⟩ := I.root hd hp
    rw [hco] at h1
    have hh : IsHead h a.tag := G.heads.2.1 ((H.heads hd).1 hp)
    exact ⟨a.content.length, 0, by simp [versionInfo, h1, h2, hb], fun _ => ⟨rfl, rfl⟩,
      fun hn => absurd hh hn, Nat.le_refl _⟩
  | some p =>
    obtain ⟨h1, d, h2, items, h3, h4, _⟩ := I.inner hd hp
    have hh : ¬ IsHead h a.tag := fun e => by
      have := (H.heads hd).2 (G.heads.2.2 e); rw [hp] at this; cases this
    have hl := DeltaOK.literal_le nullLawful trivial h4
    rw [hco] at hl
    have hsum : ∀ items : List (PatchItem UInt8), literalCount items =
        (items.map fun c => match c with | .piece p => p.length | .slice _ => 0).sum := by
      intro items
      induction items with
      | nil => rfl
      | cons c r ih => cases c <;> simp [literalCount, ih]
    exact ⟨literalCount items, items.length, by simp [versionInfo, h2, h3, hb],
      fun e => absurd e hh, fun _ => ⟨d, items, mem_of_dget h2, h3, hsum items, rfl⟩, hl⟩

example : versionInfo (memoryTree Nat) (storeAfter sampleHistory) 4 = .ok (some ⟨some 3, 5, 0⟩) ∧
    versionInfo (memoryTree Nat) (storeAfter sampleHistory) 2 = .ok (some ⟨some 1, 1, 3⟩) := by
  decide +kernel

/-- C31.  After any history with fresh tags, a further call raises `KeyError` exactly when its
base is not a current head, and whether or not it raises, all versions (the new one included)
are retrieved exactly afterwards. -/
theorem C31_failing_add {h : List (AddOp τ)} {a : AddOp τ} (F : FreshHistory (h ++ [a]))
    (hc : ContentsFit (h ++ [a])) :
    (versionsAdd (memoryTree τ) nullTok (storeAfter h) a.tag a.content a.base).2 =
      (match a.base with
      | none => none
      | some b => if b ∈ headsOf h then none else some .keyError) ∧
    (∀ o ∈ h ++ [a],
      versionsGet (memoryTree τ) nullTok (storeAfter (h ++ [a])) o.tag = .ok (some o.content)) ∧
    ∀ o ∈ h, versionsGet (memoryTree τ) nullTok (storeAfter (h ++ [a])) o.tag =
      versionsGet (memoryTree τ) nullTok (storeAfter h) o.tag := by
  have H := historyOK F hc
  have hget : ∀ o ∈ h ++ [a],
      versionsGet (memoryTree τ) nullTok (storeAfter (h ++ [a])) o.tag = .ok (some o.content) := by
    intro o ho
    obtain ⟨nd, hnd⟩ := H.dget_some.2 (List.mem_map.2 ⟨o, ho, rfl⟩)
    rw [H.store.get_ok hnd, contentOf_mem F.nodup ho]
  generalize hh : h ++ [a] = hx at F
  cases F with
  | nil => simp at hh
  | @snoc h0 a0 F0 k1 k2 =>
    obtain ⟨rfl, e2⟩ := List.append_inj' hh rfl
    simp at e2; subst e2
    have H0 := historyOK F0 hc.left
    refine ⟨(H0.step k1 k2 trivial (hc a (by simp))).2, hget, ?_⟩
    intro o ho
    obtain ⟨nd, hnd⟩ := H0.dget_some.2 (List.mem_map.2 ⟨o, ho, rfl⟩)
    rw [hget o (by simp [ho]), H0.store.get_ok hnd, contentOf_mem F0.nodup ho]

/-- For documented histories "current head" means: added, and no base of a later version. -/
theorem C31_heads {h : List (AddOp τ)} (G : GoodHistory h) (t : τ) :
    t ∈ headsOf h ↔ IsHead h t := G.heads.2

example : (versionsAdd (memoryTree Nat) nullTok (storeAfter sampleHistory) 5 [8] (some 1)).2 =
      some .keyError ∧
    (versionsAdd (memoryTree Nat) nullTok (storeAfter sampleHistory) 5 [8] (some 77)).2 =
      some .keyError ∧
    (versionsAdd (memoryTree Nat) nullTok (storeAfter sampleHistory) 5 [8] (some 4)).2 = none := by
  decide +kernel

/-- C32 (refuted).  Reusing a tag corrupts another version: after `add(0, "ab")`,
`add(1, "abc", 0)`, `add(1, "zz")` the retrieval of `0` no longer gives `"ab"`. -/
theorem C32_reuse_corrupts :
    let h : List (AddOp Nat) := [⟨0, [1, 2], none⟩, ⟨1, [1, 2, 3], some 0⟩]
    GoodHistory h ∧
    versionsGet (memoryTree Nat) nullTok (storeAfter h) 0 = .ok (some [1, 2]) ∧
    (versionsAdd (memoryTree Nat) nullTok (storeAfter h) 1 [9, 9] none).2 = none ∧
    versionsGet (memoryTree Nat) nullTok
      (versionsAdd (memoryTree Nat) nullTok (storeAfter h) 1 [9, 9] none).1 0 =
      .ok (some [9, 9]) := by
  refine ⟨?_, by decide +kernel, by decide +kernel, by decide +kernel⟩
  refine .snoc (h := [_]) (.snoc (h := []) .nil ?_ ?_) ?_ ?_ <;> simp [addedTags, IsHead]

/-- C32 (refuted).  A node that is its own parent makes the metric update run forever, whatever
the number of steps allowed. -/
theorem C32_self_parent_never_ends {tag : τ} (f : Nat) :
    ∀ {t : MTree τ} {nd : TNode τ}, dget t tag = some nd → nd.parent = some tag →
      (∀ c ∈ nd.children, ∃ nc, dget t c = some nc) →
      (mtUpdateMetrics f t (some tag)).2 = some .diverges := by
  induction f with
  | zero => intro t nd _ _ _; rfl
  | succ f ih =>
    intro t nd h1 h2 h3
    have ha : ∀ attr : TNode τ → Nat, ∃ l, mtChildAttrs t attr nd.children = some l := by
      intro attr
      generalize nd.children = ch at h3
      induction ch with
      | nil => exact ⟨[], rfl⟩
      | cons c ch ihc =>
        obtain ⟨nc, hc⟩ := h3 c (by simp)
        obtain ⟨l, hl⟩ := ihc fun c' hc' => h3 c' (by simp [hc'])
        refine ⟨attr nc :: l, ?_⟩
        unfold mtChildAttrs at hl ⊢
        simp [List.mapM_cons, hc, hl]
    obtain ⟨hs, e1⟩ := ha TNode.height
    obtain ⟨ss, e2⟩ := ha TNode.size
    simp only [mtUpdateMetrics, h1, e1, e2, h2]
    refine ih (dget_dset_self _ _ _) rfl ?_
    intro c hc
    rw [dget_dset]
    split
    · exact ⟨_, rfl⟩
    · exact h3 c hc

/-- C32 (refuted).  `add(t, v, t)` makes `t` its own parent; the metric update of that call never
ends. -/
theorem C32_self_base :
    (versionsAdd (memoryTree Nat) nullTok (storeAfter []) 0 [1] (some 0)).2 = some .diverges := by
  decide +kernel

/-- C33.  The tree after any history with fresh tags: `path_to` is defined exactly for the added
tags, starts at a node without parent, ends at the tag, goes from parent to child and repeats
nothing; parent and child links agree. -/
theorem C33_forest {h : List (AddOp τ)} (F : FreshHistory h) (hc : ContentsFit h) :
    (∀ t, t ∉ addedTags h → mtPathTo (storeAfter h).tree t = .ok none) ∧
    (∀ t, t ∈ addedTags h → ∃ path, mtPathTo (storeAfter h).tree t = .ok (some path) ∧
      (∃ r, path.head? = some r ∧ r ∈ headsOf h) ∧ path.getLast? = some t ∧
      (∀ l p c r, path = l ++ p :: c :: r → ParentOf (storeAfter h).tree c p) ∧ path.Nodup) ∧
    (∀ p c, ChildOf (storeAfter h).tree p c ↔ ParentOf (storeAfter h).tree c p) ∧
    (∀ {t nd}, dget (storeAfter h).tree t = some nd →
      nd.children.Nodup ∧ (nd.parent = none ↔ t ∈ headsOf h)) := by
  have H := historyOK F hc
  have T := H.store.tree
  refine ⟨?_, ?_, ?_, ?_⟩
  · intro t ht; exact pathTo_none (H.dget_none.2 ht)
  · intro t ht
    obtain ⟨nd, hnd⟩ := H.dget_some.2 ht
    obtain ⟨l, hl⟩ := T.acyc hnd
    refine ⟨l.reverse, pathTo_spec hl, ?_, ?_, ?_, ?_⟩
    · clear ht hnd
      induction hl with
      | @root x nd h1 h2 => exact ⟨x, rfl, (H.heads h1).1 h2⟩
      | @step x p nd l h1 h2 h3 ih =>
        obtain ⟨r, h4, h5⟩ := ih
        refine ⟨r, ?_, h5⟩
        rw [List.reverse_cons, List.head?_append, h4]; rfl
    · obtain ⟨r, rfl⟩ := hl.head
      simp
    · intro l' p c r e
      have e' : l = r.reverse ++ c :: p :: l'.reverse := by
        have := congrArg List.reverse e
        simpa using this
      clear e hnd ht
      induction hl generalizing r with
      | @root x nd h1 h2 =>
        have := congrArg List.length e'
        simp at this
        omega
      | @step x q nd l h1 h2 h3 ih =>
        rcases List.eq_nil_or_concat r with rfl | ⟨r', y, rfl⟩
        · simp at e'
          obtain ⟨rfl, e2⟩ := e'
          obtain ⟨l2, rfl⟩ := h3.head
          simp at e2
          obtain ⟨rfl, _⟩ := e2
          exact ⟨nd, h1, h2⟩
        · simp at e'
          exact ih r' e'.2
    · exact List.pairwise_reverse.2 (hl.nodup.imp fun h => Ne.symm h)
  · intro p c
    constructor
    · rintro ⟨np, h1, h2⟩
      obtain ⟨nc, h3, h4⟩ := T.down h1 h2
      exact ⟨nc, h3, h4⟩
    · rintro ⟨nc, h1, h2⟩
      obtain ⟨np, h3, h4⟩ := T.up h1 h2
      exact ⟨np, h3, h4⟩
  · intro t nd hnd
    exact ⟨T.chNodup hnd, H.heads hnd⟩

example : mtPathTo (storeAfter sampleHistory).tree 0 = .ok (some [4, 2, 0]) := by decide +kernel

/-- C34.  The stored height is the length of a longest downward path and `1 +` the largest height
of a child; the stored size is the number of tags reachable downwards. -/
theorem C34_metrics {h : List (AddOp τ)} (F : FreshHistory h) (hc : ContentsFit h)
    {x : τ} {nd : TNode τ} (hx : dget (storeAfter h).tree x = some nd) :
    (∀ l, Descends (storeAfter h).tree (x :: l) → (x :: l).length ≤ nd.height) ∧
    (∃ l, Descends (storeAfter h).tree (x :: l) ∧ (x :: l).length = nd.height) ∧
    ∃ below : List τ, below.Nodup ∧ nd.size = below.length ∧
      ∀ y, y ∈ below ↔ ∃ path, Descends (storeAfter h).tree path ∧ path.head? = some x ∧
        path.getLast? = some y := by
  have T := (historyOK F hc).store.tree
  refine ⟨?_, ?_, ?_⟩
  · intro l hl
    have := T.descends_le l hl
    rwa [heightOf_eq hx] at this
  · have := T.height_pos hx
    obtain ⟨l, h1, h2⟩ := T.descends_exists (nd.height - 1) hx (by omega)
    exact ⟨l, h1, by simp; omega⟩
  · obtain ⟨below, h1, h2, h3⟩ := T.below hx
    exact ⟨below, h1, h2, h3⟩

example : (storeAfter sampleHistory).tree.map (fun p => (p.1, p.2.height, p.2.size)) =
    [(0, 1, 1), (1, 1, 1), (2, 2, 2), (10, 1, 1), (3, 2, 2), (4, 3, 5)] := by decide +kernel

/-- C35.  `get_split(x)` returns the node in the middle of a longest downward path from `x`:
the path has `height / 2 + 1` nodes, extends to one of full length `height`, and at every step
it takes a child of greatest height, the most recently added one among those. -/
theorem C35_get_split {h : List (AddOp τ)} (F : FreshHistory h) (hc : ContentsFit h)
    {x : τ} {nd : TNode τ} (hx : dget (storeAfter h).tree x = some nd) :
    ∃ split path, mtGetSplit (storeAfter h).tree x = .ok (split, path) ∧
      path.head? = some x ∧ path.getLast? = some split ∧ path.length = nd.height / 2 + 1 ∧
      (∃ ext, Descends (storeAfter h).tree (path ++ ext) ∧ (path ++ ext).length = nd.height) ∧
      (∀ l, Descends (storeAfter h).tree (x :: l) → (x :: l).length ≤ nd.height) ∧
      (∀ l p c r, path = l ++ p :: c :: r → ∀ c', ChildOf (storeAfter h).tree p c' →
        ∃ nc nc', dget (storeAfter h).tree c = some nc ∧ dget (storeAfter h).tree c' = some nc' ∧
          (nc'.height < nc.height ∨ nc'.height = nc.height ∧ nc'.orderId ≤ nc.orderId)) := by
  have T := (historyOK F hc).store.tree
  obtain ⟨split, path, h1, h2, h3⟩ := getSplit_spec T hx
  refine ⟨split, path, h1, ?_, h2.last, h3, ?_, (C34_metrics F hc hx).1, ?_⟩
  · obtain ⟨r, rfl⟩ := h2.head; rfl
  · have hh := h2.height T
    rw [heightOf_eq hx] at hh
    have hpos := T.height_pos hx
    have hD := h2.descends T.toForest
    obtain ⟨ns, hns⟩ : ∃ ns, dget (storeAfter h).tree split = some ns := by
      cases h2 with
      | start h => exact ⟨_, h⟩
      | next a b c => obtain ⟨nc, h4, _⟩ := T.down b c.1; exact ⟨nc, h4⟩
    have hp := T.height_pos hns
    rw [heightOf_eq hns] at hh
    obtain ⟨l', rfl⟩ : ∃ l', path = l' ++ [split] := by
      have := h2.last; rw [List.getLast?_eq_some_iff] at this; exact this
    obtain ⟨ext, k1, k2⟩ := T.descends_exists (ns.height - 1) hns (by omega)
    refine ⟨ext, ?_, ?_⟩
    · rw [List.append_assoc]; exact descends_append l' hD k1
    · simp at hh ⊢; omega
  · intro l p c r e c' hc'
    obtain ⟨np, h4, h5⟩ := hc'
    have hb := h2.step T.toForest e h4
    obtain ⟨nc, h6, _⟩ := T.down h4 hb.1
    obtain ⟨nc', h7, _⟩ := T.down h4 h5
    refine ⟨nc, nc', h6, h7, ?_⟩
    have := hb.2 c' h5
    simpa [heightOf_eq h6, heightOf_eq h7, orderOf, h6, h7] using this

example : mtGetSplit (storeAfter sampleHistory).tree 4 = .ok (3, [4, 3]) := by decide +kernel

end Gaspra
