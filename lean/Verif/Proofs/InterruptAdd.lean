import Verif.Proofs.Interrupt

set_option linter.unusedSectionVars false
set_option linter.unusedSimpArgs false
set_option linter.unusedVariables false

/-! # Every store during `add` -/

namespace Gaspra

variable {τ : Type _} [DecidableEq τ]
variable {Tok S P : Type _} [DecidableEq Tok] {tk : TokOps Tok S} {Ok : Bytes → Prop}
variable {L : LawfulTok tk P Ok} {content : τ → Bytes} {v : Versions τ (MTree τ)} {E : τ → Prop}

/-- `y` is below another tag than `tag`. -/
def Elsewhere (t : MTree τ) (tag y : τ) (x : τ) : Prop :=
  x = y ∧ ∃ p, par t y = some (some p) ∧ p ≠ tag

/-- What is known of a store `s` reached while `y` gets the parent `tag`. -/
structure Halfway (L : LawfulTok tk P Ok) (content : τ → Bytes) (tag y : τ)
    (s : Versions τ (MTree τ)) : Prop where
  safe : SafeBut L content (Elsewhere s.tree tag y) s
  known : ∃ q, par s.tree y = some q
  delta : ∃ d, dget s.diffs y = some d ∧ DeltaBytes L (content tag) (content y) d
  ne : tag ≠ y

/-- A place at which the delta of a tag and its parent may disagree. -/
def AddPoint.HalfwayOf (y : τ) (pt : AddPoint τ) : Prop := pt = .deltaWritten y ∨ pt = .detached y

/-- What is known of the store after the write at `pt`. -/
def StateOK (L : LawfulTok tk P Ok) (content : τ → Bytes) (tag : τ) (pt : AddPoint τ)
    (s : Versions τ (MTree τ)) : Prop :=
  (∃ y, pt.HalfwayOf y ∧ Halfway L content tag y s) ∨ (∀ y, ¬ pt.HalfwayOf y) ∧ Safe L content s

/-- Nobody else disappears, nobody else appears, and `tag` is a root. -/
def SameTags (v s : Versions τ (MTree τ)) (tag : τ) : Prop :=
  (∀ z, (par s.tree z).isSome = (par v.tree z).isSome) ∧ par s.tree tag = some none

theorem SameTags.trans {v w s : Versions τ (MTree τ)} {tag : τ} (h : SameTags v w tag)
    (h' : SameTags w s tag) : SameTags v s tag :=
  ⟨fun z => (h'.1 z).trans (h.1 z), h'.2⟩

theorem MovedPar.sameTags {t' : MTree τ} {tag y : τ} {q : Option τ} (m : MovedPar v.tree t' y tag)
    (hy : par v.tree y = some q) (ht : par v.tree tag = some none) (hne : tag ≠ y)
    (hv : List (τ × Bytes)) (df : List (τ × Bytes)) : SameTags v ⟨hv, df, t'⟩ tag := by
  refine ⟨fun z => ?_, ?_⟩
  · show (par t' z).isSome = _
    rw [m]
    split
    · next e => subst e; rw [hy]; rfl
    · rfl
  · show par t' tag = _
    rw [m, if_neg hne]; exact ht

/-- The new delta is written and the parent replaced. -/
theorem SafeBut.moved (H : Safe L content v) {tag y : τ} {q : Option τ}
    (hy : par v.tree y = some q) {t' : MTree τ} (T : TSafe t') (m : MovedPar v.tree t' y tag)
    {d : Bytes} (hD : DeltaBytes L (content tag) (content y) d) {hv : List (τ × Bytes)}
    (hn : (hv.map Prod.fst).Nodup)
    (hhv : ∀ x, x ≠ y → dget hv x = dget v.headVersion x)
    (hhy : ∀ b, dget hv y = some b → dget v.headVersion y = some b) :
    Safe L content ⟨hv, dset v.diffs y d, t'⟩ where
  tree := T
  hvNodup := hn
  ok := by
    intro x q' hx
    replace hx : par t' x = some q' := hx
    rw [m] at hx
    split at hx
    · next e => subst e; exact H.ok hy
    · exact H.ok hx
  root := by
    intro x hx
    replace hx : par t' x = some none := hx
    rw [m] at hx
    split at hx
    · cases hx
    · next e => exact (hhv x e).trans (H.root hx)
  inner := by
    intro x p hx _
    replace hx : par t' x = some (some p) := hx
    rw [m] at hx
    show ∃ d', dget (dset v.diffs y d) x = some d' ∧ _
    rw [dget_dset]
    split at hx
    · next e =>
      subst e; cases hx
      exact ⟨d, by rw [if_pos rfl], hD⟩
    · next e =>
      rw [if_neg fun h => e h.symm]
      exact H.inner hx id
  head := by
    intro x q' b hx hb
    replace hx : par t' x = some q' := hx
    replace hb : dget hv x = some b := hb
    rw [m] at hx
    split at hx
    · next e => subst e; exact H.head hy (hhy b hb)
    · next e => rw [hhv x e] at hb; exact H.head hx hb

/-- The new delta is written and the parents are as before. -/
theorem SafeBut.half (H : Safe L content v) {tag y : τ} {q : Option τ} (hne : tag ≠ y)
    (hy : par v.tree y = some q) {t' : MTree τ} (T : TSafe t') (m : ∀ x, par t' x = par v.tree x)
    {d : Bytes} (hD : DeltaBytes L (content tag) (content y) d) :
    Halfway L content tag y ⟨v.headVersion, dset v.diffs y d, t'⟩ where
  known := ⟨q, (m y).trans hy⟩
  delta := ⟨d, by show dget (dset v.diffs y d) y = _; rw [dget_dset, if_pos rfl], hD⟩
  ne := hne
  safe :=
    { tree := T
      hvNodup := H.hvNodup
      ok := by intro x q' hx; rw [m] at hx; exact H.ok hx
      root := by intro x hx; rw [m] at hx; exact H.root hx
      inner := by
        intro x p hx hE
        replace hx : par t' x = some (some p) := hx
        rw [m] at hx
        show ∃ d', dget (dset v.diffs y d) x = some d' ∧ _
        rw [dget_dset]
        split
        · next e =>
          subst e
          by_cases hp : p = tag
          · subst hp; exact ⟨d, rfl, hD⟩
          · exact absurd ⟨rfl, p, (m y).trans hx, hp⟩ hE
        · exact H.inner hx id
      head := by
        intro x q' b hx hb
        rw [m] at hx; exact H.head hx hb }

theorem SafeBut.samePar (H : Safe L content v) {t' : MTree τ} (T : TSafe t')
    (m : ∀ x, par t' x = par v.tree x) : Safe L content { v with tree := t' } where
  tree := T
  hvNodup := H.hvNodup
  ok := by intro x q' hx; rw [m] at hx; exact H.ok hx
  root := by intro x hx; rw [m] at hx; exact H.root hx
  inner := by intro x p hx hE; rw [m] at hx; exact H.inner hx id
  head := by intro x q' b hx hb; rw [m] at hx; exact H.head hx hb

theorem dget_ddel_or {hv : List (τ × Bytes)} (hn : (hv.map Prod.fst).Nodup) (y : τ) :
    (∀ x, x ≠ y → dget (ddel hv y) x = dget hv x) ∧ ∀ b, dget (ddel hv y) y = some b →
      dget hv y = some b := by
  refine ⟨fun x hx => ?_, fun b hb => ?_⟩
  · rw [dget_ddel hn, if_neg fun h => hx h.symm]
  · rw [dget_ddel hn, if_pos rfl] at hb; cases hb

/-- `_add_edge`. -/
theorem edge_states (H : Safe L content v) {tag y : τ} {q : Option τ}
    (ht : par v.tree tag = some none) (hy : par v.tree y = some q) (hne : tag ≠ y)
    {cs : List (PatchItem UInt8)} (hM : makeChangeset tk (content tag) (content y) = .ok cs) :
    (∀ pt s, (pt, s) ∈ addEdgeTrace v tag y cs → pt ≠ .headWritten ∧ SameTags v s tag ∧
      StateOK L content tag pt s) ∧
    Safe L content (addEdge (memoryTree τ) v tag y cs).1 ∧
    SameTags v (addEdge (memoryTree τ) v tag y cs).1 tag ∧
    par (addEdge (memoryTree τ) v tag y cs).1.tree y = some (some tag) ∧
    dget (addEdge (memoryTree τ) v tag y cs).1.diffs y = (serializeChangeset cs).toOption ∧
    ∃ d, serializeChangeset cs = .ok d ∧ DeltaBytes L (content tag) (content y) d := by
  obtain ⟨items, m1, m2⟩ := makeChangeset_ok L (H.ok ht).1 (H.ok hy).1
  rw [hM] at m1; cases m1
  obtain ⟨d, hd, hD⟩ := serializeDelta L (H.ok ht).1 (H.ok hy).1 (H.ok ht).2 (H.ok hy).2 m2 hM
  obtain ⟨t1, t2, t3, r, e, S1, p1, S2, mv2, S3, mv3, hr, S4, mv4⟩ :=
    changeParent_steps H.tree hy ht hne
  have hcp : mtChangeParent v.tree y (some tag) = (memoryTree τ).changeParent v.tree y tag := rfl
  have moved : ∀ t', TSafe t' → MovedPar v.tree t' y tag →
      Safe L content ⟨v.headVersion, dset v.diffs y d, t'⟩ := fun t' T m =>
    H.moved hy T m hD H.hvNodup (fun _ _ => rfl) fun _ h => h
  have moved' : ∀ t', TSafe t' → MovedPar v.tree t' y tag →
      Safe L content ⟨ddel v.headVersion y, dset v.diffs y d, t'⟩ := fun t' T m =>
    H.moved hy T m hD (ddel_nodup H.hvNodup _) (dget_ddel_or H.hvNodup y).1
      (dget_ddel_or H.hvNodup y).2
  have same : ∀ t' df, (∀ x, par t' x = par v.tree x) →
      SameTags v ⟨v.headVersion, df, t'⟩ tag := fun t' df m =>
    ⟨fun z => by show (par t' z).isSome = _; rw [m], by show par t' tag = _; rw [m]; exact ht⟩
  refine ⟨?_, ?_⟩
  · intro pt s h
    simp only [addEdgeTrace, hd] at h
    rcases List.mem_cons.1 h with h | h
    · cases h
      exact ⟨by simp, same _ _ fun _ => rfl, .inl ⟨y, .inl rfl,
        H.half hne hy H.tree (fun _ => rfl) hD⟩⟩
    · rcases List.mem_append.1 h with h | h
      · obtain ⟨⟨pt', t'⟩, h1, h2⟩ := List.mem_map.1 h
        simp only [Versions.withTree, Prod.mk.injEq] at h2
        obtain ⟨rfl, rfl⟩ := h2
        rw [e] at h1
        simp only [List.mem_cons, Prod.mk.injEq] at h1
        rcases h1 with ⟨rfl, rfl⟩ | ⟨rfl, rfl⟩ | ⟨rfl, rfl⟩ | h1
        · exact ⟨by simp, same _ _ p1, .inl ⟨y, .inr rfl, H.half hne hy S1 p1 hD⟩⟩
        · exact ⟨by simp, mv2.sameTags hy ht hne _ _,
            .inr ⟨by simp [AddPoint.HalfwayOf], moved _ S2 mv2⟩⟩
        · exact ⟨by simp, mv3.sameTags hy ht hne _ _,
            .inr ⟨by simp [AddPoint.HalfwayOf], moved _ S3 mv3⟩⟩
        · obtain ⟨⟨x, rfl⟩, S5, m5⟩ := hr _ _ h1
          exact ⟨by simp, m5.sameTags hy ht hne _ _,
            .inr ⟨by simp [AddPoint.HalfwayOf], moved _ S5 m5⟩⟩
      · cases hc : mtChangeParent v.tree y (some tag) with
        | mk t' err =>
          rw [hc] at h S4 mv4
          cases err with
          | some _ => simp at h
          | none =>
            simp only at h
            split at h
            · simp only [List.mem_singleton, Prod.mk.injEq] at h
              obtain ⟨rfl, rfl⟩ := h
              exact ⟨by simp, mv4.sameTags hy ht hne _ _,
                .inr ⟨by simp [AddPoint.HalfwayOf], moved' _ S4 mv4⟩⟩
            · simp at h
  · have main : ∀ w, (addEdge (memoryTree τ) v tag y cs).1 = w →
        (w = ⟨v.headVersion, dset v.diffs y d, (mtChangeParent v.tree y (some tag)).1⟩ ∨
         w = ⟨ddel v.headVersion y, dset v.diffs y d, (mtChangeParent v.tree y (some tag)).1⟩) := by
      intro w hw
      rw [← hw]
      simp only [addEdge, hd, ← hcp]
      cases hc : mtChangeParent v.tree y (some tag) with
      | mk t' err =>
        cases err with
        | some _ => exact .inl rfl
        | none =>
          simp only
          split
          · exact .inr rfl
          · exact .inl rfl
    have hpy : par (mtChangeParent v.tree y (some tag)).1 y = some (some tag) := by
      rw [mv4, if_pos rfl]
    have hdy : dget (dset v.diffs y d) y = (serializeChangeset cs).toOption := by
      rw [dget_dset, if_pos rfl, hd]; rfl
    rcases main _ rfl with h | h
    · rw [h]
      exact ⟨moved _ S4 mv4, mv4.sameTags hy ht hne _ _, hpy, hdy, d, hd, hD⟩
    · rw [h]
      exact ⟨moved' _ S4 mv4, mv4.sameTags hy ht hne _ _, hpy, hdy, d, hd, hD⟩

/-- The second `change_parent` of the split. -/
theorem again_states (H : Safe L content v) {tag y : τ} (ht : par v.tree tag = some none)
    (hy : par v.tree y = some (some tag)) (hne : tag ≠ y) :
    (∀ pt s, (pt, s) ∈ (mtChangeParentTrace v.tree y tag).map v.withTree → pt ≠ .headWritten ∧
      SameTags v s tag ∧ StateOK L content tag pt s) ∧
    Safe L content { v with tree := (mtChangeParent v.tree y (some tag)).1 } ∧
    SameTags v { v with tree := (mtChangeParent v.tree y (some tag)).1 } tag := by
  obtain ⟨t1, t2, t3, r, e, S1, p1, S2, mv2, S3, mv3, hr, S4, mv4⟩ :=
    changeParent_steps H.tree hy ht hne
  have back : ∀ {t'}, MovedPar v.tree t' y tag → ∀ x, par t' x = par v.tree x := fun m x => by
    rw [m]
    split
    · next e => subst e; exact hy.symm
    · rfl
  have same : ∀ t', (∀ x, par t' x = par v.tree x) →
      SameTags v { v with tree := t' } tag := fun t' m =>
    ⟨fun z => by show (par t' z).isSome = _; rw [m], by show par t' tag = _; rw [m]; exact ht⟩
  refine ⟨?_, H.samePar S4 (back mv4), same _ (back mv4)⟩
  intro pt s h
  obtain ⟨⟨pt', t'⟩, h1, h2⟩ := List.mem_map.1 h
  simp only [Versions.withTree, Prod.mk.injEq] at h2
  obtain ⟨rfl, rfl⟩ := h2
  rw [e] at h1
  simp only [List.mem_cons, Prod.mk.injEq] at h1
  rcases h1 with ⟨rfl, rfl⟩ | ⟨rfl, rfl⟩ | ⟨rfl, rfl⟩ | h1
  · refine ⟨by simp, same _ p1, .inl ⟨y, .inr rfl, ?_, ⟨_, (p1 y).trans hy⟩, H.inner hy id, hne⟩⟩
    exact (H.samePar S1 p1).mono fun _ h => h.elim
  · exact ⟨by simp, same _ (back mv2), .inr ⟨by simp [AddPoint.HalfwayOf], H.samePar S2 (back mv2)⟩⟩
  · exact ⟨by simp, same _ (back mv3), .inr ⟨by simp [AddPoint.HalfwayOf], H.samePar S3 (back mv3)⟩⟩
  · obtain ⟨⟨x, rfl⟩, S5, m5⟩ := hr _ _ h1
    exact ⟨by simp, same _ (back m5), .inr ⟨by simp [AddPoint.HalfwayOf], H.samePar S5 (back m5)⟩⟩

/-- The old head is moved. -/
theorem oldHead_states (H : Safe L content v) {tag b : τ} {q : Option τ}
    (ht : par v.tree tag = some none) (hb : par v.tree b = some q) (hne : tag ≠ b) :
    (∀ pt s, (pt, s) ∈ addOldHeadTrace tk v tag (content tag) b → pt ≠ .headWritten ∧
      SameTags v s tag ∧ StateOK L content tag pt s) ∧
    Safe L content (addOldHead (memoryTree τ) tk v tag (content tag) b).1 ∧
    SameTags v (addOldHead (memoryTree τ) tk v tag (content tag) b).1 tag := by
  simp only [addOldHeadTrace, addOldHead]
  cases hh : dget v.headVersion b with
  | none => exact ⟨by simp, H, fun _ => rfl, ht⟩
  | some c =>
    obtain rfl := H.head hb hh
    simp only
    cases hM : makeChangeset tk (content tag) (content b) with
    | error e => exact ⟨by simp, H, fun _ => rfl, ht⟩
    | ok cs =>
      obtain ⟨h1, h2, h3, _⟩ := edge_states H ht hb hne hM
      exact ⟨h1, h2, h3⟩

/-- The split is moved. -/
theorem split_states (H : Safe L content v) {tag b s : τ} {path : List τ}
    (ht : par v.tree tag = some none) (hg : mtGetSplit v.tree b = .ok (s, path)) (hsb : s ≠ b) :
    (∀ pt w, (pt, w) ∈ addSplitTrace tk v tag (content tag) s path → pt ≠ .headWritten ∧
      SameTags v w tag ∧ StateOK L content tag pt w) ∧
    Safe L content (addSplit (memoryTree τ) tk v tag (content tag) s path).1 ∧
    SameTags v (addSplit (memoryTree τ) tk v tag (content tag) s path).1 tag := by
  obtain ⟨⟨q, hb⟩, ext, rfl, hch, hlast⟩ := getSplit_chain H.tree hg
  have hext : ext ≠ [] := by rintro rfl; exact hsb hlast.symm
  obtain ⟨p, hp⟩ := hch.last_parent hext
  rw [hlast] at hp
  have hne : tag ≠ s := by rintro rfl; rw [ht] at hp; cases hp
  simp only [addSplitTrace, addSplit]
  cases hr : retrieveUsingPath tk v (b :: ext) with
  | error e => exact ⟨by simp, H, fun _ => rfl, ht⟩
  | ok sv =>
    have hsv : sv = content s := by
      cases hh : dget v.headVersion b with
      | none => simp only [retrieveUsingPath, hh] at hr; cases hr
      | some c =>
        obtain rfl := H.head hb hh
        have := H.retrieve hb hh hch (fun _ _ => id)
        rw [hr, hlast] at this
        cases this; rfl
    subst hsv
    simp only
    cases hM : makeChangeset tk (content tag) (content s) with
    | error e => exact ⟨by simp, H, fun _ => rfl, ht⟩
    | ok cs =>
      obtain ⟨h1, h2, h3, h4, _⟩ := edge_states H ht hp hne hM
      simp only
      cases he : addEdge (memoryTree τ) v tag s cs with
      | mk w err =>
        rw [he] at h2 h3 h4
        cases err with
        | some e =>
          refine ⟨?_, h2, h3⟩
          intro pt w' hw
          simp only [List.append_nil] at hw
          exact h1 _ _ hw
        | none =>
          obtain ⟨k1, k2, k3⟩ := again_states h2 h3.2 h4 hne
          refine ⟨?_, k2, h3.trans k3⟩
          intro pt w' hw
          rcases List.mem_append.1 hw with hw | hw
          · exact h1 _ _ hw
          · obtain ⟨a1, a2, a3⟩ := k1 _ _ hw
            exact ⟨a1, h3.trans a2, a3⟩

/-- The part of `add` after the new tag was entered. -/
theorem toHead_states (H : Safe L content v) {tag b : τ} (ht : par v.tree tag = some none)
    (hne : tag ≠ b) :
    (∀ pt w, (pt, w) ∈ addToHeadTrace tk v tag (content tag) b → pt ≠ .headWritten ∧
      SameTags v w tag ∧ StateOK L content tag pt w) ∧
    Safe L content (addToHead (memoryTree τ) tk v tag (content tag) b).1 ∧
    SameTags v (addToHead (memoryTree τ) tk v tag (content tag) b).1 tag := by
  have hgm : (memoryTree τ).getSplit v.tree b = mtGetSplit v.tree b := rfl
  simp only [addToHeadTrace, addToHead, hgm]
  cases hg : mtGetSplit v.tree b with
  | error e => exact ⟨by simp, H, fun _ => rfl, ht⟩
  | ok sp =>
    obtain ⟨s, path⟩ := sp
    obtain ⟨⟨q, hb⟩, _⟩ := getSplit_chain H.tree hg
    simp only
    by_cases hsb : s = b
    · rw [if_neg (by simpa using hsb), if_neg (by simpa using hsb)]
      exact oldHead_states H ht hb hne
    · rw [if_pos hsb, if_pos hsb]
      obtain ⟨h1, h2, h3⟩ := split_states H ht hg hsb
      cases he : addSplit (memoryTree τ) tk v tag (content tag) s path with
      | mk w err =>
        rw [he] at h2 h3
        cases err with
        | some e =>
          refine ⟨?_, h2, h3⟩
          intro pt w' hw
          simp only [List.append_nil] at hw
          exact h1 _ _ hw
        | none =>
          have hb' : ∃ q', par w.tree b = some q' := by
            have := h3.1 b
            rw [hb] at this
            exact Option.isSome_iff_exists.1 this
          obtain ⟨q', hb'⟩ := hb'
          obtain ⟨k1, k2, k3⟩ := oldHead_states h2 h3.2 hb' hne
          refine ⟨?_, k2, h3.trans k3⟩
          intro pt w' hw
          rcases List.mem_append.1 hw with hw | hw
          · exact h1 _ _ hw
          · obtain ⟨a1, a2, a3⟩ := k1 _ _ hw
            exact ⟨a1, h3.trans a2, a3⟩

theorem par_mtAdd (t : MTree τ) (x : τ) (b : Option τ) (y : τ) :
    par (mtAdd t x b) y = if x = y then some none else par t y := by
  unfold par; rw [dget_mtAdd]; split <;> rfl

/-- The two first writes of `add`. -/
theorem begin_states (H : Safe L content v) {tag : τ} (hroot : ∀ q, par v.tree tag ≠ some (some q))
    (hok : Ok (content tag) ∧ (content tag).length < 2 ^ 64) (base : Option τ) :
    Safe L content { v with headVersion := dset v.headVersion tag (content tag) } ∧
    Safe L content ⟨dset v.headVersion tag (content tag), v.diffs, mtAdd v.tree tag base⟩ := by
  have hh : ∀ x, dget (dset v.headVersion tag (content tag)) x =
      if tag = x then some (content tag) else dget v.headVersion x := fun x => dget_dset _ _ _ _
  refine ⟨⟨H.tree, dset_nodup H.hvNodup _ _, H.ok, ?_, H.inner, ?_⟩,
    ⟨?_, dset_nodup H.hvNodup _ _, ?_, ?_, ?_, ?_⟩⟩
  · intro x hx
    show dget (dset v.headVersion tag (content tag)) x = _
    rw [hh]
    split
    · next e => subst e; rfl
    · exact H.root hx
  · intro x q b hx hb
    replace hb : dget (dset v.headVersion tag (content tag)) x = some b := hb
    rw [hh] at hb
    split at hb
    · next e => subst e; cases hb; rfl
    · exact H.head hx hb
  · refine LSafe.add H.tree (x := tag) (fun p ch h => hroot p (par_some.2 ⟨_, h⟩)) fun y => ?_
    show links (dset v.tree tag _) y = _
    rw [links_dset]
  · intro x q hx
    replace hx : par (mtAdd v.tree tag base) x = some q := hx
    rw [par_mtAdd] at hx
    split at hx
    · next e => subst e; exact hok
    · exact H.ok hx
  · intro x hx
    replace hx : par (mtAdd v.tree tag base) x = some none := hx
    show dget (dset v.headVersion tag (content tag)) x = _
    rw [par_mtAdd] at hx
    rw [hh]
    split at hx
    · next e => subst e; simp
    · next e => rw [if_neg e]; exact H.root hx
  · intro x p hx hE
    replace hx : par (mtAdd v.tree tag base) x = some (some p) := hx
    rw [par_mtAdd] at hx
    split at hx
    · cases hx
    · exact H.inner hx id
  · intro x q b hx hb
    replace hb : dget (dset v.headVersion tag (content tag)) x = some b := hb
    rw [hh] at hb
    split at hb
    · next e => subst e; cases hb; rfl
    · next e =>
      replace hx : par (mtAdd v.tree tag base) x = some q := hx
      rw [par_mtAdd, if_neg e] at hx
      exact H.head hx hb

/-- Every store during `add`, and the one it leaves behind. -/
theorem add_states (H : Safe L content v) {tag : τ} (hroot : ∀ q, par v.tree tag ≠ some (some q))
    (hok : Ok (content tag) ∧ (content tag).length < 2 ^ 64) {base : Option τ}
    (hbase : base ≠ some tag) :
    (∀ pt s, (pt, s) ∈ versionsAddTrace tk v tag (content tag) base →
      StateOK L content tag pt s ∧
      (pt = .headWritten → s.tree = v.tree) ∧
      (pt ≠ .headWritten → par s.tree tag = some none ∧
        ∀ z, z ≠ tag → (par s.tree z).isSome = (par v.tree z).isSome)) ∧
    Safe L content (versionsAdd (memoryTree τ) tk v tag (content tag) base).1 ∧
    par (versionsAdd (memoryTree τ) tk v tag (content tag) base).1.tree tag = some none ∧
    ∀ z, z ≠ tag → (par (versionsAdd (memoryTree τ) tk v tag (content tag) base).1.tree z).isSome =
      (par v.tree z).isSome := by
  obtain ⟨B1, B2⟩ := begin_states H hroot hok base
  have ht : par (mtAdd v.tree tag base) tag = some none := by rw [par_mtAdd, if_pos rfl]
  have hz : ∀ z, z ≠ tag → (par (mtAdd v.tree tag base) z).isSome = (par v.tree z).isSome :=
    fun z hz => by rw [par_mtAdd, if_neg fun e => hz e.symm]
  have two : ∀ pt s, (pt, s) ∈ ([(.headWritten, { v with headVersion := dset v.headVersion tag (content tag) }),
      (.nodeAdded, ⟨dset v.headVersion tag (content tag), v.diffs, mtAdd v.tree tag base⟩)] :
        List (AddPoint τ × Versions τ (MTree τ))) →
      StateOK L content tag pt s ∧ (pt = .headWritten → s.tree = v.tree) ∧
      (pt ≠ .headWritten → par s.tree tag = some none ∧
        ∀ z, z ≠ tag → (par s.tree z).isSome = (par v.tree z).isSome) := by
    intro pt s h
    simp only [List.mem_cons, Prod.mk.injEq, List.not_mem_nil, or_false] at h
    rcases h with ⟨rfl, rfl⟩ | ⟨rfl, rfl⟩
    · exact ⟨.inr ⟨by simp [AddPoint.HalfwayOf], B1⟩, fun _ => rfl, fun h => absurd rfl h⟩
    · exact ⟨.inr ⟨by simp [AddPoint.HalfwayOf], B2⟩, by simp, fun _ => ⟨ht, hz⟩⟩
  cases base with
  | none => exact ⟨two, B2, ht, hz⟩
  | some b =>
    obtain ⟨h1, h2, h3⟩ := toHead_states B2 (b := b) ht (fun e => hbase (by rw [e]))
    refine ⟨?_, h2, h3.2, fun z hz' => (h3.1 z).trans (hz z hz')⟩
    intro pt s h
    have h' : (pt, s) ∈ ([_, _] : List _) ++ addToHeadTrace tk
        ⟨dset v.headVersion tag (content tag), v.diffs, mtAdd v.tree tag (some b)⟩ tag (content tag) b := h
    rcases List.mem_append.1 h' with h' | h'
    · exact two _ _ h'
    · obtain ⟨a1, a2, a3⟩ := h1 _ _ h'
      exact ⟨a3, fun e => absurd e a1, fun _ => ⟨a2.2, fun z hz' => (a2.1 z).trans (hz z hz')⟩⟩

/-- A store halfway that is not torn is safe. -/
theorem StateOK.safe {tag : τ} {pt : AddPoint τ} {s : Versions τ (MTree τ)}
    (h : StateOK L content tag pt s) (ht : ∀ c, ¬ Torn tag c pt s) : Safe L content s := by
  rcases h with ⟨y, hy, h⟩ | ⟨_, h⟩
  · refine h.safe.mono fun x hx => ?_
    obtain ⟨rfl, p, hp, hne⟩ := hx
    exact ht x ⟨hy, p, parentOf_par.2 hp, hne⟩
  · exact h

theorem Survived.safe (L : LawfulTok tk P Ok) (hok : ∀ x, Ok (content x) ∧ (content x).length < 2 ^ 64)
    (h : Survived tk content v) : Safe L content v := by
  induction h with
  | empty => exact Safe.empty
  | done _ h1 h2 ih =>
    exact (add_states ih (fun q e => h1 q (parentOf_par.2 e)) (hok _) h2).2.1
  | interrupted _ h1 h2 h3 h4 ih =>
    exact ((add_states ih (fun q e => h1 q (parentOf_par.2 e)) (hok _) h2).1 _ _ h3).1.safe h4

end Gaspra
