import Verif.Proofs.DamageAdd
import Verif.Props.Damage

set_option linter.unusedSectionVars false

/-!
# C129: going on with a damaged store
-/

namespace Gaspra

variable {τ : Type _} [DecidableEq τ]

/-- A store with the tree and the tags of the store after a history, that can be read without an
exception, but may read anything. -/
structure ReadsAs (f : τ → Bytes) (h : List (AddOp τ)) (v : Versions τ (MTree τ)) : Prop where
  tree : v.tree = (storeAfter h).tree
  heads : v.headVersion.map Prod.fst = (storeAfter h).headVersion.map Prod.fst
  diffs : v.diffs.map Prod.fst = (storeAfter h).diffs.map Prod.fst
  reads : ∀ t ∈ addedTags h, versionsGet (memoryTree τ) nullTok v t = .ok (some (f t)) ∧
    (f t).length < 2 ^ 64

theorem dget_none_keys {β : Type _} {d d' : List (τ × β)} (h : d.map Prod.fst = d'.map Prod.fst) {x : τ}
    (hx : dget d' x = none) : dget d x = none := by
  cases e : dget d x with
  | none => rfl
  | some b =>
    have : x ∈ d.map Prod.fst := dget_isSome_iff.1 ⟨b, e⟩
    rw [h] at this
    obtain ⟨b', hb'⟩ := dget_isSome_iff.2 this
    rw [hx] at hb'
    cases hb'

theorem ReadsAs.loose {f : τ → Bytes} {h : List (AddOp τ)} {v : Versions τ (MTree τ)}
    (R : ReadsAs f h v) (G : GoodHistory h) (hc : ContentsFit h) : LooseStore f v := by
  have H := historyOK G.fresh hc
  have I := H.store
  have known : ∀ {x nd}, dget v.tree x = some nd → dget (storeAfter h).tree x = some nd ∧ x ∈ addedTags h := by
    intro x nd hx
    rw [R.tree] at hx
    exact ⟨hx, H.dget_some.1 ⟨nd, hx⟩⟩
  constructor
  · rw [R.tree]; exact I.tree
  · rw [R.heads]; exact I.hvNodup
  · rw [R.diffs]; exact I.dfNodup
  · intro x nd hx
    exact (R.reads x (known hx).2).2
  · intro x nd hx hp
    refine ⟨?_, dget_none_keys R.diffs (I.root (known hx).1 hp).2⟩
    have := (R.reads x (known hx).2).1
    rw [get_root hx hp] at this
    cases e : dget v.headVersion x with
    | none => rw [e] at this; cases this
    | some b => rw [e] at this; simpa using this
  · intro x nd p hx hp
    refine ⟨dget_none_keys R.heads (I.inner (known hx).1 hp).1, ?_⟩
    obtain ⟨np, hnp, _⟩ := I.tree.up (known hx).1 hp
    obtain ⟨l, hl⟩ := I.tree.acyc hnp
    have hg := get_child hx hp (by rw [R.tree]; exact hl)
    rw [(R.reads x (known hx).2).1, (R.reads p (H.dget_some.1 ⟨np, hnp⟩)).1] at hg
    dsimp only at hg
    cases e : dget v.diffs x with
    | none => rw [e] at hg; cases hg
    | some d =>
      rw [e] at hg
      dsimp only [applyStored] at hg
      generalize hd : deserializeChangeset d = r at hg
      obtain ⟨items, err⟩ := r
      cases err with
      | some e => cases hg
      | none =>
        refine ⟨d, items, rfl, hd, ?_⟩
        have hg' : (Except.ok (some (f x)) : Except PyErr _) = .ok (some (applyPatch items (f p))) := hg
        simpa using hg'.symm
  · intro x hx
    rw [R.tree] at hx
    exact ⟨dget_none_keys R.heads (I.absent hx).1, dget_none_keys R.diffs (I.absent hx).2⟩

theorem GoodHistory.prefix {h k : List (AddOp τ)} (G : GoodHistory (h ++ k)) : GoodHistory h := by
  have : ∀ {g : List (AddOp τ)}, GoodHistory g → ∀ {h k}, g = h ++ k → GoodHistory h := by
    intro g G
    induction G with
    | nil =>
      intro h k e
      obtain ⟨rfl, rfl⟩ := List.nil_eq_append_iff.1 e
      exact .nil
    | @snoc g a G h1 h2 ih =>
      intro h k e
      rcases List.eq_nil_or_concat k with rfl | ⟨k', o, rfl⟩
      · rw [List.append_nil] at e
        rw [← e]
        exact .snoc G h1 h2
      · rw [List.concat_eq_append, ← List.append_assoc] at e
        exact ih (List.append_inj' e rfl).1
  exact this G rfl

theorem GoodHistory.last {h : List (AddOp τ)} {a : AddOp τ} (G : GoodHistory (h ++ [a])) :
    a.tag ∉ addedTags h ∧ ∀ b, a.base = some b → IsHead h b := by
  generalize e : h ++ [a] = g at G
  cases G with
  | nil => simp at e
  | snoc G h1 h2 =>
    obtain ⟨rfl, e2⟩ := List.append_inj' e rfl
    cases e2
    exact ⟨h1, h2⟩

theorem LooseStore.run : ∀ {h2 h : List (AddOp τ)} {f : τ → Bytes} {v : Versions τ (MTree τ)},
    LooseStore f v → TreeKnows h v.tree → GoodHistory (h ++ h2) → ContentsFit (h ++ h2) →
    (∀ r ∈ runErrors (memoryTree τ) nullTok v h2, r = none) ∧
    (∀ t ∈ addedTags h,
      versionsGet (memoryTree τ) nullTok (runHistory (memoryTree τ) nullTok v h2) t = .ok (some (f t))) ∧
    ∀ a ∈ h2,
      versionsGet (memoryTree τ) nullTok (runHistory (memoryTree τ) nullTok v h2) a.tag = .ok (some a.content)
  | [], h, f, v, I, K, _, _ => by
    refine ⟨fun r hr => (by cases hr), fun t ht => ?_, fun a ha => (by cases ha)⟩
    obtain ⟨nd, hnd⟩ : ∃ nd, dget v.tree t = some nd := by
      apply dget_isSome_iff.2; rw [K.keys]; exact ht
    exact I.get_ok hnd
  | a :: h2, h, f, v, I, K, G, hc => by
    have e : h ++ a :: h2 = (h ++ [a]) ++ h2 := by simp
    rw [e] at G hc
    obtain ⟨hn, hb⟩ := G.prefix.last
    have hl : a.content.length < 2 ^ 64 := hc a (by simp)
    obtain ⟨v', h1, h2', h3⟩ := I.step K hn hb hl
    obtain ⟨r1, r2, r3⟩ := LooseStore.run h2' h3 G hc
    have er : runHistory (memoryTree τ) nullTok v (a :: h2) = runHistory (memoryTree τ) nullTok v' h2 := by
      simp only [runHistory, List.foldl_cons, h1]
    rw [er]
    refine ⟨?_, fun t ht => ?_, fun b hb' => ?_⟩
    · simp only [runErrors, h1]
      intro r hr
      rcases List.mem_cons.1 hr with rfl | hr
      · rfl
      · exact r1 r hr
    · have := r2 t (by rw [addedTags_snoc]; simp [ht])
      have hne : t ≠ a.tag := fun e => hn (e ▸ ht)
      first
        | rwa [if_neg hne] at this
        | rwa [if_neg hne.symm] at this
    · rcases List.mem_cons.1 hb' with rfl | hb'
      · have := r2 b.tag (by rw [addedTags_snoc]; simp)
        rwa [if_pos rfl] at this
      · exact r3 b hb'

/-- C129.  A store that reads something wrong, without an exception, can be used on: none of the
documented further calls raises, every version added from now on is retrieved exactly, and all others
are read as before, the right ones right and the wrong ones with the same wrong text. -/
theorem C129_goes_on {h h2 : List (AddOp τ)} (G : GoodHistory (h ++ h2)) (hc : ContentsFit (h ++ h2))
    {f : τ → Bytes} {v : Versions τ (MTree τ)} (R : ReadsAs f h v) :
    (∀ r ∈ runErrors (memoryTree τ) nullTok v h2, r = none) ∧
    (∀ t ∈ addedTags h,
      versionsGet (memoryTree τ) nullTok (runHistory (memoryTree τ) nullTok v h2) t = .ok (some (f t))) ∧
    ∀ a ∈ h2,
      versionsGet (memoryTree τ) nullTok (runHistory (memoryTree τ) nullTok v h2) a.tag =
        .ok (some a.content) := by
  have G1 := G.prefix
  have H := historyOK G1.fresh hc.left
  refine LooseStore.run (R.loose G1 hc.left) ?_ G hc
  rw [R.tree]
  refine ⟨H.keys, fun {x nd} hx hh => ?_⟩
  exact ((C33_forest G1.fresh hc.left).2.2.2 hx).2.2 (G1.heads.2.2 hh)

/-- C129.  This applies when the text of a head has been replaced. -/
theorem C129_head {h h2 : List (AddOp τ)} (G : GoodHistory (h ++ h2)) (hc : ContentsFit (h ++ h2))
    {x : τ} (hx : IsHead h x) {c : Bytes} (hl : c.length < 2 ^ 64) :
    let v := { storeAfter h with headVersion := dset (storeAfter h).headVersion x c }
    let w := runHistory (memoryTree τ) nullTok v h2
    (∀ r ∈ runErrors (memoryTree τ) nullTok v h2, r = none) ∧
    (∀ t ∈ addedTags h,
      versionsGet (memoryTree τ) nullTok w t = versionsGet (memoryTree τ) nullTok v t) ∧
    ∀ a ∈ h2, versionsGet (memoryTree τ) nullTok w a.tag = .ok (some a.content) := by
  intro v w
  have G1 := G.prefix
  have H := historyOK G1.fresh hc.left
  obtain ⟨k1, k2⟩ := C128_head G1 hc.left hx c
  have hlen : ∀ t ∈ addedTags h, (contentOf h t).length < 2 ^ 64 := by
    intro t ht
    obtain ⟨nd, hnd⟩ := H.dget_some.2 ht
    exact (H.store.ok hnd).2
  have reads : ∀ t ∈ addedTags h, ∃ b, versionsGet (memoryTree τ) nullTok v t = .ok (some b) ∧
      b.length < 2 ^ 64 := by
    intro t ht
    by_cases e : t = x
    · subst e; exact ⟨c, k1, hl⟩
    · obtain ⟨b, b1, b2⟩ := k2 t ht e
      exact ⟨b, b1, Nat.lt_of_le_of_lt b2 (hlen t ht)⟩
  have hkeys : v.headVersion.map Prod.fst = (storeAfter h).headVersion.map Prod.fst := by
    show (dset (storeAfter h).headVersion x c).map Prod.fst = _
    rw [dset_keys, if_pos]
    obtain ⟨nx, hnx⟩ := H.dget_some.2 hx.1
    have hroot : nx.parent = none := ((C33_forest G1.fresh hc.left).2.2.2 hnx).2.2 (G1.heads.2.2 hx)
    exact dget_isSome_iff.1 ⟨_, (H.store.root hnx hroot).1⟩
  let f : τ → Bytes := fun t =>
    match versionsGet (memoryTree τ) nullTok v t with
    | .ok (some b) => b
    | _ => []
  have R : ReadsAs f h v := ⟨rfl, hkeys, rfl, fun t ht => by
    obtain ⟨b, b1, b2⟩ := reads t ht
    simp only [f, b1]
    exact ⟨trivial, b2⟩⟩
  obtain ⟨r1, r2, r3⟩ := C129_goes_on G hc R
  exact ⟨r1, fun t ht => (r2 t ht).trans (R.reads t ht).1.symm, r3⟩

/-- C129.  If the text of a head is lost, `add` with this head as the base raises `KeyError`, also in
a store that is damaged otherwise; the new version can be read nevertheless, and all others as
before. -/
theorem C129_lost {h : List (AddOp τ)} (G : GoodHistory h) (hc : ContentsFit h) {b : τ} (hb : IsHead h b)
    {v : Versions τ (MTree τ)} (ht : v.tree = (storeAfter h).tree) (hv : dget v.headVersion b = none)
    {tag : τ} (hn : tag ∉ addedTags h) (c : Bytes) :
    let r := versionsAdd (memoryTree τ) nullTok v tag c (some b)
    r.2 = some .keyError ∧ versionsGet (memoryTree τ) nullTok r.1 tag = .ok (some c) ∧
      ∀ t ∈ addedTags h, versionsGet (memoryTree τ) nullTok r.1 t = versionsGet (memoryTree τ) nullTok v t := by
  intro r
  have H := historyOK G.fresh hc
  have I := H.store
  obtain ⟨nb, hnb⟩ := H.dget_some.2 hb.1
  have hne : ∀ t ∈ addedTags h, tag ≠ t := fun t h e => hn (e ▸ h)
  have htag : dget v.tree tag = none := by rw [ht]; exact H.dget_none.2 hn
  have T1 : TreeOK (mtAdd v.tree tag (some b)) := TreeOK.add (by rw [ht]; exact I.tree) htag (some b)
  obtain ⟨s, path, h1, h2, h3⟩ := getSplit_spec T1 (x := b) (nd := nb)
    (by rw [dget_mtAdd, if_neg (hne b hb.1), ht]; exact hnb)
  have hhv : dget (dset v.headVersion tag c) b = none := by
    rw [dget_dset, if_neg (hne b hb.1)]; exact hv
  have hr : r = (withRoot v tag c (some b), some .keyError) := by
    show addToHead (memoryTree τ) nullTok (withRoot v tag c (some b)) tag c b = _
    have h1'' : (memoryTree τ).getSplit (withRoot v tag c (some b)).tree b = .ok (s, path) := h1
    simp only [addToHead, h1'']
    split
    · obtain ⟨q, rfl⟩ := h2.head
      have : retrieveUsingPath nullTok (withRoot v tag c (some b)) (b :: q) = .error .keyError := by
        simp only [retrieveUsingPath, withRoot, hhv]
      simp only [addSplit, this]
    · simp only [addOldHead, withRoot, hhv]
  rw [hr]
  refine ⟨rfl, ?_, fun t htt => ?_⟩
  · have hnew : dget (withRoot v tag c (some b)).tree tag = some (newNode v.tree.length (some b)) := by
      show dget (mtAdd v.tree tag (some b)) tag = _
      rw [dget_mtAdd, if_pos rfl]
    rw [get_root hnew rfl]
    simp [withRoot, dget_dset]
  · obtain ⟨nd, hnd⟩ := H.dget_some.2 htt
    obtain ⟨l, hl⟩ := I.tree.acyc hnd
    have hl0 : UpPath v.tree t l := by rw [ht]; exact hl
    have hmem : ∀ y ∈ l.reverse, tag ≠ y := by
      intro y hy e
      obtain ⟨ny, hny⟩ := hl0.mem_keys y (by simpa using hy)
      rw [← e, htag] at hny
      cases hny
    have hl1 : UpPath (withRoot v tag c (some b)).tree t l := by
      clear hmem hl hnd htt
      induction hl0 with
      | @root t nd k1 k2 =>
        refine .root (nd := nd) ?_ k2
        show dget (mtAdd v.tree tag (some b)) t = _
        rw [dget_mtAdd, if_neg (fun e => by rw [← e, htag] at k1; cases k1)]; exact k1
      | @step t p nd l k1 k2 k3 ih =>
        refine .step (nd := nd) ?_ k2 ih
        show dget (mtAdd v.tree tag (some b)) t = _
        rw [dget_mtAdd, if_neg (fun e => by rw [← e, htag] at k1; cases k1)]; exact k1
    rw [get_path hl1, get_path hl0]
    congr 1
    exact retrieve_congr nullTok (fun y hy => by
      show dget (dset v.headVersion tag c) y = _
      rw [dget_dset, if_neg (hmem y hy)]) fun y _ => rfl

-- The head 4 with a wrong byte, then two more versions: the wrong text of 3 stays, the rest is right.
example : let v := { storeAfter sampleHistory with
      headVersion := dset (storeAfter sampleHistory).headVersion 4 [7, 1, 9, 8, 4] }
    let w := runHistory (memoryTree Nat) nullTok v [⟨5, [1, 1], some 4⟩, ⟨6, [1, 1, 3], some 5⟩]
    ([6, 5, 4, 3, 2, 1, 0, 10] : List Nat).map (versionsGet (memoryTree Nat) nullTok w) =
      [.ok (some [1, 1, 3]), .ok (some [1, 1]), .ok (some [7, 1, 9, 8, 4]), .ok (some [1, 9, 8, 4]),
        .ok (some [1, 9, 3, 4]), .ok (some [1, 2, 3, 4]), .ok (some [1, 2, 3]), .ok (some [])] := by
  decide +kernel
-- The head 4 is lost.
example : let v := { storeAfter sampleHistory with headVersion := ddel (storeAfter sampleHistory).headVersion 4 }
    (versionsAdd (memoryTree Nat) nullTok v 5 [1, 1] (some 4)).2 = some .keyError ∧
      versionsGet (memoryTree Nat) nullTok (versionsAdd (memoryTree Nat) nullTok v 5 [1, 1] (some 4)).1 5 =
        .ok (some [1, 1]) := by
  decide +kernel

end Gaspra
