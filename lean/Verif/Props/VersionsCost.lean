import Verif.Proofs.StoreCost
import Verif.Props.Depth
import Verif.Props.DeltaSize

/-!
# C95: the running time of reading from and adding to a version store

The steps are counted in `Model/VersionsCost.lean`, for `Versions` with a `MemoryTree` and the
`NullTokenizer`.
-/

set_option linter.unusedSectionVars false
set_option linter.unusedSimpArgs false
set_option linter.unusedVariables false

namespace Gaspra

variable {τ : Type _} [DecidableEq τ]

/-- C95.  Counting steps does not change any result, whatever the store. -/
theorem C95_same_result (v : Versions τ (MTree τ)) (tag : τ) (version : Bytes) (base : Option τ) :
    (versionsGetC v tag).map Prod.fst = versionsGet (memoryTree τ) nullTok v tag ∧
    (versionsAddC v tag version base).1 = versionsAdd (memoryTree τ) nullTok v tag version base :=
  ⟨versionsGetC_fst v tag, versionsAddC_fst v tag version base⟩

/-- How many generators hand on each item of `as_change_stream`, for a changeset below `d - 1` others. -/
def itemLevels {α : Type _} : Nat → Changeset α → List Nat
  | d, .leaf o m _ _ => if o.length + m.length = 0 then [] else [d]
  | d, .node _ _ p s => itemLevels (d + 1) p ++ [d] ++ itemLevels (d + 1) s

/-- C95.  The steps of reading `as_change_stream` are one for every changeset and one for every item
and every generator that hands it on. -/
theorem C95_stream_steps {α : Type _} (cs : Changeset α) :
    (itemLevels 1 cs).length = cs.asChangeStream.length ∧
    cs.changeSteps = cs.calls + (itemLevels 1 cs).sum := by
  have len : ∀ (cs : Changeset α) (d : Nat), (itemLevels d cs).length = cs.asChangeStream.length := by
    intro cs
    induction cs with
    | leaf o m os ms =>
      intro d
      cases o <;> cases m <;> simp [itemLevels, Changeset.asChangeStream, bothEmpty]
    | node co cm p s hp hs => intro d; simp [itemLevels, Changeset.asChangeStream, hp, hs]
  have up : ∀ (cs : Changeset α) (d : Nat),
      (itemLevels (d + 1) cs).sum = (itemLevels d cs).sum + cs.asChangeStream.length := by
    intro cs
    induction cs with
    | leaf o m os ms =>
      intro d
      rw [← len _ d]
      simp only [itemLevels]
      split <;> simp
    | node co cm p s hp hs =>
      intro d
      simp only [itemLevels, Changeset.asChangeStream, List.sum_append, List.sum_cons, List.sum_nil,
        List.length_append, List.length_cons, List.length_nil, hp, hs]
      omega
  refine ⟨len cs 1, ?_⟩
  induction cs with
  | leaf o m os ms =>
    rw [Changeset.changeSteps, ← len _ 1]
    simp only [itemLevels, Changeset.calls]
    split <;> simp
  | node co cm p s hp hs =>
    simp only [Changeset.changeSteps, Changeset.calls, itemLevels, List.sum_append, List.sum_cons,
      List.sum_nil, up, hp, hs]
    omega

example : ((findChangeset [1, 2, 3, 4] [1, 9, 3, 4]).map fun cs =>
    (itemLevels 1 cs, cs.calls, cs.changeSteps)) = some ([2, 3, 1], 5, 11) := by decide +kernel

theorem contentLe {h : List (AddOp τ)} (G : GoodHistory h) {L : Nat} (hL : L < 2 ^ 64)
    (hc : ∀ a ∈ h, a.content.length ≤ L) {x : τ} {nd : TNode τ}
    (hx : dget (storeAfter h).tree x = some nd) : (contentOf h x).length ≤ L := by
  have H := historyOK G.fresh (fun a ha => Nat.lt_of_le_of_lt (hc a ha) hL)
  obtain ⟨o, ho, hox⟩ := List.mem_map.1 (H.dget_some.1 ⟨nd, hx⟩)
  have e := contentOf_mem G.fresh.nodup ho
  rw [hox] at e
  rw [e]
  exact hc o ho

/-- C95, reading.  Let no content of a documented history have more than `L` bytes, and let `w` be the
largest number of bytes of an encoded number up to `L`.  Reading a version from a line of `n` versions
takes at most `N` times `D² + 3D + 2L + 3` steps, where `N = ⌊√(4n + 1)⌋ - 1` and `D = (1 + 2w) L`. -/
theorem C95_get_cost {h : List (AddOp τ)} (G : GoodHistory h) {L w : Nat} (hL : L < 2 ^ 64)
    (hc : ∀ a ∈ h, a.content.length ≤ L)
    (hw : ∀ k e, k ≤ L → vserializeInt k = .ok e → e.length ≤ w) {t : τ} {l : List τ}
    (ht : IsHead h t) (hl : BaseLine h t l) :
    ∃ N, (N + 1) ^ 2 ≤ 4 * l.length + 1 ∧ 4 * l.length + 1 < (N + 2) ^ 2 ∧
      ∀ a ∈ h, a.tag ∈ l → ∃ n, versionsGetC (storeAfter h) a.tag = .ok (some a.content, n) ∧
        n ≤ N * ((1 + 2 * w) * L * ((1 + 2 * w) * L) + 3 * ((1 + 2 * w) * L) + 2 * L + 3) := by
  have hfit : ContentsFit h := fun a ha => Nat.lt_of_le_of_lt (hc a ha) hL
  have H := historyOK G.fresh hfit
  obtain ⟨N, h1, h2, h3, _⟩ := C51_depth G hfit ht hl
  refine ⟨N, h1, h2, ?_⟩
  intro a ha hal
  obtain ⟨p, h4, h5⟩ := h3 a.tag hal
  obtain ⟨nd, hnd⟩ := H.dget_some.2 (List.mem_map.2 ⟨a, ha, rfl⟩)
  obtain ⟨u, hu⟩ := H.store.tree.acyc hnd
  have hp := pathTo_spec hu
  have e : u.reverse = t :: p := by
    have : mtPathTo (storeAfter h).tree a.tag = .ok (some u.reverse) := hp
    rw [h4] at this
    simpa using this.symm
  have hlen : u.length ≤ N := by
    have := congrArg List.length e
    simp at this
    omega
  obtain ⟨n, g1, g2⟩ := H.store.getC_le (deltasLe hL hw) (fun hx => contentLe G hL hc hx) hu
  rw [contentOf_mem G.fresh.nodup ha] at g1
  refine ⟨n, g1, Nat.le_trans g2 (Nat.mul_le_mul hlen ?_)⟩
  generalize (1 + 2 * w) * L = D
  unfold deltaBound
  rw [Nat.mul_add]
  omega

/-- C95, adding.  Under the same assumptions, adding a version on top of a head whose line has `n`
versions takes at most `N / 2` times `D² + 3D + 2L + 9` steps for the tree and the split, and
`2 (2L + 1) (26L + 4D + 14) + 38` steps besides. -/
theorem C95_add_cost {h : List (AddOp τ)} {a : AddOp τ} (G : GoodHistory (h ++ [a])) {L w : Nat}
    (hL : L < 2 ^ 64) (hc : ∀ o ∈ h ++ [a], o.content.length ≤ L)
    (hw : ∀ k e, k ≤ L → vserializeInt k = .ok e → e.length ≤ w) {b : τ} {l : List τ}
    (hb : a.base = some b) (hl : BaseLine h b l) :
    ∃ N, (N + 1) ^ 2 ≤ 4 * l.length + 1 ∧ 4 * l.length + 1 < (N + 2) ^ 2 ∧
      (versionsAddC (storeAfter h) a.tag a.content a.base).2 ≤
        N / 2 * ((1 + 2 * w) * L * ((1 + 2 * w) * L) + 3 * ((1 + 2 * w) * L) + 2 * L + 9) +
        2 * ((2 * L + 1) * (26 * L + 4 * ((1 + 2 * w) * L) + 14)) + 38 := by
  obtain ⟨G', hfresh, hhead⟩ : GoodHistory h ∧ a.tag ∉ addedTags h ∧ ∀ b, a.base = some b → IsHead h b := by
    generalize hh : h ++ [a] = h' at G
    cases G with
    | nil => simp at hh
    | @snoc h0 a0 g1 g2 g3 =>
      obtain ⟨rfl, hha⟩ := List.append_inj' hh rfl
      cases hha
      exact ⟨g1, g2, g3⟩
  have hc' : ∀ o ∈ h, o.content.length ≤ L := fun o ho => hc o (by simp [ho])
  have hfit : ContentsFit h := fun o ho => Nat.lt_of_le_of_lt (hc' o ho) hL
  have H := historyOK G'.fresh hfit
  obtain ⟨f, J⟩ := G'.lines nullLawful fun o ho => ⟨trivial, hfit o ho⟩
  have hbh := G'.heads.2.2 (hhead b hb)
  obtain ⟨nb, hnb⟩ := H.dget_some.2 (H.headsAdded hbh)
  obtain ⟨h1, h2⟩ := J.height H hbh hl G'.fresh.nodup hnb
  refine ⟨nb.height, h1, h2, ?_⟩
  have := H.store.addC_le (deltasLe hL hw) hL (fun hx => contentLe G' hL hc' hx) (J.children H)
    (hc a (by simp)) (H.dget_none.2 hfresh) hnb ((H.heads hnb).2 hbh)
  rw [hb]
  refine Nat.le_trans this ?_
  generalize (1 + 2 * w) * L = D
  have e1 : deltaBound L D + 8 = D * D + 3 * D + 2 * L + 9 := by
    unfold deltaBound
    rw [Nat.mul_add]
    omega
  have e2 : edgeBound L D = (2 * L + 1) * (26 * L + 4 * D + 14) := by
    unfold edgeBound
    rw [← Nat.mul_add]
    congr 1
    omega
  rw [e1, e2]
  exact Nat.le_refl _

/-- C95.  The first version of a line takes one step to add. -/
theorem C95_add_first (v : Versions τ (MTree τ)) (tag : τ) (version : Bytes) :
    (versionsAddC v tag version none).2 = 1 := rfl

theorem sliceCount_le_length : ∀ l : List (PatchItem UInt8), sliceCount l ≤ l.length
  | [] => Nat.le_refl _
  | .slice _ :: rest => by
    have := sliceCount_le_length rest
    simp only [sliceCount, List.length_cons]; omega
  | .piece _ :: rest => by
    have := sliceCount_le_length rest
    simp only [sliceCount, List.length_cons]; omega

theorem retrieveLoopC_ge {diffs : List (τ × Bytes)} {x : τ} {d : Bytes} (hd : dget diffs x = some d) :
    ∀ {path : List τ} {b c : Bytes} {n : Nat}, x ∈ path → retrieveLoopC diffs b path = .ok (c, n) →
    (deserializeChangesetC d).2 ≤ n
  | [], b, c, n, hx, h => by simp at hx
  | y :: path, b, c, n, hx, h => by
    simp only [retrieveLoopC] at h
    cases h1 : dget diffs y with
    | none => rw [h1] at h; cases h
    | some e =>
      rw [h1] at h
      simp only at h
      cases h2 : (deserializeChangesetC e).1.2 with
      | some e => rw [h2] at h; cases h
      | none =>
        rw [h2] at h
        simp only at h
        cases h3 : retrieveLoopC diffs (applyPatch (deserializeChangesetC e).1.1 b) path with
        | error e => rw [h3] at h; cases h
        | ok r =>
          obtain ⟨c', m⟩ := r
          rw [h3] at h
          simp only [Except.ok.injEq, Prod.mk.injEq] at h
          obtain ⟨rfl, rfl⟩ := h
          rcases List.mem_cons.1 hx with rfl | hx
          · rw [hd] at h1; cases h1; omega
          · have := retrieveLoopC_ge hd hx h3
            omega

/-- C95 (refuted: reading a delta does not take linear time).  After storing `"ay" * n` and then
`"ax" * n` on top of it, reading the first takes at least `n (n + 1) / 2` steps, because
`deserialize_changeset` copies the rest of the delta for every item. -/
theorem C95_read_quadratic {a x y : UInt8} (hxa : x ≠ a) (hya : y ≠ a) (hxy : x ≠ y) {n : Nat}
    (hn : 2 * n < 2 ^ 64) :
    let old := (List.replicate n [a, y]).flatten
    let new := (List.replicate n [a, x]).flatten
    ∃ t, versionsGetC (storeAfter ([⟨0, old, none⟩, ⟨1, new, some 0⟩] : List (AddOp Nat))) 0 =
      .ok (some old, t) ∧ n * (n + 1) ≤ 2 * t := by
  intro old new
  have hcomb : ∀ z : UInt8, (List.replicate n [a, z]).flatten = comb a z n := by
    intro z
    clear hn
    induction n with
    | zero => rfl
    | succ n ih => simp [List.replicate_succ, comb, ih]
  obtain ⟨G, hfit, d, hd, hhv, _⟩ := C78_delta_larger hxa hya hxy hn
  have hg := C95_same_result (storeAfter ([⟨0, old, none⟩, ⟨1, new, some 0⟩] : List (AddOp Nat))) 0 [] none
  generalize hh : ([⟨0, old, none⟩, ⟨1, new, some 0⟩] : List (AddOp Nat)) = h at G hfit hd hhv hg ⊢
  have H := historyOK G.fresh hfit
  have I := H.store
  have hmem : (⟨0, old, none⟩ : AddOp Nat) ∈ h := by rw [← hh]; simp
  have hmem1 : (⟨1, new, some 0⟩ : AddOp Nat) ∈ h := by rw [← hh]; simp
  obtain ⟨nd, hnd⟩ := H.dget_some.2 (List.mem_map.2 ⟨_, hmem, rfl⟩ : (0 : Nat) ∈ addedTags h)
  have e0 : contentOf h 0 = old := contentOf_mem G.fresh.nodup hmem
  have e1 : contentOf h 1 = new := contentOf_mem G.fresh.nodup hmem1
  have hget := I.get_ok hnd
  rw [e0] at hget
  have hget' : versionsGet (memoryTree Nat) nullTok (storeAfter h) 0 = .ok (some old) := hget
  rw [← hg.1] at hget'
  obtain ⟨t, ht⟩ := ok_of_map_fst hget'
  refine ⟨t, ht, ?_⟩
  have hd0 : dget (storeAfter h).diffs 0 = some d := by rw [hd]; rfl
  cases hp : nd.parent with
  | none => have := (I.root hnd hp).2; rw [show dget (storeAfter h).diffs 0 = _ from hd0] at this; cases this
  | some p =>
    obtain ⟨_, d', k1, items, k2, k3, k4, k5⟩ := I.inner hnd hp
    rw [show dget (storeAfter h).diffs 0 = _ from hd0] at k1
    cases k1
    obtain ⟨np, hnp, _⟩ := I.tree.up hnd hp
    have hp1 : p = 1 := by
      have h1 : p ∈ addedTags h := H.dget_some.1 ⟨np, hnp⟩
      rw [← hh] at h1
      simp only [addedTags, List.map_cons, List.map_nil, List.mem_cons, List.not_mem_nil, or_false] at h1
      rcases h1 with rfl | rfl
      · exfalso
        obtain ⟨u, hu⟩ := I.tree.acyc hnd
        have h2 := hu.not_mem_parent hnd hp
        obtain ⟨r, rfl⟩ := hu.head
        simp at h2
      · rfl
    subst hp1
    rw [e0, e1] at k4
    have hs : n ≤ items.length := by
      simp only [old, new, hcomb] at k4
      obtain ⟨cs, V, e⟩ := makeChangeset_null (comb a x n) (comb a y n)
      rw [e] at k4
      cases k4
      have h2 := V.depth_le_slices
      rw [comb_depth hxa hya hxy n 0 0 [] [] cs (.inl ⟨rfl, rfl⟩) V] at h2
      have h3 := sliceCount_le_length (stripForward cs.asChangeStream)
      omega
    have hge := (deserializeLoopC_ge d.length true d).2
    have hC : (deserializeLoopC d.length true d).1.1 = items := by
      have := deserializeChangesetC_fst d
      rw [k2] at this
      exact congrArg Prod.fst this
    rw [hC] at hge
    have hle : (deserializeChangesetC d).2 ≤ t := by
      obtain ⟨u, hu⟩ := I.tree.acyc hnd
      have hP := mtPathToC_spec hu
      obtain ⟨r, rest, q1, q2, _⟩ := I.retrieveLoop_ok hu
      simp only [versionsGetC] at ht
      rw [show mtPathToC (storeAfter h).tree 0 = _ from hP, q1] at ht
      simp only [retrieveUsingPathC] at ht
      rw [show dget (storeAfter h).headVersion r = _ from q2] at ht
      simp only at ht
      have h0 : (0 : Nat) ∈ rest := by
        have hm : (0 : Nat) ∈ u.reverse := by
          obtain ⟨r', rfl⟩ := hu.head
          simp
        rw [q1] at hm
        rcases List.mem_cons.1 hm with rfl | hm
        · exfalso
          rw [show dget (storeAfter h).headVersion 0 = none by rw [hhv]; rfl] at q2
          cases q2
        · exact hm
      cases hr : retrieveLoopC (storeAfter h).diffs (contentOf h r) rest with
      | error e => rw [hr] at ht; cases ht
      | ok res =>
        obtain ⟨c, m⟩ := res
        rw [hr] at ht
        simp only [Except.ok.injEq, Prod.mk.injEq] at ht
        have := retrieveLoopC_ge hd0 h0 hr
        omega
    have hsq : n * (n + 1) ≤ items.length * (items.length + 1) := Nat.mul_le_mul hs (by omega)
    have : (deserializeChangesetC d).2 = (deserializeLoopC d.length true d).2 := rfl
    omega

/-- C95, an unknown tag: `get` looks it up once. -/
theorem C95_unknown (v : Versions τ (MTree τ)) {tag : τ} (h : dget v.tree tag = none) :
    versionsGetC v tag = .ok (none, 1) := by
  simp only [versionsGetC, mtPathToC, mtPathLoopC, h]

/-- The number of children of a tag. -/
def childCount (t : MTree τ) (tag : τ) : Nat := ((dget t tag).map fun nd => nd.children.length).getD 0

theorem mtSplitLoopC_exact (t : MTree τ) : ∀ (f depth : Nat) (tag : τ) (nd : TNode τ) (path : List τ)
    {r : τ × List τ} {n : Nat}, dget t tag = some nd →
    mtSplitLoopC t f depth tag nd path = .ok (r, n) →
    ∃ rest, r.2 = path ++ rest ∧ (tag :: rest).getLast? = some r.1 ∧
      n = ((tag :: rest).dropLast.map fun x => 1 + childCount t x).sum
  | 0, depth, tag, nd, path, r, n, _, h => by
    unfold mtSplitLoopC at h
    split at h
    · cases h
    · cases h; exact ⟨[], by simp, rfl, rfl⟩
  | f + 1, depth, tag, nd, path, r, n, hd, h => by
    unfold mtSplitLoopC at h
    split at h
    · split at h
      · cases h
      · split at h
        · cases h
        · split at h
          · cases h
          · rename_i child _
            split at h
            · cases h
            · rename_i nd' hd'
              split at h
              · cases h
              · rename_i r' n' h'
                obtain ⟨rest, h1, h2, h3⟩ := mtSplitLoopC_exact t f _ _ _ _ hd' h'
                cases h
                refine ⟨child :: rest, by rw [h1, List.append_assoc]; rfl,
                  by rw [List.getLast?_cons_cons]; exact h2, ?_⟩
                have hc : childCount t tag = nd.children.length := by simp [childCount, hd]
                rw [List.dropLast_cons_of_ne_nil (by simp), List.map_cons, List.sum_cons, hc, h3]
    · cases h; exact ⟨[], by simp, rfl, rfl⟩

/-- C95, `get_split`: one step for every tag above the split and one for every child of these. -/
theorem C95_split_cost {t : MTree τ} {tag split : τ} {path : List τ} {n : Nat}
    (h : mtGetSplitC t tag = .ok ((split, path), n)) :
    path.head? = some tag ∧ path.getLast? = some split ∧
      n = (path.dropLast.map fun x => 1 + childCount t x).sum := by
  unfold mtGetSplitC at h
  split at h
  · cases h
  · rename_i nd hd
    obtain ⟨rest, h1, h2, h3⟩ := mtSplitLoopC_exact t _ _ _ _ _ hd h
    dsimp only at h1 h2
    rw [h1]
    exact ⟨rfl, h2, h3⟩

/-- Head 4 has the children 2 and 3; the split is 3. -/
example : mtGetSplitC (storeAfter sampleHistory).tree 4 = .ok ((3, [4, 3]), 3) := by decide +kernel

/-- In the sample `L = 5` and `w = 1`, so `D = 15`; the line of head 4 has `N = 3`. -/
example : ([4, 3, 2, 1, 0] : List Nat).map (versionsGetC (storeAfter sampleHistory)) =
    [.ok (some [7, 1, 9, 9, 4], 2), .ok (some [1, 9, 9, 4], 20), .ok (some [1, 9, 3, 4], 44),
     .ok (some [1, 2, 3, 4], 66), .ok (some [1, 2, 3], 84)] ∧
    84 ≤ 3 * (15 * 15 + 3 * 15 + 2 * 5 + 3) := by decide +kernel

example : (versionsAddC (storeAfter sampleHistory) 5 [7, 7, 1, 9] (some 4)).2 = 203 := by decide +kernel

/-- Doubling the text makes reading it almost four times as slow. -/
example : ([4, 8, 16] : List Nat).map (fun n => versionsGetC (storeAfter
    [⟨0, (List.replicate n [97, 121]).flatten, none⟩, ⟨1, (List.replicate n [97, 120]).flatten, some 0⟩] :
      Versions Nat (MTree Nat)) 0) =
    [.ok (some (List.replicate 4 [97, 121]).flatten, 182),
     .ok (some (List.replicate 8 [97, 121]).flatten, 614),
     .ok (some (List.replicate 16 [97, 121]).flatten, 2246)] := by decide +kernel

end Gaspra
