import Verif.Proofs.Damage
import Verif.Props.Isolate

set_option linter.unusedSectionVars false

/-!
# C128: damage to a stored entry
-/

namespace Gaspra

variable {τ : Type _} [DecidableEq τ]

/-- C128.  If the text and the delta stored for one tag `x` are changed, removed or added in any way,
every version whose path does not lead through `x` is still retrieved exactly. -/
theorem C128_confined {h : List (AddOp τ)} (G : GoodHistory h) (hc : ContentsFit h) {x : τ}
    {v' : Versions τ (MTree τ)} (D : DamagedAt x (storeAfter h) v') {t : τ} (ht : t ∈ addedTags h) :
    ∃ path, mtPathTo (storeAfter h).tree t = .ok (some path) ∧
      (x ∉ path → versionsGet (memoryTree τ) nullTok v' t = .ok (some (contentOf h t))) := by
  have H := historyOK G.fresh hc
  obtain ⟨nd, hnd⟩ := H.dget_some.2 ht
  obtain ⟨l, hl⟩ := H.store.tree.acyc hnd
  refine ⟨l.reverse, pathTo_spec hl, fun hx => ?_⟩
  rw [D.get nullTok (pathTo_spec hl) hx, H.store.get_ok hnd]

/-- C128.  In particular for all versions of the lines to which `x` does not belong. -/
theorem C128_lines {h : List (AddOp τ)} (G : GoodHistory h) (hc : ContentsFit h) {x : τ}
    {v' : Versions τ (MTree τ)} (D : DamagedAt x (storeAfter h) v') {s : τ} {l : List τ}
    (hs : IsHead h s) (hl : BaseLine h s l) (hx : x ∉ l) {t : τ} (ht : t ∈ l) :
    versionsGet (memoryTree τ) nullTok v' t = .ok (some (contentOf h t)) := by
  have S := G.separate_line hs hl
  have htag : t ∈ addedTags h := by
    clear hx S hs
    induction hl with
    | root ha hb =>
      rw [List.mem_singleton.1 ht]
      exact List.mem_map.2 ⟨_, ha, rfl⟩
    | step ha hb _ ih =>
      rcases List.mem_cons.1 ht with rfl | ht
      · exact List.mem_map.2 ⟨_, ha, rfl⟩
      · exact ih ht
  obtain ⟨path, h1, h2⟩ := C128_confined G hc D htag
  refine h2 fun hxp => hx ?_
  have h3 := ((C89_alone nullTok G.fresh S).1 t (by simpa using ht)).2.2.2.1
  have h1' : mtPathTo (memStoreAfter nullTok h).tree t = .ok (some path) := h1
  rw [h3] at h1'
  have F' : FreshHistory (callsIn (fun t => decide (t ∈ l)) h) := G.fresh.callsIn _
  have H' := historyOK F' fun a ha => hc a (List.mem_filter.1 ha).1
  have ht' : t ∈ addedTags (callsIn (fun t => decide (t ∈ l)) h) := by
    obtain ⟨a, ha, rfl⟩ := List.mem_map.1 htag
    exact List.mem_map.2 ⟨a, List.mem_filter.2 ⟨ha, by simpa using ht⟩, rfl⟩
  obtain ⟨nd, hnd⟩ := H'.dget_some.2 ht'
  obtain ⟨u, hu⟩ := H'.store.tree.acyc hnd
  have e := pathTo_spec hu
  have e' : u.reverse = path := by
    have : (Except.ok (some u.reverse) : Except PyErr (Option (List τ))) = .ok (some path) := e.symm.trans h1'
    simpa using this
  obtain ⟨nx, hnx⟩ := hu.mem_keys x (by rw [← e'] at hxp; simpa using hxp)
  obtain ⟨a, ha, rfl⟩ := List.mem_map.1 (H'.dget_some.1 ⟨nx, hnx⟩)
  simpa using (List.mem_filter.1 ha).2

/-- C128.  How damage spreads.  A version whose parent cannot be read fails with the same exception.
Otherwise it is read without an exception, is no longer than the right one, and is right exactly if
the text of the parent agrees with the right one in the slices that the stored delta copies. -/
theorem C128_spreads {h : List (AddOp τ)} (G : GoodHistory h) (hc : ContentsFit h) {x : τ}
    {v' : Versions τ (MTree τ)} (D : DamagedAt x (storeAfter h) v') {t p : τ} (hx : t ≠ x)
    (hp : ParentOf (storeAfter h).tree t p) :
    (∀ e, versionsGet (memoryTree τ) nullTok v' p = .error e →
      versionsGet (memoryTree τ) nullTok v' t = .error e) ∧
    ∀ b, versionsGet (memoryTree τ) nullTok v' p = .ok (some b) →
      ∃ d items c, dget (storeAfter h).diffs t = some d ∧ deserializeChangeset d = (items, none) ∧
        versionsGet (memoryTree τ) nullTok v' t = .ok (some c) ∧
        c.length ≤ (contentOf h t).length ∧
        (c = contentOf h t ↔ ∀ sl, .slice sl ∈ items → sl.get b = sl.get (contentOf h p)) := by
  have H := historyOK G.fresh hc
  obtain ⟨nd, hnd, hpar⟩ := hp
  obtain ⟨np, hnp, _⟩ := H.store.tree.up hnd hpar
  obtain ⟨l, hl⟩ := H.store.tree.acyc hnp
  have hnd' : dget v'.tree t = some nd := by rw [D.tree]; exact hnd
  have hl' : UpPath v'.tree p l := by rw [D.tree]; exact hl
  have hg := get_child hnd' hpar hl'
  refine ⟨fun e he => by rw [hg, he], fun b hb => ?_⟩
  obtain ⟨_, d, hd, hD⟩ := H.store.inner hnd hpar
  obtain ⟨items, k1, k2, k3, k4⟩ := hD.other
  refine ⟨d, items, applyPatch items b, hd, k1, ?_, k4 b, k3 b⟩
  rw [hg, hb, D.diffs t hx, hd]
  simp only [applyStored, k1, Except.map]

/-- C128.  If the text of a head is replaced by any other, nothing ever raises: the head is read as
what is stored, and every other version as something that is no longer than it should be. -/
theorem C128_head {h : List (AddOp τ)} (G : GoodHistory h) (hc : ContentsFit h) {x : τ}
    (hx : IsHead h x) (c : Bytes) :
    versionsGet (memoryTree τ) nullTok
      { storeAfter h with headVersion := dset (storeAfter h).headVersion x c } x = .ok (some c) ∧
    ∀ t ∈ addedTags h, t ≠ x → ∃ b, versionsGet (memoryTree τ) nullTok
      { storeAfter h with headVersion := dset (storeAfter h).headVersion x c } t = .ok (some b) ∧
      b.length ≤ (contentOf h t).length := by
  have H := historyOK G.fresh hc
  have D : DamagedAt x (storeAfter h)
      { storeAfter h with headVersion := dset (storeAfter h).headVersion x c } :=
    ⟨rfl, fun t ht => by simp [dget_dset, Ne.symm ht], fun _ _ => rfl⟩
  obtain ⟨nx, hnx⟩ := H.dget_some.2 hx.1
  have hroot : nx.parent = none := ((C33_forest G.fresh hc).2.2.2 hnx).2.2 (G.heads.2.2 hx)
  have hxc : versionsGet (memoryTree τ) nullTok
      { storeAfter h with headVersion := dset (storeAfter h).headVersion x c } x = .ok (some c) := by
    rw [get_root (v := { storeAfter h with headVersion := dset (storeAfter h).headVersion x c }) hnx hroot]
    simp [dget_dset]
  refine ⟨hxc, ?_⟩
  have all : ∀ {t l}, UpPath (storeAfter h).tree t l → ∃ b, versionsGet (memoryTree τ) nullTok
      { storeAfter h with headVersion := dset (storeAfter h).headVersion x c } t = .ok (some b) ∧
      (t ≠ x → b.length ≤ (contentOf h t).length) := by
    intro t l hl
    induction hl with
    | @root t nd h1 h2 =>
      by_cases e : t = x
      · subst e; exact ⟨c, hxc, fun h => absurd rfl h⟩
      · refine ⟨contentOf h t, ?_, fun _ => Nat.le_refl _⟩
        rw [D.get nullTok (pathTo_spec (.root h1 h2)) (by simpa using Ne.symm e), H.store.get_ok h1]
    | @step t p nd l h1 h2 h3 ih =>
      obtain ⟨b, hb, _⟩ := ih
      have e : t ≠ x := by
        rintro rfl
        rw [hnx] at h1; cases h1
        rw [hroot] at h2; cases h2
      obtain ⟨_, _, r, _, _, k1, k2, _⟩ := (C128_spreads G hc D e ⟨nd, h1, h2⟩).2 b hb
      exact ⟨r, k1, fun _ => k2⟩
  intro t ht hne
  obtain ⟨nd, hnd⟩ := H.dget_some.2 ht
  obtain ⟨l, hl⟩ := H.store.tree.acyc hnd
  obtain ⟨b, h1, h2⟩ := all hl
  exact ⟨b, h1, h2 hne⟩

/-- C128.  If a delta is replaced by any bytes, whatever can be read from them is applied without a
check, and what cannot be read is the exception of `get`. -/
theorem C128_delta {h : List (AddOp τ)} (G : GoodHistory h) (hc : ContentsFit h) {x p : τ}
    (hp : ParentOf (storeAfter h).tree x p) (d : Bytes) :
    let v' := { storeAfter h with diffs := dset (storeAfter h).diffs x d }
    (∀ items, deserializeChangeset d = (items, none) →
      versionsGet (memoryTree τ) nullTok v' x = .ok (some (applyPatch items (contentOf h p)))) ∧
    ∀ items e, deserializeChangeset d = (items, some e) →
      versionsGet (memoryTree τ) nullTok v' x = .error e := by
  intro v'
  have H := historyOK G.fresh hc
  have D : DamagedAt x (storeAfter h) v' :=
    ⟨rfl, fun _ _ => rfl, fun t ht => by simp [v', dget_dset, Ne.symm ht]⟩
  obtain ⟨nd, hnd, hpar⟩ := hp
  obtain ⟨np, hnp, _⟩ := H.store.tree.up hnd hpar
  obtain ⟨l, hl⟩ := H.store.tree.acyc hnp
  have hxl : x ∉ l := (List.nodup_cons.1 (UpPath.step hnd hpar hl).nodup).1
  have hg := get_child (v := v') hnd hpar hl
  rw [D.get nullTok (pathTo_spec hl) (by simpa using hxl), H.store.get_ok hnp] at hg
  have hd : dget v'.diffs x = some d := by simp [v', dget_dset]
  rw [hd] at hg
  refine ⟨fun items hi => ?_, fun items e hi => ?_⟩
  · rw [hg]; simp only [applyStored, hi, Except.map]
  · rw [hg]; simp only [applyStored, hi, Except.map]

/-- C128.  If nothing is stored for `x` any more, exactly the versions whose path leads through `x`
raise `KeyError`. -/
theorem C128_missing {h : List (AddOp τ)} (G : GoodHistory h) (hc : ContentsFit h) {x : τ}
    {v' : Versions τ (MTree τ)} (D : DamagedAt x (storeAfter h) v')
    (h1 : dget v'.headVersion x = none) (h2 : dget v'.diffs x = none) {t : τ} (ht : t ∈ addedTags h) :
    ∃ path, mtPathTo (storeAfter h).tree t = .ok (some path) ∧
      versionsGet (memoryTree τ) nullTok v' t =
        if x ∈ path then .error .keyError else .ok (some (contentOf h t)) := by
  have H := historyOK G.fresh hc
  obtain ⟨nd, hnd⟩ := H.dget_some.2 ht
  obtain ⟨l, hl⟩ := H.store.tree.acyc hnd
  refine ⟨l.reverse, pathTo_spec hl, ?_⟩
  split
  · next hx =>
    rw [List.mem_reverse] at hx
    clear ht hnd
    induction hl with
    | @root t nd k1 k2 =>
      have e : x = t := by simpa using hx
      subst e
      rw [get_root (by rw [D.tree]; exact k1) k2, h1]
    | @step t p nd l k1 k2 k3 ih =>
      have hg := get_child (v := v') (by rw [D.tree]; exact k1) k2 (by rw [D.tree]; exact k3)
      rcases List.mem_cons.1 hx with e | hx
      · subst e
        have hxl : x ∉ l := (List.nodup_cons.1 (UpPath.step k1 k2 k3).nodup).1
        obtain ⟨np, hnp⟩ := k3.mem_keys p (by obtain ⟨r, rfl⟩ := k3.head; simp)
        rw [D.get nullTok (pathTo_spec k3) (by simpa using hxl), H.store.get_ok hnp, h2] at hg
        exact hg
      · rw [ih hx] at hg
        exact hg
  · next hx => rw [D.get nullTok (pathTo_spec hl) hx, H.store.get_ok hnd]

-- The paths of the sample: versions 3 and 1, and 2 and 0, hang together below the head 4.
example : (mtPathTo (storeAfter sampleHistory).tree 1, mtPathTo (storeAfter sampleHistory).tree 0) =
    (.ok (some [4, 3, 1]), .ok (some [4, 2, 0])) := by decide +kernel
-- One byte of the head is wrong: 3 is read with the wrong byte, the others do not copy it.
example : ([4, 3, 2, 1, 0, 10] : List Nat).map (versionsGet (memoryTree Nat) nullTok
      { storeAfter sampleHistory with headVersion := dset (storeAfter sampleHistory).headVersion 4 [7, 1, 9, 8, 4] }) =
    [.ok (some [7, 1, 9, 8, 4]), .ok (some [1, 9, 8, 4]), .ok (some [1, 9, 3, 4]), .ok (some [1, 2, 3, 4]),
      .ok (some [1, 2, 3]), .ok (some [])] := by decide +kernel
-- The delta of 2 is missing.
example : ([4, 3, 2, 1, 0, 10] : List Nat).map (versionsGet (memoryTree Nat) nullTok
      { storeAfter sampleHistory with diffs := ddel (storeAfter sampleHistory).diffs 2 }) =
    [.ok (some [7, 1, 9, 9, 4]), .ok (some [1, 9, 9, 4]), .error .keyError, .ok (some [1, 2, 3, 4]),
      .error .keyError, .ok (some [])] := by decide +kernel

end Gaspra
