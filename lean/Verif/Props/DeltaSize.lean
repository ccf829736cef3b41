import Verif.Proofs.DeltaSize
import Verif.Props.Versions

/-!
# C78: what an `add` stores, and how much
-/

set_option linter.unusedSectionVars false
set_option linter.unusedSimpArgs false
set_option linter.unusedVariables false

namespace Gaspra

/-- C78.  Whatever tree, tokenizer and store, and whether or not the call fails: an `add` leaves all
deltas and head texts as they are, except those of the new tag, of its base and of the split which
the tree names for that base.  Without a base only the text of the new tag is stored. -/
theorem C78_touched {τ T Tok S : Type _} [DecidableEq τ] [DecidableEq Tok] (ops : TreeOps τ T)
    (tk : TokOps Tok S) (v : Versions τ T) (tag : τ) (version : Bytes) (base : Option τ) :
    (∀ y, (∀ b, base = some b →
        y ≠ b ∧ ∀ path, ops.getSplit (ops.add v.tree tag base).1 b ≠ .ok (y, path)) →
      dget (versionsAdd ops tk v tag version base).1.diffs y = dget v.diffs y ∧
      dget (versionsAdd ops tk v tag version base).1.headVersion y =
        if y = tag then some version else dget v.headVersion y) := by
  intro y hy
  have h0 : dget (dset v.headVersion tag version) y =
      if y = tag then some version else dget v.headVersion y := by
    rw [dget_dset]
    by_cases e : tag = y
    · rw [if_pos e, if_pos e.symm]
    · rw [if_neg e, if_neg (fun e' => e e'.symm)]
  unfold versionsAdd
  rcases ha : ops.add v.tree tag base with ⟨tree, _ | e⟩
  · rw [ha] at hy
    cases base with
    | none => simp only [ha]; exact ⟨trivial, h0⟩
    | some b =>
      obtain ⟨h1, h2⟩ := hy b rfl
      have := addToHead_only ops tk ⟨dset v.headVersion tag version, v.diffs, tree⟩ tag version b y
        (by rintro (e | ⟨path, e⟩)
            · exact h1 e
            · exact h2 path e)
      simp only [ha]
      exact ⟨this.1, this.2.trans h0⟩
  · simp only [ha]; exact ⟨trivial, h0⟩

variable {τ : Type _} [DecidableEq τ]

/-- C78.  The delta of every version of a documented history takes at most `1 + 2 w` times as many
bytes as the version itself, where `w` is the largest number of bytes of an encoded number not above
the longest content. -/
theorem C78_delta_size {h : List (AddOp τ)} (G : GoodHistory h) {N w : Nat} (hN : N < 2 ^ 64)
    (hc : ∀ a ∈ h, a.content.length ≤ N)
    (hw : ∀ k e, k ≤ N → vserializeInt k = .ok e → e.length ≤ w)
    {a : AddOp τ} (ha : a ∈ h) {d : Bytes} (hd : (a.tag, d) ∈ (storeAfter h).diffs) :
    d.length ≤ (1 + 2 * w) * a.content.length := by
  have H := historyOK G.fresh (fun a ha => Nat.lt_of_le_of_lt (hc a ha) hN)
  have I := H.store
  have hd' := dget_of_mem I.dfNodup hd
  obtain ⟨nd, hnd⟩ := H.dget_some.2 (List.mem_map.2 ⟨a, ha, rfl⟩)
  cases hp : nd.parent with
  | none => rw [(I.root hnd hp).2] at hd'; cases hd'
  | some p =>
    obtain ⟨_, d', h2, items, h3, h4, h5, h6⟩ := I.inner hnd hp
    rw [h2] at hd'
    cases hd'
    obtain ⟨np, hnp⟩ : ∃ np, dget (storeAfter h).tree p = some np := by
      obtain ⟨np, h, _⟩ := I.tree.up hnd hp
      exact ⟨np, h⟩
    obtain ⟨o, ho, hop⟩ := List.mem_map.1 (H.dget_some.1 ⟨np, hnp⟩)
    have e1 := contentOf_mem G.fresh.nodup ha
    have e2 := contentOf_mem G.fresh.nodup ho
    rw [hop] at e2
    rw [e1, e2] at h5
    refine delta_le h5 hN (hc o ho) (hc a ha) (fun k hk => hw k _ hk (vser_encV (by omega))) h6

/-- C78.  So a delta never takes more than 19 times the bytes of its version, and at most 3 times as
many if no content is longer than 240 bytes. -/
theorem C78_delta_size_bounds {h : List (AddOp τ)} (G : GoodHistory h) (hc : ContentsFit h)
    {a : AddOp τ} (ha : a ∈ h) {d : Bytes} (hd : (a.tag, d) ∈ (storeAfter h).diffs) :
    d.length ≤ 19 * a.content.length ∧
      ((∀ o ∈ h, o.content.length ≤ 240) → d.length ≤ 3 * a.content.length) := by
  constructor
  · refine C78_delta_size (N := 2 ^ 64 - 1) (w := 9) G (by decide)
      (fun o ho => by have := hc o ho; omega) ?_ ha hd
    intro k e hk he
    have h1 : k < 2 ^ 64 := by omega
    rw [vser_encV h1] at he
    cases he
    exact (encV_length h1).2
  · intro h240
    refine C78_delta_size (N := 240) (w := 1) G (by decide) h240 ?_ ha hd
    intro k e hk he
    obtain ⟨c, n, p, h1, h2, h3, h4⟩ := vser_spec (show k < 2 ^ 64 by omega)
    rw [h1] at he
    cases he
    unfold Code at h4
    simp only [List.length_cons, bytesBE_length]
    omega

/-- C78 (refuted: a delta is not always smaller than the version it replaces).  After storing
`"ay" * n` and then `"ax" * n` on top of it, the delta of the first takes at least twice as many bytes as
its text, which was dropped. -/
theorem C78_delta_larger {a x y : UInt8} (hxa : x ≠ a) (hya : y ≠ a) (hxy : x ≠ y) {n : Nat}
    (hn : 2 * n < 2 ^ 64) :
    let old := (List.replicate n [a, y]).flatten
    let new := (List.replicate n [a, x]).flatten
    let h : List (AddOp Nat) := [⟨0, old, none⟩, ⟨1, new, some 0⟩]
    GoodHistory h ∧ ContentsFit h ∧
      ∃ d, (storeAfter h).diffs = [(0, d)] ∧ (storeAfter h).headVersion = [(1, new)] ∧
        2 * old.length ≤ d.length := by
  have hcomb : ∀ z : UInt8, (List.replicate n [a, z]).flatten = comb a z n := by
    intro z
    clear hn
    induction n with
    | zero => rfl
    | succ n ih => simp [List.replicate_succ, comb, ih]
  intro old new h
  obtain ⟨items, d, h1, h2, h3⟩ := delta_ge hxa hya hxy hn
  rw [← hcomb, ← hcomb] at h1
  have hlen : ∀ z : UInt8, (List.replicate n [a, z]).flatten.length = 2 * n := fun z => by
    rw [hcomb, comb_length]
  have hrun : ∃ t, storeAfter h = ⟨[(1, new)], [(0, d)], t⟩ := by
    have e1 : storeAfter h = (versionsAdd (memoryTree Nat) nullTok
      ⟨[(0, old)], [], mtAdd [] 0 none⟩ 1 new (some 0)).1 := rfl
    have e2 : (memoryTree Nat).getSplit (mtAdd (mtAdd [] 0 none) 1 (some 0)) 0 = .ok (0, [0]) := rfl
    have e3 : (memoryTree Nat).add (mtAdd [] 0 none) 1 (some 0) =
      (mtAdd (mtAdd [] 0 none) 1 (some 0), none) := rfl
    obtain ⟨t, e4⟩ : ∃ t, (memoryTree Nat).changeParent (mtAdd (mtAdd [] 0 none) 1 (some 0)) 0 1 =
      (t, none) := ⟨_, rfl⟩
    refine ⟨t, ?_⟩
    have e5 : makeChangeset nullTok new old = .ok items := h1
    rw [e1]
    simp only [versionsAdd, e3, addToHead, e2, addOldHead, dset, dget, e5, addEdge, h2, e4, dmem, ddel,
      ne_eq, not_true_eq_false, if_false, if_true, reduceCtorEq]
    simp [dmem, dget, ddel]
  obtain ⟨t, hrun⟩ := hrun
  refine ⟨?_, ?_, d, by rw [hrun], by rw [hrun], ?_⟩
  · refine .snoc (h := [_]) (.snoc (h := []) .nil ?_ ?_) ?_ ?_ <;> simp [addedTags, IsHead]
  · intro o ho
    simp only [h, List.mem_cons, List.not_mem_nil, or_false] at ho
    rcases ho with rfl | rfl
    · show old.length < _; simp only [old, hlen]; exact hn
    · show new.length < _; simp only [new, hlen]; exact hn
  · simp only [old, hlen]; omega

example : (storeAfter [⟨0, [97, 121, 97, 121, 97, 121], none⟩,
    ⟨1, [97, 120, 97, 120, 97, 120], some 0⟩] : Versions Nat (MTree Nat)).diffs =
      [(0, [0, 0, 1, 1, 121, 2, 3, 1, 121, 4, 5, 1, 121])] := by decide +kernel

example : (versionsAdd (memoryTree Nat) nullTok (storeAfter sampleHistory) 5 [8] (some 4)).1.diffs.map
    Prod.fst = [0, 1, 2, 3, 4] := by decide +kernel

end Gaspra
