import Verif.Props.Versions
import Verif.Proofs.LinearHistory

set_option linter.unusedSectionVars false
set_option linter.unusedVariables false

/-!
# C51: the depth of the version tree

In a documented history every version has at most one successor, so the versions fall into lines,
one for each head.  The tree of a line with `n` versions has height exactly `⌊√(4n + 1)⌋ - 1`.
-/

namespace Gaspra

variable {τ : Type _} [DecidableEq τ]

/-- C51, the lines.  Every version of a documented history belongs to the line of a head, and its
path starts at that head. -/
theorem C51_lines {h : List (AddOp τ)} (G : GoodHistory h) (hc : ContentsFit h) {y : τ}
    (hy : y ∈ addedTags h) :
    ∃ t l p, IsHead h t ∧ BaseLine h t l ∧ y ∈ l ∧
      mtPathTo (storeAfter h).tree y = .ok (some (t :: p)) := by
  have H := historyOK G.fresh hc
  obtain ⟨f, J⟩ := G.lines nullLawful fun a ha => ⟨trivial, hc a ha⟩
  obtain ⟨path, h1, ⟨r, h2, h3⟩, h4, h5, h6⟩ := (C33_forest G.fresh hc).2.1 y hy
  obtain ⟨l, k1, k2, k3⟩ := J.line h3
  obtain ⟨nd, hnd⟩ := H.dget_some.2 hy
  obtain ⟨u, hu⟩ := H.store.tree.acyc hnd
  have hd := hu.descends_all H.store.tree.toForest
  have hp := pathTo_spec hu
  have e : u.reverse = path := by
    rw [h1] at hp; simpa using hp.symm
  rw [e] at hd
  cases path with
  | nil => cases h2
  | cons r' p =>
    simp at h2; subst h2
    have hyp : y ∈ r' :: p := List.mem_of_mem_getLast? h4
    exact ⟨r', l, p, G.heads.2.1 h3, k1, k3.mem_iff.1 (k2.comb.descends hd k2.top_mem y hyp), h1⟩

/-- C51.  Let `l` be the line of a head `t` and `n = l.length`.  With `N = ⌊√(4n + 1)⌋ - 1`, every
path of the line has at most `N` tags, and one has exactly `N`. -/
theorem C51_depth {h : List (AddOp τ)} (G : GoodHistory h) (hc : ContentsFit h) {t : τ}
    {l : List τ} (ht : IsHead h t) (hl : BaseLine h t l) :
    ∃ N, (N + 1) ^ 2 ≤ 4 * l.length + 1 ∧ 4 * l.length + 1 < (N + 2) ^ 2 ∧
      (∀ y ∈ l, ∃ p, mtPathTo (storeAfter h).tree y = .ok (some (t :: p)) ∧ p.length + 1 ≤ N) ∧
      ∃ y ∈ l, ∃ p, mtPathTo (storeAfter h).tree y = .ok (some (t :: p)) ∧ p.length + 1 = N := by
  obtain ⟨f, J⟩ := G.lines nullLawful fun a ha => ⟨trivial, hc a ha⟩
  exact J.paths (historyOK G.fresh hc) (G.heads.2.2 ht) hl G.fresh.nodup

/-- The line of head 4 in the sample has five versions, so the paths have at most three tags; the
path to 0 has exactly three. -/
example : IsHead sampleHistory 4 ∧ BaseLine sampleHistory 4 [4, 3, 2, 1, 0] ∧
    ([4, 3, 2, 1, 0] : List Nat).map (mtPathTo (storeAfter sampleHistory).tree) =
      [.ok (some [4]), .ok (some [4, 3]), .ok (some [4, 2]), .ok (some [4, 3, 1]),
       .ok (some [4, 2, 0])] ∧ (3 + 1) ^ 2 ≤ 4 * 5 + 1 ∧ 4 * 5 + 1 < (3 + 2) ^ 2 := by
  refine ⟨by simp [IsHead, addedTags, sampleHistory], ?_, by decide +kernel, by decide, by decide⟩
  exact .step (a := ⟨4, [7, 1, 9, 9, 4], some 3⟩) (by simp [sampleHistory]) rfl
    (.step (a := ⟨3, [1, 9, 9, 4], some 2⟩) (by simp [sampleHistory]) rfl
    (.step (a := ⟨2, [1, 9, 3, 4], some 1⟩) (by simp [sampleHistory]) rfl
    (.step (a := ⟨1, [1, 2, 3, 4], some 0⟩) (by simp [sampleHistory]) rfl
    (.root (a := ⟨0, [1, 2, 3], none⟩) (by simp [sampleHistory]) rfl))))

end Gaspra
