import Verif.Model.DBTreeOld
import Verif.Proofs.DBTree

set_option linter.unusedSectionVars false
set_option linter.unusedSimpArgs false
set_option linter.unusedVariables false

/-! # `old_get_split` and `get_split` agree -/

namespace Gaspra

variable {τ : Type _} [DecidableEq τ]

theorem mem_rowsBelow {g : Graph τ} {rid : Nat} {x : Nat × GRow τ} :
    x ∈ rowsBelow g rid ↔ rowAt g x.1 = some x.2 ∧ x.2.parentRid = some rid := by
  obtain ⟨r, row⟩ := x
  unfold rowsBelow
  simp only [List.mem_filterMap, Prod.exists, List.mem_zipIdx_iff_getElem?]
  constructor
  · rintro ⟨a, i, h1, h2⟩
    split at h2
    · next h => cases h2; exact ⟨h1, h⟩
    · cases h2
  · rintro ⟨h1, h2⟩
    cases r with
    | zero => cases h1
    | succ i => exact ⟨row, i, h1, by simp [h2]⟩

/-- The rows below a row are those in its two slots. -/
theorem Sim.below {t : MTree τ} {g : Graph τ} (H : Sim t g) (F : Forest t) {y : τ} {nd : TNode τ}
    (hy : dget t y = some nd) {i : Nat} {row : GRow τ} (hr : NodeRow (t.map Prod.fst) i nd row)
    (hi : ridOf (t.map Prod.fst) y = some (i + 1)) (x : Nat × GRow τ) :
    x ∈ rowsBelow g (i + 1) ↔ x ∈ Gaspra.childRows g row := by
  obtain ⟨rows, e1, e2, e3⟩ := H.childRows F hy hr
  rw [mem_rowsBelow, e1.mem_iff]
  constructor
  · rintro ⟨h1, h2⟩
    obtain ⟨nx, k1, k2, k3⟩ := H.ofRowAt h1
    rw [k2.parentRid] at h2
    obtain ⟨p, hp, hp'⟩ := Option.bind_eq_some_iff.1 h2
    have := ridOf_inj F.nodup hp' hi
    subst this
    obtain ⟨np, q1, q2⟩ := F.up k1 hp
    rw [hy] at q1; cases q1
    rw [← e2, List.mem_map] at q2
    obtain ⟨z, z1, z2⟩ := q2
    obtain ⟨nz, w1, w2, w3⟩ := H.ofRowAt (e3 z z1)
    rw [z2, k1] at w1; cases w1
    have hz := e3 z z1
    have : z.1 = x.1 := by have := k2.order; have := w2.order; omega
    have h3 : z.2 = x.2 := by rw [this, h1] at hz; exact (Option.some.inj hz).symm
    exact (Prod.ext this h3 : z = x) ▸ z1
  · intro hx
    refine ⟨e3 x hx, ?_⟩
    obtain ⟨nx, k1, k2, k3⟩ := H.ofRowAt (e3 x hx)
    have hc : x.2.tag ∈ nd.children := by rw [← e2]; exact List.mem_map_of_mem hx
    obtain ⟨nc, q1, q2⟩ := F.down hy hc
    rw [k1] at q1; cases q1
    rw [k2.parentRid, q2]
    exact hi

/-- The best row depends only on the set of rows, if a rowid determines the row. -/
theorem bestRow_congr {l l' : List (Nat × GRow τ)} (h : ∀ x, x ∈ l ↔ x ∈ l')
    (hd : ∀ x ∈ l, ∀ y ∈ l, x.1 = y.1 → x = y) : bestRow l = bestRow l' := by
  by_cases hl : l = []
  · subst hl
    have : l' = [] := List.eq_nil_iff_forall_not_mem.2 fun x hx => by simpa using (h x).2 hx
    rw [this]
  · have hl' : l' ≠ [] := by
      rintro rfl
      exact hl (List.eq_nil_iff_forall_not_mem.2 fun x hx => by simpa using (h x).1 hx)
    obtain ⟨b, b1, b2, b3⟩ := bestRow_spec l hl
    obtain ⟨c, c1, c2, c3⟩ := bestRow_spec l' hl'
    have h1 := b3 c ((h c).2 c2)
    have h2 := c3 b ((h b).1 b2)
    rw [b1, c1, hd b b2 c ((h c).2 c2) (by omega)]

theorem Sim.oldLoop {t : MTree τ} {g : Graph τ} (H : Sim t g) (T : TreeOK t) :
    ∀ (f depth : Nat) {y : τ} {nd : TNode τ} {i : Nat} {row : GRow τ} (path : List τ),
      dget t y = some nd → NodeRow (t.map Prod.fst) i nd row →
      ridOf (t.map Prod.fst) y = some (i + 1) →
      oldSplitLoop g f depth y (i + 1) row path = dbSplitLoop g f depth y row path
  | 0, depth, y, nd, i, row, path, hy, hr, hi => rfl
  | f + 1, depth, y, nd, i, row, path, hy, hr, hi => by
    simp only [oldSplitLoop, dbSplitLoop]
    have hb : ∀ x, x ∈ rowsBelow g (i + 1) ↔ x ∈ Gaspra.childRows g row :=
      fun x => H.below T.toForest hy hr hi x
    rw [bestRow_congr hb fun x hx y hy e => by
      have h1 := (mem_rowsBelow.1 hx).1
      have h2 := (mem_rowsBelow.1 hy).1
      rw [e, h2] at h1
      exact Prod.ext e (Option.some.inj h1).symm]
    split
    · cases hbr : bestRow (Gaspra.childRows g row) with
      | none => rfl
      | some b =>
        have hne : Gaspra.childRows g row ≠ [] := by intro h; rw [h] at hbr; cases hbr
        obtain ⟨b', c1, c2, _⟩ := bestRow_spec _ hne
        rw [hbr] at c1; cases c1
        have h1 := (mem_rowsBelow.1 ((hb b).2 c2)).1
        obtain ⟨r, rw'⟩ := b
        obtain ⟨nb, k1, k2, k3⟩ := H.ofRowAt h1
        cases r with
        | zero => cases h1
        | succ j =>
          obtain ⟨i', row', q1, q2, q3, q4⟩ := H.rowOf T.nodup k1
          obtain rfl : i' = j := by rw [← q4.order, k2.order]; rfl
          exact Sim.oldLoop H T f (depth + 1) _ k1 k2 q3
    · rfl

theorem Sim.oldGetSplit {t : MTree τ} {g : Graph τ} (H : Sim t g) (T : TreeOK t) (x : τ) :
    Gaspra.oldGetSplit g x = dbGetSplit g x := by
  cases hx : dget t x with
  | none => simp [Gaspra.oldGetSplit, dbGetSplit, H.select_none hx]
  | some nd =>
    obtain ⟨i, row, h1, _, h3, h4, h2⟩ := H.select T.nodup hx
    simp only [Gaspra.oldGetSplit, dbGetSplit, h1]
    exact H.oldLoop T _ _ _ hx h2 h4

end Gaspra
