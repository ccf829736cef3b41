import Verif.Proofs.SACost
import Verif.Proofs.Recursion

/-!
# The number of steps of `find_changeset`
-/

set_option linter.unusedSectionVars false
set_option linter.unusedSimpArgs false
set_option linter.unusedVariables false

namespace Gaspra

variable {α : Type _} [DecidableEq α]

theorem findChangesetAuxC_fst (o m : List α) : ∀ (f : Nat) (os ms : Slice),
    (findChangesetAuxC o m f os ms).map Prod.fst = findChangesetAux o m f os ms
  | 0, _, _ => rfl
  | f + 1, os, ms => by
    simp only [findChangesetAuxC, findChangesetAux]
    rw [← findLcsC_fst]
    cases findLcsC (os.get o) (ms.get m) with
    | none => rfl
    | some x =>
      obtain ⟨⟨a, b, n⟩, t⟩ := x
      simp only [Option.map_some]
      by_cases hn : n = 0
      · simp [hn]
      · simp only [if_neg hn]
        rw [← findChangesetAuxC_fst o m f, ← findChangesetAuxC_fst o m f]
        cases findChangesetAuxC o m f ⟨os.start, some (os.start + a)⟩ ⟨ms.start, some (ms.start + b)⟩ with
        | none => rfl
        | some y =>
          simp only [Option.map_some]
          cases findChangesetAuxC o m f ⟨os.start + a + n, os.stop⟩ ⟨ms.start + b + n, ms.stop⟩ <;> rfl

/-- Every token read costs a step. -/
theorem extendAllC_ge : ∀ (ts : List α) (last : Nat) (h : Heap α) (r : Heap α × Nat) (t : Nat),
    extendAllC ts last h = some (r, t) → ts.length ≤ t
  | [], _, _, _, _, _ => by simp
  | c :: ts, last, h, r, t, he => by
    simp only [extendAllC] at he
    cases hC : extendC c last h with
    | none => rw [hC] at he; simp at he
    | some x =>
      obtain ⟨⟨h1, l1⟩, n⟩ := x
      rw [hC] at he
      dsimp only at he
      cases hD : extendAllC ts l1 h1 with
      | none => rw [hD] at he; simp at he
      | some y =>
        obtain ⟨r2, m⟩ := y
        rw [hD] at he
        simp only [Option.some.injEq, Prod.mk.injEq] at he
        obtain ⟨rfl, rfl⟩ := he
        have h1 := extendAllC_ge ts _ _ _ _ hD
        have h2 : 1 ≤ n := by
          unfold extendC at hC
          dsimp only at hC
          repeat' split at hC
          all_goals first
            | (simp at hC; done)
            | (simp only [Option.some.injEq, Prod.mk.injEq] at hC; have := hC.2; omega)
        simp only [List.length_cons]
        omega

theorem buildC_ge {a : List α} {h : Heap α} {n : Nat} (hB : buildC a = some (h, n)) :
    a.length ≤ n := by
  unfold buildC at hB
  cases hE : extendAllC a 0 [{}] with
  | none => rw [hE] at hB; simp at hB
  | some y =>
    obtain ⟨⟨h1, l1⟩, k⟩ := y
    have := extendAllC_ge _ _ _ _ _ hE
    rw [hE] at hB
    dsimp only at hB
    repeat' split at hB
    all_goals first
      | (simp at hB; done)
      | (simp only [Option.some.injEq, Prod.mk.injEq] at hB; omega)

theorem findLcsC_ge {a b : List α} {r : Nat × Nat × Nat} {t : Nat}
    (h : findLcsC a b = some (r, t)) : a.length ≤ t := by
  unfold findLcsC at h
  cases hB : buildC a with
  | none => rw [hB] at h; simp at h
  | some x =>
    obtain ⟨hp, n⟩ := x
    have := buildC_ge hB
    rw [hB] at h
    dsimp only at h
    cases hS : saFindLcsC hp b with
    | none => rw [hS] at h; simp at h
    | some y =>
      rw [hS] at h
      simp only [Option.some.injEq, Prod.mk.injEq] at h
      omega

/-- Sum of the lengths of the original parts over all calls. -/
def Changeset.work : Changeset α → Nat × Nat
  | .leaf o _ _ _ => (o.length, o.length)
  | .node co _ p s =>
    let n := p.work.1 + (match co.stop with | none => 0 | some e => e - co.start) + s.work.1
    (n, n + p.work.2 + s.work.2)

theorem Valid.work_fst {i j : Nat} {x y : List α} {cs : Changeset α} (V : Valid i x j y cs) :
    cs.work.1 = x.length := by
  induction V with
  | leaf => rfl
  | node _ _ _ _ _ _ ih1 ih2 =>
    simp only [Changeset.work, ih1, ih2, List.length_append]
    omega

theorem findChangesetAuxC_cost (o m : List α) : ∀ (fuel : Nat) (os ms : Slice) (i j : Nat)
    (x y : List α), Selects o os i x → Selects m ms j y → x.length < fuel →
    ∃ cs t, findChangesetAuxC o m fuel os ms = some (cs, t) ∧ Valid i x j y cs ∧
      t ≤ cs.depth * (10 * x.length + 2 * y.length) + 3 * cs.calls ∧ cs.work.2 ≤ t := by
  intro fuel
  induction fuel with
  | zero => intro os ms i j x y _ _ hf; omega
  | succ f ih =>
    intro os ms i j x y ho hm hf
    obtain ⟨a, b, n, w, hl, hwn, hoa, hob, hmax, hfo, hfm⟩ := findLcs_spec x y
    obtain ⟨r, t, hC, hl', ht⟩ := findLcsC_cost x y
    rw [hl] at hl'
    cases hl'
    have hge := findLcsC_ge hC
    simp only [findChangesetAuxC, ho.get, hm.get, hC, ho.start, hm.start]
    by_cases hn : n = 0
    · refine ⟨_, t, by rw [if_pos hn], Valid.leaf ?_, ?_, ?_⟩
      · intro u hu hu'
        have := hmax [u] (common_single hu hu')
        simp [hn] at this
      · simp only [Changeset.depth, Changeset.calls]; omega
      · exact hge
    · rw [if_neg hn]
      obtain ⟨x1, x2, hx, hx1⟩ := hoa
      obtain ⟨y1, y2, hy, hy1⟩ := hob
      subst hx hy
      have hso := ho.occ
      have hsm := hm.occ
      have hxlen : (x1 ++ w ++ x2).length = x1.length + w.length + x2.length := by simp; omega
      have hylen : (y1 ++ w ++ y2).length = y1.length + w.length + y2.length := by simp; omega
      obtain ⟨p, t1, hp1, hp2, hp3, hp4⟩ := ih ⟨i, some (i + a)⟩ ⟨j, some (j + b)⟩ i j x1 y1
        ⟨rfl, hso.left, by intro e he; cases he; omega, by simp⟩
        ⟨rfl, hsm.left, by intro e he; cases he; omega, by simp⟩ (by omega)
      obtain ⟨s, t2, hs1, hs2, hs3, hs4⟩ := ih ⟨i + a + n, os.stop⟩ ⟨j + b + n, ms.stop⟩
        (i + x1.length + w.length) (j + y1.length + w.length) x2 y2
        ⟨by simp; omega, hso.right, by intro e he; have := ho.stop_some e he; omega,
          by intro he; have := ho.stop_none he; omega⟩
        ⟨by simp; omega, hsm.right, by intro e he; have := hm.stop_some e he; omega,
          by intro he; have := hm.stop_none he; omega⟩ (by omega)
      simp only [hp1, hs1]
      have hw : w ≠ [] := by rintro rfl; simp at hwn; omega
      have V := Valid.node hw (by rw [hwn]; exact hmax) (by rw [hwn, hy1]; exact hfm)
        (by rw [hx1]; exact hfo) hp2 hs2
      refine ⟨_, _, rfl, ?_, ?_, ?_⟩
      · rw [hx1, hwn, hy1] at V
        exact V
      · simp only [Changeset.depth, Changeset.calls]
        rw [hxlen, hylen] at ht ⊢
        have e1 : p.depth * (10 * x1.length + 2 * y1.length) ≤
            max p.depth s.depth * (10 * x1.length + 2 * y1.length) :=
          Nat.mul_le_mul_right _ (Nat.le_max_left _ _)
        have e2 : s.depth * (10 * x2.length + 2 * y2.length) ≤
            max p.depth s.depth * (10 * x2.length + 2 * y2.length) :=
          Nat.mul_le_mul_right _ (Nat.le_max_right _ _)
        have e3 : (1 + max p.depth s.depth) * (10 * (x1.length + w.length + x2.length) +
              2 * (y1.length + w.length + y2.length)) =
            10 * (x1.length + w.length + x2.length) + 2 * (y1.length + w.length + y2.length) +
            max p.depth s.depth * (10 * (x1.length + w.length + x2.length) +
              2 * (y1.length + w.length + y2.length)) := by
          rw [Nat.add_mul, Nat.one_mul]
        have e4 : max p.depth s.depth * (10 * x1.length + 2 * y1.length) +
            max p.depth s.depth * (10 * x2.length + 2 * y2.length) ≤
            max p.depth s.depth * (10 * (x1.length + w.length + x2.length) +
              2 * (y1.length + w.length + y2.length)) := by
          rw [← Nat.mul_add]
          apply Nat.mul_le_mul_left
          omega
        omega
      · simp only [Changeset.work, hp2.work_fst, hs2.work_fst]
        rw [hxlen] at hge
        omega

theorem findChangesetC_cost (o m : List α) : ∃ cs t, findChangesetC o m = some (cs, t) ∧
    findChangeset o m = some cs ∧ Valid 0 o 0 m cs ∧
    t ≤ cs.depth * (10 * o.length + 2 * m.length) + 3 * cs.calls ∧ cs.work.2 ≤ t := by
  obtain ⟨cs, t, h, V, h1, h2⟩ := findChangesetAuxC_cost o m (o.length + 1) ⟨0, none⟩ ⟨0, none⟩ 0 0 o m
    ⟨rfl, OccursAt.whole _, by simp, by simp⟩ ⟨rfl, OccursAt.whole _, by simp, by simp⟩ (by omega)
  refine ⟨cs, t, h, ?_, V, h1, h2⟩
  have := findChangesetAuxC_fst o m (o.length + 1) ⟨0, none⟩ ⟨0, none⟩
  rw [h] at this
  exact this.symm

/-- A deep changeset costs quadratically many steps. -/
theorem Valid.depth_work {i j : Nat} {x y : List α} {cs : Changeset α} (V : Valid i x j y cs) :
    cs.depth * (cs.depth - 1) ≤ 2 * cs.work.2 := by
  induction V with
  | leaf => simp [Changeset.depth]
  | @node i j x1 w x2 y1 y2 p s hw hmax hm ho V1 V2 ih1 ih2 =>
    have V := Valid.node hw hmax hm ho V1 V2
    have hd := V.depth_le.1
    have hwk := V.work_fst
    simp only [Changeset.work] at hwk ⊢
    rw [hwk]
    generalize (x1 ++ w ++ x2).length = l at hd
    have hl : (Changeset.node ⟨i + x1.length, some (i + x1.length + w.length)⟩
      ⟨j + y1.length, some (j + y1.length + w.length)⟩ p s).depth - 1 ≤ l := by omega
    clear hd hwk
    simp only [Changeset.depth] at hl ⊢
    rw [Nat.add_sub_cancel_left] at hl ⊢
    have key : ∀ d W : Nat, d * (d - 1) ≤ 2 * W → d ≤ l → (1 + d) * d ≤ 2 * (l + W) := by
      intro d W h1 h2
      cases d with
      | zero => omega
      | succ e =>
        rw [Nat.add_sub_cancel] at h1
        have : (1 + (e + 1)) * (e + 1) = (e + 1) * e + 2 * (e + 1) := by
          rw [← Nat.mul_comm (e + 1) (1 + (e + 1)), Nat.mul_comm 2, ← Nat.mul_add]
          congr 1; omega
        omega
    by_cases hps : p.depth ≤ s.depth
    · rw [Nat.max_eq_right hps] at hl ⊢
      have := key _ _ ih2 hl
      omega
    · rw [Nat.max_eq_left (by omega)] at hl ⊢
      have := key _ _ ih1 hl
      omega

end Gaspra
