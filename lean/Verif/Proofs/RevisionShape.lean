import Verif.Proofs.RevisionInsert

/-!
# The trees of `revision_tree.py` are almost square grids (used by C79)
-/

set_option linter.unusedSectionVars false
set_option linter.unusedSimpArgs false
set_option linter.unusedVariables false

namespace Gaspra

variable {τ : Type _}

/-- A path with `n` nodes. -/
def ChainT : Nat → BT τ → Prop
  | 0, t => t = .nil
  | n + 1, t => ∃ x c, ChainT n c ∧ (t = .node x c .nil ∨ t = .node x .nil c)

/-- A line of left children whose right children are paths with the given numbers of nodes. -/
def CombT : List Nat → BT τ → Prop
  | [], t => t = .nil
  | c :: cs, t => ∃ x l r, t = .node x l r ∧ ChainT c r ∧ CombT cs l

theorem ChainT.size : ∀ {n : Nat} {t : BT τ}, ChainT n t → t.size = n ∧ t.height = n
  | 0, t, h => by cases h; exact ⟨rfl, rfl⟩
  | n + 1, t, h => by
    obtain ⟨x, c, hc, rfl | rfl⟩ := h
    · have := hc.size; simp only [BT.size, BT.height]; omega
    · have := hc.size; simp only [BT.size, BT.height]; omega

theorem CombT.size : ∀ {cs : List Nat} {t : BT τ}, CombT cs t → t.size = cs.sum + cs.length
  | [], t, h => by cases h; rfl
  | c :: cs, t, h => by
    obtain ⟨x, l, r, rfl, hr, hl⟩ := h
    have := hr.size
    have := hl.size
    simp only [BT.size, List.sum_cons, List.length_cons]; omega

theorem CombT.chain : ∀ {n : Nat} {t : BT τ}, CombT (List.replicate n 0) t → ChainT n t
  | 0, t, h => h
  | n + 1, t, h => by
    obtain ⟨x, l, r, rfl, hr, hl⟩ := h
    cases hr
    exact ⟨x, l, CombT.chain hl, .inl rfl⟩

/-- The height of such a tree. -/
def combTHeight : List Nat → Nat
  | [] => 0
  | c :: cs => 1 + max (combTHeight cs) c

theorem CombT.height : ∀ {cs : List Nat} {t : BT τ}, CombT cs t → t.height = combTHeight cs
  | [], t, h => by cases h; rfl
  | c :: cs, t, h => by
    obtain ⟨x, l, r, rfl, hr, hl⟩ := h
    simp only [BT.height, combTHeight, hr.size.2, hl.height]

theorem combTHeight_append : ∀ (a b : List Nat),
    combTHeight (a ++ b) = max (combTHeight a) (a.length + combTHeight b)
  | [], b => by simp [combTHeight]
  | c :: a, b => by
    simp only [List.cons_append, combTHeight, combTHeight_append a b, List.length_cons]; omega

theorem combTHeight_replicate : ∀ (n c : Nat), combTHeight (List.replicate (n + 1) c) = n + 1 + c
  | 0, c => by simp [combTHeight]
  | n + 1, c => by
    rw [List.replicate_succ, combTHeight, combTHeight_replicate n c]; omega

theorem sum_zeros : ∀ n, (List.replicate n 0).sum = 0
  | 0 => rfl
  | n + 1 => by rw [List.replicate_succ, List.sum_cons, sum_zeros n]

section

variable [DecidableEq τ]

/-- The way down the line of left children: as long as what is below on the left is at least as large
as the path on the right, and there are more nodes than the depth. -/
theorem CombT.walk : ∀ {cs ds : List Nat} {t : BT τ} {d : Nat} {fs : List (BFrame τ)},
    CombT (cs ++ ds) t →
    (∀ as c bs, cs = as ++ c :: bs →
      c ≤ (bs ++ ds).sum + (bs ++ ds).length ∧
        d + as.length ≤ c + ((bs ++ ds).sum + (bs ++ ds).length)) →
    ∃ u gs, CombT ds u ∧ descend d t fs = descend (d + cs.length) u (gs ++ fs) ∧
      gs.length = cs.length ∧
      ∀ es v, CombT es v → CombT (cs ++ es) (plug gs v)
  | [], ds, t, d, fs, h, _ => ⟨t, [], h, rfl, rfl, fun es v hv => hv⟩
  | c :: cs, ds, t, d, fs, h, hc => by
    obtain ⟨x, l, r, rfl, hr, hl⟩ := h
    have hl : CombT (cs ++ ds) l := hl
    obtain ⟨h1, h2⟩ := hc [] c cs rfl
    have hls := hl.size
    have hrs := hr.size.1
    obtain ⟨u, gs, k1, k2, k3, k4⟩ := CombT.walk (cs := cs) (ds := ds) (t := l) (d := d + 1)
      (fs := .L x r :: fs) hl (fun as c' bs e => by
        have := hc (c :: as) c' bs (by simp [e])
        simp only [List.length_cons] at this
        omega)
    refine ⟨u, gs ++ [.L x r], k1, ?_, by simp [k3], ?_⟩
    · simp only [List.length_nil] at h2
      rw [descend, if_pos (by omega), if_neg (by omega), k2]
      simp only [List.append_assoc, List.singleton_append, List.length_cons]
      rw [show d + 1 + cs.length = d + (cs.length + 1) by omega]
    · intro es v hv
      rw [plug_append]
      exact ⟨x, _, r, rfl, hr, k4 es v hv⟩

theorem sum_ge {k : Nat} : ∀ (l : List Nat), (∀ c ∈ l, k ≤ c) → l.length * k ≤ l.sum
  | [], _ => by simp
  | c :: l, h => by
    have := sum_ge l fun c hc => h c (by simp [hc])
    have := h c (by simp)
    simp only [List.length_cons, List.sum_cons, Nat.add_mul]; omega

/-- The conditions of `walk` for a line of `k` nodes with paths of about `k` nodes. -/
theorem walk_cond {k : Nat} {cs ds : List Nat} (hlen : cs.length + 1 ≤ k) (hds : ds ≠ [])
    (hlo : ∀ c ∈ cs, k ≤ c + 1) (hhi : ∀ c ∈ cs, c ≤ k)
    (hd : k ≤ ds.sum + ds.length) :
    ∀ as c bs, cs = as ++ c :: bs →
      c ≤ (bs ++ ds).sum + (bs ++ ds).length ∧
        1 + as.length ≤ c + ((bs ++ ds).sum + (bs ++ ds).length) := by
  intro as c bs e
  have h1 := hhi c (by simp [e])
  have h2 : as.length + (bs.length + 1) = cs.length := by rw [e]; simp
  simp only [List.sum_append, List.length_append]
  omega

/-- Phase A, `k ^ 2 + i` nodes with `i < k`: the last node of the line and its path move. -/
theorem phaseA {x : τ} {t : BT τ} {k i : Nat} (hi : i < k) (hk : 2 ≤ k)
    (h : CombT (List.replicate i k ++ List.replicate (k - i) (k - 1)) t) :
    CombT (List.replicate (i + 1) k ++ List.replicate (k - (i + 1)) (k - 1)) (insBT x t) := by
  have e : List.replicate i k ++ List.replicate (k - i) (k - 1) =
      (List.replicate i k ++ List.replicate (k - (i + 1)) (k - 1)) ++ [k - 1] := by
    rw [List.append_assoc, show k - i = k - (i + 1) + 1 by omega, List.replicate_succ']
  rw [e] at h
  obtain ⟨u, gs, k1, k2, k3, k4⟩ := CombT.walk (d := 1) (fs := []) h
    (walk_cond (k := k) (by simp <;> omega) (by simp)
      (by intro c hc; simp at hc <;> omega) (by intro c hc; simp at hc <;> omega) (by simp <;> omega))
  obtain ⟨y, l, r, rfl, hr, hl⟩ := k1
  cases hl
  have hr' := hr.size.1
  simp only [List.length_append, List.length_replicate, List.append_nil] at k2 k3
  rw [show 1 + (i + (k - (i + 1))) = k by omega, descend,
    if_neg (by simp only [BT.size]; omega)] at k2
  cases gs with
  | nil => simp at k3; omega
  | cons g gs =>
    unfold insBT
    rw [k2]
    refine ⟨x, _, _, rfl, ?_, ?_⟩
    · show ChainT k (.node y .nil r)
      obtain ⟨k, rfl⟩ : ∃ j, k = j + 1 := ⟨k - 1, by omega⟩
      exact ⟨y, r, hr, .inr rfl⟩
    · have := k4 [] .nil rfl
      rw [List.append_nil] at this
      exact this

/-- Phase B, `k ^ 2 + k + j` nodes with `j < k`: the path of the `k`th node moves. -/
theorem phaseB {x : τ} {t : BT τ} {k j : Nat} (hj : j < k)
    (h : CombT (List.replicate k k ++ List.replicate j 0) t) :
    CombT (List.replicate k k ++ List.replicate (j + 1) 0) (insBT x t) := by
  obtain ⟨k, rfl⟩ : ∃ m, k = m + 1 := ⟨k - 1, by omega⟩
  rw [List.replicate_succ', List.append_assoc, List.singleton_append] at h
  obtain ⟨u, gs, k1, k2, k3, k4⟩ := CombT.walk (d := 1) (fs := []) h
    (walk_cond (k := k + 1) (by simp) (by simp)
      (by intro c hc; simp at hc <;> omega) (by intro c hc; simp at hc <;> omega) (by simp <;> omega))
  obtain ⟨y, l, r, rfl, hr, hl⟩ := k1
  have hr' := hr.size.1
  have hl' := hl.size
  simp only [sum_zeros, List.length_replicate] at hl'
  simp only [List.length_replicate, List.append_nil] at k2 k3
  rw [descend, if_pos (by omega), if_pos (by omega)] at k2
  obtain ⟨z, c, hc, hz⟩ := hr
  have hstop : descend (1 + k + 1) r (.R y l :: gs) = (r, .R y l :: gs) := by
    rcases hz with rfl | rfl
    · simp only [BT.size] at hr'
      rw [descend, if_neg (by simp only [BT.size]; omega)]
    · simp only [BT.size] at hr'
      rw [descend, if_neg (by simp only [BT.size]; omega)]
  rw [hstop] at k2
  unfold insBT
  rw [k2]
  have hnew := k4 (0 :: List.replicate j 0) (.node y l .nil) ⟨y, l, .nil, rfl, rfl, hl⟩
  rw [List.replicate_succ, List.replicate_succ (n := j)]
  exact ⟨x, _, _, rfl, ⟨z, c, hc, hz⟩, hnew⟩

/-- The last step of phase B: the end of the line moves. -/
theorem phaseC {x : τ} {t : BT τ} {k : Nat} (hk : 1 ≤ k)
    (h : CombT (List.replicate k k ++ List.replicate k 0) t) :
    CombT (List.replicate (k + 1) k) (insBT x t) := by
  obtain ⟨k, rfl⟩ : ∃ m, k = m + 1 := ⟨k - 1, by omega⟩
  rw [List.replicate_succ' (n := k) (a := k + 1), List.append_assoc, List.singleton_append] at h
  obtain ⟨u, gs, k1, k2, k3, k4⟩ := CombT.walk (d := 1) (fs := []) h
    (walk_cond (k := k + 1) (by simp) (by simp)
      (by intro c hc; simp at hc <;> omega) (by intro c hc; simp at hc <;> omega) (by simp <;> omega))
  obtain ⟨y, l, r, rfl, hr, hl⟩ := k1
  have hr' := hr.size.1
  have hl' := hl.size
  have hchain := hl.chain
  simp only [sum_zeros, List.length_replicate] at hl'
  simp only [List.length_replicate, List.append_nil] at k2 k3
  rw [descend, if_pos (by omega), if_neg (by omega)] at k2
  have hstop : descend (1 + k + 1) l (.L y r :: gs) = (l, .L y r :: gs) := by
    cases l with
    | nil => rfl
    | node a b c =>
      simp only [BT.size] at hl'
      rw [descend, if_neg (by omega)]
  rw [hstop] at k2
  unfold insBT
  rw [k2]
  have hnew := k4 [k + 1] (.node y .nil r) ⟨y, .nil, r, rfl, hr, rfl⟩
  rw [List.replicate_succ, List.replicate_succ']
  exact ⟨x, _, _, rfl, hchain, hnew⟩

/-- The trees with `n` nodes, `n ≥ 3`. -/
inductive GridT : Nat → BT τ → Prop
  | a {k i : Nat} {t : BT τ} (hk : 2 ≤ k) (hi : i < k)
      (h : CombT (List.replicate i k ++ List.replicate (k - i) (k - 1)) t) : GridT (k * k + i) t
  | b {k j : Nat} {t : BT τ} (hk : 1 ≤ k) (hj : j ≤ k)
      (h : CombT (List.replicate k k ++ List.replicate j 0) t) : GridT (k * k + k + j) t

theorem GridT.step {x : τ} {n : Nat} {t : BT τ} (h : GridT n t) : GridT (n + 1) (insBT x t) := by
  cases h with
  | @a k i _ hk hi h =>
    have := phaseA (x := x) hi hk h
    by_cases e : i + 1 = k
    · have h2 : GridT (k * k + k + 0) (insBT x t) := .b (by omega) (by omega) (by
        rw [e, Nat.sub_self] at this
        simpa using this)
      rwa [show k * k + i + 1 = k * k + k + 0 by omega]
    · exact .a (i := i + 1) hk (by omega) this
  | @b k j _ hk hj h =>
    by_cases e : j = k
    · subst e
      have := phaseC (x := x) hk h
      have h2 : GridT ((j + 1) * (j + 1) + 0) (insBT x t) := .a (by omega) (by omega) (by
        simpa using this)
      rwa [show j * j + j + j + 1 = (j + 1) * (j + 1) + 0 by
        simp only [Nat.add_mul, Nat.mul_add]; omega]
    · exact .b (j := j + 1) hk (by omega) (phaseB (x := x) (by omega) h)

theorem GridT.all : ∀ (xs : List τ) {n : Nat} {t : BT τ}, GridT n t →
    GridT (n + xs.length) (insAllBT xs t)
  | [], n, t, h => h
  | x :: xs, n, t, h => by
    have := GridT.all xs (h.step (x := x))
    rw [List.length_cons, show n + (xs.length + 1) = n + 1 + xs.length by omega]
    exact this

theorem grid_of_three (x y z : τ) (xs : List τ) :
    GridT (xs.length + 3) (insAllBT (x :: y :: z :: xs) .nil) := by
  have h : GridT (1 * 1 + 1 + 1) (insBT z (insBT y (insBT x .nil))) := by
    refine .b (k := 1) (j := 1) (by omega) (by omega) ?_
    refine ⟨z, .node y .nil .nil, .node x .nil .nil, ?_, ⟨x, .nil, rfl, .inl rfl⟩,
      ⟨y, .nil, .nil, rfl, rfl, rfl⟩⟩
    simp [insBT, descend, BT.size, plug]
  have := GridT.all xs h
  rw [show 1 * 1 + 1 + 1 + xs.length = xs.length + 3 by omega] at this
  exact this

theorem GridT.height {n : Nat} {t : BT τ} (h : GridT n t) :
    t.height * (t.height + 2) ≤ 4 * n ∧ 4 * n < (t.height + 1) * (t.height + 3) := by
  cases h with
  | @a k i _ hk hi h =>
    have hh := h.height
    rw [combTHeight_append] at hh
    have e1 : combTHeight (List.replicate (k - i) (k - 1)) = k - i + (k - 1) := by
      obtain ⟨m, hm⟩ : ∃ m, k - i = m + 1 := ⟨k - i - 1, by omega⟩
      rw [hm, combTHeight_replicate]
    have e2 : combTHeight (List.replicate i k) ≤ i + k := by
      cases i with
      | zero => simp [combTHeight]
      | succ m => rw [combTHeight_replicate]; omega
    simp only [e1, List.length_replicate] at hh
    have : t.height = 2 * k - 1 := by omega
    obtain ⟨m, rfl⟩ : ∃ m, k = m + 1 := ⟨k - 1, by omega⟩
    rw [this, show 2 * (m + 1) - 1 = 2 * m + 1 by omega]
    simp only [Nat.add_mul, Nat.mul_add, Nat.mul_one, Nat.one_mul]
    have e : 2 * m * (2 * m) = 4 * (m * m) := by
      rw [Nat.mul_mul_mul_comm]
    simp only [e]
    omega
  | @b k j _ hk hj h =>
    have hh := h.height
    rw [combTHeight_append] at hh
    obtain ⟨m, rfl⟩ : ∃ m, k = m + 1 := ⟨k - 1, by omega⟩
    have e2 : combTHeight (List.replicate j 0) = j := by
      cases j with
      | zero => rfl
      | succ m => rw [combTHeight_replicate]
    rw [combTHeight_replicate, e2, List.length_replicate] at hh
    have : t.height = 2 * m + 2 := by omega
    rw [this]
    simp only [Nat.add_mul, Nat.mul_add, Nat.mul_one, Nat.one_mul]
    have e : 2 * m * (2 * m) = 4 * (m * m) := by
      rw [Nat.mul_mul_mul_comm]
    simp only [e]
    omega

/-- The height of the tree with `n` nodes. -/
theorem insAll_height (xs : List τ) (hne : xs ≠ []) :
    (insAllBT xs .nil).height * ((insAllBT xs .nil).height + 2) ≤ 4 * xs.length ∧
      4 * xs.length < ((insAllBT xs .nil).height + 1) * ((insAllBT xs .nil).height + 3) := by
  rcases xs with _ | ⟨x, _ | ⟨y, _ | ⟨z, xs⟩⟩⟩
  · exact absurd rfl hne
  · simp [insAllBT, insBT, descend, BT.height]
  · simp [insAllBT, insBT, descend, BT.height, BT.size]
  · exact (grid_of_three x y z xs).height

end

end Gaspra
