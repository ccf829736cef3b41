import Verif.Proofs.MemoryTree
import Verif.Spec.Tree

set_option linter.unusedSectionVars false
set_option linter.unusedSimpArgs false
set_option linter.unusedVariables false

/-! # `path_to`, `get_split` and the meaning of the metrics -/

namespace Gaspra

variable {τ : Type _} [DecidableEq τ]

/-! ### `path_to` -/

theorem pathLoop_spec {t : MTree τ} {x : τ} {l : List τ} (h : UpPath t x l) :
    ∀ {f acc}, l.length ≤ f → mtPathLoop t f (some x) acc = .ok (some (acc ++ l)) := by
  induction h with
  | root h1 h2 =>
    intro f acc hf
    cases f with
    | zero => simp at hf
    | succ f => simp [mtPathLoop, h1, h2]
  | step h1 h2 h3 ih =>
    intro f acc hf
    cases f with
    | zero => simp at hf
    | succ f =>
      simp only [mtPathLoop, h1, h2]
      rw [ih (by simpa using hf)]
      simp

theorem pathTo_spec {t : MTree τ} {x : τ} {l : List τ} (h : UpPath t x l) :
    mtPathTo t x = .ok (some l.reverse) := by
  unfold mtPathTo
  rw [pathLoop_spec h (Nat.le_succ_of_le h.length_le)]
  simp

theorem pathTo_none {t : MTree τ} {x : τ} (h : dget t x = none) : mtPathTo t x = .ok none := by
  unfold mtPathTo
  simp only [mtPathLoop, h]

/-! ### The maximum of the tuples -/

theorem tripleLt_iff {x y : Nat × Nat × Nat} : tripleLt x y = true ↔
    x.1 < y.1 ∨ (x.1 = y.1 ∧ (x.2.1 < y.2.1 ∨ (x.2.1 = y.2.1 ∧ x.2.2 < y.2.2))) := by
  simp [tripleLt]

theorem foldTriple_spec : ∀ (l : List (Nat × Nat × Nat)) (x : Nat × Nat × Nat),
    let m := l.foldl (fun best y => if tripleLt best y then y else best) x
    (m = x ∨ m ∈ l) ∧ ¬ tripleLt m x = true ∧ ∀ y ∈ l, ¬ tripleLt m y = true
  | [], x => by simp [tripleLt_iff]
  | a :: l, x => by
    intro m
    have ih := foldTriple_spec l (if tripleLt x a then a else x)
    have hm : m = l.foldl (fun best y => if tripleLt best y then y else best)
        (if tripleLt x a then a else x) := rfl
    rw [← hm] at ih
    obtain ⟨h1, h2, h3⟩ := ih
    by_cases hxa : tripleLt x a = true
    · rw [if_pos hxa] at h1 h2
      refine ⟨Or.inr ?_, ?_, ?_⟩
      · rcases h1 with h1 | h1
        · simp [h1]
        · simp [h1]
      · rw [tripleLt_iff] at hxa h2 ⊢; omega
      · intro y hy
        rcases List.mem_cons.1 hy with rfl | hy
        · exact h2
        · exact h3 y hy
    · rw [if_neg hxa] at h1 h2
      refine ⟨?_, h2, ?_⟩
      · rcases h1 with h1 | h1
        · exact Or.inl h1
        · simp [h1]
      · intro y hy
        rcases List.mem_cons.1 hy with rfl | hy
        · rw [tripleLt_iff] at hxa h2 ⊢; omega
        · exact h3 y hy

theorem maxTriple_spec {l : List (Nat × Nat × Nat)} (h : l ≠ []) :
    ∃ m, maxTriple l = some m ∧ m ∈ l ∧ ∀ y ∈ l, ¬ tripleLt m y = true := by
  cases l with
  | nil => exact absurd rfl h
  | cons x l =>
    obtain ⟨h1, h2, h3⟩ := foldTriple_spec l x
    refine ⟨_, rfl, ?_, ?_⟩
    · rcases h1 with h1 | h1
      · rw [h1]; simp
      · exact List.mem_cons_of_mem _ h1
    · intro y hy
      rcases List.mem_cons.1 hy with rfl | hy
      · exact h2
      · exact h3 y hy

/-! ### `maxNat` -/

theorem foldl_max_spec : ∀ (l : List Nat) (x : Nat),
    x ≤ l.foldl max x ∧ (∀ y ∈ l, y ≤ l.foldl max x) ∧ (l.foldl max x = x ∨ l.foldl max x ∈ l)
  | [], x => by simp
  | a :: l, x => by
    obtain ⟨h1, h2, h3⟩ := foldl_max_spec l (max x a)
    simp only [List.foldl_cons]
    refine ⟨by omega, ?_, ?_⟩
    · intro y hy
      rcases List.mem_cons.1 hy with rfl | hy
      · omega
      · exact h2 y hy
    · rcases h3 with h3 | h3
      · rw [h3]
        rcases Nat.le_total x a with h | h
        · right; rw [Nat.max_eq_right h]; simp
        · left; omega
      · right; exact List.mem_cons_of_mem _ h3

theorem le_maxNat {l : List Nat} {x : Nat} (h : x ∈ l) : x ≤ maxNat l :=
  (foldl_max_spec l 0).2.1 x h

theorem maxNat_le {l : List Nat} {b : Nat} (h : ∀ x ∈ l, x ≤ b) : maxNat l ≤ b := by
  rcases (foldl_max_spec l 0).2.2 with h' | h'
  · unfold maxNat; omega
  · exact h _ h'

theorem maxNat_mem {l : List Nat} (h : l ≠ []) : maxNat l ∈ l := by
  rcases (foldl_max_spec l 0).2.2 with h' | h'
  · cases l with
    | nil => exact absurd rfl h
    | cons a l =>
      have := le_maxNat (l := a :: l) (x := a) (by simp)
      unfold maxNat at this ⊢
      rw [h'] at this ⊢
      have : a = 0 := by omega
      simp [this]
  · exact h'

/-! ### `get_split` -/

/-- The creation number of `x`. -/
def orderOf (t : MTree τ) (x : τ) : Nat := ((dget t x).map TNode.orderId).getD 0

theorem childKeys_eq {t : MTree τ} (l : List τ) (h : ∀ c ∈ l, ∃ nd, dget t c = some nd) :
    mtChildKeys t l = some (l.zipIdx.map fun ci => (heightOf t ci.1, orderOf t ci.1, ci.2)) := by
  unfold mtChildKeys
  have : ∀ (l' : List (τ × Nat)), (∀ ci ∈ l', ∃ nd, dget t ci.1 = some nd) →
      (l'.mapM fun (x : τ × Nat) => match x with
        | (c, i) => (dget t c).map fun nd => (nd.height, nd.orderId, i)) =
        some (l'.map fun ci => (heightOf t ci.1, orderOf t ci.1, ci.2)) := by
    intro l' hl'
    induction l' with
    | nil => simp
    | cons ci l' ih =>
      obtain ⟨c, i⟩ := ci
      obtain ⟨nd, hc⟩ := hl' (c, i) (by simp)
      rw [List.mapM_cons, ih fun x hx => hl' x (by simp [hx])]
      simp only at hc
      simp [hc, heightOf, orderOf]
  apply this
  rintro ⟨c, i⟩ hci
  exact h c (List.fst_mem_of_mem_zipIdx hci)

/-- `c` is the child that `get_split` follows from a node with the given children. -/
def BestChild (t : MTree τ) (children : List τ) (c : τ) : Prop :=
  c ∈ children ∧ ∀ c' ∈ children, heightOf t c' < heightOf t c ∨
    (heightOf t c' = heightOf t c ∧ orderOf t c' ≤ orderOf t c)

theorem splitStep {t : MTree τ} {children : List τ} (hne : children ≠ [])
    (h : ∀ c ∈ children, ∃ nd, dget t c = some nd) :
    ∃ keys m c, mtChildKeys t children = some keys ∧ maxTriple keys = some m ∧
      children[m.2.2]? = some c ∧ BestChild t children c := by
  have hk := childKeys_eq children h
  obtain ⟨m, hm, hmem, hmax⟩ := maxTriple_spec
    (l := children.zipIdx.map fun ci => (heightOf t ci.1, orderOf t ci.1, ci.2)) (by
      intro e
      have := congrArg List.length e
      simp at this
      exact hne this)
  obtain ⟨⟨c, i⟩, hci, rfl⟩ := List.mem_map.1 hmem
  have hget : children[i]? = some c := by
    simpa using (List.mem_zipIdx_iff_getElem? ).1 hci
  refine ⟨_, _, c, hk, hm, hget, List.mem_of_getElem? hget, ?_⟩
  intro c' hc'
  obtain ⟨j, hj⟩ := List.getElem?_of_mem hc'
  have := hmax (heightOf t c', orderOf t c', j) (List.mem_map.2 ⟨(c', j), by
    rw [List.mem_zipIdx_iff_getElem?]; exact hj, rfl⟩)
  rw [tripleLt_iff] at this
  simp only at this
  omega

/-- A downward walk along best children, ending in `y`. -/
inductive BestPath (t : MTree τ) (x : τ) : List τ → τ → Prop
  | start {nd} : dget t x = some nd → BestPath t x [x] x
  | next {l y nd c} : BestPath t x l y → dget t y = some nd → BestChild t nd.children c →
      BestPath t x (l ++ [c]) c

theorem TreeOK.bestChild_height {t : MTree τ} (T : TreeOK t) {y : τ} {nd : TNode τ} {c : τ}
    (hy : dget t y = some nd) (hc : BestChild t nd.children c) :
    heightOf t c + 1 = nd.height := by
  rw [(T.metric y nd hy).1]
  congr 1
  apply Nat.le_antisymm
  · exact le_maxNat (List.mem_map_of_mem hc.1)
  · apply maxNat_le
    intro h hh
    obtain ⟨c', hc', rfl⟩ := List.mem_map.1 hh
    rcases hc.2 c' hc' with h | h <;> omega

theorem heightOf_eq {t : MTree τ} {x : τ} {nd : TNode τ} (h : dget t x = some nd) :
    heightOf t x = nd.height := by simp [heightOf, h]

theorem TreeOK.height_pos {t : MTree τ} (T : TreeOK t) {x : τ} {nd : TNode τ}
    (h : dget t x = some nd) : 0 < nd.height := by
  rw [(T.metric x nd h).1]; omega

theorem TreeOK.children_ne {t : MTree τ} (T : TreeOK t) {x : τ} {nd : TNode τ}
    (h : dget t x = some nd) (h1 : 1 < nd.height) : nd.children ≠ [] := by
  intro e
  have := (T.metric x nd h).1
  rw [e] at this
  simp [maxNat] at this
  omega

theorem splitLoop_spec {t : MTree τ} (T : TreeOK t) {x : τ} {H : Nat} :
    ∀ (f : Nat) {y : τ} {nd : TNode τ} {path : List τ}, BestPath t x path y →
    dget t y = some nd → nd.height + path.length = H + 1 → nd.height ≤ f + 1 →
    (path.length = 1 ∨ path.length ≤ nd.height + 1) →
    ∃ split path', mtSplitLoop t f path.length y nd path = .ok (split, path') ∧
      BestPath t x path' split ∧ path'.length = H / 2 + 1 ∧ path <+: path'
  | 0, y, nd, path, hp, hy, hH, hf, hd => by
    have := T.height_pos hy
    have hlen : 0 < path.length := by cases hp <;> simp
    refine ⟨y, path, ?_, hp, ?_, List.prefix_refl _⟩
    · simp only [mtSplitLoop]; rw [if_neg (by omega)]
    · omega
  | f + 1, y, nd, path, hp, hy, hH, hf, hd => by
    have := T.height_pos hy
    have hlen : 0 < path.length := by cases hp <;> simp
    simp only [mtSplitLoop]
    by_cases hlt : path.length < nd.height
    · rw [if_pos hlt]
      obtain ⟨keys, m, c, h1, h2, h3, h4⟩ := splitStep (t := t)
        (T.children_ne hy (by omega)) (fun c hc => by
          obtain ⟨nc, h1, _⟩ := T.down hy hc; exact ⟨nc, h1⟩)
      obtain ⟨nc, h5, h6⟩ := T.down hy h4.1
      have hh := T.bestChild_height hy h4
      rw [heightOf_eq h5] at hh
      simp only [h1, h2, h3, h5]
      have hpl : path.length + 1 = (path ++ [c]).length := by simp
      rw [hpl]
      obtain ⟨s, p', a1, a2, a3, a4⟩ := splitLoop_spec T (H := H) f (hp.next hy h4) h5
        (by simp; omega) (by omega) (by simp; omega)
      exact ⟨s, p', a1, a2, a3, (List.prefix_append _ _).trans a4⟩
    · rw [if_neg hlt]
      exact ⟨y, path, rfl, hp, by omega, List.prefix_refl _⟩

/-- `get_split(x)` walks down best children through `height / 2 + 1` nodes. -/
theorem getSplit_spec {t : MTree τ} (T : TreeOK t) {x : τ} {nd : TNode τ}
    (hx : dget t x = some nd) :
    ∃ split path, mtGetSplit t x = .ok (split, path) ∧ BestPath t x path split ∧
      path.length = nd.height / 2 + 1 := by
  obtain ⟨s, p, h1, h2, h3, _⟩ := splitLoop_spec T (maxNat (t.map fun y => y.2.height)) (H := nd.height)
    (.start hx) hx (by simp) (by
      have : nd.height ∈ t.map fun y => y.2.height :=
        List.mem_map.2 ⟨(x, nd), mem_of_dget hx, rfl⟩
      have := le_maxNat this
      omega) (by simp)
  refine ⟨s, p, ?_, h2, h3⟩
  simp only [mtGetSplit, hx]
  exact h1

theorem BestPath.last {t : MTree τ} {x y : τ} {l : List τ} (h : BestPath t x l y) :
    l.getLast? = some y := by cases h <;> simp

theorem BestPath.head {t : MTree τ} {x y : τ} {l : List τ} (h : BestPath t x l y) :
    ∃ r, l = x :: r := by
  induction h with
  | start => exact ⟨[], rfl⟩
  | next _ _ _ ih => obtain ⟨r, rfl⟩ := ih; exact ⟨_, rfl⟩

theorem BestPath.upPath {t : MTree τ} (F : Forest t) {x y : τ} {l : List τ}
    (h : BestPath t x l y) {lx : List τ} (hx : UpPath t x lx) :
    UpPath t y (l.reverse ++ lx.tail) := by
  induction h with
  | start =>
    obtain ⟨r, rfl⟩ := hx.head
    simpa using hx
  | next h1 h2 h3 ih =>
    obtain ⟨nc, h4, h5⟩ := F.down h2 h3.1
    rw [List.reverse_append]
    exact .step h4 h5 ih

/-! ### Longest downward paths -/

theorem Descends.head_known {t : MTree τ} {x : τ} {l : List τ} (h : Descends t (x :: l)) :
    ∃ nd, dget t x = some nd := by
  cases l with
  | nil => exact h
  | cons y l => obtain ⟨⟨np, h1, _⟩, _⟩ := h; exact ⟨np, h1⟩

theorem TreeOK.descends_le {t : MTree τ} (T : TreeOK t) : ∀ (l : List τ) {x : τ},
    Descends t (x :: l) → (x :: l).length ≤ heightOf t x
  | [], x, h => by
    obtain ⟨nd, h⟩ := h
    rw [heightOf_eq h]
    exact T.height_pos h
  | y :: l, x, h => by
    obtain ⟨⟨np, h1, h2⟩, h3⟩ := h
    have ih := T.descends_le l h3
    rw [heightOf_eq h1, (T.metric x np h1).1]
    have := le_maxNat (List.mem_map_of_mem (f := heightOf t) h2)
    simp only [List.length_cons] at ih ⊢
    omega

theorem TreeOK.descends_exists {t : MTree τ} (T : TreeOK t) : ∀ (n : Nat) {x : τ} {nd : TNode τ},
    dget t x = some nd → nd.height = n + 1 → ∃ l, Descends t (x :: l) ∧ l.length = n
  | 0, x, nd, hx, _ => ⟨[], ⟨nd, hx⟩, rfl⟩
  | n + 1, x, nd, hx, hn => by
    have hne := T.children_ne hx (by omega)
    have hm := maxNat_mem (l := nd.children.map (heightOf t)) (by simpa using hne)
    obtain ⟨c, hc, hcm⟩ := List.mem_map.1 hm
    have h1 := (T.metric x nd hx).1
    obtain ⟨nc, h2, h3⟩ := T.down hx hc
    rw [heightOf_eq h2] at hcm
    obtain ⟨l, h4, h5⟩ := T.descends_exists n h2 (by omega)
    exact ⟨c :: l, ⟨⟨nd, hx, hc⟩, h4⟩, by simp [h5]⟩

theorem descends_append {t : MTree τ} : ∀ (l : List τ) {y : τ} {ext : List τ},
    Descends t (l ++ [y]) → Descends t (y :: ext) → Descends t (l ++ y :: ext)
  | [], _, _, _, h => h
  | [x], y, ext, h1, h2 => ⟨h1.1, h2⟩
  | x :: x' :: l, y, ext, h1, h2 => ⟨h1.1, descends_append (x' :: l) h1.2 h2⟩

theorem BestPath.descends {t : MTree τ} (F : Forest t) {x y : τ} {l : List τ}
    (h : BestPath t x l y) : Descends t l := by
  induction h with
  | start h => exact ⟨_, h⟩
  | @next l y nd c h1 h2 h3 ih =>
    obtain ⟨nc, h4, _⟩ := F.down h2 h3.1
    have hl := h1.last
    obtain ⟨l', rfl⟩ : ∃ l', l = l' ++ [y] := by
      rw [List.getLast?_eq_some_iff] at hl; exact hl
    rw [List.append_assoc]
    exact descends_append l' ih ⟨⟨nd, h2, h3.1⟩, ⟨nc, h4⟩⟩

theorem BestPath.height {t : MTree τ} (T : TreeOK t) {x y : τ} {l : List τ}
    (h : BestPath t x l y) : heightOf t y + l.length = heightOf t x + 1 := by
  induction h with
  | start => simp
  | next h1 h2 h3 ih =>
    have := T.bestChild_height h2 h3
    rw [heightOf_eq h2] at ih
    simp; omega

/-! ### Sizes -/

theorem sum_map_add {α : Type _} (f g : α → Nat) : ∀ l : List α,
    (l.map fun x => f x + g x).sum = (l.map f).sum + (l.map g).sum
  | [] => rfl
  | a :: l => by simp only [List.map_cons, List.sum_cons, sum_map_add f g l]; omega

theorem sum_swap {α β : Type _} (f : α → β → Nat) (l : List α) : ∀ l' : List β,
    (l.map fun x => (l'.map fun y => f x y).sum).sum =
      (l'.map fun y => (l.map fun x => f x y).sum).sum
  | [] => by
    induction l with
    | nil => rfl
    | cons a l ih => simpa using ih
  | b :: l' => by
    simp only [List.map_cons, List.sum_cons, sum_map_add, sum_swap f l l']

theorem length_filter_eq_sum {α : Type _} (p : α → Bool) : ∀ l : List α,
    (l.filter p).length = (l.map fun x => if p x then 1 else 0).sum
  | [] => rfl
  | a :: l => by
    have ih := length_filter_eq_sum p l
    by_cases h : p a = true
    · simp [h, ih]; omega
    · simp [h, ih]

theorem sum_ite_eq {α : Type _} [DecidableEq α] (a : α) : ∀ {l : List α}, l.Nodup →
    (l.map fun x => if x = a then 1 else 0).sum = if a ∈ l then 1 else 0
  | [], _ => by simp
  | b :: l, h => by
    rw [List.nodup_cons] at h
    simp only [List.map_cons, List.sum_cons, sum_ite_eq a h.2, List.mem_cons]
    by_cases hb : b = a
    · subst hb; simp [h.1]
    · have : ¬ a = b := fun e => hb e.symm
      simp [hb, this]

/-- Exactly one child of `x` lies on a path that passes strictly below `x`. -/
theorem children_on_path {t : MTree τ} (F : Forest t) {x : τ} {nd : TNode τ}
    (hx : dget t x = some nd) {y : τ} {l : List τ} (h : UpPath t y l) :
    (nd.children.map fun c => if c ∈ l then 1 else 0).sum =
      if x ∈ l ∧ y ≠ x then 1 else 0 := by
  induction h with
  | @root y ny h1 h2 =>
    have hn : y ∉ nd.children := by
      intro h
      obtain ⟨nc, h3, h4⟩ := F.down hx h
      rw [h1] at h3; cases h3; rw [h2] at h4; cases h4
    have : (nd.children.map fun c => if c ∈ [y] then 1 else 0) =
        nd.children.map fun c => if c = y then 1 else 0 := by simp
    rw [this, sum_ite_eq y (F.chNodup hx), if_neg hn, if_neg]
    rintro ⟨h3, h4⟩
    simp at h3; exact h4 h3.symm
  | @step y p ny l h1 h2 h3 ih =>
    have hyl : y ∉ l := h3.not_mem_parent h1 h2
    have e : (nd.children.map fun c => if c ∈ y :: l then 1 else 0) =
        nd.children.map fun c => (if c = y then 1 else 0) + (if c ∈ l then 1 else 0) := by
      apply List.map_congr_left
      intro c _
      by_cases hcy : c = y
      · subst hcy; simp [hyl]
      · simp [hcy]
    rw [e, sum_map_add, ih, sum_ite_eq y (F.chNodup hx)]
    have hpl : p ∈ l := by obtain ⟨r, rfl⟩ := h3.head; simp
    by_cases hpx : p = x
    · subst hpx
      have hyc : y ∈ nd.children := by
        obtain ⟨np, h4, h5⟩ := F.up h1 h2
        rw [hx] at h4; cases h4; exact h5
      have hyp : y ≠ p := by rintro rfl; exact hyl hpl
      simp [hyc, hpl, hyp]
    · have hyc : y ∉ nd.children := by
        intro h
        obtain ⟨nc, h4, h5⟩ := F.down hx h
        rw [h1] at h4; cases h4; rw [h2] at h5; cases h5; exact hpx rfl
      simp only [hyc, if_false, Nat.zero_add, hpx, ne_eq, not_false_eq_true, and_true, List.mem_cons]
      by_cases hxl : x ∈ l
      · have : y ≠ x := by rintro rfl; exact hyl hxl
        simp [hxl, this]
      · rw [if_neg hxl, if_neg]
        rintro ⟨h4 | h4, h5⟩
        · exact h5 h4.symm
        · exact hxl h4

theorem subtreeCount_eq_sum {t : MTree τ} (x : τ) : subtreeCount t x =
    ((t.map Prod.fst).map fun y => if (match mtPathTo t y with
      | .ok (some l) => decide (x ∈ l)
      | _ => false) = true then 1 else 0).sum := length_filter_eq_sum _ _

theorem TreeOK.subtreeCount_rec {t : MTree τ} (T : TreeOK t) {x : τ} {nd : TNode τ}
    (hx : dget t x = some nd) :
    subtreeCount t x = (nd.children.map (subtreeCount t)).sum + 1 := by
  have e : nd.children.map (subtreeCount t) = nd.children.map fun c =>
      ((t.map Prod.fst).map fun y => if (match mtPathTo t y with
      | .ok (some l) => decide (c ∈ l)
      | _ => false) = true then 1 else 0).sum := by
    apply List.map_congr_left; intro c _; exact subtreeCount_eq_sum c
  rw [e, sum_swap (fun (c y : τ) => if (match mtPathTo t y with
      | .ok (some l) => decide (c ∈ l)
      | _ => false) = true then 1 else 0) nd.children (t.map Prod.fst), subtreeCount_eq_sum]
  have hxk : x ∈ t.map Prod.fst := mem_keys_of_dget hx
  have h1 := sum_ite_eq x T.nodup
  rw [if_pos hxk] at h1
  conv => rhs; rhs; rw [← h1]
  rw [← sum_map_add]
  congr 1
  apply List.map_congr_left
  intro y hy
  obtain ⟨ny, hny⟩ := dget_isSome_iff.2 hy
  obtain ⟨l, hl⟩ := T.acyc hny
  have := children_on_path T.toForest hx hl
  rw [pathTo_spec hl]
  simp only [List.mem_reverse, decide_eq_true_eq]
  rw [this]
  by_cases hyx : y = x
  · subst hyx
    have : y ∈ l := by obtain ⟨r, rfl⟩ := hl.head; simp
    simp [this]
  · simp [hyx]

/-- The stored size is the number of tags below (and including) the node. -/
theorem TreeOK.size_eq {t : MTree τ} (T : TreeOK t) : ∀ (n : Nat) {x : τ} {nd : TNode τ},
    dget t x = some nd → nd.height ≤ n → nd.size = subtreeCount t x
  | 0, x, nd, hx, hn => by have := T.height_pos hx; omega
  | n + 1, x, nd, hx, hn => by
    rw [T.subtreeCount_rec hx, (T.metric x nd hx).2]
    congr 2
    apply List.map_congr_left
    intro c hc
    obtain ⟨nc, h1, h2⟩ := T.down hx hc
    have := le_maxNat (List.mem_map_of_mem (f := heightOf t) hc)
    rw [heightOf_eq h1] at this
    have h3 := (T.metric x nd hx).1
    rw [← T.size_eq n h1 (by omega)]
    simp [sizeOfTag, h1]

/-- Every node on the way to the root has a downward path to the node. -/
theorem UpPath.descends {t : MTree τ} (F : Forest t) {y : τ} {l : List τ} (h : UpPath t y l) :
    ∀ {x}, x ∈ l → ∃ path, Descends t path ∧ path.head? = some x ∧ path.getLast? = some y := by
  induction h with
  | @root z nd h1 h2 =>
    intro x hx
    simp at hx; subst hx
    exact ⟨[x], ⟨nd, h1⟩, rfl, rfl⟩
  | @step z p nd l h1 h2 h3 ih =>
    intro x hx
    rcases List.mem_cons.1 hx with rfl | hx
    · exact ⟨[x], ⟨nd, h1⟩, rfl, rfl⟩
    · obtain ⟨path, g1, g2, g3⟩ := ih hx
      obtain ⟨l', rfl⟩ : ∃ l', path = l' ++ [p] := by
        rw [List.getLast?_eq_some_iff] at g3; exact g3
      obtain ⟨np, g4, g5⟩ := F.up h1 h2
      refine ⟨l' ++ p :: [z], descends_append l' g1 ⟨⟨np, g4, g5⟩, ⟨nd, h1⟩⟩, ?_, by simp⟩
      cases l' <;> simpa using g2

/-- The start of a downward path is on the way from its end to the root. -/
theorem Descends.mem_upPath {t : MTree τ} (F : Forest t) : ∀ (path : List τ) {x y : τ} {l : List τ},
    Descends t path → path.head? = some x → path.getLast? = some y → UpPath t y l → x ∈ l
  | [], _, _, _, h, _, _, _ => h.elim
  | [z], x, y, l, _, h1, h2, h3 => by
    simp at h1 h2; subst h1; subst h2
    obtain ⟨r, rfl⟩ := h3.head; simp
  | z :: z' :: path, x, y, l, h, h1, h2, h3 => by
    simp at h1; subst h1
    have ih := Descends.mem_upPath F (z' :: path) h.2 rfl (by simpa using h2) h3
    obtain ⟨l', k1, k2⟩ := h3.suffix ih
    obtain ⟨np, h4, h5⟩ := h.1
    obtain ⟨nc, h6, h7⟩ := F.down h4 h5
    apply k2.subset
    cases k1 with
    | root a b => rw [h6] at a; cases a; rw [h7] at b; cases b
    | step a b c =>
      rw [h6] at a; cases a; rw [h7] at b; cases b
      obtain ⟨r, rfl⟩ := c.head
      simp

/-- The stored size counts the tags reachable downwards. -/
theorem TreeOK.below {t : MTree τ} (T : TreeOK t) {x : τ} {nd : TNode τ}
    (hx : dget t x = some nd) : ∃ below : List τ, below.Nodup ∧ nd.size = below.length ∧
      ∀ y, y ∈ below ↔ ∃ path, Descends t path ∧ path.head? = some x ∧
        path.getLast? = some y := by
  refine ⟨(t.map Prod.fst).filter fun y =>
    match mtPathTo t y with
    | .ok (some l) => decide (x ∈ l)
    | _ => false, T.nodup.sublist List.filter_sublist, T.size_eq nd.height hx (Nat.le_refl _), ?_⟩
  intro y
  rw [List.mem_filter]
  constructor
  · rintro ⟨h1, h2⟩
    obtain ⟨ny, hny⟩ := dget_isSome_iff.2 h1
    obtain ⟨l, hl⟩ := T.acyc hny
    rw [pathTo_spec hl] at h2
    exact hl.descends T.toForest (by simpa using h2)
  · rintro ⟨path, h1, h2, h3⟩
    have hy : ∃ ny, dget t y = some ny := by
      clear h2
      induction path with
      | nil => exact h1.elim
      | cons z path ih =>
        cases path with
        | nil => simp at h3; subst h3; exact h1
        | cons z' path => exact ih h1.2 (by simpa using h3)
    refine ⟨dget_isSome_iff.1 hy, ?_⟩
    obtain ⟨ny, hny⟩ := hy
    obtain ⟨l, hl⟩ := T.acyc hny
    have := Descends.mem_upPath T.toForest path h1 h2 h3 hl
    rw [pathTo_spec hl]
    simpa using this

/-- The steps of a best path go to best children. -/
theorem BestPath.step {t : MTree τ} (F : Forest t) {x y : τ} {path : List τ}
    (h : BestPath t x path y) : ∀ {l r : List τ} {p c : τ} {np : TNode τ},
    path = l ++ p :: c :: r → dget t p = some np → BestChild t np.children c := by
  induction h with
  | start =>
    intro l r p c np e _
    have := congrArg List.length e
    simp at this
    omega
  | @next l0 y0 nd c0 h1 h2 h3 ih =>
    intro l r p c np e hp
    rcases List.eq_nil_or_concat r with rfl | ⟨r', z, rfl⟩
    · have e' : l0 ++ [c0] = (l ++ [p]) ++ [c] := by simpa using e
      obtain ⟨rfl, e2⟩ := List.append_inj' e' rfl
      simp at e2; subst e2
      have := h1.last
      simp at this; subst this
      rw [hp] at h2; cases h2
      exact h3
    · have e' : l0 ++ [c0] = (l ++ p :: c :: r') ++ [z] := by simpa using e
      exact ih (List.append_inj' e' rfl).1 hp

end Gaspra
