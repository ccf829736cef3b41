import Verif.Props.WholeChanges

/-!
# C141: exactly which changes a side of a merge has
-/

set_option linter.unusedSectionVars false
set_option linter.unusedSimpArgs false

namespace Gaspra

variable {α : Type _} [DecidableEq α]

/-- A position of the parent at which a conflict of the changes `es0` and `es1` is still open: the end of two
different changes that start together and are not an insertion and a deletion, and the end of every change that
starts where a conflict is open. -/
inductive OpenAt (es0 es1 : List (Edit α)) : Nat → Prop
  | pair {e0 e1 : Edit α} : e0 ∈ es0 → e1 ∈ es1 → e0.start = e1.start → ¬ e0.Composable e1 → e0 ≠ e1 →
      OpenAt es0 es1 (max e0.stop e1.stop)
  | next {p : Nat} {e : Edit α} : OpenAt es0 es1 p → (e ∈ es0 ∨ e ∈ es1) → e.start = p → OpenAt es0 es1 e.stop

/-- `e` counts on the side of `es`: no change of `es` starts with it (or one inserts and one deletes), and no
conflict is open where it starts. -/
def CountsBeside (es es' : List (Edit α)) (e : Edit α) : Prop :=
  ¬ (∃ a ∈ es, a.start = e.start ∧ ¬ a.Composable e) ∧ ¬ OpenAt es es' e.start

/-- `OpenAt` of the rest of the edits, with a conflict open at `pos` or not. -/
inductive OpenFrom (w : Bool) (pos : Nat) (es0 es1 : List (Edit α)) : Nat → Prop
  | here : w = true → OpenFrom w pos es0 es1 pos
  | pair {e0 e1 : Edit α} : e0 ∈ es0 → e1 ∈ es1 → e0.start = e1.start → ¬ e0.Composable e1 → e0 ≠ e1 →
      OpenFrom w pos es0 es1 (max e0.stop e1.stop)
  | next {p : Nat} {e : Edit α} : OpenFrom w pos es0 es1 p → (e ∈ es0 ∨ e ∈ es1) → e.start = p →
      OpenFrom w pos es0 es1 e.stop

theorem OpenAt.iff_from {es0 es1 : List (Edit α)} {pos q : Nat} :
    OpenAt es0 es1 q ↔ OpenFrom false pos es0 es1 q := by
  constructor
  · intro h
    induction h with
    | pair a b c d e => exact .pair a b c d e
    | next _ a b ih => exact .next ih a b
  · intro h
    induction h with
    | here h => simp at h
    | pair a b c d e => exact .pair a b c d e
    | next _ a b ih => exact .next ih a b

theorem Edit.Composable.symm {e0 e1 : Edit α} (h : e0.Composable e1) : e1.Composable e0 := by
  rcases h with ⟨a, b⟩ | ⟨a, b⟩
  · exact .inr ⟨b, a⟩
  · exact .inl ⟨b, a⟩

theorem OpenFrom.symm {w : Bool} {pos q : Nat} {es0 es1 : List (Edit α)} (h : OpenFrom w pos es0 es1 q) :
    OpenFrom w pos es1 es0 q := by
  induction h with
  | here h => exact .here h
  | pair a b c d e =>
    rw [Nat.max_comm]
    exact .pair b a c.symm (fun h => d h.symm) (fun h => e h.symm)
  | next _ a b ih => exact .next ih a.symm b

theorem OpenFrom.ge {w : Bool} {pos q k : Nat} {es0 es1 : List (Edit α)} (h : OpenFrom w pos es0 es1 q)
    (h0 : LB k es0) (h1 : LB k es1) (hw : w = true → k ≤ pos) : k ≤ q := by
  have stop : ∀ e : Edit α, (e ∈ es0 ∨ e ∈ es1) → k ≤ e.stop := by
    intro e he
    rcases he with he | he
    · have := h0 e he; omega
    · have := h1 e he; omega
  induction h with
  | here h => exact hw h
  | pair a b c d e => have := stop _ (.inl a); omega
  | next _ a b ih => exact stop _ a

/-- Past a common piece. -/
theorem OpenFrom.past_common {w : Bool} {pos k q : Nat} {es0 es1 : List (Edit α)} (hk : pos < k) (h0 : LB k es0)
    (h1 : LB k es1) (hq : k ≤ q) : OpenFrom w pos es0 es1 q ↔ OpenFrom false k es0 es1 q := by
  constructor
  · intro h
    have : (w = true ∧ q = pos) ∨ OpenFrom false k es0 es1 q := by
      clear hq
      induction h with
      | here h => exact .inl ⟨h, rfl⟩
      | pair a b c d e => exact .inr (.pair a b c d e)
      | @next p e _ a b ih =>
        rcases ih with ⟨_, ih⟩ | ih
        · exfalso
          rcases a with a | a
          · have := (h0 e a).1; omega
          · have := (h1 e a).1; omega
        · exact .inr (.next ih a b)
    rcases this with ⟨_, h⟩ | h
    · omega
    · exact h
  · intro h
    clear hq
    induction h with
    | here h => simp at h
    | pair a b c d e => exact .pair a b c d e
    | next _ a b ih => exact .next ih a b

/-- Past a change of one branch. -/
theorem OpenFrom.past_change {w : Bool} {pos n q : Nat} {z : List α} {es0 es1 : List (Edit α)}
    (h0 : LB (pos + n) es0) (h1 : LB (pos + n) es1) (s0 : LB (pos + 1) es0) (s1 : LB (pos + 1) es1) :
    OpenFrom w pos (⟨pos, pos + n, z⟩ :: es0) es1 q ↔
      (w = true ∧ q = pos) ∨ OpenFrom w (pos + n) es0 es1 q := by
  constructor
  · intro h
    induction h with
    | here h => exact .inl ⟨h, rfl⟩
    | @pair e0 e1 a b c d e =>
      rcases List.mem_cons.1 a with rfl | a
      · have := (s1 e1 b).1
        simp at c
        omega
      · exact .inr (.pair a b c d e)
    | @next p e _ a b ih =>
      by_cases he : e = ⟨pos, pos + n, z⟩
      · subst he
        rcases ih with ⟨hw, ih⟩ | ih
        · exact .inr (.here hw)
        · have := ih.ge h0 h1 (fun _ => Nat.le_refl _)
          simp at b
          have : n = 0 := by omega
          subst this
          subst b
          exact .inr ih
      · have a' : e ∈ es0 ∨ e ∈ es1 := by
          rcases a with a | a
          · exact .inl ((List.mem_cons.1 a).resolve_left he)
          · exact .inr a
        rcases ih with ⟨_, ih⟩ | ih
        · exfalso
          rcases a' with a | a
          · have := (s0 e a).1; omega
          · have := (s1 e a).1; omega
        · exact .inr (.next ih a' b)
  · rintro (⟨h, rfl⟩ | h)
    · exact .here h
    · induction h with
      | here h => exact OpenFrom.next (e := ⟨pos, pos + n, z⟩) (.here h) (.inl (by simp)) rfl
      | pair a b c d e => exact .pair (List.mem_cons_of_mem _ a) b c d e
      | next _ a b ih => exact .next ih (a.imp (List.mem_cons_of_mem _) id) b

/-- Past two changes that start together. -/
theorem OpenFrom.past_both {w : Bool} {pos a b k q : Nat} {z0 z1 : List α} {es0 es1 : List (Edit α)}
    (hk : max a b = k) (ha : pos ≤ a) (hb : pos ≤ b)
    (hw : w = true ↔ ¬ Edit.Composable ⟨pos, a, z0⟩ ⟨pos, b, z1⟩ ∧ (⟨pos, a, z0⟩ : Edit α) ≠ ⟨pos, b, z1⟩)
    (h0 : LB k es0) (h1 : LB k es1) (s0 : LB (pos + 1) es0) (s1 : LB (pos + 1) es1) :
    OpenFrom false pos (⟨pos, a, z0⟩ :: es0) (⟨pos, b, z1⟩ :: es1) q ↔ OpenFrom w k es0 es1 q := by
  constructor
  · intro h
    induction h with
    | here h => simp at h
    | @pair e0 e1 m0 m1 c d e =>
      rcases List.mem_cons.1 m0 with rfl | m0
      · rcases List.mem_cons.1 m1 with rfl | m1
        · simp only [hk]
          exact .here (hw.2 ⟨d, e⟩)
        · have := (s1 e1 m1).1
          simp at c
          omega
      · rcases List.mem_cons.1 m1 with rfl | m1
        · have := (s0 e0 m0).1
          simp at c
          omega
        · exact .pair m0 m1 c d e
    | @next p e _ m st ih =>
      have lo := ih.ge h0 h1 (fun _ => Nat.le_refl _)
      rcases m with m | m
      · rcases List.mem_cons.1 m with rfl | m
        · simp only at st ⊢
          have : a = p := by omega
          rw [this]
          exact ih
        · exact .next ih (.inl m) st
      · rcases List.mem_cons.1 m with rfl | m
        · simp only at st ⊢
          have : b = p := by omega
          rw [this]
          exact ih
        · exact .next ih (.inr m) st
  · intro h
    induction h with
    | here h =>
      have := OpenFrom.pair (w := false) (pos := pos) (es0 := ⟨pos, a, z0⟩ :: es0) (es1 := ⟨pos, b, z1⟩ :: es1)
        (e0 := ⟨pos, a, z0⟩) (e1 := ⟨pos, b, z1⟩) (by simp) (by simp) rfl (hw.1 h).1 (hw.1 h).2
      rw [← hk]
      exact this
    | pair m0 m1 c d e => exact .pair (List.mem_cons_of_mem _ m0) (List.mem_cons_of_mem _ m1) c d e
    | next _ m st ih => exact .next ih (m.imp (List.mem_cons_of_mem _) (List.mem_cons_of_mem _)) st

/-- `CountsBeside` of the rest of the edits. -/
def CountsFrom (w : Bool) (pos : Nat) (es es' : List (Edit α)) (e : Edit α) : Prop :=
  ¬ (∃ a ∈ es, a.start = e.start ∧ ¬ a.Composable e) ∧ ¬ OpenFrom w pos es es' e.start

/-- `k0` and `k1` tell the edits that count beside those of the other branch. -/
structure Marks (w : Bool) (pos : Nat) (es0 es1 : List (Edit α)) (k0 k1 : Edit α → Bool) : Prop where
  c0 : ∀ e ∈ es0, k0 e = true ↔ CountsFrom w pos es1 es0 e
  c1 : ∀ e ∈ es1, k1 e = true ↔ CountsFrom w pos es0 es1 e

variable {k0 k1 : Edit α → Bool}

theorem Marks.symm {w : Bool} {pos : Nat} {es0 es1 : List (Edit α)} (h : Marks w pos es0 es1 k0 k1) :
    Marks w pos es1 es0 k1 k0 := ⟨h.c1, h.c0⟩

theorem Marks.common {w : Bool} {pos k : Nat} {es0 es1 : List (Edit α)} (h : Marks w pos es0 es1 k0 k1)
    (hk : pos < k) (h0 : LB k es0) (h1 : LB k es1) : Marks false k es0 es1 k0 k1 := by
  refine ⟨fun e he => ?_, fun e he => ?_⟩
  · rw [h.c0 e he, CountsFrom, CountsFrom, OpenFrom.past_common hk h1 h0 (h0 e he).1]
  · rw [h.c1 e he, CountsFrom, CountsFrom, OpenFrom.past_common hk h0 h1 (h1 e he).1]

theorem Marks.change {w : Bool} {pos n : Nat} {z : List α} {es0 es1 : List (Edit α)}
    (h : Marks w pos (⟨pos, pos + n, z⟩ :: es0) es1 k0 k1) (h0 : LB (pos + n) es0) (h1 : LB (pos + n) es1)
    (s0 : LB (pos + 1) es0) (s1 : LB (pos + 1) es1) :
    Marks w (pos + n) es0 es1 k0 k1 ∧ k0 ⟨pos, pos + n, z⟩ = !w := by
  have sy : ∀ q, OpenFrom w pos es1 (⟨pos, pos + n, z⟩ :: es0) q ↔
      (w = true ∧ q = pos) ∨ OpenFrom w (pos + n) es0 es1 q := fun q => by
    rw [← OpenFrom.past_change h0 h1 s0 s1]
    exact ⟨fun h => h.symm, fun h => h.symm⟩
  have sy' : ∀ q, OpenFrom w (pos + n) es1 es0 q ↔ OpenFrom w (pos + n) es0 es1 q :=
    fun q => ⟨fun h => h.symm, fun h => h.symm⟩
  refine ⟨⟨fun e he => ?_, fun e he => ?_⟩, ?_⟩
  · have lt := (s0 e he).1
    have ne : ¬ e.start = pos := by omega
    rw [h.c0 e (List.mem_cons_of_mem _ he), CountsFrom, CountsFrom, sy, sy']
    simp [ne]
  · have lt := (s1 e he).1
    have ne : ¬ e.start = pos := by omega
    have ne' : ¬ pos = e.start := by omega
    rw [h.c1 e he, CountsFrom, CountsFrom, OpenFrom.past_change h0 h1 s0 s1]
    simp [ne, ne']
  · have := h.c0 ⟨pos, pos + n, z⟩ (by simp)
    rw [CountsFrom, sy] at this
    cases w with
    | true =>
      simp at this
      simpa using this
    | false =>
      rw [Bool.not_false, this]
      constructor
      · rintro ⟨a, ha, hs, _⟩
        have := (s1 a ha).1
        simp at hs
        omega
      · rintro (⟨h, _⟩ | h)
        · simp at h
        · have := h.ge s0 s1 (by simp)
          simp at this
          omega

theorem Marks.both {w : Bool} {pos a b k : Nat} {z0 z1 : List α} {es0 es1 : List (Edit α)}
    (h : Marks false pos (⟨pos, a, z0⟩ :: es0) (⟨pos, b, z1⟩ :: es1) k0 k1)
    (hk : max a b = k) (ha : pos ≤ a) (hb : pos ≤ b)
    (hw : w = true ↔ ¬ Edit.Composable ⟨pos, a, z0⟩ ⟨pos, b, z1⟩ ∧ (⟨pos, a, z0⟩ : Edit α) ≠ ⟨pos, b, z1⟩)
    (h0 : LB k es0) (h1 : LB k es1) (s0 : LB (pos + 1) es0) (s1 : LB (pos + 1) es1) :
    Marks w k es0 es1 k0 k1 ∧
    (¬ Edit.Composable ⟨pos, a, z0⟩ ⟨pos, b, z1⟩ → k0 ⟨pos, a, z0⟩ = false ∧ k1 ⟨pos, b, z1⟩ = false) ∧
    (Edit.Composable ⟨pos, a, z0⟩ ⟨pos, b, z1⟩ → k0 ⟨pos, a, z0⟩ = true ∧ k1 ⟨pos, b, z1⟩ = true) := by
  have o1 := fun q => OpenFrom.past_both (q := q) hk ha hb hw h0 h1 s0 s1
  have o0 : ∀ q, OpenFrom false pos (⟨pos, b, z1⟩ :: es1) (⟨pos, a, z0⟩ :: es0) q ↔ OpenFrom w k es0 es1 q :=
    fun q => by rw [← o1]; exact ⟨fun h => h.symm, fun h => h.symm⟩
  have sy' : ∀ q, OpenFrom w k es1 es0 q ↔ OpenFrom w k es0 es1 q :=
    fun q => ⟨fun h => h.symm, fun h => h.symm⟩
  have m0 := h.c0 ⟨pos, a, z0⟩ (by simp)
  have m1 := h.c1 ⟨pos, b, z1⟩ (by simp)
  refine ⟨⟨fun e he => ?_, fun e he => ?_⟩, fun hc => ⟨?_, ?_⟩, fun hc => ⟨m0.2 ⟨?_, ?_⟩, m1.2 ⟨?_, ?_⟩⟩⟩
  · have lt := (s0 e he).1
    have ne' : ¬ pos = e.start := by omega
    rw [h.c0 e (List.mem_cons_of_mem _ he), CountsFrom, CountsFrom, o0, sy']
    simp [ne']
  · have lt := (s1 e he).1
    have ne' : ¬ pos = e.start := by omega
    rw [h.c1 e (List.mem_cons_of_mem _ he), CountsFrom, CountsFrom, o1]
    simp [ne']
  · rw [Bool.eq_false_iff]
    intro hm
    exact (m0.1 hm).1 ⟨⟨pos, b, z1⟩, by simp, rfl, fun h => hc h.symm⟩
  · rw [Bool.eq_false_iff]
    intro hm
    exact (m1.1 hm).1 ⟨⟨pos, a, z0⟩, by simp, rfl, hc⟩
  · rintro ⟨x, hx, hs, hn⟩
    rcases List.mem_cons.1 hx with rfl | hx
    · exact hn hc.symm
    · have := (s1 x hx).1
      simp at hs
      omega
  · rw [o0]
    intro ho
    have hw' : ¬ w = true := fun h => (hw.1 h).1 hc
    have := ho.ge s0 s1 (fun h => absurd h hw')
    simp at this
    omega
  · rintro ⟨x, hx, hs, hn⟩
    rcases List.mem_cons.1 hx with rfl | hx
    · exact hn hc
    · have := (s0 x hx).1
      simp at hs
      omega
  · rw [o1]
    intro ho
    have hw' : ¬ w = true := fun h => (hw.1 h).1 hc
    have := ho.ge s0 s1 (fun h => absurd h hw')
    simp at this
    omega

/-- From a position on, `t` is the text with all edits of `es` and those of `es'` that `k` tells. -/
def PartOf (k : Edit α → Bool) (pos : Nat) (parent : List α) (es es' : List (Edit α)) (t : List α) : Prop :=
  t = weave (insertedAt (es ++ es'.filter k)) (fun g => !deletes (es ++ es'.filter k) g) pos parent

variable {k : Edit α → Bool}

theorem PartOf.common {pos : Nat} {c parent t : List α} {es es' : List (Edit α)}
    (h : LB (pos + c.length) es) (h' : LB (pos + c.length) es') (ht : PartOf k (pos + c.length) parent es es' t) :
    PartOf k pos (c ++ parent) es es' (c ++ t) := by
  cases ht
  refine (weave_keep parent c pos fun g _ hg => ?_).symm
  have l := h.sub h' (List.filter_sublist (p := k))
  simp [insertedAt_lt l hg, deletes_lt l hg]

theorem PartOf.own {pos : Nat} {z o parent t : List α} {es es' : List (Edit α)}
    (h : LB (pos + o.length) es) (h' : LB (pos + o.length) es') (ht : PartOf k (pos + o.length) parent es es' t) :
    PartOf k pos (o ++ parent) (⟨pos, pos + o.length, z⟩ :: es) es' (z ++ t) := by
  cases ht
  exact (weave_front (h.sub h' List.filter_sublist)).symm

theorem PartOf.drop {pos : Nat} {parent t : List α} {es es' : List (Edit α)} {e : Edit α} (he : k e = false)
    (ht : PartOf k pos parent es es' t) : PartOf k pos parent es (e :: es') t := by
  unfold PartOf
  rw [List.filter_cons_of_neg (by simp [he])]
  exact ht

theorem PartOf.other {pos : Nat} {z o parent t : List α} {es es' : List (Edit α)}
    (hk : k ⟨pos, pos + o.length, z⟩ = true)
    (h : LB (pos + o.length) es) (h' : LB (pos + o.length) es') (hs : LB (pos + 1) es)
    (ht : PartOf k (pos + o.length) parent es es' t) :
    PartOf k pos (o ++ parent) es (⟨pos, pos + o.length, z⟩ :: es') (z ++ t) := by
  cases ht
  unfold PartOf
  rw [List.filter_cons_of_pos hk, weave_move (insertedAt_lt hs (Nat.lt_succ_self pos)),
    weave_front (h.sub h' List.filter_sublist)]

theorem PartOf.insertion {pos : Nat} {z o parent t : List α} {es es' : List (Edit α)} (ho : 0 < o.length)
    (hk : k ⟨pos, pos + o.length, []⟩ = true)
    (h : LB (pos + o.length) es) (h' : LB (pos + o.length) es') (ht : PartOf k (pos + o.length) parent es es' t) :
    PartOf k pos (o ++ parent) (⟨pos, pos, z⟩ :: es) (⟨pos, pos + o.length, []⟩ :: es') (z ++ t) := by
  have h1 := PartOf.other (z := []) hk h h' (h.mono (by omega)) ht
  have h2 := PartOf.own (o := []) (z := z) (parent := o ++ parent) (t := [] ++ t)
    (es' := ⟨pos, pos + o.length, []⟩ :: es') (h.mono (by simp))
    (by
      intro e he
      rcases List.mem_cons.1 he with rfl | he
      · simp
      · exact h'.mono (by simp) e he) h1
  simpa using h2

theorem PartOf.deletion {pos : Nat} {z o parent t : List α} {es es' : List (Edit α)} (ho : 0 < o.length)
    (hk : k ⟨pos, pos, z⟩ = true)
    (h : LB (pos + o.length) es) (h' : LB (pos + o.length) es') (ht : PartOf k (pos + o.length) parent es es' t) :
    PartOf k pos (o ++ parent) (⟨pos, pos + o.length, []⟩ :: es) (⟨pos, pos, z⟩ :: es') (z ++ t) := by
  have hd := PartOf.own (z := []) h h' ht
  rw [List.nil_append] at hd
  cases hd
  unfold PartOf
  have e0 : insertedAt (⟨pos, pos + o.length, []⟩ :: es) pos = ([] : List α) := by
    simp [insertedAt_cons, insertedAt_lt h (show pos < pos + o.length by omega)]
  rw [List.filter_cons_of_pos hk, weave_move e0]
  have lbs : LB (pos + ([] : List α).length) (⟨pos, pos + o.length, []⟩ :: es ++ es'.filter k) := by
    intro e he
    rcases List.mem_append.1 he with he | he
    · rcases List.mem_cons.1 he with rfl | he
      · simp
      · exact h.mono (by simp) e he
    · exact h'.mono (by simp) e (List.mem_filter.1 he).1
  exact (weave_front (o := []) (z := z) (parent := o ++ parent) lbs).symm

/-- What the loop's output has to be from a position on. -/
def PartsOf (k0 k1 : Edit α → Bool) (pos : Nat) (parent : List α) (es0 es1 : List (Edit α)) (raw : List (MFragment α)) : Prop :=
  PartOf k1 pos parent es0 es1 (raw.flatMap (·.text1)) ∧ PartOf k0 pos parent es1 es0 (raw.flatMap (·.text2))

theorem PartsOf.common {pos : Nat} {c parent : List α} {es0 es1 : List (Edit α)} {raw : List (MFragment α)}
    {x : MFragment α} (h0 : LB (pos + c.length) es0) (h1 : LB (pos + c.length) es1) (x1 : x.text1 = c)
    (x2 : x.text2 = c) (q : PartsOf k0 k1 (pos + c.length) parent es0 es1 raw) :
    PartsOf k0 k1 pos (c ++ parent) es0 es1 (x :: raw) := by
  unfold PartsOf
  rw [List.flatMap_cons, List.flatMap_cons, x1, x2]
  exact ⟨q.1.common h0 h1, q.2.common h1 h0⟩

theorem PartsOf.change0 {pos : Nat} {z o parent : List α} {es0 es1 : List (Edit α)} {raw : List (MFragment α)}
    {x : MFragment α} {w : Bool} (hk : k0 ⟨pos, pos + o.length, z⟩ = !w) (h0 : LB (pos + o.length) es0) (h1 : LB (pos + o.length) es1)
    (hs : LB (pos + 1) es1) (x1 : x.text1 = z) (x2 : x.text2 = if w then o else z)
    (q : PartsOf k0 k1 (pos + o.length) parent es0 es1 raw) :
    PartsOf k0 k1 pos (o ++ parent) (⟨pos, pos + o.length, z⟩ :: es0) es1 (x :: raw) := by
  unfold PartsOf
  rw [List.flatMap_cons, List.flatMap_cons, x1, x2]
  refine ⟨q.1.own h0 h1, ?_⟩
  cases w with
  | false => exact q.2.other hk h1 h0 hs
  | true => exact (q.2.common h1 h0).drop hk

theorem PartsOf.change1 {pos : Nat} {z o parent : List α} {es0 es1 : List (Edit α)} {raw : List (MFragment α)}
    {x : MFragment α} {w : Bool} (hk : k1 ⟨pos, pos + o.length, z⟩ = !w) (h0 : LB (pos + o.length) es0) (h1 : LB (pos + o.length) es1)
    (hs : LB (pos + 1) es0) (x1 : x.text1 = if w then o else z) (x2 : x.text2 = z)
    (q : PartsOf k0 k1 (pos + o.length) parent es0 es1 raw) :
    PartsOf k0 k1 pos (o ++ parent) es0 (⟨pos, pos + o.length, z⟩ :: es1) (x :: raw) := by
  unfold PartsOf
  rw [List.flatMap_cons, List.flatMap_cons, x1, x2]
  refine ⟨?_, q.2.own h1 h0⟩
  cases w with
  | false => exact q.1.other hk h0 h1 hs
  | true => exact (q.1.common h0 h1).drop hk

theorem PartsOf.both {pos : Nat} {z0 z1 o parent : List α} {es0 es1 : List (Edit α)} {raw : List (MFragment α)}
    {x : MFragment α} (hk0 : k0 ⟨pos, pos + o.length, z0⟩ = false) (hk1 : k1 ⟨pos, pos + o.length, z1⟩ = false)
    (h0 : LB (pos + o.length) es0) (h1 : LB (pos + o.length) es1) (x1 : x.text1 = z0)
    (x2 : x.text2 = z1) (q : PartsOf k0 k1 (pos + o.length) parent es0 es1 raw) :
    PartsOf k0 k1 pos (o ++ parent) (⟨pos, pos + o.length, z0⟩ :: es0) (⟨pos, pos + o.length, z1⟩ :: es1) (x :: raw) := by
  unfold PartsOf
  rw [List.flatMap_cons, List.flatMap_cons, x1, x2]
  exact ⟨(q.1.own h0 h1).drop hk1, (q.2.own h1 h0).drop hk0⟩

theorem PartsOf.longer1 {pos : Nat} {z0 z1 o r parent : List α} {es0 es1 : List (Edit α)}
    {raw : List (MFragment α)} {x y : MFragment α} (hk0 : k0 ⟨pos, pos + o.length, z0⟩ = false)
    (hk1 : k1 ⟨pos, pos + (o ++ r).length, z1⟩ = false) (h0 : LB (pos + (o ++ r).length) es0)
    (h1 : LB (pos + (o ++ r).length) es1) (x1 : x.text1 = z0) (x2 : x.text2 = z1) (y1 : y.text1 = r)
    (y2 : y.text2 = []) (q : PartsOf k0 k1 (pos + (o ++ r).length) parent es0 es1 raw) :
    PartsOf k0 k1 pos (o ++ r ++ parent) (⟨pos, pos + o.length, z0⟩ :: es0) (⟨pos, pos + (o ++ r).length, z1⟩ :: es1)
      (x :: y :: raw) := by
  have e : pos + (o ++ r).length = pos + o.length + r.length := by simp; omega
  obtain ⟨q1, q2⟩ := q
  unfold PartsOf
  rw [List.flatMap_cons, List.flatMap_cons, List.flatMap_cons, List.flatMap_cons, x1, x2, y1, y2]
  refine ⟨?_, (q2.own h1 h0).drop hk0⟩
  rw [List.append_assoc]
  refine PartOf.drop hk1 (PartOf.own (h0.mono (by simp)) (h1.mono (by simp)) ?_)
  rw [e] at h0 h1 q1
  exact q1.common h0 h1

theorem PartsOf.longer0 {pos : Nat} {z0 z1 o r parent : List α} {es0 es1 : List (Edit α)}
    {raw : List (MFragment α)} {x y : MFragment α} (hk0 : k0 ⟨pos, pos + (o ++ r).length, z0⟩ = false)
    (hk1 : k1 ⟨pos, pos + o.length, z1⟩ = false) (h0 : LB (pos + (o ++ r).length) es0)
    (h1 : LB (pos + (o ++ r).length) es1) (x1 : x.text1 = z0) (x2 : x.text2 = z1) (y1 : y.text1 = [])
    (y2 : y.text2 = r) (q : PartsOf k0 k1 (pos + (o ++ r).length) parent es0 es1 raw) :
    PartsOf k0 k1 pos (o ++ r ++ parent) (⟨pos, pos + (o ++ r).length, z0⟩ :: es0) (⟨pos, pos + o.length, z1⟩ :: es1)
      (x :: y :: raw) := by
  have e : pos + (o ++ r).length = pos + o.length + r.length := by simp; omega
  obtain ⟨q1, q2⟩ := q
  unfold PartsOf
  rw [List.flatMap_cons, List.flatMap_cons, List.flatMap_cons, List.flatMap_cons, x1, x2, y1, y2]
  refine ⟨(q1.own h0 h1).drop hk1, ?_⟩
  rw [List.append_assoc]
  refine PartOf.drop hk0 (PartOf.own (h1.mono (by simp)) (h0.mono (by simp)) ?_)
  rw [e] at h0 h1 q2
  exact q2.common h1 h0

theorem PartsOf.composed {pos : Nat} {z o parent : List α} {es0 es1 : List (Edit α)} {raw : List (MFragment α)}
    {x : MFragment α} (ho : 0 < o.length) (h0 : LB (pos + o.length) es0) (h1 : LB (pos + o.length) es1)
    (x1 : x.text1 = z) (x2 : x.text2 = z) (q : PartsOf k0 k1 (pos + o.length) parent es0 es1 raw) :
    (k0 ⟨pos, pos, z⟩ = true → k1 ⟨pos, pos + o.length, []⟩ = true →
      PartsOf k0 k1 pos (o ++ parent) (⟨pos, pos, z⟩ :: es0) (⟨pos, pos + o.length, []⟩ :: es1) (x :: raw)) ∧
    (k0 ⟨pos, pos + o.length, []⟩ = true → k1 ⟨pos, pos, z⟩ = true →
      PartsOf k0 k1 pos (o ++ parent) (⟨pos, pos + o.length, []⟩ :: es0) (⟨pos, pos, z⟩ :: es1) (x :: raw)) := by
  unfold PartsOf
  rw [List.flatMap_cons, List.flatMap_cons, x1, x2]
  exact ⟨fun a b => ⟨q.1.insertion ho b h0 h1, q.2.deletion ho a h1 h0⟩,
    fun a b => ⟨q.1.deletion ho b h0 h1, q.2.insertion ho a h1 h0⟩⟩

theorem mergeLoop_exact : ∀ (n pos : Nat) (d0 d1 : List (DiffItem α)) (f : Nat) (w : Bool),
    d0.length + d1.length ≤ n → d0.length + d1.length ≤ f →
    fromText d0 = fromText d1 → (∀ x ∈ d0, x.Normal) → (∀ x ∈ d1, x.Normal) → Alternating d0 →
    Alternating d1 → (∀ e0 ∈ editsOf pos d0, ∀ e1 ∈ editsOf pos d1, e0.Aligned e1) →
    (w = true → (∀ x ∈ d0.head?, x.isChange = false) ∨ ∀ x ∈ d1.head?, x.isChange = false) →
    Marks w pos (editsOf pos d0) (editsOf pos d1) k0 k1 →
    ∃ raw, mergeLoop f (d0.map toFrag) (d1.map toFrag) w = some raw ∧
      PartsOf k0 k1 pos (fromText d0) (editsOf pos d0) (editsOf pos d1) raw := by
  have fc : ∀ (c : List α) d, fromText (.common c :: d) = c ++ fromText d := fun c d => by simp [fromText]
  have fx : ∀ (a b : List α) d, fromText (.change a b :: d) = b ++ fromText d := fun a b d => by simp [fromText]
  have f0 : fromText ([] : List (DiffItem α)) = [] := rfl
  have empty : ∀ {d : List (DiffItem α)}, fromText d = [] → (∀ x ∈ d, x.Normal) → Alternating d →
      d = [] ∨ ∃ z, d = [.change z []] := by
    intro d h n a
    match d, h, n, a with
    | [], _, _, _ => exact .inl rfl
    | .common c :: _, h, n, _ =>
      rw [fc] at h
      exact absurd (List.append_eq_nil_iff.1 h).1 (n (.common c) (by simp))
    | [.change z o], h, _, _ =>
      rw [fx] at h
      exact .inr ⟨z, by rw [(List.append_eq_nil_iff.1 h).1]⟩
    | .change z o :: .common c :: _, h, n, _ =>
      rw [fx, fc] at h
      exact absurd (List.append_eq_nil_iff.1 (List.append_eq_nil_iff.1 h).2).1 (n (.common c) (by simp))
    | .change _ _ :: .change _ _ :: _, _, _, a => exact absurd rfl a.1
  have pre : ∀ {a b u v : List α}, a ++ u = b ++ v → a.length ≤ b.length → ∃ r, b = a ++ r ∧ u = r ++ v := by
    intro a b u v h hl
    rcases List.append_eq_append_iff.1 h with ⟨r, h1, h2⟩ | ⟨r, h1, h2⟩
    · exact ⟨r, h1, h2⟩
    · have : r = [] := by
        have := congrArg List.length h1
        simp at this
        exact List.length_eq_zero_iff.1 (by omega)
      subst this
      exact ⟨[], by simpa using h1.symm, by simpa using h2.symm⟩
  have step : ∀ {f : Nat} {f0 f1 : Fragment α} {F0 F1 : List (Fragment α)} {w w' : Bool}
      {o : Option (MFragment α)} {t0 t1 : Option (Fragment α)} {raw : List (MFragment α)},
      processFragments f0 f1 w = (o, t0, t1, w') →
      mergeLoop f (t0.toList ++ F0) (t1.toList ++ F1) w' = some raw →
      mergeLoop (f + 1) (f0 :: F0) (f1 :: F1) w = some (o.toList ++ raw) := by
    intro f f0 f1 F0 F1 w w' o t0 t1 raw hp hm
    simp only [mergeLoop, hp, hm]
  have ex : ∀ (z o : List α) (d : List (DiffItem α)) (pos : Nat),
      editsOf pos (.change z o :: d) = ⟨pos, pos + o.length, z⟩ :: editsOf (pos + o.length) d :=
    fun _ _ _ _ => rfl
  -- what follows a position inside or at the end of a common piece starts later
  have lbr : ∀ {o r : List α} (d : List (DiffItem α)) (k : Nat), o ++ r ≠ [] →
      LB (k + 1) (editsOf (k + o.length) (restOf r d)) := by
    intro o r d k hr
    rw [← restOf_edits]
    have : 0 < (o ++ r).length := List.length_pos_iff.2 hr
    exact (editsOf_LB d (k + (o ++ r).length)).mono (by omega)
  -- a common piece next to a change reaches to its end
  have fits : ∀ {pos : Nat} {z o c : List α} {d d' : List (DiffItem α)}, c ≠ [] →
      o ++ fromText d = c ++ fromText d' → Alternating (.common c :: d') →
      (∀ e ∈ editsOf pos (.common c :: d'), Edit.Aligned ⟨pos, pos + o.length, z⟩ e) → o.length ≤ c.length := by
    intro pos z o c d d' hc ht a he
    have lc : 0 < c.length := List.length_pos_iff.2 hc
    match d', ht, a, he with
    | [], ht, _, _ =>
      have := congrArg List.length ht
      simp [f0] at this
      omega
    | .common _ :: _, _, a, _ => exact absurd rfl a.1
    | .change z1 o1 :: d1, _, _, he =>
      have := he ⟨pos + c.length, pos + c.length + o1.length, z1⟩ (by simp [editsOf])
      simp only [Edit.Aligned, Edit.Disjoint] at this
      omega
  -- what follows a change starts later
  have after : ∀ {pos : Nat} {z o : List α} {d : List (DiffItem α)}, (∀ x ∈ d, x.Normal) →
      Alternating (.change z o :: d) → LB (pos + 1) (editsOf (pos + o.length) d) := by
    intro pos z o d n a
    match d, n, a with
    | [], _, _ => intro e he; simp [editsOf] at he
    | .common c :: d, n, _ =>
      have : 0 < c.length := List.length_pos_iff.2 (n (.common c) (by simp))
      exact (editsOf_LB d (pos + o.length + c.length)).mono (by omega)
    | .change _ _ :: _, _, a => exact absurd rfl a.1
  have compIff : ∀ (pos : Nat) (x y z0 z1 : List α),
      Edit.Composable ⟨pos, pos + x.length, z0⟩ ⟨pos, pos + y.length, z1⟩ ↔ (x = [] ∧ z1 = []) ∨ (z0 = [] ∧ y = []) := by
    intro pos x y z0 z1
    simp [Edit.Composable, Edit.PureInsertion, Edit.PureDeletion]
  intro n
  induction n with
  | zero =>
    intro pos d0 d1 f w hl _ _ _ _ _ _ _ _ _
    have e0 : d0 = [] := List.length_eq_zero_iff.1 (by omega)
    have e1 : d1 = [] := List.length_eq_zero_iff.1 (by omega)
    subst e0 e1
    exact ⟨[], by cases f <;> rfl, rfl, rfl⟩
  | succ n ih =>
    intro pos d0 d1 f w hl hf ht n0 n1 a0 a1 he hw hm
    match d0, d1, hl, hf, ht, n0, n1, a0, a1, he, hw, hm with
    | [], d1, _, _, ht, _, n1, _, a1, _, hw, hm =>
      rcases empty ht.symm n1 a1 with rfl | ⟨z, rfl⟩
      · exact ⟨[], by cases f <;> rfl, rfl, rfl⟩
      · have nil : PartsOf (α := α) k0 k1 (pos + ([] : List α).length) [] [] [] [] :=
          ⟨rfl, rfl⟩
        have lbn : ∀ k, LB (α := α) k [] := fun k e he => by simp at he
        refine ⟨[if w then .conflict .strLit (.seq z) else .input (toFrag (.change z []))],
          by cases f <;> cases w <;> simp [mergeLoop, flushRemaining, toFrag, Fragment.insert], ?_⟩
        exact PartsOf.change1 (w := w) (hm.symm.change (n := 0) (lbn _) (lbn _) (lbn _) (lbn _)).2 (lbn _) (lbn _) (lbn _) (by cases w <;> rfl) (by cases w <;> rfl) nil
    | x :: d0, [], _, _, ht, n0, _, a0, _, _, hw, hm =>
      rcases empty ht n0 a0 with h | ⟨z, h⟩
      · simp at h
      · rw [h] at hw hm ⊢
        have nil : PartsOf (α := α) k0 k1 (pos + ([] : List α).length) [] [] [] [] :=
          ⟨rfl, rfl⟩
        have lbn : ∀ k, LB (α := α) k [] := fun k e he => by simp at he
        refine ⟨[if w then .conflict (.seq z) .strLit else .input (toFrag (.change z []))],
          by cases f <;> cases w <;> simp [mergeLoop, flushRemaining, toFrag, Fragment.insert], ?_⟩
        exact PartsOf.change0 (w := w) (hm.change (n := 0) (lbn _) (lbn _) (lbn _) (lbn _)).2 (lbn _) (lbn _) (lbn _) (by cases w <;> rfl) (by cases w <;> rfl) nil
    | .common c0 :: d0, .common c1 :: d1, hl, hf, ht, n0, n1, a0, a1, he, hw, hm =>
      rw [fc, fc] at ht
      simp only [List.length_cons] at hl hf
      obtain ⟨f, rfl⟩ : ∃ g, f = g + 1 := ⟨f - 1, by omega⟩
      by_cases h1 : c0.length ≤ c1.length
      · obtain ⟨r, rfl, hr⟩ := pre ht h1
        have len := restOf_length r d1
        obtain ⟨raw, h, q⟩ := ih (pos + c0.length) d0 (restOf r d1) f false (by omega) (by omega)
          (by rw [restOf_text]; exact hr) (fun x hx => n0 x (by simp [hx])) (restOf_normal n1) a0.rest
          (restOf_alternating a1) (by rw [← restOf_edits]; exact he) (by simp)
          (by
            rw [restOf_edits] at hm
            exact hm.common (k := pos + c0.length) (by have := List.length_pos_iff.2 (n0 (.common c0) (by simp)); omega)
              (editsOf_LB _ _) (editsOf_LB _ _))
        have p : processFragments (.copy c0 c0.length) (.copy (c0 ++ r) (c0 ++ r).length) w =
            (some (.input (.copy c0 c0.length)), none, if r = [] then none else some (.copy r r.length), false) := by
          cases r <;> simp [processFragments, copyCopy, splitCopy]
        rw [← restOf_frags] at h
        refine ⟨_, step p h, ?_⟩
        rw [fc, restOf_edits]
        exact PartsOf.common (editsOf_LB _ _) (editsOf_LB _ _) rfl rfl q
      · obtain ⟨r, rfl, hr⟩ := pre ht.symm (by omega)
        have hre : r ≠ [] := by rintro rfl; simp at h1
        have lr : 0 < r.length := List.length_pos_iff.2 hre
        have len := restOf_length r d0
        obtain ⟨raw, h, q⟩ := ih (pos + c1.length) (restOf r d0) d1 f false (by omega) (by omega)
          (by rw [restOf_text]; exact hr.symm) (restOf_normal n0) (fun x hx => n1 x (by simp [hx]))
          (restOf_alternating a0) a1.rest (by rw [← restOf_edits]; exact he) (by simp)
          (by
            rw [restOf_edits] at hm
            exact hm.common (k := pos + c1.length) (by have := List.length_pos_iff.2 (n1 (.common c1) (by simp)); omega)
              (editsOf_LB _ _) (editsOf_LB _ _))
        have p : processFragments (.copy (c1 ++ r) (c1 ++ r).length) (.copy c1 c1.length) w =
            (some (.input (.copy c1 c1.length)), if r = [] then none else some (.copy r r.length), none, false) := by
          have hlt : ¬ c1.length + r.length < c1.length := by omega
          simp [processFragments, copyCopy, splitCopy, lr, Ne.symm hre, hre, hlt]
        rw [← restOf_frags] at h
        refine ⟨_, step p h, ?_⟩
        rw [fc, List.append_assoc, ← restOf_text, restOf_edits c1]
        exact PartsOf.common (editsOf_LB _ _) (editsOf_LB _ _) rfl rfl q
    | .change z o :: d0, .common c :: d1, hl, hf, ht, n0, n1, a0, a1, he, hw, hm =>
      rw [fx, fc] at ht
      simp only [List.length_cons] at hl hf
      have m0 : z ≠ [] ∨ o ≠ [] := (n0 (.change z o) (by simp)).1
      obtain ⟨f, rfl⟩ : ∃ g, f = g + 1 := ⟨f - 1, by omega⟩
      have hc : c ≠ [] := n1 (.common c) (by simp)
      have h1 : o.length ≤ c.length := fits (z := z) hc ht a1 (he _ (by simp [editsOf]))
      obtain ⟨r, rfl, hr⟩ := pre ht h1
      rw [ex, restOf_edits] at hm
      obtain ⟨hm', hk⟩ := hm.change (editsOf_LB _ _) (editsOf_LB _ _) (after (fun x hx => n0 x (by simp [hx])) a0)
        (lbr d1 pos hc)
      have len := restOf_length r d1
      obtain ⟨raw, h, q⟩ := ih (pos + o.length) d0 (restOf r d1) f w (by omega) (by omega)
        (by rw [restOf_text]; exact hr) (fun x hx => n0 x (by simp [hx])) (restOf_normal n1) a0.rest
        (restOf_alternating a1)
        (by rw [← restOf_edits]; exact fun e h => he e (by simp [editsOf, h])) (fun _ => .inl (a0.next rfl)) hm'
      obtain ⟨x, p, x1, x2⟩ := step_change0 w m0 hc
      rw [← restOf_frags] at h
      refine ⟨_, step p h, ?_⟩
      rw [fx, ex, restOf_edits]
      exact PartsOf.change0 hk (editsOf_LB _ _) (editsOf_LB _ _) (lbr d1 pos hc) x1 x2 q
    | .common c :: d0, .change z o :: d1, hl, hf, ht, n0, n1, a0, a1, he, hw, hm =>
      rw [fx, fc] at ht
      simp only [List.length_cons] at hl hf
      have m1 : z ≠ [] ∨ o ≠ [] := (n1 (.change z o) (by simp)).1
      obtain ⟨f, rfl⟩ : ∃ g, f = g + 1 := ⟨f - 1, by omega⟩
      have hc : c ≠ [] := n0 (.common c) (by simp)
      have h1 : o.length ≤ c.length :=
        fits (z := z) hc ht.symm a0 fun e h => (he e h _ (by simp [editsOf])).symm
      obtain ⟨r, rfl, hr⟩ := pre ht.symm h1
      rw [ex, restOf_edits] at hm
      obtain ⟨hm', hk⟩ := hm.symm.change (editsOf_LB _ _) (editsOf_LB _ _)
        (after (fun x hx => n1 x (by simp [hx])) a1) (lbr d0 pos hc)
      have len := restOf_length r d0
      obtain ⟨raw, h, q⟩ := ih (pos + o.length) (restOf r d0) d1 f w (by omega) (by omega)
        (by rw [restOf_text]; exact hr.symm) (restOf_normal n0) (fun x hx => n1 x (by simp [hx]))
        (restOf_alternating a0) a1.rest
        (by rw [← restOf_edits]; exact fun e h e' h' => he e h e' (by simp [editsOf, h']))
        (fun _ => .inr (a1.next rfl)) hm'.symm
      obtain ⟨x, p, x1, x2⟩ := step_change1 w m1 hc
      rw [← restOf_frags] at h
      refine ⟨_, step p h, ?_⟩
      rw [fc, List.append_assoc, ← restOf_text, ex, restOf_edits]
      exact PartsOf.change1 hk (editsOf_LB _ _) (editsOf_LB _ _) (lbr d0 pos hc) x1 x2 q
    | .change z0 o0 :: d0, .change z1 o1 :: d1, hl, hf, ht, n0, n1, a0, a1, he, hw, hm =>
      rw [fx, fx] at ht
      simp only [List.length_cons] at hl hf
      have hw' : w = false := by
        cases w with
        | false => rfl
        | true => rcases hw rfl with h | h <;> exact absurd (h _ rfl) (by simp [DiffItem.isChange])
      subst hw'
      have m0 : z0 ≠ [] ∨ o0 ≠ [] := (n0 (.change z0 o0) (by simp)).1
      have m1 : z1 ≠ [] ∨ o1 ≠ [] := (n1 (.change z1 o1) (by simp)).1
      have t0 : ∀ x ∈ d0, x.Normal := fun x hx => n0 x (by simp [hx])
      have t1 : ∀ x ∈ d1, x.Normal := fun x hx => n1 x (by simp [hx])
      obtain ⟨f, rfl⟩ : ∃ g, f = g + 1 := ⟨f - 1, by omega⟩
      have he' : ∀ e0 ∈ editsOf (pos + o0.length) d0, ∀ e1 ∈ editsOf (pos + o1.length) d1, e0.Aligned e1 :=
        fun e h e' h' => he e (by simp [editsOf, h]) e' (by simp [editsOf, h'])
      rcases Nat.lt_trichotomy o0.length o1.length with hlt | heq | hgt
      · obtain ⟨r, rfl, hr⟩ := pre ht (by omega)
        have hre : r ≠ [] := by rintro rfl; simp at hlt
        match d0, hr, a0, t0, he, he', hl, hf, hm with
        | [], hr, _, _, _, _, _, _, _ => exact absurd (List.append_eq_nil_iff.1 hr.symm).1 hre
        | .change _ _ :: _, _, a0, _, _, _, _, _, _ => exact absurd rfl a0.1
        | .common c :: d0, hr, a0, t0, he, he', hl, hf, hm =>
          rw [fc] at hr
          simp only [List.length_cons] at hl hf
          have e1 : pos + (o0 ++ r).length = pos + o0.length + r.length := by simp; omega
          have hcr : r.length ≤ c.length := by
            apply fits (pos := pos + o0.length) (z := z1) (t0 (.common c) (by simp)) hr.symm a0.rest
            intro e h
            have hk := (editsOf_LB d0 (pos + o0.length + c.length)) e h
            have lc : 0 < c.length := List.length_pos_iff.2 (t0 (.common c) (by simp))
            have hk := hk.1
            have := he e (by rw [ex]; exact List.mem_cons_of_mem _ h) ⟨pos, pos + (o0 ++ r).length, z1⟩
              (by simp [editsOf])
            simp only [Edit.Aligned, Edit.Disjoint, List.length_append] at this ⊢
            omega
          obtain ⟨c', rfl, hr'⟩ := pre hr.symm hcr
          obtain ⟨f, rfl⟩ : ∃ g, f = g + 1 := ⟨f - 1, by omega⟩
          have len := restOf_length c' d0
          have s1 : LB (pos + 1) (editsOf (pos + (o0 ++ r).length) d1) := after t1 a1
          have s0 : LB (pos + 1) (editsOf (pos + (o0 ++ r).length) (restOf c' d0)) :=
            (editsOf_LB _ _).mono (by simp; have := List.length_pos_iff.2 hre; omega)
          rw [ex, ex, restOf_edits, ← e1] at hm
          have mk := fun w hw => hm.both (w := w) (k := pos + (o0 ++ r).length) (Nat.max_eq_right (by simp)) (by omega) (by omega)
            hw (editsOf_LB _ _) (editsOf_LB _ _) s0 s1
          have hh := fun w => ih (pos + (o0 ++ r).length) (restOf c' d0) d1 f w (by omega) (by omega)
            (by rw [restOf_text]; exact hr'.symm) (restOf_normal t0) t1 (restOf_alternating a0.rest) a1.rest
            (by rw [e1, ← restOf_edits, ← e1]; exact he') (fun _ => .inr (a1.next rfl))
          by_cases hcomp : o0 = [] ∧ z1 = []
          · obtain ⟨rfl, rfl⟩ := hcomp
            have hc : Edit.Composable ⟨pos, pos + ([] : List α).length, z0⟩ ⟨pos, pos + r.length, []⟩ := (compIff _ _ _ _ _).2 (.inl ⟨rfl, rfl⟩)
            obtain ⟨mk1, _, mk3⟩ := mk false ⟨fun h => absurd h (by simp), fun h => absurd hc h.1⟩
            obtain ⟨raw, h, q⟩ := hh false mk1
            obtain ⟨x, p, x1, x2⟩ := step_change1 (z := z0) (o := r) (r := c') false (.inr hre) (by simp [hre])
            rw [← restOf_frags] at h
            refine ⟨_, step (step_compose1 z0 r) (step p h), ?_⟩
            rw [fx, fc, ex, ex, restOf_edits, List.append_assoc r, ← restOf_text]
            exact (PartsOf.composed (z := z0) (List.length_pos_iff.2 hre) (editsOf_LB _ _) (editsOf_LB _ _) x1 x2 q).1 (mk3 hc).1 (mk3 hc).2
          · have hc : ¬ Edit.Composable ⟨pos, pos + o0.length, z0⟩ ⟨pos, pos + (o0 ++ r).length, z1⟩ := by
              rw [compIff]
              rintro (⟨h1, h2⟩ | ⟨h1, h2⟩)
              · exact hcomp ⟨h1, h2⟩
              · exact hre (List.append_eq_nil_iff.1 h2).2
            obtain ⟨mk1, mk2, _⟩ := mk true (by
              refine ⟨fun _ => ⟨hc, fun h => ?_⟩, fun _ => rfl⟩
              have := congrArg Edit.stop h
              simp only [List.length_append] at this
              have := List.length_pos_iff.2 hre
              omega)
            obtain ⟨raw, h, q⟩ := hh true mk1
            rw [← restOf_frags] at h
            refine ⟨_, step (change_longer1 m0 hcomp hre) (step (pending_rest1 (c := c') hre) h), ?_⟩
            rw [fx, fc, ex, ex, restOf_edits, ← e1, List.append_assoc r, ← restOf_text, ← List.append_assoc]
            exact PartsOf.longer1 (mk2 hc).1 (mk2 hc).2 (editsOf_LB _ _) (editsOf_LB _ _) rfl rfl rfl rfl q
      · obtain ⟨rfl, hr⟩ := List.append_inj ht heq
        have p := change_same_stretch m0 m1
        have hh := fun w => ih (pos + o0.length) d0 d1 f w (by omega) (by omega) hr t0 t1 a0.rest a1.rest he'
          (fun _ => .inl (a0.next rfl))
        rw [ex, ex] at hm
        have hc : ¬ Edit.Composable ⟨pos, pos + o0.length, z0⟩ ⟨pos, pos + o0.length, z1⟩ := by
          rw [compIff]
          rintro (⟨h1, h2⟩ | ⟨h1, h2⟩)
          · exact m1.elim (fun h => h h2) (fun h => h h1)
          · exact m0.elim (fun h => h h1) (fun h => h h2)
        have mk := fun w hw => hm.both (w := w) (k := pos + o0.length) (by simp) (by omega) (by omega)
          hw (editsOf_LB _ _) (editsOf_LB _ _) (after t0 a0) (after t1 a1)
        by_cases hz : z0 = z1
        · subst hz
          rw [if_pos rfl] at p
          obtain ⟨mk1, mk2, _⟩ := mk false (by simp)
          obtain ⟨raw, h, q⟩ := hh false mk1
          refine ⟨_, step p h, ?_⟩
          rw [fx, ex, ex]
          exact PartsOf.both (mk2 hc).1 (mk2 hc).2 (editsOf_LB _ _) (editsOf_LB _ _) rfl rfl q
        · rw [if_neg hz] at p
          obtain ⟨mk1, mk2, _⟩ := mk true (by simp [hc, hz])
          obtain ⟨raw, h, q⟩ := hh true mk1
          refine ⟨_, step p h, ?_⟩
          rw [fx, ex, ex]
          exact PartsOf.both (mk2 hc).1 (mk2 hc).2 (editsOf_LB _ _) (editsOf_LB _ _) rfl rfl q
      · obtain ⟨r, rfl, hr⟩ := pre ht.symm (by omega)
        have hre : r ≠ [] := by rintro rfl; simp at hgt
        match d1, hr, a1, t1, he, he', hl, hf, hm with
        | [], hr, _, _, _, _, _, _, _ => exact absurd (List.append_eq_nil_iff.1 hr.symm).1 hre
        | .change _ _ :: _, _, a1, _, _, _, _, _, _ => exact absurd rfl a1.1
        | .common c :: d1, hr, a1, t1, he, he', hl, hf, hm =>
          rw [fc] at hr
          simp only [List.length_cons] at hl hf
          have e1 : pos + (o1 ++ r).length = pos + o1.length + r.length := by simp; omega
          have hcr : r.length ≤ c.length := by
            apply fits (pos := pos + o1.length) (z := z0) (t1 (.common c) (by simp)) hr.symm a1.rest
            intro e h
            have hk := (editsOf_LB d1 (pos + o1.length + c.length)) e h
            have lc : 0 < c.length := List.length_pos_iff.2 (t1 (.common c) (by simp))
            have hk := hk.1
            have := he ⟨pos, pos + (o1 ++ r).length, z0⟩ (by simp [editsOf]) e
              (by rw [ex]; exact List.mem_cons_of_mem _ h)
            simp only [Edit.Aligned, Edit.Disjoint, List.length_append] at this ⊢
            omega
          obtain ⟨c', rfl, hr'⟩ := pre hr.symm hcr
          obtain ⟨f, rfl⟩ : ∃ g, f = g + 1 := ⟨f - 1, by omega⟩
          have len := restOf_length c' d1
          have s0 : LB (pos + 1) (editsOf (pos + (o1 ++ r).length) d0) := after t0 a0
          have s1 : LB (pos + 1) (editsOf (pos + (o1 ++ r).length) (restOf c' d1)) :=
            (editsOf_LB _ _).mono (by simp; have := List.length_pos_iff.2 hre; omega)
          rw [ex, ex, restOf_edits, ← e1] at hm
          have mk := fun w hw => hm.both (w := w) (k := pos + (o1 ++ r).length) (Nat.max_eq_left (by simp)) (by omega) (by omega)
            hw (editsOf_LB _ _) (editsOf_LB _ _) s0 s1
          have hh := fun w => ih (pos + (o1 ++ r).length) d0 (restOf c' d1) f w (by omega) (by omega)
            (by rw [restOf_text]; exact hr') t0 (restOf_normal t1) a0.rest (restOf_alternating a1.rest)
            (by
              have : editsOf (pos + (o1 ++ r).length) (restOf c' d1) =
                  editsOf (pos + o1.length) (.common (r ++ c') :: d1) := by rw [restOf_edits, e1]
              rw [this]
              exact he') (fun _ => .inl (a0.next rfl))
          by_cases hcomp : o1 = [] ∧ z0 = []
          · obtain ⟨rfl, rfl⟩ := hcomp
            have hc : Edit.Composable ⟨pos, pos + r.length, []⟩ ⟨pos, pos + ([] : List α).length, z1⟩ := (compIff _ _ _ _ _).2 (.inr ⟨rfl, rfl⟩)
            obtain ⟨mk1, _, mk3⟩ := mk false ⟨fun h => absurd h (by simp), fun h => absurd hc h.1⟩
            obtain ⟨raw, h, q⟩ := hh false mk1
            obtain ⟨x, p, x1, x2⟩ := step_change0 (z := z1) (o := r) (r := c') false (.inr hre) (by simp [hre])
            rw [← restOf_frags] at h
            refine ⟨_, step (step_compose0 hre) (step p h), ?_⟩
            rw [fx, ex, ex, restOf_edits]
            exact (PartsOf.composed (z := z1) (List.length_pos_iff.2 hre) (editsOf_LB _ _) (editsOf_LB _ _) x1 x2 q).2 (mk3 hc).1 (mk3 hc).2
          · have hc : ¬ Edit.Composable ⟨pos, pos + (o1 ++ r).length, z0⟩ ⟨pos, pos + o1.length, z1⟩ := by
              rw [compIff]
              rintro (⟨h1, h2⟩ | ⟨h1, h2⟩)
              · exact hre (List.append_eq_nil_iff.1 h1).2
              · exact hcomp ⟨h2, h1⟩
            obtain ⟨mk1, mk2, _⟩ := mk true (by
              refine ⟨fun _ => ⟨hc, fun h => ?_⟩, fun _ => rfl⟩
              have := congrArg Edit.stop h
              simp only [List.length_append] at this
              have := List.length_pos_iff.2 hre
              omega)
            obtain ⟨raw, h, q⟩ := hh true mk1
            rw [← restOf_frags] at h
            refine ⟨_, step (change_longer0 m1 hcomp hre) (step (pending_rest0 (c := c') hre) h), ?_⟩
            rw [fx, ex, ex, restOf_edits, ← e1]
            exact PartsOf.longer0 (mk2 hc).1 (mk2 hc).2 (editsOf_LB _ _) (editsOf_LB _ _) rfl rfl rfl rfl q

/-- C141.  If overlapping changes of the branches start at the same place: taking the first side of every
conflict gives the parent with all changes of the first branch and exactly those changes of the second one that do
not start with a change of the first one (unless one inserts and one deletes) or where a conflict is still open; and
the second sides the same with the branches exchanged. -/
theorem C141_exact {kind : Kind} {parent b0 b1 : List α} {d0 d1 d : List (DiffItem α)}
    (h0 : diffTokenSequences parent b0 = some d0) (h1 : diffTokenSequences parent b1 = some d1)
    (h : mergeTokenSequence kind parent b0 b1 = .ok d)
    (ha : ∀ e0 ∈ editsOf 0 d0, ∀ e1 ∈ editsOf 0 d1, e0.Aligned e1)
    (hk0 : ∀ e ∈ editsOf 0 d0, k0 e = true ↔ CountsBeside (editsOf 0 d1) (editsOf 0 d0) e)
    (hk1 : ∀ e ∈ editsOf 0 d1, k1 e = true ↔ CountsBeside (editsOf 0 d0) (editsOf 0 d1) e) :
    intoText d = applyEdits parent (editsOf 0 d0 ++ (editsOf 0 d1).filter k1) ∧
    fromText d = applyEdits parent (editsOf 0 d1 ++ (editsOf 0 d0).filter k0) := by
  obtain ⟨_, j0, n0, a0⟩ := C12_diff_normal_form parent b0
  obtain ⟨_, j1, n1, a1⟩ := C12_diff_normal_form parent b1
  rw [h0] at j0
  cases j0
  rw [h1] at j1
  cases j1
  obtain ⟨_, j0, _, t0⟩ := C09_diff_reconstructs parent b0
  obtain ⟨_, j1, _, t1⟩ := C09_diff_reconstructs parent b1
  rw [h0] at j0
  cases j0
  rw [h1] at j1
  cases j1
  have hm : Marks false 0 (editsOf 0 d0) (editsOf 0 d1) k0 k1 := by
    refine ⟨fun e he => ?_, fun e he => ?_⟩
    · rw [hk0 e he, CountsBeside, CountsFrom, OpenAt.iff_from]
    · rw [hk1 e he, CountsBeside, CountsFrom, OpenAt.iff_from]
  obtain ⟨raw, hl, q⟩ := mergeLoop_exact _ 0 d0 d1 _ false (Nat.le_refl _) (Nat.le_refl _)
    (t0.trans t1.symm) n0 n1 a0 a1 ha (by simp) hm
  rw [merge_of_diffs kind h0 h1 hl] at h
  obtain ⟨c1, c2⟩ := C138_consolidate h
  rw [t0] at q
  rw [c1, c2]
  exact q

/-- C141.  The same of the file that `gaspra-merge -g` writes, by characters, words or lines. -/
theorem C141_file (cls sp : Nat → Bool) {args : Args} (h : args.GitFile) (hd : args.diff = false)
    (pn cn on : PyStr) {p c o : PyStr} {qp qc qo : List PyStr} (hp : CliPieces cls args p qp)
    (hc : CliPieces cls args c qc) (ho : CliPieces cls args o qo) {d0 d1 : List (DiffItem PyStr)}
    (h0 : diffTokenSequences qp qc = some d0) (h1 : diffTokenSequences qp qo = some d1)
    (ha : ∀ e0 ∈ editsOf 0 d0, ∀ e1 ∈ editsOf 0 d1, e0.Aligned e1) {k0 k1 : Edit PyStr → Bool}
    (hk0 : ∀ e ∈ editsOf 0 d0, k0 e = true ↔ CountsBeside (editsOf 0 d1) (editsOf 0 d0) e)
    (hk1 : ∀ e ∈ editsOf 0 d1, k1 e = true ↔ CountsBeside (editsOf 0 d0) (editsOf 0 d1) e) :
    ∃ out n, mergeCli cls sp args {} pn cn on p c o = ({}, out, none) ∧ (n = [] ∨ n = [nl]) ∧
      GitOutput (basename cn) (basename on) out
        ((applyEdits qp (editsOf 0 d0 ++ (editsOf 0 d1).filter k1)).flatten ++ n)
        ((applyEdits qp (editsOf 0 d1 ++ (editsOf 0 d0).filter k0)).flatten ++ n) := by
  obtain ⟨d, out, n, m1, m2, m3, _, m5⟩ := C67_merge_file cls sp h hd pn cn on hp hc ho
  obtain ⟨q1, q0⟩ := C141_exact h0 h1 m1 ha hk0 hk1
  refine ⟨out, n, m3, m2, ?_⟩
  rw [into_joined, from_joined, q1, q0] at m5
  exact m5

-- The conflict of "b" and "bc" is open at 3, so the change of "d" is on the first side only; the change of "f" is
-- on both.
example : mergeTokenSequence .str "abcdefg".toList "aYc1e2g".toList "aXdefg".toList =
    .ok [.common "a".toList, .change "Yc1".toList "Xd".toList, .common "e2g".toList] := by decide +kernel
example : OpenAt [⟨1, 2, "Y".toList⟩, ⟨3, 4, "1".toList⟩, ⟨5, 6, "2".toList⟩] [⟨1, 3, "X".toList⟩] 4 :=
  OpenAt.next (e := ⟨3, 4, "1".toList⟩)
    (OpenAt.pair (e0 := ⟨1, 2, "Y".toList⟩) (e1 := ⟨1, 3, "X".toList⟩) (by simp) (by simp) rfl
      (by simp [Edit.Composable, Edit.PureInsertion, Edit.PureDeletion]) (by simp)) (by simp) rfl
example : "aXde2g".toList =
    applyEdits "abcdefg".toList ([⟨1, 3, "X".toList⟩] ++
      [⟨1, 2, "Y".toList⟩, ⟨3, 4, "1".toList⟩, ⟨5, 6, "2".toList⟩].filter fun e => e.start == 5) := by decide
example : fromText [.common "a".toList, .change "Yc1".toList "Xd".toList, .common "e2g".toList] =
    applyEdits "abcdefg".toList ([⟨1, 3, "X".toList⟩] ++
      [⟨1, 2, "Y".toList⟩, ⟨3, 4, "1".toList⟩, ⟨5, 6, "2".toList⟩].filter fun e => e.start == 5) := by
  have only : ∀ q, OpenAt [⟨1, 2, "Y".toList⟩, ⟨3, 4, "1".toList⟩, ⟨5, 6, "2".toList⟩] [⟨1, 3, "X".toList⟩] q →
      q = 3 ∨ q = 4 := by
    intro q h
    induction h with
    | pair m0 m1 c _ _ =>
      simp only [List.mem_cons, List.not_mem_nil, or_false] at m0 m1
      subst m1
      rcases m0 with rfl | rfl | rfl <;> simp at c ⊢
    | next _ m s ih =>
      simp only [List.mem_cons, List.not_mem_nil, or_false] at m
      rcases m with (rfl | rfl | rfl) | rfl <;> simp only at s ⊢ <;> first | omega | simp
  have sym : ∀ {es0 es1 : List (Edit Char)} {q : Nat}, OpenAt es0 es1 q → OpenAt es1 es0 q := fun h =>
    OpenAt.iff_from.2 (OpenAt.iff_from (pos := 0).1 h).symm
  refine (C141_exact (kind := .str) (parent := "abcdefg".toList) (b0 := "aYc1e2g".toList) (b1 := "aXdefg".toList)
    (d0 := [.common "a".toList, .change "Y".toList "b".toList, .common "c".toList, .change "1".toList "d".toList,
      .common "e".toList, .change "2".toList "f".toList, .common "g".toList])
    (d1 := [.common "a".toList, .change "X".toList "bc".toList, .common "defg".toList])
    (k0 := fun e => e.start == 5) (k1 := fun _ => false)
    (by decide +kernel) (by decide +kernel) (by decide +kernel)
    (by simp [editsOf, Edit.Aligned, Edit.Disjoint]) ?_ ?_).2
  · intro e he
    simp only [editsOf, List.mem_cons, List.not_mem_nil, or_false] at he
    rcases he with rfl | rfl | rfl
    · simp [CountsBeside, editsOf, Edit.Composable, Edit.PureInsertion, Edit.PureDeletion]
    · simp only [CountsBeside]
      refine ⟨fun h => by simp at h, fun h => absurd ?_ h.2⟩
      exact OpenAt.pair (e0 := ⟨1, 3, "X".toList⟩) (e1 := ⟨1, 2, "Y".toList⟩) (by simp [editsOf]) (by simp [editsOf]) rfl
        (by simp [Edit.Composable, Edit.PureInsertion, Edit.PureDeletion]) (by simp)
    · refine ⟨fun _ => ⟨by simp [editsOf], fun h => ?_⟩, fun _ => rfl⟩
      have := only _ (sym h)
      simp at this
  · intro e he
    simp only [editsOf, List.mem_cons, List.not_mem_nil, or_false] at he
    subst he
    simp [CountsBeside, editsOf, Edit.Composable, Edit.PureInsertion, Edit.PureDeletion]

end Gaspra
