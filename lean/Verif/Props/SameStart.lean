import Verif.Props.Resolved
import Verif.Proofs.MergeCost

/-!
# C138: changes that start at the same place
-/

set_option linter.unusedSectionVars false
set_option linter.unusedSimpArgs false

namespace Gaspra

variable {α : Type _} [DecidableEq α]

/-- What a fragment of the loop's output adds to the text with all conflicts resolved to the first side. -/
def MFragment.text1 : MFragment α → List α
  | .input f => f.insert
  | .conflict v _ => v.toList

/-- The same for the second side. -/
def MFragment.text2 : MFragment α → List α
  | .input f => f.insert
  | .conflict _ v => v.toList

theorem group_texts {g o r L : List (MFragment α)} (hL : L = g ++ (o ++ r)) (hg : ∀ x ∈ g, x.isConflict = true)
    (ho : ∀ x ∈ o, x.isConflict = false) :
    L.flatMap (·.text1) = g.flatMap (·.version1.toList) ++ (o.flatMap (·.insert.toList) ++ r.flatMap (·.text1)) ∧
    L.flatMap (·.text2) = g.flatMap (·.version2.toList) ++ (o.flatMap (·.insert.toList) ++ r.flatMap (·.text2)) := by
  have h1 : ∀ g : List (MFragment α), (∀ x ∈ g, x.isConflict = true) →
      g.flatMap (·.text1) = g.flatMap (·.version1.toList) ∧ g.flatMap (·.text2) = g.flatMap (·.version2.toList) := by
    intro g
    induction g with
    | nil => intro _; exact ⟨rfl, rfl⟩
    | cons x g ih =>
      intro h
      obtain ⟨i1, i2⟩ := ih fun y hy => h y (by simp [hy])
      have hx := h x (by simp)
      cases x with
      | input => simp [MFragment.isConflict] at hx
      | conflict a b =>
        simp only [List.flatMap_cons, i1, i2]
        exact ⟨rfl, rfl⟩
  have h2 : ∀ o : List (MFragment α), (∀ x ∈ o, x.isConflict = false) →
      o.flatMap (·.text1) = o.flatMap (·.insert.toList) ∧ o.flatMap (·.text2) = o.flatMap (·.insert.toList) := by
    intro o
    induction o with
    | nil => intro _; exact ⟨rfl, rfl⟩
    | cons x o ih =>
      intro h
      obtain ⟨i1, i2⟩ := ih fun y hy => h y (by simp [hy])
      have hx := h x (by simp)
      cases x with
      | conflict => simp [MFragment.isConflict] at hx
      | input f =>
        simp only [List.flatMap_cons, i1, i2]
        exact ⟨rfl, rfl⟩
  subst hL
  simp only [List.flatMap_append, h1 g hg, h2 o ho]
  exact ⟨trivial, trivial⟩

theorem split_groups (L : List (MFragment α)) :
    L = L.takeWhile (·.isConflict) ++ ((L.dropWhile (·.isConflict)).takeWhile (fun f => !f.isConflict) ++
      (L.dropWhile (·.isConflict)).dropWhile (fun f => !f.isConflict)) := by
  rw [List.takeWhile_append_dropWhile, List.takeWhile_append_dropWhile]

theorem toM_texts (d : List (DiffItem α)) : (d.map toM).flatMap (·.text1) = intoText d ∧
    (d.map toM).flatMap (·.text2) = fromText d := by
  induction d with
  | nil => exact ⟨rfl, rfl⟩
  | cons x d ih =>
    rw [intoText_cons, fromText_cons, ← ih.1, ← ih.2]
    cases x <;> simp [toM, MFragment.text1, MFragment.text2, intoText, fromText, Side.toList, Fragment.insert]

theorem consolidateConflicts_texts (kind : Kind) : ∀ (fuel : Nat) (L R : List (MFragment α)),
    consolidateConflicts kind fuel L = .ok R →
    R.flatMap (·.text1) = L.flatMap (·.text1) ∧ R.flatMap (·.text2) = L.flatMap (·.text2) := by
  intro fuel
  induction fuel with
  | zero =>
    intro L R h
    cases L with
    | nil => simp only [consolidateConflicts, Except.ok.injEq] at h; subst h; exact ⟨rfl, rfl⟩
    | cons => simp [consolidateConflicts] at h
  | succ fuel ih =>
    intro L R h
    match L, h with
    | [], h => simp only [consolidateConflicts, Except.ok.injEq] at h; subst h; exact ⟨rfl, rfl⟩
    | x :: L, h =>
      simp only [consolidateConflicts] at h
      have hs := split_groups (x :: L)
      have hg : ∀ y ∈ (x :: L).takeWhile (·.isConflict), y.isConflict = true := fun y hy =>
        mem_takeWhile_true (f := fun f : MFragment α => f.isConflict) hy
      have ho : ∀ y ∈ ((x :: L).dropWhile (·.isConflict)).takeWhile (fun f => !f.isConflict),
          y.isConflict = false := fun y hy => by simpa using mem_takeWhile_true hy
      generalize (x :: L).takeWhile (·.isConflict) = g at *
      generalize ((x :: L).dropWhile (·.isConflict)).takeWhile (fun f => !f.isConflict) = o at *
      generalize ((x :: L).dropWhile (·.isConflict)).dropWhile (fun f => !f.isConflict) = r at *
      obtain ⟨t1, t2⟩ := group_texts hs hg ho
      rw [t1, t2]
      cases j1 : joinSides kind (g.map (·.version1)) with
      | error => simp [j1, bind, Except.bind] at h
      | ok v1 =>
        cases j2 : joinSides kind (g.map (·.version2)) with
        | error => simp [j1, j2, bind, Except.bind] at h
        | ok v2 =>
          obtain ⟨d, hd, i1, i2, _⟩ := reSplit_ok v1 v2
          cases hc : consolidateConflicts kind fuel r with
          | error => simp [j1, j2, hd, hc, bind, Except.bind] at h
          | ok R' =>
            simp only [j1, j2, hd, hc, bind, Except.bind, pure, Except.pure, Except.ok.injEq] at h
            obtain ⟨r1, r2⟩ := ih r R' hc
            obtain ⟨q1, q2⟩ := group_texts (g := []) (o := o) (r := R') (L := o ++ R') rfl (by simp) ho
            obtain ⟨m1, m2⟩ := toM_texts d
            have e1 := joinSides_eq j1
            have e2 := joinSides_eq j2
            rw [List.flatMap_map] at e1 e2
            simp only [List.flatMap_nil, List.nil_append] at q1 q2
            rw [← h, List.append_assoc]
            constructor
            · rw [List.flatMap_append, q1, m1, i1, r1, e1]
            · rw [List.flatMap_append, q2, m2, i2, r2, e2]

theorem consolidateAllLoop_texts (kind : Kind) : ∀ (fuel : Nat) (L : List (MFragment α)) (d : List (DiffItem α)),
    consolidateAllLoop kind fuel L = .ok d →
    intoText d = L.flatMap (·.text1) ∧ fromText d = L.flatMap (·.text2) := by
  intro fuel
  induction fuel with
  | zero =>
    intro L R h
    cases L with
    | nil => simp only [consolidateAllLoop, Except.ok.injEq] at h; subst h; exact ⟨rfl, rfl⟩
    | cons => simp [consolidateAllLoop] at h
  | succ fuel ih =>
    intro L R h
    match L, h with
    | [], h => simp only [consolidateAllLoop, Except.ok.injEq] at h; subst h; exact ⟨rfl, rfl⟩
    | x :: L, h =>
      simp only [consolidateAllLoop] at h
      have hs := split_groups (x :: L)
      have hg : ∀ y ∈ (x :: L).takeWhile (·.isConflict), y.isConflict = true := fun y hy =>
        mem_takeWhile_true (f := fun f : MFragment α => f.isConflict) hy
      have ho : ∀ y ∈ ((x :: L).dropWhile (·.isConflict)).takeWhile (fun f => !f.isConflict),
          y.isConflict = false := fun y hy => by simpa using mem_takeWhile_true hy
      generalize (x :: L).takeWhile (·.isConflict) = g at *
      generalize ((x :: L).dropWhile (·.isConflict)).takeWhile (fun f => !f.isConflict) = o at *
      generalize ((x :: L).dropWhile (·.isConflict)).dropWhile (fun f => !f.isConflict) = r at *
      obtain ⟨t1, t2⟩ := group_texts hs hg ho
      rw [t1, t2]
      cases j1 : joinSides kind (g.map (·.version1)) with
      | error => simp [j1, bind, Except.bind] at h
      | ok v1 =>
        cases j2 : joinSides kind (g.map (·.version2)) with
        | error => simp [j1, j2, bind, Except.bind] at h
        | ok v2 =>
          cases j3 : joinSides kind (o.map (·.insert)) with
          | error => simp [j1, j2, j3, bind, Except.bind] at h
          | ok v3 =>
            cases hc : consolidateAllLoop kind fuel r with
            | error => simp [j1, j2, j3, hc, bind, Except.bind] at h
            | ok R' =>
              simp only [j1, j2, j3, hc, bind, Except.bind, pure, Except.pure, Except.ok.injEq] at h
              obtain ⟨r1, r2⟩ := ih r R' hc
              have e1 := joinSides_eq j1
              have e2 := joinSides_eq j2
              have e3 := joinSides_eq j3
              rw [List.flatMap_map] at e1 e2 e3
              rw [← h, ← e1, ← e2, ← e3, ← r1, ← r2]
              have b : bothEmpty v1 v2 = true → v1 = [] ∧ v2 = [] := by
                intro hb
                simpa [bothEmpty] using hb
              cases hb : bothEmpty v1 v2 with
              | true =>
                obtain ⟨rfl, rfl⟩ := b hb
                cases v3 <;> simp [intoText, fromText]
              | false => cases v3 <;> simp [intoText, fromText]

/-- C138.  The first sides of the conflicts of a merge and its common text are those of the loop's output, and
so are the second ones: consolidating changes where the conflicts are, not what they say. -/
theorem C138_consolidate {kind : Kind} {raw : List (MFragment α)} {d : List (DiffItem α)}
    (h : consolidate kind raw = .ok d) :
    intoText d = raw.flatMap (·.text1) ∧ fromText d = raw.flatMap (·.text2) := by
  simp only [consolidate, consolidateAll] at h
  cases h1 : consolidateConflicts kind raw.length raw with
  | error => simp [h1, bind, Except.bind] at h
  | ok R =>
    cases h2 : consolidateAllLoop kind R.length R with
    | error => simp [h1, h2, bind, Except.bind] at h
    | ok d' =>
      simp only [h1, h2, bind, Except.bind, pure, Except.pure, Except.ok.injEq] at h
      obtain ⟨a1, a2⟩ := consolidateConflicts_texts kind _ _ _ h1
      obtain ⟨b1, b2⟩ := consolidateAllLoop_texts kind _ _ _ h2
      rw [← a1, ← a2, ← b1, ← b2, ← h]
      cases d' <;> exact ⟨rfl, rfl⟩

/-- One edit only inserts, the other one only deletes. -/
def Edit.Composable (e0 e1 : Edit α) : Prop :=
  (e0.PureInsertion ∧ e1.PureDeletion) ∨ (e0.PureDeletion ∧ e1.PureInsertion)

/-- Any two edits of different branches start at the same place (and are not an insertion and a deletion), or
are apart; and where two edits start at the same place and one of them reaches further, the other branch
changes nothing right after it. -/
structure StartApart (es0 es1 : List (Edit α)) : Prop where
  pairs : ∀ e0 ∈ es0, ∀ e1 ∈ es1,
    (e0.start = e1.start ∧ ¬ e0.Composable e1) ∨ (e0.Disjoint e1 ∧ e0.start ≠ e1.start)
  after0 : ∀ e0 ∈ es0, ∀ e1 ∈ es1, e0.start = e1.start → e0.stop < e1.stop → ∀ e ∈ es0, e.start ≠ e1.stop
  after1 : ∀ e0 ∈ es0, ∀ e1 ∈ es1, e0.start = e1.start → e1.stop < e0.stop → ∀ e ∈ es1, e.start ≠ e0.stop

theorem StartApart.mono {es0 es1 fs0 fs1 : List (Edit α)} (h : StartApart es0 es1) (h0 : ∀ e ∈ fs0, e ∈ es0)
    (h1 : ∀ e ∈ fs1, e ∈ es1) : StartApart fs0 fs1 :=
  ⟨fun a ha b hb => h.pairs a (h0 a ha) b (h1 b hb),
   fun a ha b hb hs hl e he => h.after0 a (h0 a ha) b (h1 b hb) hs hl e (h0 e he),
   fun a ha b hb hs hl e he => h.after1 a (h0 a ha) b (h1 b hb) hs hl e (h1 e he)⟩

/-- The edits of `es'` that do not start where one of `es` does. -/
def othersOf (es es' : List (Edit α)) : List (Edit α) :=
  es'.filter fun e' => !es.any fun e => e.start == e'.start

/-- All of `es`, and the edits of `es'` that do not start where one of `es` does, applied to the parent. -/
def preferring (parent : List α) (es es' : List (Edit α)) : List α := applyEdits parent (es ++ othersOf es es')

/-- The same from a position on. -/
def preferringFrom (pos : Nat) (parent : List α) (es es' : List (Edit α)) : List α :=
  weave (insertedAt (es ++ othersOf es es')) (fun g => !deletes (es ++ othersOf es es') g) pos parent

theorem LB.others {k : Nat} {es es' : List (Edit α)} (h : LB k es) (h' : LB k es') :
    LB k (es ++ othersOf es es') := by
  intro e he
  rcases List.mem_append.1 he with he | he
  · exact h e he
  · exact h' e (List.mem_filter.1 he).1

theorem preferringFrom_common {pos : Nat} {c parent : List α} {es es' : List (Edit α)}
    (h : LB (pos + c.length) es) (h' : LB (pos + c.length) es') :
    preferringFrom pos (c ++ parent) es es' = c ++ preferringFrom (pos + c.length) parent es es' := by
  refine weave_keep parent c pos fun g _ hg => ?_
  simp [insertedAt_lt (h.others h') hg, deletes_lt (h.others h') hg]

/-- One edit in front. -/
theorem weave_front {pos : Nat} {z o parent : List α} {es : List (Edit α)} (h : LB (pos + o.length) es) :
    weave (insertedAt (⟨pos, pos + o.length, z⟩ :: es)) (fun g => !deletes (⟨pos, pos + o.length, z⟩ :: es) g) pos
      (o ++ parent) =
      z ++ weave (insertedAt es) (fun g => !deletes es g) (pos + o.length) parent := by
  refine weave_edit parent pos ?_ ?_ ?_ ?_ ?_
  · by_cases ho : o = []
    · simp [insertedAt_cons, ho]
    · have : 0 < o.length := List.length_pos_iff.2 ho
      simp [insertedAt_cons, ho, insertedAt_lt h (show pos < pos + o.length by omega)]
  · intro g h1 h2
    have e' : ¬ pos = g := by omega
    simp [insertedAt_cons, e', insertedAt_lt h h2]
  · intro g h1 h2
    simp [deletes_head h1 h2]
  · intro g h1 h2
    have e' : ¬ pos = g := by omega
    simp [insertedAt_cons, e']
  · intro g hg
    simp only [deletes_le_start z o.length hg]

theorem othersOf_cons_left {pos q : Nat} {z : List α} {es es' : List (Edit α)} (h : LB (pos + 1) es') :
    othersOf (⟨pos, q, z⟩ :: es) es' = othersOf es es' := by
  refine List.filter_congr fun e he => ?_
  have := (h e he).1
  have : ¬ pos = e.start := by omega
  simp [this]

theorem othersOf_cons_right {pos q q' : Nat} {z z' : List α} {es es' : List (Edit α)} :
    othersOf (⟨pos, q, z⟩ :: es) (⟨pos, q', z'⟩ :: es') = othersOf (⟨pos, q, z⟩ :: es) es' := by
  simp [othersOf]

theorem preferringFrom_first {pos : Nat} {z o parent : List α} {es es' : List (Edit α)}
    (h : LB (pos + o.length) es) (h' : LB (pos + o.length) es') (hs : LB (pos + 1) es') :
    preferringFrom pos (o ++ parent) (⟨pos, pos + o.length, z⟩ :: es) es' =
      z ++ preferringFrom (pos + o.length) parent es es' := by
  unfold preferringFrom
  rw [othersOf_cons_left hs]
  exact weave_front (h.others h')

theorem preferringFrom_both {pos q : Nat} {z z' o parent : List α} {es es' : List (Edit α)}
    (h : LB (pos + o.length) es) (h' : LB (pos + o.length) es') (hs : LB (pos + 1) es') :
    preferringFrom pos (o ++ parent) (⟨pos, pos + o.length, z⟩ :: es) (⟨pos, q, z'⟩ :: es') =
      z ++ preferringFrom (pos + o.length) parent es es' := by
  have : preferringFrom pos (o ++ parent) (⟨pos, pos + o.length, z⟩ :: es) (⟨pos, q, z'⟩ :: es') =
      preferringFrom pos (o ++ parent) (⟨pos, pos + o.length, z⟩ :: es) es' := by
    unfold preferringFrom
    rw [othersOf_cons_right]
  rw [this]
  exact preferringFrom_first h h' hs

theorem preferringFrom_second {pos : Nat} {z o parent : List α} {es es' : List (Edit α)}
    (h : LB (pos + o.length) es) (h' : LB (pos + o.length) es') (hs : LB (pos + 1) es) :
    preferringFrom pos (o ++ parent) es (⟨pos, pos + o.length, z⟩ :: es') =
      z ++ preferringFrom (pos + o.length) parent es es' := by
  unfold preferringFrom
  have e : othersOf es (⟨pos, pos + o.length, z⟩ :: es') = ⟨pos, pos + o.length, z⟩ :: othersOf es es' := by
    have := any_start_lt hs (Nat.lt_succ_self pos)
    simp [othersOf, List.filter_cons, this]
  rw [e, ← weave_front (h.others h')]
  refine weave_congr _ _ (fun g _ => ?_) (fun g _ => ?_)
  · rw [insertedAt_append, insertedAt_cons, insertedAt_cons, insertedAt_append]
    by_cases hg : pos = g
    · subst hg
      simp [insertedAt_lt hs (Nat.lt_succ_self pos)]
    · simp [hg]
  · rw [deletes_append, deletes_cons, deletes_cons, deletes_append]
    simp only [← Bool.or_assoc]
    rw [Bool.or_comm (deletes es g)]

theorem change_longer1 {z0 z1 o r : List α} (h0 : z0 ≠ [] ∨ o ≠ []) (hc : ¬ (o = [] ∧ z1 = [])) (hr : r ≠ []) :
    processFragments (.change z0 o o.length) (.change z1 (o ++ r) (o ++ r).length) false =
      (some (.conflict (.seq z0) (.seq z1)), none, some (.change [] r r.length), true) := by
  have lr : 0 < r.length := List.length_pos_iff.2 hr
  have c1 : hasComposable z0 o.length z1 (o ++ r).length = false := by
    have : ¬ (o.length + r.length = 0) := by omega
    cases o <;> cases z1 <;> simp_all [hasComposable]
  have c2 : areIdentical z0 o o.length z1 (o ++ r) (o ++ r).length = false := by
    have : (o.length == (o ++ r).length) = false := by simp; omega
    simp only [areIdentical, this, Bool.false_and, Bool.and_false]
  have m : min o.length (o ++ r).length = o.length := by simp
  have s0 : splitChange z0 o o.length z0.length o.length = (some (.change z0 o o.length), none) := by
    have : 0 < o.length ∨ 0 < z0.length := by
      rcases h0 with h | h
      · exact .inr (List.length_pos_iff.2 h)
      · exact .inl (List.length_pos_iff.2 h)
    simp [splitChange, this]
  have s1 : splitChange z1 (o ++ r) (o ++ r).length z1.length o.length =
      (some (.change z1 o o.length), some (.change [] r r.length)) := by
    have : 0 < o.length ∨ 0 < z1.length := by
      by_cases ho : o = []
      · exact .inr (List.length_pos_iff.2 fun hz => hc ⟨ho, hz⟩)
      · exact .inl (List.length_pos_iff.2 ho)
    simp [splitChange, this, lr]
  simp only [processFragments, changeChange, c1, c2, ordinaryConflict, m, s0, s1, Bool.false_eq_true, if_false,
    Fragment.insert]

theorem change_longer0 {z0 z1 o r : List α} (h1 : z1 ≠ [] ∨ o ≠ []) (hc : ¬ (o = [] ∧ z0 = [])) (hr : r ≠ []) :
    processFragments (.change z0 (o ++ r) (o ++ r).length) (.change z1 o o.length) false =
      (some (.conflict (.seq z0) (.seq z1)), some (.change [] r r.length), none, true) := by
  have lr : 0 < r.length := List.length_pos_iff.2 hr
  have c1 : hasComposable z0 (o ++ r).length z1 o.length = false := by
    have : ¬ (o.length + r.length = 0) := by omega
    cases o <;> cases z0 <;> simp_all [hasComposable]
  have c2 : areIdentical z0 (o ++ r) (o ++ r).length z1 o o.length = false := by
    have : ((o ++ r).length == o.length) = false := by simp; omega
    simp only [areIdentical, this, Bool.false_and, Bool.and_false]
  have m : min (o ++ r).length o.length = o.length := by simp
  have s0 : splitChange z1 o o.length z1.length o.length = (some (.change z1 o o.length), none) := by
    have : 0 < o.length ∨ 0 < z1.length := by
      rcases h1 with h | h
      · exact .inr (List.length_pos_iff.2 h)
      · exact .inl (List.length_pos_iff.2 h)
    simp [splitChange, this]
  have s1 : splitChange z0 (o ++ r) (o ++ r).length z0.length o.length =
      (some (.change z0 o o.length), some (.change [] r r.length)) := by
    have : 0 < o.length ∨ 0 < z0.length := by
      by_cases ho : o = []
      · exact .inr (List.length_pos_iff.2 fun hz => hc ⟨ho, hz⟩)
      · exact .inl (List.length_pos_iff.2 ho)
    simp [splitChange, this, lr]
  simp only [processFragments, changeChange, c1, c2, ordinaryConflict, m, s0, s1, Bool.false_eq_true, if_false,
    Fragment.insert]

theorem pending_rest1 {r c : List α} (hr : r ≠ []) :
    processFragments (.copy (r ++ c) (r ++ c).length) (.change [] r r.length) true =
      (some (.conflict (.seq r) (.seq [])), if c = [] then none else some (.copy c c.length), none, true) := by
  have lr : 0 < r.length := List.length_pos_iff.2 hr
  have m : min (r ++ c).length r.length = r.length := by simp
  have s0 : splitCopy (r ++ c) (r ++ c).length r.length =
      (some (.copy r r.length), if c = [] then none else some (.copy c c.length)) := by
    cases c <;> simp [splitCopy, lr]
  have s1 : splitChange [] r r.length 0 r.length = (some (.change [] r r.length), none) := by
    simp [splitChange, lr]
  simp only [processFragments, pendingConflict, Fragment.length, m, splitFragment, s0, List.length_nil, s1,
    insertOrLit, Fragment.insert, if_true]

theorem pending_rest0 {r c : List α} (hr : r ≠ []) :
    processFragments (.change [] r r.length) (.copy (r ++ c) (r ++ c).length) true =
      (some (.conflict (.seq []) (.seq r)), none, if c = [] then none else some (.copy c c.length), true) := by
  have lr : 0 < r.length := List.length_pos_iff.2 hr
  have m : min r.length (r ++ c).length = r.length := by simp
  have s0 : splitCopy (r ++ c) (r ++ c).length r.length =
      (some (.copy r r.length), if c = [] then none else some (.copy c c.length)) := by
    cases c <;> simp [splitCopy, lr]
  have s1 : splitChange [] r r.length 0 r.length = (some (.change [] r r.length), none) := by
    simp [splitChange, lr]
  simp only [processFragments, pendingConflict, Fragment.length, m, splitFragment, s0, List.length_nil, s1,
    insertOrLit, Fragment.insert, if_true]

/-- What the loop's output has to be from a position on. -/
def TextsOf (pos : Nat) (d0 d1 : List (DiffItem α)) (raw : List (MFragment α)) : Prop :=
  raw.flatMap (·.text1) = preferringFrom pos (fromText d0) (editsOf pos d0) (editsOf pos d1) ∧
  raw.flatMap (·.text2) = preferringFrom pos (fromText d0) (editsOf pos d1) (editsOf pos d0) ∧
  ∀ x ∈ raw, x.noLit

theorem mergeLoop_startApart : ∀ (n pos : Nat) (d0 d1 : List (DiffItem α)) (f : Nat) (w : Bool),
    d0.length + d1.length ≤ n → d0.length + d1.length ≤ f →
    fromText d0 = fromText d1 → (∀ x ∈ d0, x.Normal) → (∀ x ∈ d1, x.Normal) → Alternating d0 →
    Alternating d1 → StartApart (editsOf pos d0) (editsOf pos d1) →
    (w = true → (∀ x ∈ d0.head?, x.isChange = false) ∧ ∀ x ∈ d1.head?, x.isChange = false) →
    ∃ raw, mergeLoop f (d0.map toFrag) (d1.map toFrag) w = some raw ∧ TextsOf pos d0 d1 raw := by
  have fc : ∀ (c : List α) d, fromText (.common c :: d) = c ++ fromText d := fun c d => by simp [fromText]
  have fx : ∀ (a b : List α) d, fromText (.change a b :: d) = b ++ fromText d := fun a b d => by simp [fromText]
  have f0 : fromText ([] : List (DiffItem α)) = [] := rfl
  have empty : ∀ {d : List (DiffItem α)}, fromText d = [] → (∀ x ∈ d, x.Normal) → Alternating d →
      d = [] ∨ ∃ z, d = [.change z []] := by
    intro d h n a
    match d, h, n, a with
    | [], _, _, _ => exact .inl rfl
    | .common c :: _, h, n, _ =>
      rw [fc] at h
      exact absurd (List.append_eq_nil_iff.1 h).1 (n (.common c) (by simp))
    | [.change z o], h, _, _ =>
      rw [fx] at h
      exact .inr ⟨z, by rw [(List.append_eq_nil_iff.1 h).1]⟩
    | .change z o :: .common c :: _, h, n, _ =>
      rw [fx, fc] at h
      exact absurd (List.append_eq_nil_iff.1 (List.append_eq_nil_iff.1 h).2).1 (n (.common c) (by simp))
    | .change _ _ :: .change _ _ :: _, _, _, a => exact absurd rfl a.1
  have pre : ∀ {a b u v : List α}, a ++ u = b ++ v → a.length ≤ b.length → ∃ r, b = a ++ r ∧ u = r ++ v := by
    intro a b u v h hl
    rcases List.append_eq_append_iff.1 h with ⟨r, h1, h2⟩ | ⟨r, h1, h2⟩
    · exact ⟨r, h1, h2⟩
    · have : r = [] := by
        have := congrArg List.length h1
        simp at this
        exact List.length_eq_zero_iff.1 (by omega)
      subst this
      exact ⟨[], by simpa using h1.symm, by simpa using h2.symm⟩
  have step : ∀ {f : Nat} {f0 f1 : Fragment α} {F0 F1 : List (Fragment α)} {w w' : Bool}
      {o : Option (MFragment α)} {t0 t1 : Option (Fragment α)} {raw : List (MFragment α)},
      processFragments f0 f1 w = (o, t0, t1, w') →
      mergeLoop f (t0.toList ++ F0) (t1.toList ++ F1) w' = some raw →
      mergeLoop (f + 1) (f0 :: F0) (f1 :: F1) w = some (o.toList ++ raw) := by
    intro f f0 f1 F0 F1 w w' o t0 t1 raw hp hm
    simp only [mergeLoop, hp, hm]
  have nofalse : ∀ {w : Bool} {x : DiffItem α}, x.isChange = true →
      (w = true → x.isChange = false) → w = false := by
    intro w x hx h
    cases w with
    | false => rfl
    | true => rw [hx] at h; simp at h
  have ed : ∀ (o r : List α) (d : List (DiffItem α)) (pos : Nat),
      editsOf pos (.common (o ++ r) :: d) = editsOf (pos + o.length) (.common r :: d) := by
    intro o r d pos
    simp [editsOf, Nat.add_assoc]
  have ed' : ∀ (o : List α) (d : List (DiffItem α)) (pos : Nat),
      editsOf pos (.common o :: d) = editsOf (pos + o.length) d := fun _ _ _ => rfl
  have ex : ∀ (z o : List α) (d : List (DiffItem α)) (pos : Nat),
      editsOf pos (.change z o :: d) = ⟨pos, pos + o.length, z⟩ :: editsOf (pos + o.length) d :=
    fun _ _ _ _ => rfl
  have nr : ∀ {r : List α} {d : List (DiffItem α)}, r ≠ [] → (∀ y ∈ d, y.Normal) →
      ∀ y ∈ DiffItem.common r :: d, y.Normal := by
    intro r d hr h y hy
    rcases List.mem_cons.1 hy with rfl | hy
    · exact hr
    · exact h y hy
  have lb : ∀ (r : List α) (d : List (DiffItem α)) (k : Nat), r ≠ [] → LB (k + 1) (editsOf k (.common r :: d)) := by
    intro r d k hr
    have : 0 < r.length := List.length_pos_iff.2 hr
    exact (editsOf_LB d (k + r.length)).mono (by omega)
  intro n
  induction n with
  | zero =>
    intro pos d0 d1 f w hl _ _ _ _ _ _ _ _
    have e0 : d0 = [] := List.length_eq_zero_iff.1 (by omega)
    have e1 : d1 = [] := List.length_eq_zero_iff.1 (by omega)
    subst e0 e1
    exact ⟨[], by cases f <;> rfl, rfl, rfl, by simp⟩
  | succ n ih =>
    intro pos d0 d1 f w hl hf ht n0 n1 a0 a1 he hw
    match d0, d1, hl, hf, ht, n0, n1, a0, a1, he, hw with
    | [], d1, _, _, ht, _, n1, _, a1, _, hw =>
      rcases empty ht.symm n1 a1 with rfl | ⟨z, rfl⟩
      · exact ⟨[], by cases f <;> rfl, rfl, rfl, by simp⟩
      · have hw' : w = false := nofalse (x := .change z []) rfl fun h => (hw h).2 _ (by simp)
        subst hw'
        refine ⟨[.input (toFrag (.change z []))], by cases f <;> simp [mergeLoop, flushRemaining], ?_, ?_,
          by simp [MFragment.noLit]⟩
        · simp [MFragment.text1, toFrag, Fragment.insert, preferringFrom, weave, fromText, editsOf, othersOf,
            insertedAt]
        · simp [MFragment.text2, toFrag, Fragment.insert, preferringFrom, weave, fromText, editsOf, othersOf,
            insertedAt]
    | x :: d0, [], _, _, ht, n0, _, a0, _, _, hw =>
      rcases empty ht n0 a0 with h | ⟨z, h⟩
      · simp at h
      · rw [h] at hw ⊢
        have hw' : w = false := nofalse (x := .change z []) rfl fun h => (hw h).1 _ (by simp)
        subst hw'
        refine ⟨[.input (toFrag (.change z []))], by cases f <;> simp [mergeLoop, flushRemaining], ?_, ?_,
          by simp [MFragment.noLit]⟩
        · simp [MFragment.text1, toFrag, Fragment.insert, preferringFrom, weave, fromText, editsOf, othersOf,
            insertedAt]
        · simp [MFragment.text2, toFrag, Fragment.insert, preferringFrom, weave, fromText, editsOf, othersOf,
            insertedAt]
    | .common c0 :: d0, .common c1 :: d1, hl, hf, ht, n0, n1, a0, a1, he, hw =>
      rw [fc, fc] at ht
      simp only [List.length_cons] at hl hf
      have t0 : ∀ x ∈ d0, x.Normal := fun x hx => n0 x (by simp [hx])
      have t1 : ∀ x ∈ d1, x.Normal := fun x hx => n1 x (by simp [hx])
      obtain ⟨f, rfl⟩ : ∃ g, f = g + 1 := ⟨f - 1, by omega⟩
      by_cases h1 : c0.length ≤ c1.length
      · obtain ⟨r, rfl, hr⟩ := pre ht h1
        by_cases hre : r = []
        · subst hre
          simp only [List.append_nil, List.nil_append] at hr he ⊢
          obtain ⟨raw, h, q1, q2, q3⟩ := ih (pos + c0.length) d0 d1 f false (by omega) (by omega) hr t0 t1 a0.rest
            a1.rest he (by simp)
          have p : processFragments (.copy c0 c0.length) (.copy c0 c0.length) w =
              (some (.input (.copy c0 c0.length)), none, none, false) := by
            simp [processFragments, copyCopy]
          refine ⟨_, step p h, ?_⟩
          unfold TextsOf
          rw [fc, ed', ed', preferringFrom_common (editsOf_LB _ _) (editsOf_LB _ _),
            preferringFrom_common (editsOf_LB _ _) (editsOf_LB _ _), ← q1, ← q2]
          exact ⟨rfl, rfl, by simpa [MFragment.noLit] using q3⟩
        · have lr : 0 < r.length := List.length_pos_iff.2 hre
          obtain ⟨raw, h, q1, q2, q3⟩ := ih (pos + c0.length) d0 (.common r :: d1) f false (by simp; omega)
            (by simp; omega) (by rw [fc]; exact hr) t0 (nr hre t1) a0.rest (a1.swapHead rfl)
            (by rw [← ed]; exact he) (by simp)
          have p : processFragments (.copy c0 c0.length) (.copy (c0 ++ r) (c0 ++ r).length) w =
              (some (.input (.copy c0 c0.length)), none, some (.copy r r.length), false) := by
            simp [processFragments, copyCopy, splitCopy, lr]
          refine ⟨_, step p h, ?_⟩
          unfold TextsOf
          rw [fc, ed', ed, preferringFrom_common (editsOf_LB _ _) (editsOf_LB _ _),
            preferringFrom_common (editsOf_LB _ _) (editsOf_LB _ _), ← q1, ← q2]
          exact ⟨rfl, rfl, by simpa [MFragment.noLit] using q3⟩
      · obtain ⟨r, rfl, hr⟩ := pre ht.symm (by omega)
        have hre : r ≠ [] := by rintro rfl; simp at h1
        have lr : 0 < r.length := List.length_pos_iff.2 hre
        obtain ⟨raw, h, q1, q2, q3⟩ := ih (pos + c1.length) (.common r :: d0) d1 f false (by simp; omega)
          (by simp; omega) (by rw [fc]; exact hr.symm) (nr hre t0) t1 (a0.swapHead rfl) a1.rest
          (by rw [← ed]; exact he) (by simp)
        have p : processFragments (.copy (c1 ++ r) (c1 ++ r).length) (.copy c1 c1.length) w =
            (some (.input (.copy c1 c1.length)), some (.copy r r.length), none, false) := by
          have hlt : ¬ c1.length + r.length < c1.length := by omega
          simp [processFragments, copyCopy, splitCopy, lr, Ne.symm hre, hre, hlt]
        refine ⟨_, step p h, ?_⟩
        unfold TextsOf
        rw [fc, List.append_assoc, ← fc, ed c1 _ _ pos, ed' c1 _ pos,
          preferringFrom_common (editsOf_LB _ _) (editsOf_LB _ _),
          preferringFrom_common (editsOf_LB _ _) (editsOf_LB _ _), ← q1, ← q2]
        exact ⟨rfl, rfl, by simpa [MFragment.noLit] using q3⟩
    | .change z o :: d0, .common c :: d1, hl, hf, ht, n0, n1, a0, a1, he, hw =>
      rw [fx, fc] at ht
      simp only [List.length_cons] at hl hf
      have hw' : w = false := nofalse (x := .change z o) rfl fun h => (hw h).1 _ (by simp)
      subst hw'
      have t0 : ∀ x ∈ d0, x.Normal := fun x hx => n0 x (by simp [hx])
      have t1 : ∀ x ∈ d1, x.Normal := fun x hx => n1 x (by simp [hx])
      obtain ⟨f, rfl⟩ : ∃ g, f = g + 1 := ⟨f - 1, by omega⟩
      have lc : 0 < c.length := List.length_pos_iff.2 (n1 (.common c) (by simp))
      by_cases h1 : o.length ≤ c.length
      · obtain ⟨r, rfl, hr⟩ := pre ht h1
        by_cases hre : r = []
        · subst hre
          simp only [List.append_nil, List.nil_append] at hr he lc ⊢
          obtain ⟨raw, h, q1, q2, q3⟩ := ih (pos + o.length) d0 d1 f false (by omega) (by omega) hr t0 t1 a0.rest
            a1.rest (he.mono (fun e h => by simp [editsOf, h]) (fun e h => h)) (by simp)
          have p : processFragments (.change z o o.length) (.copy o o.length) false =
              (some (.input (.change z o o.length)), none, none, false) := by
            simp [processFragments, copyChange]
          have l := fun d : List (DiffItem α) =>
            (editsOf_LB d (pos + o.length)).mono (show pos + 1 ≤ pos + o.length by omega)
          refine ⟨_, step p h, ?_⟩
          unfold TextsOf
          rw [fx, ex, ed', preferringFrom_first (editsOf_LB _ _) (editsOf_LB _ _) (l _),
            preferringFrom_second (editsOf_LB _ _) (editsOf_LB _ _) (l _), ← q1, ← q2]
          exact ⟨rfl, rfl, by simpa [MFragment.noLit] using q3⟩
        · have lr : 0 < r.length := List.length_pos_iff.2 hre
          obtain ⟨raw, h, q1, q2, q3⟩ := ih (pos + o.length) d0 (.common r :: d1) f false (by simp; omega)
            (by simp; omega) (by rw [fc]; exact hr) t0 (nr hre t1) a0.rest (a1.swapHead rfl)
            (by rw [← ed]; exact he.mono (fun e h => by simp [editsOf, h]) (fun e h => h)) (by simp)
          have p : processFragments (.change z o o.length) (.copy (o ++ r) (o ++ r).length) false =
              (some (.input (.change z o o.length)), none, some (.copy r r.length), false) := by
            simp [processFragments, copyChange, splitCopy, lr]
          have l := fun d => (lb _ d (pos + o.length) hre).mono (show pos + 1 ≤ pos + o.length + 1 by omega)
          refine ⟨_, step p h, ?_⟩
          unfold TextsOf
          rw [fx, ex, ed, preferringFrom_first (editsOf_LB _ _) (editsOf_LB _ _) (l _),
            preferringFrom_second (editsOf_LB _ _) (editsOf_LB _ _) (l _), ← q1, ← q2]
          exact ⟨rfl, rfl, by simpa [MFragment.noLit] using q3⟩
      · exfalso
        match d1, a1, t1 with
        | [], _, _ =>
          have := congrArg List.length ht
          simp [f0] at this
          omega
        | .common _ :: _, a1, _ => exact a1.1 rfl
        | .change z1 o1 :: d1, _, _ =>
          have := he.pairs ⟨pos, pos + o.length, z⟩ (by simp [editsOf])
            ⟨pos + c.length, pos + c.length + o1.length, z1⟩ (by simp [editsOf])
          simp only [Edit.Disjoint] at this
          omega
    | .common c :: d0, .change z o :: d1, hl, hf, ht, n0, n1, a0, a1, he, hw =>
      rw [fx, fc] at ht
      simp only [List.length_cons] at hl hf
      have hw' : w = false := nofalse (x := .change z o) rfl fun h => (hw h).2 _ (by simp)
      subst hw'
      have t0 : ∀ x ∈ d0, x.Normal := fun x hx => n0 x (by simp [hx])
      have t1 : ∀ x ∈ d1, x.Normal := fun x hx => n1 x (by simp [hx])
      obtain ⟨f, rfl⟩ : ∃ g, f = g + 1 := ⟨f - 1, by omega⟩
      have lc : 0 < c.length := List.length_pos_iff.2 (n0 (.common c) (by simp))
      by_cases h1 : o.length ≤ c.length
      · obtain ⟨r, rfl, hr⟩ := pre ht.symm h1
        by_cases hre : r = []
        · subst hre
          simp only [List.append_nil, List.nil_append] at hr he lc ⊢
          obtain ⟨raw, h, q1, q2, q3⟩ := ih (pos + o.length) d0 d1 f false (by omega) (by omega) hr.symm t0 t1 a0.rest
            a1.rest (he.mono (fun e h => h) (fun e h => by simp [editsOf, h])) (by simp)
          have p : processFragments (.copy o o.length) (.change z o o.length) false =
              (some (.input (.change z o o.length)), none, none, false) := by
            simp [processFragments, copyChange]
          have l := fun d : List (DiffItem α) =>
            (editsOf_LB d (pos + o.length)).mono (show pos + 1 ≤ pos + o.length by omega)
          refine ⟨_, step p h, ?_⟩
          unfold TextsOf
          rw [fc, ex, ed', preferringFrom_first (editsOf_LB _ _) (editsOf_LB _ _) (l _),
            preferringFrom_second (editsOf_LB _ _) (editsOf_LB _ _) (l _), ← q1, ← q2]
          exact ⟨rfl, rfl, by simpa [MFragment.noLit] using q3⟩
        · have lr : 0 < r.length := List.length_pos_iff.2 hre
          obtain ⟨raw, h, q1, q2, q3⟩ := ih (pos + o.length) (.common r :: d0) d1 f false (by simp; omega)
            (by simp; omega) (by rw [fc]; exact hr.symm) (nr hre t0) t1 (a0.swapHead rfl) a1.rest
            (by rw [← ed]; exact he.mono (fun e h => h) (fun e h => by simp [editsOf, h])) (by simp)
          have p : processFragments (.copy (o ++ r) (o ++ r).length) (.change z o o.length) false =
              (some (.input (.change z o o.length)), some (.copy r r.length), none, false) := by
            simp [processFragments, copyChange, splitCopy, lr]
          have l := fun d => (lb _ d (pos + o.length) hre).mono (show pos + 1 ≤ pos + o.length + 1 by omega)
          refine ⟨_, step p h, ?_⟩
          unfold TextsOf
          rw [fc, List.append_assoc, ← fc, ex, ed, preferringFrom_first (editsOf_LB _ _) (editsOf_LB _ _) (l _),
            preferringFrom_second (editsOf_LB _ _) (editsOf_LB _ _) (l _), ← q1, ← q2]
          exact ⟨rfl, rfl, by simpa [MFragment.noLit] using q3⟩
      · exfalso
        match d0, a0, t0 with
        | [], _, _ =>
          have := congrArg List.length ht
          simp [f0] at this
          omega
        | .common _ :: _, a0, _ => exact a0.1 rfl
        | .change z1 o1 :: d0, _, _ =>
          have := he.pairs ⟨pos + c.length, pos + c.length + o1.length, z1⟩ (by simp [editsOf])
            ⟨pos, pos + o.length, z⟩ (by simp [editsOf])
          simp only [Edit.Disjoint] at this
          omega
    | .change z0 o0 :: d0, .change z1 o1 :: d1, hl, hf, ht, n0, n1, a0, a1, he, hw =>
      rw [fx, fx] at ht
      simp only [List.length_cons] at hl hf
      have hw' : w = false := nofalse (x := .change z0 o0) rfl fun h => (hw h).1 _ (by simp)
      subst hw'
      have m0 : z0 ≠ [] ∨ o0 ≠ [] := (n0 (.change z0 o0) (by simp)).1
      have m1 : z1 ≠ [] ∨ o1 ≠ [] := (n1 (.change z1 o1) (by simp)).1
      have t0 : ∀ x ∈ d0, x.Normal := fun x hx => n0 x (by simp [hx])
      have t1 : ∀ x ∈ d1, x.Normal := fun x hx => n1 x (by simp [hx])
      obtain ⟨f, rfl⟩ : ∃ g, f = g + 1 := ⟨f - 1, by omega⟩
      have he' : StartApart (editsOf (pos + o0.length) d0) (editsOf (pos + o1.length) d1) :=
        he.mono (fun e h => by simp [editsOf, h]) (fun e h => by simp [editsOf, h])
      have hcomp : ¬ (o0 = [] ∧ z1 = []) ∧ ¬ (o1 = [] ∧ z0 = []) := by
        have := he.pairs ⟨pos, pos + o0.length, z0⟩ (by simp [editsOf]) ⟨pos, pos + o1.length, z1⟩ (by simp [editsOf])
        rcases this with ⟨_, h⟩ | ⟨_, h⟩
        · constructor
          · rintro ⟨rfl, rfl⟩
            exact h (.inl ⟨by simp [Edit.PureInsertion], rfl⟩)
          · rintro ⟨rfl, rfl⟩
            exact h (.inr ⟨rfl, by simp [Edit.PureInsertion]⟩)
        · exact absurd rfl h
      -- after a change of length zero comes something that both keep
      have after : ∀ {z o : List α} {d : List (DiffItem α)}, (∀ x ∈ d, x.Normal) →
          Alternating (.change z o :: d) → LB (pos + 1) (editsOf (pos + o.length) d) := by
        intro z o d n a
        match d, n, a with
        | [], _, _ => intro e he; simp [editsOf] at he
        | .common c :: d, n, _ =>
          exact (lb c d (pos + o.length) (n (.common c) (by simp))).mono (by omega)
        | .change _ _ :: _, _, a => exact absurd rfl a.1
      rcases Nat.lt_trichotomy o0.length o1.length with hlt | heq | hgt
      · obtain ⟨r, rfl, hr⟩ := pre ht (by omega)
        have hre : r ≠ [] := by rintro rfl; simp at hlt
        have lr : 0 < r.length := List.length_pos_iff.2 hre
        match d0, hr, a0, t0, he, he', hl, hf with
        | [], hr, _, _, _, _, _, _ => exact absurd (List.append_eq_nil_iff.1 hr.symm).1 hre
        | .change _ _ :: _, _, a0, _, _, _, _, _ => exact absurd rfl a0.1
        | .common c :: d0, hr, a0, t0, he, he', hl, hf =>
          rw [fc] at hr
          simp only [List.length_cons] at hl hf
          have hcr : r.length ≤ c.length := by
            apply Nat.le_of_not_lt
            intro hcr
            match d0, hr, a0, he with
            | [], hr, _, _ =>
              have := congrArg List.length hr
              simp [f0] at this
              omega
            | .common _ :: _, _, a0, _ => exact a0.2.1 rfl
            | .change z o :: d0, _, _, he =>
              have := he.pairs ⟨pos + o0.length + c.length, pos + o0.length + c.length + o.length, z⟩
                (by simp [editsOf]) ⟨pos, pos + (o0 ++ r).length, z1⟩ (by simp [editsOf])
              have lc : 0 < c.length := List.length_pos_iff.2 (t0 (.common c) (by simp))
              simp only [Edit.Disjoint, List.length_append] at this
              omega
          obtain ⟨c', rfl, hr'⟩ := pre hr.symm hcr
          have u0 : ∀ x ∈ d0, x.Normal := fun x hx => t0 x (by simp [hx])
          have p1 := change_longer1 m0 hcomp.1 hre
          have p2 := pending_rest1 (c := c') hre
          obtain ⟨f, rfl⟩ : ∃ g, f = g + 1 := ⟨f - 1, by omega⟩
          have lA : LB (pos + 1) (editsOf (pos + (o0 ++ r).length) d1) :=
            (editsOf_LB d1 _).mono (by simp; omega)
          have lA1 : LB (pos + o0.length) (editsOf (pos + (o0 ++ r).length) d1) :=
            (editsOf_LB d1 _).mono (by simp)
          have e1 : pos + (o0 ++ r).length = pos + o0.length + r.length := by simp; omega
          have key : ∀ (d0' : List (DiffItem α)) (raw : List (MFragment α)),
              editsOf (pos + o0.length) (.common (r ++ c') :: d0) = editsOf (pos + (o0 ++ r).length) d0' →
              c' ++ fromText d0 = fromText d0' →
              TextsOf (pos + (o0 ++ r).length) d0' d1 raw →
              TextsOf pos (.change z0 o0 :: .common (r ++ c') :: d0) (.change z1 (o0 ++ r) :: d1)
                (.conflict (.seq z0) (.seq z1) :: .conflict (.seq r) (.seq []) :: raw) := by
            rintro d0' raw hd hx ⟨q1, q2, q3⟩
            have lB : LB (pos + 1) (editsOf (pos + (o0 ++ r).length) d0') :=
              (editsOf_LB d0' _).mono (by simp; omega)
            unfold TextsOf
            rw [fx, fc, ex, ex, hd, List.append_assoc r c', hx]
            refine ⟨?_, ?_, by simpa [MFragment.noLit] using q3⟩
            · rw [preferringFrom_both ((editsOf_LB d0' _).mono (by simp)) lA1 lA,
                preferringFrom_common (by rw [e1]; exact editsOf_LB _ _) (by rw [e1]; exact editsOf_LB _ _), ← e1, ← q1]
              simp [MFragment.text1, Side.toList]
            · rw [← List.append_assoc o0 r, preferringFrom_both (editsOf_LB _ _) (editsOf_LB _ _) lB, ← q2]
              simp [MFragment.text2, Side.toList]
          by_cases hc' : c' = []
          · subst hc'
            simp only [if_true, List.nil_append] at p2 hr' hcr
            have hd0 : d0 = [] := by
              match d0, a0, he with
              | [], _, _ => rfl
              | .common _ :: _, a0, _ => exact absurd rfl a0.2.1
              | .change z o :: d0, _, he =>
                exfalso
                refine he.after0 ⟨pos, pos + o0.length, z0⟩ (by simp [editsOf])
                  ⟨pos, pos + (o0 ++ r).length, z1⟩ (by simp [editsOf]) rfl (by simp; omega)
                  ⟨pos + o0.length + r.length, pos + o0.length + r.length + o.length, z⟩ (by simp [editsOf]) ?_
                simp
                omega
            subst hd0
            obtain ⟨raw, h, q⟩ := ih (pos + (o0 ++ r).length) [] d1 f true (by simp; omega) (by simp at hf ⊢; omega) hr'.symm
              (by simp) t1 trivial a1.rest ⟨by simp [editsOf], by simp [editsOf], by simp [editsOf]⟩
              (fun _ => ⟨by simp, a1.next rfl⟩)
            refine ⟨_, step p1 (step p2 h), ?_⟩
            exact key [] raw (by simp [editsOf]) (by simp) q
          · simp only [hc', if_false] at p2
            obtain ⟨raw, h, q⟩ := ih (pos + (o0 ++ r).length) (.common c' :: d0) d1 f true (by simp; omega)
              (by simp at hf ⊢; omega) (by rw [fc]; exact hr'.symm) (nr hc' u0) t1 (a0.rest.swapHead rfl) a1.rest
              (by rw [e1, ← ed]; rw [e1] at he'; exact he')
              (fun _ => ⟨by simp [DiffItem.isChange], a1.next rfl⟩)
            refine ⟨_, step p1 (step p2 h), ?_⟩
            exact key (.common c' :: d0) raw (by rw [ed, e1]) (by rw [fc]) q
      · obtain ⟨rfl, hr⟩ := List.append_inj ht heq
        have p := change_same_stretch m0 m1
        have hh := fun w => ih (pos + o0.length) d0 d1 f w (by omega) (by omega) hr t0 t1 a0.rest a1.rest he'
          (fun _ => ⟨a0.next rfl, a1.next rfl⟩)
        by_cases hz : z0 = z1
        · subst hz
          rw [if_pos rfl] at p
          obtain ⟨raw, h, q1, q2, q3⟩ := hh false
          refine ⟨_, step p h, ?_⟩
          unfold TextsOf
          rw [fx, ex, ex, preferringFrom_both (editsOf_LB _ _) (editsOf_LB _ _) (after t1 a1),
            preferringFrom_both (editsOf_LB _ _) (editsOf_LB _ _) (after t0 a0), ← q1, ← q2]
          exact ⟨rfl, rfl, by simpa [MFragment.noLit] using q3⟩
        · rw [if_neg hz] at p
          obtain ⟨raw, h, q1, q2, q3⟩ := hh true
          refine ⟨_, step p h, ?_⟩
          unfold TextsOf
          rw [fx, ex, ex, preferringFrom_both (editsOf_LB _ _) (editsOf_LB _ _) (after t1 a1),
            preferringFrom_both (editsOf_LB _ _) (editsOf_LB _ _) (after t0 a0), ← q1, ← q2]
          exact ⟨rfl, rfl, by simpa [MFragment.noLit] using q3⟩
      · obtain ⟨r, rfl, hr⟩ := pre ht.symm (by omega)
        have hre : r ≠ [] := by rintro rfl; simp at hgt
        have lr : 0 < r.length := List.length_pos_iff.2 hre
        match d1, hr, a1, t1, he, he', hl, hf with
        | [], hr, _, _, _, _, _, _ => exact absurd (List.append_eq_nil_iff.1 hr.symm).1 hre
        | .change _ _ :: _, _, a1, _, _, _, _, _ => exact absurd rfl a1.1
        | .common c :: d1, hr, a1, t1, he, he', hl, hf =>
          rw [fc] at hr
          simp only [List.length_cons] at hl hf
          have hcr : r.length ≤ c.length := by
            apply Nat.le_of_not_lt
            intro hcr
            match d1, hr, a1, he with
            | [], hr, _, _ =>
              have := congrArg List.length hr
              simp [f0] at this
              omega
            | .common _ :: _, _, a1, _ => exact a1.2.1 rfl
            | .change z o :: d1, _, _, he =>
              have := he.pairs ⟨pos, pos + (o1 ++ r).length, z0⟩ (by simp [editsOf])
                ⟨pos + o1.length + c.length, pos + o1.length + c.length + o.length, z⟩ (by simp [editsOf])
              have lc : 0 < c.length := List.length_pos_iff.2 (t1 (.common c) (by simp))
              simp only [Edit.Disjoint, List.length_append] at this
              omega
          obtain ⟨c', rfl, hr'⟩ := pre hr.symm hcr
          have u1 : ∀ x ∈ d1, x.Normal := fun x hx => t1 x (by simp [hx])
          have p1 := change_longer0 m1 hcomp.2 hre
          have p2 := pending_rest0 (c := c') hre
          obtain ⟨f, rfl⟩ : ∃ g, f = g + 1 := ⟨f - 1, by omega⟩
          have lA : LB (pos + 1) (editsOf (pos + (o1 ++ r).length) d0) :=
            (editsOf_LB d0 _).mono (by simp; omega)
          have lA1 : LB (pos + o1.length) (editsOf (pos + (o1 ++ r).length) d0) :=
            (editsOf_LB d0 _).mono (by simp)
          have e1 : pos + (o1 ++ r).length = pos + o1.length + r.length := by simp; omega
          have key : ∀ (d1' : List (DiffItem α)) (raw : List (MFragment α)),
              editsOf (pos + o1.length) (.common (r ++ c') :: d1) = editsOf (pos + (o1 ++ r).length) d1' →
              TextsOf (pos + (o1 ++ r).length) d0 d1' raw →
              TextsOf pos (.change z0 (o1 ++ r) :: d0) (.change z1 o1 :: .common (r ++ c') :: d1)
                (.conflict (.seq z0) (.seq z1) :: .conflict (.seq []) (.seq r) :: raw) := by
            rintro d1' raw hd ⟨q1, q2, q3⟩
            have lB : LB (pos + 1) (editsOf (pos + (o1 ++ r).length) d1') :=
              (editsOf_LB d1' _).mono (by simp; omega)
            unfold TextsOf
            rw [fx, ex, ex, hd]
            refine ⟨?_, ?_, by simpa [MFragment.noLit] using q3⟩
            · rw [preferringFrom_both (editsOf_LB _ _) (editsOf_LB _ _) lB, ← q1]
              simp [MFragment.text1, Side.toList]
            · rw [List.append_assoc o1 r, preferringFrom_both ((editsOf_LB d1' _).mono (by simp)) lA1 lA,
                preferringFrom_common (by rw [e1]; exact editsOf_LB _ _) (by rw [e1]; exact editsOf_LB _ _), ← e1, ← q2]
              simp [MFragment.text2, Side.toList]
          by_cases hc' : c' = []
          · subst hc'
            simp only [if_true, List.nil_append] at p2 hr' hcr
            have hd1 : d1 = [] := by
              match d1, a1, he with
              | [], _, _ => rfl
              | .common _ :: _, a1, _ => exact absurd rfl a1.2.1
              | .change z o :: d1, _, he =>
                exfalso
                refine he.after1 ⟨pos, pos + (o1 ++ r).length, z0⟩ (by simp [editsOf])
                  ⟨pos, pos + o1.length, z1⟩ (by simp [editsOf]) rfl (by simp; omega)
                  ⟨pos + o1.length + r.length, pos + o1.length + r.length + o.length, z⟩ (by simp [editsOf]) ?_
                simp
                omega
            subst hd1
            obtain ⟨raw, h, q⟩ := ih (pos + (o1 ++ r).length) d0 [] f true (by simp; omega) (by simp at hf ⊢; omega) hr'
              t0 (by simp) a0.rest trivial ⟨by simp [editsOf], by simp [editsOf], by simp [editsOf]⟩
              (fun _ => ⟨a0.next rfl, by simp⟩)
            refine ⟨_, step p1 (step p2 h), ?_⟩
            exact key [] raw (by simp [editsOf]) q
          · simp only [hc', if_false] at p2
            obtain ⟨raw, h, q⟩ := ih (pos + (o1 ++ r).length) d0 (.common c' :: d1) f true (by simp; omega)
              (by simp at hf ⊢; omega) (by rw [fc]; exact hr') t0 (nr hc' u1) a0.rest (a1.rest.swapHead rfl)
              (by
                have : editsOf (pos + (o1 ++ r).length) (.common c' :: d1) =
                    editsOf (pos + o1.length) (.common (r ++ c') :: d1) := by rw [ed, e1]
                rw [this]
                exact he')
              (fun _ => ⟨a0.next rfl, by simp [DiffItem.isChange]⟩)
            refine ⟨_, step p1 (step p2 h), ?_⟩
            exact key (.common c' :: d1) raw (by rw [ed, e1]) q

/-- C138.  If any two changes of different branches start at the same place or are apart (and nothing touches the
end of a conflict of changes of different lengths): taking the first side of every conflict gives the parent
with all changes of the first branch and those changes of the second one that start elsewhere, and taking
the second sides gives the same with the branches exchanged. -/
theorem C138_sides (kind : Kind) {parent b0 b1 : List α} {d0 d1 : List (DiffItem α)}
    (h0 : diffTokenSequences parent b0 = some d0) (h1 : diffTokenSequences parent b1 = some d1)
    (h : StartApart (editsOf 0 d0) (editsOf 0 d1)) :
    ∃ d, mergeTokenSequence kind parent b0 b1 = .ok d ∧
      intoText d = preferring parent (editsOf 0 d0) (editsOf 0 d1) ∧
      fromText d = preferring parent (editsOf 0 d1) (editsOf 0 d0) := by
  obtain ⟨_, k0, n0, a0⟩ := C12_diff_normal_form parent b0
  obtain ⟨_, k1, n1, a1⟩ := C12_diff_normal_form parent b1
  obtain ⟨_, j0, _, t0⟩ := C09_diff_reconstructs parent b0
  obtain ⟨_, j1, _, t1⟩ := C09_diff_reconstructs parent b1
  rw [h0] at k0 j0
  cases k0
  cases j0
  rw [h1] at k1 j1
  cases k1
  cases j1
  obtain ⟨raw, hl, q1, q2, q3⟩ := mergeLoop_startApart _ 0 d0 d1 _ false (Nat.le_refl _) (Nat.le_refl _)
    (t0.trans t1.symm) n0 n1 a0 a1 h (by simp)
  obtain ⟨out, ho, _⟩ := consolidate_spec kind raw (.inr q3)
  obtain ⟨c1, c2⟩ := C138_consolidate ho
  refine ⟨out, by rw [merge_of_diffs kind h0 h1 hl, ho], ?_, ?_⟩
  · rw [c1, q1, t0]
    rfl
  · rw [c2, q2, t0]
    rfl

/-- C138.  The same of the file that `gaspra-merge -g` writes, by characters, words or lines. -/
theorem C138_file (cls sp : Nat → Bool) {args : Args} (h : args.GitFile) (hd : args.diff = false)
    (pn cn on : PyStr) {p c o : PyStr} {qp qc qo : List PyStr} (hp : CliPieces cls args p qp)
    (hc : CliPieces cls args c qc) (ho : CliPieces cls args o qo) {d0 d1 : List (DiffItem PyStr)}
    (h0 : diffTokenSequences qp qc = some d0) (h1 : diffTokenSequences qp qo = some d1)
    (hs : StartApart (editsOf 0 d0) (editsOf 0 d1)) :
    ∃ out n, mergeCli cls sp args {} pn cn on p c o = ({}, out, none) ∧ (n = [] ∨ n = [nl]) ∧
      GitOutput (basename cn) (basename on) out
        ((preferring qp (editsOf 0 d0) (editsOf 0 d1)).flatten ++ n)
        ((preferring qp (editsOf 0 d1) (editsOf 0 d0)).flatten ++ n) := by
  obtain ⟨d, out, n, m1, m2, m3, _, m5⟩ := C67_merge_file cls sp h hd pn cn on hp hc ho
  obtain ⟨d', k1, k2, k3⟩ := C138_sides .tuple h0 h1 hs
  rw [m1] at k1
  cases k1
  refine ⟨out, n, m3, m2, ?_⟩
  rw [into_joined, from_joined, k2, k3] at m5
  exact m5

-- The first branch replaces "bc", the second one only "b", and each changes something else elsewhere.
example : mergeTokenSequence .bytes "abcdefgh".toList "aXde1gh".toList "aYcdefg2".toList =
    .ok [.common "a".toList, .change "X".toList "Yc".toList, .common "de1g2".toList] := by decide +kernel
example : ∃ d, mergeTokenSequence .bytes "abcdefgh".toList "aXde1gh".toList "aYcdefg2".toList = .ok d ∧
    intoText d = "aXde1g2".toList ∧ fromText d = "aYcde1g2".toList :=
  C138_sides .bytes
    (d0 := [.common "a".toList, .change "X".toList "bc".toList, .common "de".toList,
      .change "1".toList "f".toList, .common "gh".toList])
    (d1 := [.common "a".toList, .change "Y".toList "b".toList, .common "cdefg".toList,
      .change "2".toList "h".toList])
    (by decide +kernel) (by decide +kernel)
    ⟨by simp [editsOf, Edit.Disjoint, Edit.Composable, Edit.PureInsertion, Edit.PureDeletion],
      by simp [editsOf], by simp [editsOf]⟩
-- The edits of the second branch that count in the first text.
example : othersOf [⟨1, 3, "X".toList⟩, ⟨5, 6, "1".toList⟩] [⟨1, 2, "Y".toList⟩, ⟨7, 8, "2".toList⟩] =
    [⟨7, 8, "2".toList⟩] := by decide
-- A change that touches the end of such a conflict becomes part of it, so the second sides do not have it.
example : mergeTokenSequence .str "abcdef".toList "aYc1ef".toList "aXdef".toList =
    .ok [.common "a".toList, .change "Yc1".toList "Xd".toList, .common "ef".toList] ∧
    preferring "abcdef".toList [⟨1, 3, "X".toList⟩] [⟨1, 2, "Y".toList⟩, ⟨3, 4, "1".toList⟩] = "aX1ef".toList := by
  decide +kernel
-- An insertion and a deletion at the same place are both applied, without a conflict.
example : mergeTokenSequence .str "abc".toList "axbc".toList "ac".toList = .ok [.common "axc".toList] ∧
    preferring "abc".toList [⟨1, 1, "x".toList⟩] [⟨1, 2, []⟩] = "axbc".toList := by decide +kernel

end Gaspra
