import Verif.Props.Inserted

/-!
# C140: a conflict never has part of a change

A statement about every merge in which overlapping changes of the two branches start at the same place, without
a condition on changes that touch: whichever side of the conflicts is taken, the text has all changes of that
branch, and of every change of the other branch either all of it or nothing.
-/

set_option linter.unusedSectionVars false
set_option linter.unusedSimpArgs false

namespace Gaspra

variable {α : Type _} [DecidableEq α]

/-- From a position on, `t` is the text with all edits of `es` and some of `es'`. -/
def SomeOf (pos : Nat) (parent : List α) (es es' : List (Edit α)) (t : List α) : Prop :=
  ∃ s, s.Sublist es' ∧ t = weave (insertedAt (es ++ s)) (fun g => !deletes (es ++ s) g) pos parent

theorem LB.sub {k : Nat} {es es' s : List (Edit α)} (h : LB k es) (h' : LB k es') (hs : s.Sublist es') :
    LB k (es ++ s) := by
  intro e he
  rcases List.mem_append.1 he with he | he
  · exact h e he
  · exact h' e (hs.subset he)

theorem SomeOf.common {pos : Nat} {c parent t : List α} {es es' : List (Edit α)}
    (h : LB (pos + c.length) es) (h' : LB (pos + c.length) es') (ht : SomeOf (pos + c.length) parent es es' t) :
    SomeOf pos (c ++ parent) es es' (c ++ t) := by
  obtain ⟨s, hs, rfl⟩ := ht
  refine ⟨s, hs, (weave_keep parent c pos fun g _ hg => ?_).symm⟩
  simp [insertedAt_lt (h.sub h' hs) hg, deletes_lt (h.sub h' hs) hg]

theorem SomeOf.own {pos : Nat} {z o parent t : List α} {es es' : List (Edit α)}
    (h : LB (pos + o.length) es) (h' : LB (pos + o.length) es') (ht : SomeOf (pos + o.length) parent es es' t) :
    SomeOf pos (o ++ parent) (⟨pos, pos + o.length, z⟩ :: es) es' (z ++ t) := by
  obtain ⟨s, hs, rfl⟩ := ht
  exact ⟨s, hs, (weave_front (h.sub h' hs)).symm⟩

theorem SomeOf.drop {pos : Nat} {parent t : List α} {es es' : List (Edit α)} (e : Edit α)
    (ht : SomeOf pos parent es es' t) : SomeOf pos parent es (e :: es') t := by
  obtain ⟨s, hs, rfl⟩ := ht
  exact ⟨s, hs.cons _, rfl⟩

theorem weave_move {pos q : Nat} {z parent : List α} {es s : List (Edit α)}
    (h : insertedAt es pos = []) :
    weave (insertedAt (es ++ ⟨pos, q, z⟩ :: s)) (fun g => !deletes (es ++ ⟨pos, q, z⟩ :: s) g) pos parent =
      weave (insertedAt (⟨pos, q, z⟩ :: (es ++ s))) (fun g => !deletes (⟨pos, q, z⟩ :: (es ++ s)) g) pos parent := by
  refine weave_congr _ _ (fun g _ => ?_) (fun g _ => ?_)
  · rw [insertedAt_append, insertedAt_cons, insertedAt_cons, insertedAt_append]
    by_cases hg : pos = g
    · subst hg
      simp [h]
    · simp [hg]
  · rw [deletes_append, deletes_cons, deletes_cons, deletes_append]
    simp only [← Bool.or_assoc]
    rw [Bool.or_comm (deletes es g)]

theorem SomeOf.other {pos : Nat} {z o parent t : List α} {es es' : List (Edit α)}
    (h : LB (pos + o.length) es) (h' : LB (pos + o.length) es') (hs : LB (pos + 1) es)
    (ht : SomeOf (pos + o.length) parent es es' t) :
    SomeOf pos (o ++ parent) es (⟨pos, pos + o.length, z⟩ :: es') (z ++ t) := by
  obtain ⟨s, hsub, rfl⟩ := ht
  refine ⟨⟨pos, pos + o.length, z⟩ :: s, hsub.cons_cons _, ?_⟩
  rw [weave_move (insertedAt_lt hs (Nat.lt_succ_self pos)), weave_front (h.sub h' hsub)]

/-- The branch inserts `z`, the other one deletes `o` right after it. -/
theorem SomeOf.insertion {pos : Nat} {z o parent t : List α} {es es' : List (Edit α)} (ho : 0 < o.length)
    (h : LB (pos + o.length) es) (h' : LB (pos + o.length) es') (ht : SomeOf (pos + o.length) parent es es' t) :
    SomeOf pos (o ++ parent) (⟨pos, pos, z⟩ :: es) (⟨pos, pos + o.length, []⟩ :: es') (z ++ t) := by
  have h1 := SomeOf.other (z := []) h h' (h.mono (by omega)) ht
  have h2 := SomeOf.own (o := []) (z := z) (parent := o ++ parent) (t := [] ++ t)
    (es' := ⟨pos, pos + o.length, []⟩ :: es') (h.mono (by simp))
    (by
      intro e he
      rcases List.mem_cons.1 he with rfl | he
      · simp
      · exact h'.mono (by simp) e he) h1
  simpa using h2

/-- The branch deletes `o`, the other one inserts `z` in front of it. -/
theorem SomeOf.deletion {pos : Nat} {z o parent t : List α} {es es' : List (Edit α)} (ho : 0 < o.length)
    (h : LB (pos + o.length) es) (h' : LB (pos + o.length) es') (ht : SomeOf (pos + o.length) parent es es' t) :
    SomeOf pos (o ++ parent) (⟨pos, pos + o.length, []⟩ :: es) (⟨pos, pos, z⟩ :: es') (z ++ t) := by
  obtain ⟨s, hs, rfl⟩ := SomeOf.own (z := []) h h' ht
  refine ⟨⟨pos, pos, z⟩ :: s, hs.cons_cons _, ?_⟩
  have e0 : insertedAt (⟨pos, pos + o.length, []⟩ :: es) pos = ([] : List α) := by
    simp [insertedAt_cons, insertedAt_lt h (show pos < pos + o.length by omega)]
  rw [weave_move e0]
  have lbs : LB (pos + ([] : List α).length) (⟨pos, pos + o.length, []⟩ :: es ++ s) := by
    intro e he
    rcases List.mem_append.1 he with he | he
    · rcases List.mem_cons.1 he with rfl | he
      · simp
      · exact h.mono (by simp) e he
    · exact h'.mono (by simp) e (hs.subset he)
  exact (weave_front (o := []) (z := z) (parent := o ++ parent) lbs).symm

/-- What the loop's output has to be from a position on. -/
def SidesOf (pos : Nat) (parent : List α) (es0 es1 : List (Edit α)) (raw : List (MFragment α)) : Prop :=
  SomeOf pos parent es0 es1 (raw.flatMap (·.text1)) ∧ SomeOf pos parent es1 es0 (raw.flatMap (·.text2))

theorem SidesOf.common {pos : Nat} {c parent : List α} {es0 es1 : List (Edit α)} {raw : List (MFragment α)}
    {x : MFragment α} (h0 : LB (pos + c.length) es0) (h1 : LB (pos + c.length) es1) (x1 : x.text1 = c)
    (x2 : x.text2 = c) (q : SidesOf (pos + c.length) parent es0 es1 raw) :
    SidesOf pos (c ++ parent) es0 es1 (x :: raw) := by
  unfold SidesOf
  rw [List.flatMap_cons, List.flatMap_cons, x1, x2]
  exact ⟨q.1.common h0 h1, q.2.common h1 h0⟩

theorem SidesOf.change0 {pos : Nat} {z o parent : List α} {es0 es1 : List (Edit α)} {raw : List (MFragment α)}
    {x : MFragment α} {w : Bool} (h0 : LB (pos + o.length) es0) (h1 : LB (pos + o.length) es1)
    (hs : LB (pos + 1) es1) (x1 : x.text1 = z) (x2 : x.text2 = if w then o else z)
    (q : SidesOf (pos + o.length) parent es0 es1 raw) :
    SidesOf pos (o ++ parent) (⟨pos, pos + o.length, z⟩ :: es0) es1 (x :: raw) := by
  unfold SidesOf
  rw [List.flatMap_cons, List.flatMap_cons, x1, x2]
  refine ⟨q.1.own h0 h1, ?_⟩
  cases w with
  | false => exact q.2.other h1 h0 hs
  | true => exact (q.2.common h1 h0).drop _

theorem SidesOf.change1 {pos : Nat} {z o parent : List α} {es0 es1 : List (Edit α)} {raw : List (MFragment α)}
    {x : MFragment α} {w : Bool} (h0 : LB (pos + o.length) es0) (h1 : LB (pos + o.length) es1)
    (hs : LB (pos + 1) es0) (x1 : x.text1 = if w then o else z) (x2 : x.text2 = z)
    (q : SidesOf (pos + o.length) parent es0 es1 raw) :
    SidesOf pos (o ++ parent) es0 (⟨pos, pos + o.length, z⟩ :: es1) (x :: raw) := by
  unfold SidesOf
  rw [List.flatMap_cons, List.flatMap_cons, x1, x2]
  refine ⟨?_, q.2.own h1 h0⟩
  cases w with
  | false => exact q.1.other h0 h1 hs
  | true => exact (q.1.common h0 h1).drop _

theorem SidesOf.both {pos : Nat} {z0 z1 o parent : List α} {es0 es1 : List (Edit α)} {raw : List (MFragment α)}
    {x : MFragment α} (h0 : LB (pos + o.length) es0) (h1 : LB (pos + o.length) es1) (x1 : x.text1 = z0)
    (x2 : x.text2 = z1) (q : SidesOf (pos + o.length) parent es0 es1 raw) :
    SidesOf pos (o ++ parent) (⟨pos, pos + o.length, z0⟩ :: es0) (⟨pos, pos + o.length, z1⟩ :: es1) (x :: raw) := by
  unfold SidesOf
  rw [List.flatMap_cons, List.flatMap_cons, x1, x2]
  exact ⟨(q.1.own h0 h1).drop _, (q.2.own h1 h0).drop _⟩

theorem SidesOf.longer1 {pos : Nat} {z0 z1 o r parent : List α} {es0 es1 : List (Edit α)}
    {raw : List (MFragment α)} {x y : MFragment α} (h0 : LB (pos + (o ++ r).length) es0)
    (h1 : LB (pos + (o ++ r).length) es1) (x1 : x.text1 = z0) (x2 : x.text2 = z1) (y1 : y.text1 = r)
    (y2 : y.text2 = []) (q : SidesOf (pos + (o ++ r).length) parent es0 es1 raw) :
    SidesOf pos (o ++ r ++ parent) (⟨pos, pos + o.length, z0⟩ :: es0) (⟨pos, pos + (o ++ r).length, z1⟩ :: es1)
      (x :: y :: raw) := by
  have e : pos + (o ++ r).length = pos + o.length + r.length := by simp; omega
  obtain ⟨q1, q2⟩ := q
  unfold SidesOf
  rw [List.flatMap_cons, List.flatMap_cons, List.flatMap_cons, List.flatMap_cons, x1, x2, y1, y2]
  refine ⟨?_, (q2.own h1 h0).drop _⟩
  rw [List.append_assoc]
  refine SomeOf.drop _ (SomeOf.own (h0.mono (by simp)) (h1.mono (by simp)) ?_)
  rw [e] at h0 h1 q1
  exact q1.common h0 h1

theorem SidesOf.longer0 {pos : Nat} {z0 z1 o r parent : List α} {es0 es1 : List (Edit α)}
    {raw : List (MFragment α)} {x y : MFragment α} (h0 : LB (pos + (o ++ r).length) es0)
    (h1 : LB (pos + (o ++ r).length) es1) (x1 : x.text1 = z0) (x2 : x.text2 = z1) (y1 : y.text1 = [])
    (y2 : y.text2 = r) (q : SidesOf (pos + (o ++ r).length) parent es0 es1 raw) :
    SidesOf pos (o ++ r ++ parent) (⟨pos, pos + (o ++ r).length, z0⟩ :: es0) (⟨pos, pos + o.length, z1⟩ :: es1)
      (x :: y :: raw) := by
  have e : pos + (o ++ r).length = pos + o.length + r.length := by simp; omega
  obtain ⟨q1, q2⟩ := q
  unfold SidesOf
  rw [List.flatMap_cons, List.flatMap_cons, List.flatMap_cons, List.flatMap_cons, x1, x2, y1, y2]
  refine ⟨(q1.own h0 h1).drop _, ?_⟩
  rw [List.append_assoc]
  refine SomeOf.drop _ (SomeOf.own (h1.mono (by simp)) (h0.mono (by simp)) ?_)
  rw [e] at h0 h1 q2
  exact q2.common h1 h0

theorem SidesOf.composed {pos : Nat} {z o parent : List α} {es0 es1 : List (Edit α)} {raw : List (MFragment α)}
    {x : MFragment α} (ho : 0 < o.length) (h0 : LB (pos + o.length) es0) (h1 : LB (pos + o.length) es1)
    (x1 : x.text1 = z) (x2 : x.text2 = z) (q : SidesOf (pos + o.length) parent es0 es1 raw) :
    SidesOf pos (o ++ parent) (⟨pos, pos, z⟩ :: es0) (⟨pos, pos + o.length, []⟩ :: es1) (x :: raw) ∧
    SidesOf pos (o ++ parent) (⟨pos, pos + o.length, []⟩ :: es0) (⟨pos, pos, z⟩ :: es1) (x :: raw) := by
  unfold SidesOf
  rw [List.flatMap_cons, List.flatMap_cons, x1, x2]
  exact ⟨⟨q.1.insertion ho h0 h1, q.2.deletion ho h1 h0⟩, ⟨q.1.deletion ho h0 h1, q.2.insertion ho h1 h0⟩⟩

/-- What is left of a common piece, in front of `d`. -/
def restOf (r : List α) (d : List (DiffItem α)) : List (DiffItem α) := if r = [] then d else .common r :: d

theorem restOf_text (r : List α) (d : List (DiffItem α)) : fromText (restOf r d) = r ++ fromText d := by
  unfold restOf
  split
  · simp_all
  · simp [fromText]

theorem restOf_edits (o r : List α) (d : List (DiffItem α)) (pos : Nat) :
    editsOf pos (.common (o ++ r) :: d) = editsOf (pos + o.length) (restOf r d) := by
  unfold restOf
  split
  · simp_all [editsOf]
  · simp [editsOf, Nat.add_assoc]

theorem restOf_normal {c r : List α} {d : List (DiffItem α)} (h : ∀ x ∈ DiffItem.common c :: d, x.Normal) :
    ∀ x ∈ restOf r d, x.Normal := by
  unfold restOf
  split
  · exact fun x hx => h x (by simp [hx])
  · intro x hx
    rcases List.mem_cons.1 hx with rfl | hx
    · assumption
    · exact h x (by simp [hx])

theorem restOf_alternating {c r : List α} {d : List (DiffItem α)} (h : Alternating (.common c :: d)) :
    Alternating (restOf r d) := by
  unfold restOf
  split
  · exact h.rest
  · exact h.swapHead rfl

theorem restOf_length (r : List α) (d : List (DiffItem α)) : (restOf r d).length ≤ d.length + 1 := by
  unfold restOf
  split <;> simp

theorem restOf_frags (r : List α) (d : List (DiffItem α)) :
    (if r = [] then none else some (Fragment.copy r r.length)).toList ++ d.map toFrag = (restOf r d).map toFrag := by
  unfold restOf
  split <;> simp [toFrag]

theorem step_change0 {z o r : List α} (w : Bool) (hz : z ≠ [] ∨ o ≠ []) (hc : o ++ r ≠ []) :
    ∃ x, processFragments (.change z o o.length) (.copy (o ++ r) (o ++ r).length) w =
      (some x, none, if r = [] then none else some (.copy r r.length), w) ∧ x.text1 = z ∧
      x.text2 = if w then o else z := by
  cases w with
  | false =>
    refine ⟨.input (.change z o o.length), ?_, rfl, rfl⟩
    cases r <;> simp [processFragments, copyChange, splitCopy]
  | true =>
    have s0 : splitChange z o o.length z.length o.length = (some (.change z o o.length), none) := by
      have : 0 < o.length ∨ 0 < z.length := by
        rcases hz with h | h
        · exact .inr (List.length_pos_iff.2 h)
        · exact .inl (List.length_pos_iff.2 h)
      simp [splitChange, this]
    have m : min o.length (o ++ r).length = o.length := by simp
    have s1 : splitCopy (o ++ r) (o ++ r).length o.length =
        (if o = [] then none else some (.copy o o.length), if r = [] then none else some (.copy r r.length)) := by
      cases o <;> cases r <;> simp [splitCopy]
    refine ⟨.conflict (.seq z) (insertOrLit (if o = [] then none else some (.copy o o.length))), ?_, rfl, ?_⟩
    · simp only [processFragments, pendingConflict, Fragment.length, m, splitFragment, s0, s1, insertOrLit,
        Fragment.insert, if_true]
    · cases o <;> rfl

theorem step_change1 {z o r : List α} (w : Bool) (hz : z ≠ [] ∨ o ≠ []) (hc : o ++ r ≠ []) :
    ∃ x, processFragments (.copy (o ++ r) (o ++ r).length) (.change z o o.length) w =
      (some x, if r = [] then none else some (.copy r r.length), none, w) ∧
      (x.text1 = if w then o else z) ∧ x.text2 = z := by
  cases w with
  | false =>
    refine ⟨.input (.change z o o.length), ?_, rfl, rfl⟩
    cases r <;> simp [processFragments, copyChange, splitCopy]
  | true =>
    have s0 : splitChange z o o.length z.length o.length = (some (.change z o o.length), none) := by
      have : 0 < o.length ∨ 0 < z.length := by
        rcases hz with h | h
        · exact .inr (List.length_pos_iff.2 h)
        · exact .inl (List.length_pos_iff.2 h)
      simp [splitChange, this]
    have m : min (o ++ r).length o.length = o.length := by simp
    have s1 : splitCopy (o ++ r) (o ++ r).length o.length =
        (if o = [] then none else some (.copy o o.length), if r = [] then none else some (.copy r r.length)) := by
      cases o <;> cases r <;> simp [splitCopy]
    refine ⟨.conflict (insertOrLit (if o = [] then none else some (.copy o o.length))) (.seq z), ?_, ?_, rfl⟩
    · simp only [processFragments, pendingConflict, Fragment.length, m, splitFragment, s0, s1, insertOrLit,
        Fragment.insert, if_true]
    · cases o <;> rfl

theorem step_compose1 (z o : List α) :
    processFragments (.change z [] 0) (.change [] o o.length) false =
      (none, none, some (.change z o o.length), false) := by
  simp [processFragments, changeChange, hasComposable]

theorem step_compose0 {z o : List α} (ho : o ≠ []) :
    processFragments (.change [] o o.length) (.change z [] 0) false =
      (none, some (.change z o o.length), none, false) := by
  simp [processFragments, changeChange, hasComposable, ho]

theorem mergeLoop_pairs : ∀ (n pos : Nat) (d0 d1 : List (DiffItem α)) (f : Nat) (w : Bool),
    d0.length + d1.length ≤ n → d0.length + d1.length ≤ f →
    fromText d0 = fromText d1 → (∀ x ∈ d0, x.Normal) → (∀ x ∈ d1, x.Normal) → Alternating d0 →
    Alternating d1 → (∀ e0 ∈ editsOf pos d0, ∀ e1 ∈ editsOf pos d1, e0.Aligned e1) →
    (w = true → (∀ x ∈ d0.head?, x.isChange = false) ∨ ∀ x ∈ d1.head?, x.isChange = false) →
    ∃ raw, mergeLoop f (d0.map toFrag) (d1.map toFrag) w = some raw ∧
      SidesOf pos (fromText d0) (editsOf pos d0) (editsOf pos d1) raw := by
  have fc : ∀ (c : List α) d, fromText (.common c :: d) = c ++ fromText d := fun c d => by simp [fromText]
  have fx : ∀ (a b : List α) d, fromText (.change a b :: d) = b ++ fromText d := fun a b d => by simp [fromText]
  have f0 : fromText ([] : List (DiffItem α)) = [] := rfl
  have empty : ∀ {d : List (DiffItem α)}, fromText d = [] → (∀ x ∈ d, x.Normal) → Alternating d →
      d = [] ∨ ∃ z, d = [.change z []] := by
    intro d h n a
    match d, h, n, a with
    | [], _, _, _ => exact .inl rfl
    | .common c :: _, h, n, _ =>
      rw [fc] at h
      exact absurd (List.append_eq_nil_iff.1 h).1 (n (.common c) (by simp))
    | [.change z o], h, _, _ =>
      rw [fx] at h
      exact .inr ⟨z, by rw [(List.append_eq_nil_iff.1 h).1]⟩
    | .change z o :: .common c :: _, h, n, _ =>
      rw [fx, fc] at h
      exact absurd (List.append_eq_nil_iff.1 (List.append_eq_nil_iff.1 h).2).1 (n (.common c) (by simp))
    | .change _ _ :: .change _ _ :: _, _, _, a => exact absurd rfl a.1
  have pre : ∀ {a b u v : List α}, a ++ u = b ++ v → a.length ≤ b.length → ∃ r, b = a ++ r ∧ u = r ++ v := by
    intro a b u v h hl
    rcases List.append_eq_append_iff.1 h with ⟨r, h1, h2⟩ | ⟨r, h1, h2⟩
    · exact ⟨r, h1, h2⟩
    · have : r = [] := by
        have := congrArg List.length h1
        simp at this
        exact List.length_eq_zero_iff.1 (by omega)
      subst this
      exact ⟨[], by simpa using h1.symm, by simpa using h2.symm⟩
  have step : ∀ {f : Nat} {f0 f1 : Fragment α} {F0 F1 : List (Fragment α)} {w w' : Bool}
      {o : Option (MFragment α)} {t0 t1 : Option (Fragment α)} {raw : List (MFragment α)},
      processFragments f0 f1 w = (o, t0, t1, w') →
      mergeLoop f (t0.toList ++ F0) (t1.toList ++ F1) w' = some raw →
      mergeLoop (f + 1) (f0 :: F0) (f1 :: F1) w = some (o.toList ++ raw) := by
    intro f f0 f1 F0 F1 w w' o t0 t1 raw hp hm
    simp only [mergeLoop, hp, hm]
  have ex : ∀ (z o : List α) (d : List (DiffItem α)) (pos : Nat),
      editsOf pos (.change z o :: d) = ⟨pos, pos + o.length, z⟩ :: editsOf (pos + o.length) d :=
    fun _ _ _ _ => rfl
  -- what follows a position inside or at the end of a common piece starts later
  have lbr : ∀ {o r : List α} (d : List (DiffItem α)) (k : Nat), o ++ r ≠ [] →
      LB (k + 1) (editsOf (k + o.length) (restOf r d)) := by
    intro o r d k hr
    rw [← restOf_edits]
    have : 0 < (o ++ r).length := List.length_pos_iff.2 hr
    exact (editsOf_LB d (k + (o ++ r).length)).mono (by omega)
  -- a common piece next to a change reaches to its end
  have fits : ∀ {pos : Nat} {z o c : List α} {d d' : List (DiffItem α)}, c ≠ [] →
      o ++ fromText d = c ++ fromText d' → Alternating (.common c :: d') →
      (∀ e ∈ editsOf pos (.common c :: d'), Edit.Aligned ⟨pos, pos + o.length, z⟩ e) → o.length ≤ c.length := by
    intro pos z o c d d' hc ht a he
    have lc : 0 < c.length := List.length_pos_iff.2 hc
    match d', ht, a, he with
    | [], ht, _, _ =>
      have := congrArg List.length ht
      simp [f0] at this
      omega
    | .common _ :: _, _, a, _ => exact absurd rfl a.1
    | .change z1 o1 :: d1, _, _, he =>
      have := he ⟨pos + c.length, pos + c.length + o1.length, z1⟩ (by simp [editsOf])
      simp only [Edit.Aligned, Edit.Disjoint] at this
      omega
  intro n
  induction n with
  | zero =>
    intro pos d0 d1 f w hl _ _ _ _ _ _ _ _
    have e0 : d0 = [] := List.length_eq_zero_iff.1 (by omega)
    have e1 : d1 = [] := List.length_eq_zero_iff.1 (by omega)
    subst e0 e1
    exact ⟨[], by cases f <;> rfl, ⟨[], List.nil_sublist _, rfl⟩, ⟨[], List.nil_sublist _, rfl⟩⟩
  | succ n ih =>
    intro pos d0 d1 f w hl hf ht n0 n1 a0 a1 he hw
    match d0, d1, hl, hf, ht, n0, n1, a0, a1, he, hw with
    | [], d1, _, _, ht, _, n1, _, a1, _, hw =>
      rcases empty ht.symm n1 a1 with rfl | ⟨z, rfl⟩
      · exact ⟨[], by cases f <;> rfl, ⟨[], List.nil_sublist _, rfl⟩, ⟨[], List.nil_sublist _, rfl⟩⟩
      · have nil : SidesOf (α := α) (pos + ([] : List α).length) [] [] [] [] :=
          ⟨⟨[], List.nil_sublist _, rfl⟩, ⟨[], List.nil_sublist _, rfl⟩⟩
        have lbn : ∀ k, LB (α := α) k [] := fun k e he => by simp at he
        refine ⟨[if w then .conflict .strLit (.seq z) else .input (toFrag (.change z []))],
          by cases f <;> cases w <;> simp [mergeLoop, flushRemaining, toFrag, Fragment.insert], ?_⟩
        exact SidesOf.change1 (w := w) (lbn _) (lbn _) (lbn _) (by cases w <;> rfl) (by cases w <;> rfl) nil
    | x :: d0, [], _, _, ht, n0, _, a0, _, _, hw =>
      rcases empty ht n0 a0 with h | ⟨z, h⟩
      · simp at h
      · rw [h] at hw ⊢
        have nil : SidesOf (α := α) (pos + ([] : List α).length) [] [] [] [] :=
          ⟨⟨[], List.nil_sublist _, rfl⟩, ⟨[], List.nil_sublist _, rfl⟩⟩
        have lbn : ∀ k, LB (α := α) k [] := fun k e he => by simp at he
        refine ⟨[if w then .conflict (.seq z) .strLit else .input (toFrag (.change z []))],
          by cases f <;> cases w <;> simp [mergeLoop, flushRemaining, toFrag, Fragment.insert], ?_⟩
        exact SidesOf.change0 (w := w) (lbn _) (lbn _) (lbn _) (by cases w <;> rfl) (by cases w <;> rfl) nil
    | .common c0 :: d0, .common c1 :: d1, hl, hf, ht, n0, n1, a0, a1, he, hw =>
      rw [fc, fc] at ht
      simp only [List.length_cons] at hl hf
      obtain ⟨f, rfl⟩ : ∃ g, f = g + 1 := ⟨f - 1, by omega⟩
      by_cases h1 : c0.length ≤ c1.length
      · obtain ⟨r, rfl, hr⟩ := pre ht h1
        have len := restOf_length r d1
        obtain ⟨raw, h, q⟩ := ih (pos + c0.length) d0 (restOf r d1) f false (by omega) (by omega)
          (by rw [restOf_text]; exact hr) (fun x hx => n0 x (by simp [hx])) (restOf_normal n1) a0.rest
          (restOf_alternating a1) (by rw [← restOf_edits]; exact he) (by simp)
        have p : processFragments (.copy c0 c0.length) (.copy (c0 ++ r) (c0 ++ r).length) w =
            (some (.input (.copy c0 c0.length)), none, if r = [] then none else some (.copy r r.length), false) := by
          cases r <;> simp [processFragments, copyCopy, splitCopy]
        rw [← restOf_frags] at h
        refine ⟨_, step p h, ?_⟩
        rw [fc, restOf_edits]
        exact SidesOf.common (editsOf_LB _ _) (editsOf_LB _ _) rfl rfl q
      · obtain ⟨r, rfl, hr⟩ := pre ht.symm (by omega)
        have hre : r ≠ [] := by rintro rfl; simp at h1
        have lr : 0 < r.length := List.length_pos_iff.2 hre
        have len := restOf_length r d0
        obtain ⟨raw, h, q⟩ := ih (pos + c1.length) (restOf r d0) d1 f false (by omega) (by omega)
          (by rw [restOf_text]; exact hr.symm) (restOf_normal n0) (fun x hx => n1 x (by simp [hx]))
          (restOf_alternating a0) a1.rest (by rw [← restOf_edits]; exact he) (by simp)
        have p : processFragments (.copy (c1 ++ r) (c1 ++ r).length) (.copy c1 c1.length) w =
            (some (.input (.copy c1 c1.length)), if r = [] then none else some (.copy r r.length), none, false) := by
          have hlt : ¬ c1.length + r.length < c1.length := by omega
          simp [processFragments, copyCopy, splitCopy, lr, Ne.symm hre, hre, hlt]
        rw [← restOf_frags] at h
        refine ⟨_, step p h, ?_⟩
        rw [fc, List.append_assoc, ← restOf_text, restOf_edits c1]
        exact SidesOf.common (editsOf_LB _ _) (editsOf_LB _ _) rfl rfl q
    | .change z o :: d0, .common c :: d1, hl, hf, ht, n0, n1, a0, a1, he, hw =>
      rw [fx, fc] at ht
      simp only [List.length_cons] at hl hf
      have m0 : z ≠ [] ∨ o ≠ [] := (n0 (.change z o) (by simp)).1
      obtain ⟨f, rfl⟩ : ∃ g, f = g + 1 := ⟨f - 1, by omega⟩
      have hc : c ≠ [] := n1 (.common c) (by simp)
      have h1 : o.length ≤ c.length := fits (z := z) hc ht a1 (he _ (by simp [editsOf]))
      obtain ⟨r, rfl, hr⟩ := pre ht h1
      have len := restOf_length r d1
      obtain ⟨raw, h, q⟩ := ih (pos + o.length) d0 (restOf r d1) f w (by omega) (by omega)
        (by rw [restOf_text]; exact hr) (fun x hx => n0 x (by simp [hx])) (restOf_normal n1) a0.rest
        (restOf_alternating a1)
        (by rw [← restOf_edits]; exact fun e h => he e (by simp [editsOf, h])) (fun _ => .inl (a0.next rfl))
      obtain ⟨x, p, x1, x2⟩ := step_change0 w m0 hc
      rw [← restOf_frags] at h
      refine ⟨_, step p h, ?_⟩
      rw [fx, ex, restOf_edits]
      exact SidesOf.change0 (editsOf_LB _ _) (editsOf_LB _ _) (lbr d1 pos hc) x1 x2 q
    | .common c :: d0, .change z o :: d1, hl, hf, ht, n0, n1, a0, a1, he, hw =>
      rw [fx, fc] at ht
      simp only [List.length_cons] at hl hf
      have m1 : z ≠ [] ∨ o ≠ [] := (n1 (.change z o) (by simp)).1
      obtain ⟨f, rfl⟩ : ∃ g, f = g + 1 := ⟨f - 1, by omega⟩
      have hc : c ≠ [] := n0 (.common c) (by simp)
      have h1 : o.length ≤ c.length :=
        fits (z := z) hc ht.symm a0 fun e h => (he e h _ (by simp [editsOf])).symm
      obtain ⟨r, rfl, hr⟩ := pre ht.symm h1
      have len := restOf_length r d0
      obtain ⟨raw, h, q⟩ := ih (pos + o.length) (restOf r d0) d1 f w (by omega) (by omega)
        (by rw [restOf_text]; exact hr.symm) (restOf_normal n0) (fun x hx => n1 x (by simp [hx]))
        (restOf_alternating a0) a1.rest
        (by rw [← restOf_edits]; exact fun e h e' h' => he e h e' (by simp [editsOf, h']))
        (fun _ => .inr (a1.next rfl))
      obtain ⟨x, p, x1, x2⟩ := step_change1 w m1 hc
      rw [← restOf_frags] at h
      refine ⟨_, step p h, ?_⟩
      rw [fc, List.append_assoc, ← restOf_text, ex, restOf_edits]
      exact SidesOf.change1 (editsOf_LB _ _) (editsOf_LB _ _) (lbr d0 pos hc) x1 x2 q
    | .change z0 o0 :: d0, .change z1 o1 :: d1, hl, hf, ht, n0, n1, a0, a1, he, hw =>
      rw [fx, fx] at ht
      simp only [List.length_cons] at hl hf
      have hw' : w = false := by
        cases w with
        | false => rfl
        | true => rcases hw rfl with h | h <;> exact absurd (h _ rfl) (by simp [DiffItem.isChange])
      subst hw'
      have m0 : z0 ≠ [] ∨ o0 ≠ [] := (n0 (.change z0 o0) (by simp)).1
      have m1 : z1 ≠ [] ∨ o1 ≠ [] := (n1 (.change z1 o1) (by simp)).1
      have t0 : ∀ x ∈ d0, x.Normal := fun x hx => n0 x (by simp [hx])
      have t1 : ∀ x ∈ d1, x.Normal := fun x hx => n1 x (by simp [hx])
      obtain ⟨f, rfl⟩ : ∃ g, f = g + 1 := ⟨f - 1, by omega⟩
      have he' : ∀ e0 ∈ editsOf (pos + o0.length) d0, ∀ e1 ∈ editsOf (pos + o1.length) d1, e0.Aligned e1 :=
        fun e h e' h' => he e (by simp [editsOf, h]) e' (by simp [editsOf, h'])
      rcases Nat.lt_trichotomy o0.length o1.length with hlt | heq | hgt
      · obtain ⟨r, rfl, hr⟩ := pre ht (by omega)
        have hre : r ≠ [] := by rintro rfl; simp at hlt
        match d0, hr, a0, t0, he, he', hl, hf with
        | [], hr, _, _, _, _, _, _ => exact absurd (List.append_eq_nil_iff.1 hr.symm).1 hre
        | .change _ _ :: _, _, a0, _, _, _, _, _ => exact absurd rfl a0.1
        | .common c :: d0, hr, a0, t0, he, he', hl, hf =>
          rw [fc] at hr
          simp only [List.length_cons] at hl hf
          have e1 : pos + (o0 ++ r).length = pos + o0.length + r.length := by simp; omega
          have hcr : r.length ≤ c.length := by
            apply fits (pos := pos + o0.length) (z := z1) (t0 (.common c) (by simp)) hr.symm a0.rest
            intro e h
            have hk := (editsOf_LB d0 (pos + o0.length + c.length)) e h
            have lc : 0 < c.length := List.length_pos_iff.2 (t0 (.common c) (by simp))
            have hk := hk.1
            have := he e (by rw [ex]; exact List.mem_cons_of_mem _ h) ⟨pos, pos + (o0 ++ r).length, z1⟩
              (by simp [editsOf])
            simp only [Edit.Aligned, Edit.Disjoint, List.length_append] at this ⊢
            omega
          obtain ⟨c', rfl, hr'⟩ := pre hr.symm hcr
          obtain ⟨f, rfl⟩ : ∃ g, f = g + 1 := ⟨f - 1, by omega⟩
          have len := restOf_length c' d0
          have hh := fun w => ih (pos + (o0 ++ r).length) (restOf c' d0) d1 f w (by omega) (by omega)
            (by rw [restOf_text]; exact hr'.symm) (restOf_normal t0) t1 (restOf_alternating a0.rest) a1.rest
            (by rw [e1, ← restOf_edits, ← e1]; exact he') (fun _ => .inr (a1.next rfl))
          by_cases hcomp : o0 = [] ∧ z1 = []
          · obtain ⟨rfl, rfl⟩ := hcomp
            obtain ⟨raw, h, q⟩ := hh false
            obtain ⟨x, p, x1, x2⟩ := step_change1 (z := z0) (o := r) (r := c') false (.inr hre) (by simp [hre])
            rw [← restOf_frags] at h
            refine ⟨_, step (step_compose1 z0 r) (step p h), ?_⟩
            rw [fx, fc, ex, ex, restOf_edits, List.append_assoc r, ← restOf_text]
            exact (SidesOf.composed (z := z0) (List.length_pos_iff.2 hre) (editsOf_LB _ _) (editsOf_LB _ _) x1 x2 q).1
          · obtain ⟨raw, h, q⟩ := hh true
            rw [← restOf_frags] at h
            refine ⟨_, step (change_longer1 m0 hcomp hre) (step (pending_rest1 (c := c') hre) h), ?_⟩
            rw [fx, fc, ex, ex, restOf_edits, ← e1, List.append_assoc r, ← restOf_text, ← List.append_assoc]
            exact SidesOf.longer1 (editsOf_LB _ _) (editsOf_LB _ _) rfl rfl rfl rfl q
      · obtain ⟨rfl, hr⟩ := List.append_inj ht heq
        have p := change_same_stretch m0 m1
        have hh := fun w => ih (pos + o0.length) d0 d1 f w (by omega) (by omega) hr t0 t1 a0.rest a1.rest he'
          (fun _ => .inl (a0.next rfl))
        by_cases hz : z0 = z1
        · subst hz
          rw [if_pos rfl] at p
          obtain ⟨raw, h, q⟩ := hh false
          refine ⟨_, step p h, ?_⟩
          rw [fx, ex, ex]
          exact SidesOf.both (editsOf_LB _ _) (editsOf_LB _ _) rfl rfl q
        · rw [if_neg hz] at p
          obtain ⟨raw, h, q⟩ := hh true
          refine ⟨_, step p h, ?_⟩
          rw [fx, ex, ex]
          exact SidesOf.both (editsOf_LB _ _) (editsOf_LB _ _) rfl rfl q
      · obtain ⟨r, rfl, hr⟩ := pre ht.symm (by omega)
        have hre : r ≠ [] := by rintro rfl; simp at hgt
        match d1, hr, a1, t1, he, he', hl, hf with
        | [], hr, _, _, _, _, _, _ => exact absurd (List.append_eq_nil_iff.1 hr.symm).1 hre
        | .change _ _ :: _, _, a1, _, _, _, _, _ => exact absurd rfl a1.1
        | .common c :: d1, hr, a1, t1, he, he', hl, hf =>
          rw [fc] at hr
          simp only [List.length_cons] at hl hf
          have e1 : pos + (o1 ++ r).length = pos + o1.length + r.length := by simp; omega
          have hcr : r.length ≤ c.length := by
            apply fits (pos := pos + o1.length) (z := z0) (t1 (.common c) (by simp)) hr.symm a1.rest
            intro e h
            have hk := (editsOf_LB d1 (pos + o1.length + c.length)) e h
            have lc : 0 < c.length := List.length_pos_iff.2 (t1 (.common c) (by simp))
            have hk := hk.1
            have := he ⟨pos, pos + (o1 ++ r).length, z0⟩ (by simp [editsOf]) e
              (by rw [ex]; exact List.mem_cons_of_mem _ h)
            simp only [Edit.Aligned, Edit.Disjoint, List.length_append] at this ⊢
            omega
          obtain ⟨c', rfl, hr'⟩ := pre hr.symm hcr
          obtain ⟨f, rfl⟩ : ∃ g, f = g + 1 := ⟨f - 1, by omega⟩
          have len := restOf_length c' d1
          have hh := fun w => ih (pos + (o1 ++ r).length) d0 (restOf c' d1) f w (by omega) (by omega)
            (by rw [restOf_text]; exact hr') t0 (restOf_normal t1) a0.rest (restOf_alternating a1.rest)
            (by
              have : editsOf (pos + (o1 ++ r).length) (restOf c' d1) =
                  editsOf (pos + o1.length) (.common (r ++ c') :: d1) := by rw [restOf_edits, e1]
              rw [this]
              exact he') (fun _ => .inl (a0.next rfl))
          by_cases hcomp : o1 = [] ∧ z0 = []
          · obtain ⟨rfl, rfl⟩ := hcomp
            obtain ⟨raw, h, q⟩ := hh false
            obtain ⟨x, p, x1, x2⟩ := step_change0 (z := z1) (o := r) (r := c') false (.inr hre) (by simp [hre])
            rw [← restOf_frags] at h
            refine ⟨_, step (step_compose0 hre) (step p h), ?_⟩
            rw [fx, ex, ex, restOf_edits]
            exact (SidesOf.composed (z := z1) (List.length_pos_iff.2 hre) (editsOf_LB _ _) (editsOf_LB _ _) x1 x2 q).2
          · obtain ⟨raw, h, q⟩ := hh true
            rw [← restOf_frags] at h
            refine ⟨_, step (change_longer0 m1 hcomp hre) (step (pending_rest0 (c := c') hre) h), ?_⟩
            rw [fx, ex, ex, restOf_edits, ← e1]
            exact SidesOf.longer0 (editsOf_LB _ _) (editsOf_LB _ _) rfl rfl rfl rfl q

/-- C140.  If overlapping changes of the branches start at the same place: taking the first side of every
conflict gives the parent with all changes of the first branch and some of the changes of the second one, each of
them whole, and taking the second sides gives the same with the branches exchanged. -/
theorem C140_whole {kind : Kind} {parent b0 b1 : List α} {d0 d1 d : List (DiffItem α)}
    (h0 : diffTokenSequences parent b0 = some d0) (h1 : diffTokenSequences parent b1 = some d1)
    (h : mergeTokenSequence kind parent b0 b1 = .ok d)
    (ha : ∀ e0 ∈ editsOf 0 d0, ∀ e1 ∈ editsOf 0 d1, e0.Aligned e1) :
    (∃ s1, s1.Sublist (editsOf 0 d1) ∧ intoText d = applyEdits parent (editsOf 0 d0 ++ s1)) ∧
    ∃ s0, s0.Sublist (editsOf 0 d0) ∧ fromText d = applyEdits parent (editsOf 0 d1 ++ s0) := by
  obtain ⟨_, k0, n0, a0⟩ := C12_diff_normal_form parent b0
  obtain ⟨_, k1, n1, a1⟩ := C12_diff_normal_form parent b1
  obtain ⟨_, j0, _, t0⟩ := C09_diff_reconstructs parent b0
  obtain ⟨_, j1, _, t1⟩ := C09_diff_reconstructs parent b1
  rw [h0] at k0 j0
  cases k0
  cases j0
  rw [h1] at k1 j1
  cases k1
  cases j1
  obtain ⟨raw, hl, q⟩ := mergeLoop_pairs _ 0 d0 d1 _ false (Nat.le_refl _) (Nat.le_refl _)
    (t0.trans t1.symm) n0 n1 a0 a1 ha (by simp)
  rw [merge_of_diffs kind h0 h1 hl] at h
  obtain ⟨c1, c2⟩ := C138_consolidate h
  rw [t0] at q
  rw [c1, c2]
  exact q

/-- C140.  The same of the file that `gaspra-merge -g` writes, by characters, words or lines. -/
theorem C140_file (cls sp : Nat → Bool) {args : Args} (h : args.GitFile) (hd : args.diff = false)
    (pn cn on : PyStr) {p c o : PyStr} {qp qc qo : List PyStr} (hp : CliPieces cls args p qp)
    (hc : CliPieces cls args c qc) (ho : CliPieces cls args o qo) {d0 d1 : List (DiffItem PyStr)}
    (h0 : diffTokenSequences qp qc = some d0) (h1 : diffTokenSequences qp qo = some d1)
    (ha : ∀ e0 ∈ editsOf 0 d0, ∀ e1 ∈ editsOf 0 d1, e0.Aligned e1) :
    ∃ out n s0 s1, mergeCli cls sp args {} pn cn on p c o = ({}, out, none) ∧ (n = [] ∨ n = [nl]) ∧
      s1.Sublist (editsOf 0 d1) ∧ s0.Sublist (editsOf 0 d0) ∧
      GitOutput (basename cn) (basename on) out
        ((applyEdits qp (editsOf 0 d0 ++ s1)).flatten ++ n)
        ((applyEdits qp (editsOf 0 d1 ++ s0)).flatten ++ n) := by
  obtain ⟨d, out, n, m1, m2, m3, _, m5⟩ := C67_merge_file cls sp h hd pn cn on hp hc ho
  obtain ⟨⟨s1, i1, k1⟩, s0, i0, k0⟩ := C140_whole h0 h1 m1 ha
  refine ⟨out, n, s0, s1, m3, m2, i1, i0, ?_⟩
  rw [into_joined, from_joined, k1, k0] at m5
  exact m5

-- A change that touches the end of a conflict becomes part of it: the second side does not have it, but whole
-- changes only.
example : mergeTokenSequence .str "abcdef".toList "aYc1ef".toList "aXdef".toList =
    .ok [.common "a".toList, .change "Yc1".toList "Xd".toList, .common "ef".toList] := by decide +kernel
example : (∃ s1, s1.Sublist [⟨1, 3, "X".toList⟩] ∧
      "aYc1ef".toList = applyEdits "abcdef".toList ([⟨1, 2, "Y".toList⟩, ⟨3, 4, "1".toList⟩] ++ s1)) ∧
    ∃ s0, s0.Sublist [⟨1, 2, "Y".toList⟩, ⟨3, 4, "1".toList⟩] ∧
      "aXdef".toList = applyEdits "abcdef".toList ([⟨1, 3, "X".toList⟩] ++ s0) :=
  C140_whole (kind := .str) (b0 := "aYc1ef".toList) (b1 := "aXdef".toList)
    (d0 := [.common "a".toList, .change "Y".toList "b".toList, .common "c".toList, .change "1".toList "d".toList,
      .common "ef".toList])
    (d1 := [.common "a".toList, .change "X".toList "bc".toList, .common "def".toList])
    (d := [.common "a".toList, .change "Yc1".toList "Xd".toList, .common "ef".toList])
    (by decide +kernel) (by decide +kernel) (by decide +kernel)
    (by simp [editsOf, Edit.Aligned, Edit.Disjoint])
-- An insertion and a deletion at the same place are both applied on both sides.
example : mergeTokenSequence .str "abc".toList "axbc".toList "ac".toList = .ok [.common "axc".toList] ∧
    applyEdits "abc".toList ([⟨1, 1, "x".toList⟩] ++ [⟨1, 2, []⟩]) = "axc".toList := by decide +kernel
-- Without the condition the second side can lack the change of its own branch ("a" is deleted by it).
example : mergeTokenSequence .str "ab".toList "ay".toList "x".toList = .ok [.change "xy".toList "a".toList] ∧
    applyEdits "ab".toList ([⟨0, 2, "x".toList⟩] ++ []) = "x".toList ∧
    applyEdits "ab".toList ([⟨0, 2, "x".toList⟩] ++ [⟨1, 2, "y".toList⟩]) = "xy".toList := by decide +kernel

end Gaspra
