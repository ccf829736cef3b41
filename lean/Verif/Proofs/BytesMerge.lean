import Verif.Spec.BytesMerge
import Verif.Proofs.Merge

/-!
# When the literal `""` gets into a conflict

`_merge` is followed in terms of what the two branches have at each position of the parent.
-/

set_option linter.unusedSectionVars false
set_option linter.unusedSimpArgs false
set_option linter.unusedVariables false

namespace Gaspra

variable {α : Type _}

/-! ### Views: what a branch has at each position -/

/-- What is left of the edits at each position. -/
abbrev View (α : Type _) := Nat → Edit α → Prop

/-- A pure insertion. -/
def PIns (S : View α) (p : Nat) : Prop := ∃ i, S p ⟨p, p, i⟩

/-- The token is deleted. -/
def VDel (S : View α) (g : Nat) : Prop := ∃ s i, g < s ∧ S g ⟨g, s, i⟩

/-- A clash. -/
def VClash (S T : View α) (q : Nat) : Prop := ∃ x y, S q x ∧ T q y ∧ ¬ x.Composes y ∧ x ≠ y

/-- A literal will come up. -/
def Trouble (k : Nat) (w : Bool) (S T : View α) : Prop :=
  ∃ q p, k ≤ q ∧ q ≤ p ∧ (PIns S p ∨ PIns T p) ∧ (∀ g, q ≤ g → g < p → VDel S g ∨ VDel T g) ∧
    (q < p ∧ VClash S T q ∨ w = true ∧ q = k)

/-- Two views are the same from a position on. -/
def Agree (j : Nat) (S S' : View α) : Prop := ∀ q, j ≤ q → ∀ x, S q x ↔ S' q x

section
variable {j k k' : Nat} {w : Bool} {S S' T T' : View α}

theorem Agree.symm (h : Agree j S S') : Agree j S' S := fun q hq x => (h q hq x).symm

theorem Agree.mono (h : Agree j S S') (hj : j ≤ k) : Agree k S S' := fun q hq x => h q (by omega) x

theorem Agree.pins (h : Agree j S S') {p : Nat} (hp : j ≤ p) : PIns S p ↔ PIns S' p := by
  unfold PIns; simp only [h p hp]

theorem Agree.del (h : Agree j S S') {p : Nat} (hp : j ≤ p) : VDel S p ↔ VDel S' p := by
  unfold VDel; simp only [h p hp]

theorem Agree.clash (h : Agree j S S') (h' : Agree j T T') {p : Nat} (hp : j ≤ p) :
    VClash S T p ↔ VClash S' T' p := by
  unfold VClash; simp only [h p hp, h' p hp]

theorem Trouble.swap_iff : Trouble k w S T ↔ Trouble k w T S := by
  have key : ∀ {S T : View α}, Trouble k w S T → Trouble k w T S := by
    rintro S T ⟨q, p, h1, h2, h3, h4, h5⟩
    refine ⟨q, p, h1, h2, h3.symm, fun g a b => (h4 g a b).symm, ?_⟩
    rcases h5 with ⟨a, x, y, b, c, d, e⟩ | h
    · refine .inl ⟨a, y, x, c, b, ?_, fun h => e h.symm⟩
      rintro (⟨u, v⟩ | ⟨u, v⟩)
      · exact d (.inr ⟨v, u⟩)
      · exact d (.inl ⟨v, u⟩)
    · exact .inr h
  exact ⟨key, key⟩

/-- Over text that both keep. -/
theorem trouble_gap (hk : k < k') (hS : Agree k' S S') (hT : Agree k' T T')
    (h : ∀ g, k ≤ g → g < k' → ∀ x, ¬ S g x ∧ ¬ T g x) :
    Trouble k w S T ↔ Trouble k' false S' T' := by
  constructor
  · rintro ⟨q, p, h1, h2, h3, h4, h5⟩
    have hp : k' ≤ p := by
      refine Classical.byContradiction fun hn => ?_
      rcases h3 with ⟨i, h3⟩ | ⟨i, h3⟩
      · exact (h p (by omega) (by omega) _).1 h3
      · exact (h p (by omega) (by omega) _).2 h3
    have hq : k' ≤ q := by
      refine Classical.byContradiction fun hn => ?_
      rcases h4 q (Nat.le_refl _) (by omega) with ⟨_, _, _, h4⟩ | ⟨_, _, _, h4⟩
      · exact (h q (by omega) (by omega) _).1 h4
      · exact (h q (by omega) (by omega) _).2 h4
    rcases h5 with ⟨h5, h6⟩ | ⟨_, h5⟩
    · refine ⟨q, p, hq, h2, ?_, ?_, .inl ⟨h5, (hS.clash hT hq).1 h6⟩⟩
      · rwa [hS.pins hp, hT.pins hp] at h3
      · intro g a b
        rw [← hS.del (by omega), ← hT.del (by omega)]
        exact h4 g a b
    · omega
  · rintro ⟨q, p, h1, h2, h3, h4, h5⟩
    rcases h5 with ⟨h5, h6⟩ | ⟨h, _⟩
    · refine ⟨q, p, by omega, h2, ?_, ?_, .inl ⟨h5, (hS.clash hT h1).2 h6⟩⟩
      · rwa [hS.pins (by omega), hT.pins (by omega)]
      · intro g a b
        rw [hS.del (by omega), hT.del (by omega)]
        exact h4 g a b
    · cases h

/-- Over text that one of them deletes, within a conflict. -/
theorem trouble_over (hk : k < k') (hS : Agree k' S S') (hT : Agree k' T T')
    (hp : ∀ g, k ≤ g → g < k' → ¬ PIns S g ∧ ¬ PIns T g)
    (hd : ∀ g, k ≤ g → g < k' → VDel S g ∨ VDel T g) (hw : w = true ∨ VClash S T k) :
    Trouble k w S T ↔ Trouble k' true S' T' := by
  constructor
  · rintro ⟨q, p, h1, h2, h3, h4, h5⟩
    have hp : k' ≤ p := by
      refine Classical.byContradiction fun hn => ?_
      have := hp p (by omega) (by omega)
      rcases h3 with h3 | h3
      · exact this.1 h3
      · exact this.2 h3
    have h3' : PIns S' p ∨ PIns T' p := by rwa [hS.pins hp, hT.pins hp] at h3
    have h4' : ∀ g, q ≤ g → k' ≤ g → g < p → VDel S' g ∨ VDel T' g := by
      intro g a c b
      rw [← hS.del c, ← hT.del c]
      exact h4 g a b
    by_cases hq : k' ≤ q
    · rcases h5 with ⟨h5, h6⟩ | ⟨_, h5⟩
      · exact ⟨q, p, hq, h2, h3', fun g a b => h4' g a (by omega) b, .inl ⟨h5, (hS.clash hT hq).1 h6⟩⟩
      · omega
    · exact ⟨k', p, Nat.le_refl _, hp, h3', fun g a b => h4' g (by omega) a b, .inr ⟨rfl, rfl⟩⟩
  · rintro ⟨q, p, h1, h2, h3, h4, h5⟩
    have h3' : PIns S p ∨ PIns T p := by rwa [hS.pins (by omega), hT.pins (by omega)]
    have h4' : ∀ g, q ≤ g → g < p → VDel S g ∨ VDel T g := by
      intro g a b
      rw [hS.del (by omega), hT.del (by omega)]
      exact h4 g a b
    rcases h5 with ⟨h5, h6⟩ | ⟨_, h5⟩
    · exact ⟨q, p, by omega, h2, h3', h4', .inl ⟨h5, (hS.clash hT h1).2 h6⟩⟩
    · refine ⟨k, p, Nat.le_refl _, by omega, h3', ?_, ?_⟩
      · intro g a b
        by_cases hg : g < k'
        · exact hd g a hg
        · exact h4' g (by omega) b
      · rcases hw with hw | hw
        · exact .inr ⟨hw, rfl⟩
        · exact .inl ⟨by omega, hw⟩

/-- A clash with an insertion. -/
theorem trouble_open (hS : Agree (k + 1) S S') (hT : Agree (k + 1) T T') (hc : VClash S T k)
    (hd : VDel S k ∨ VDel T k ↔ VDel S' k ∨ VDel T' k) (hp : ¬ PIns S' k ∧ ¬ PIns T' k) :
    Trouble k false S T ↔ Trouble k true S' T' := by
  constructor
  · rintro ⟨q, p, h1, h2, h3, h4, h5⟩
    rcases h5 with ⟨h5, h6⟩ | ⟨h, _⟩
    · have h3' : PIns S' p ∨ PIns T' p := by rwa [hS.pins (by omega), hT.pins (by omega)] at h3
      have h4' : ∀ g, q ≤ g → g < p → VDel S' g ∨ VDel T' g := by
        intro g a b
        by_cases hg : g = k
        · subst hg; rw [← hd]; exact h4 g a b
        · rw [← hS.del (by omega), ← hT.del (by omega)]; exact h4 g a b
      by_cases hq : q = k
      · exact ⟨q, p, h1, h2, h3', h4', .inr ⟨rfl, hq⟩⟩
      · exact ⟨q, p, h1, h2, h3', h4', .inl ⟨h5, (hS.clash hT (by omega)).1 h6⟩⟩
    · cases h
  · rintro ⟨q, p, h1, h2, h3, h4, h5⟩
    have hpk : p ≠ k := by
      rintro rfl
      rcases h3 with h3 | h3
      · exact hp.1 h3
      · exact hp.2 h3
    have h3' : PIns S p ∨ PIns T p := by rwa [hS.pins (by omega), hT.pins (by omega)]
    have h4' : ∀ g, q ≤ g → g < p → VDel S g ∨ VDel T g := by
      intro g a b
      by_cases hg : g = k
      · subst hg; rw [hd]; exact h4 g a b
      · rw [hS.del (by omega), hT.del (by omega)]; exact h4 g a b
    by_cases hq : q = k
    · subst hq
      exact ⟨q, p, h1, h2, h3', h4', .inl ⟨by omega, hc⟩⟩
    · rcases h5 with ⟨h5, h6⟩ | ⟨_, h5⟩
      · exact ⟨q, p, h1, h2, h3', h4', .inl ⟨h5, (hS.clash hT (by omega)).2 h6⟩⟩
      · exact absurd h5 hq

/-- Without a clash. -/
theorem trouble_quiet (hk : k ≤ k') (hj : k' ≤ j) (hS : Agree j S S') (hT : Agree j T T')
    (h1 : ∀ q, k ≤ q → q < j → ¬ VClash S T q) (h2 : ∀ q, k' ≤ q → q < j → ¬ VClash S' T' q) :
    Trouble k false S T ↔ Trouble k' false S' T' := by
  constructor
  · rintro ⟨q, p, a1, a2, a3, a4, a5⟩
    rcases a5 with ⟨a5, a6⟩ | ⟨h, _⟩
    · have hq : j ≤ q := by
        refine Classical.byContradiction fun hn => ?_
        exact h1 q a1 (by omega) a6
      refine ⟨q, p, by omega, a2, ?_, ?_, .inl ⟨a5, (hS.clash hT hq).1 a6⟩⟩
      · rwa [hS.pins (by omega), hT.pins (by omega)] at a3
      · intro g a b
        rw [← hS.del (by omega), ← hT.del (by omega)]
        exact a4 g a b
    · cases h
  · rintro ⟨q, p, a1, a2, a3, a4, a5⟩
    rcases a5 with ⟨a5, a6⟩ | ⟨h, _⟩
    · have hq : j ≤ q := by
        refine Classical.byContradiction fun hn => ?_
        exact h2 q a1 (by omega) a6
      refine ⟨q, p, by omega, a2, ?_, ?_, .inl ⟨a5, (hS.clash hT hq).2 a6⟩⟩
      · rwa [hS.pins (by omega), hT.pins (by omega)]
      · intro g a b
        rw [hS.del (by omega), hT.del (by omega)]
        exact a4 g a b
    · cases h

end

/-! ### The view of a list of edits -/

/-- What is left of the edits at `q`. -/
def Sees (es : List (Edit α)) : View α := fun q x => ∃ e ∈ es, e.At q ∧ e.rest q = x

theorem sees_lt {k q : Nat} {es : List (Edit α)} (h : LB k es) (hq : q < k) (x : Edit α) :
    ¬ Sees es q x := by
  rintro ⟨e, he, ha, _⟩
  have := (h e he).1
  rcases ha with ha | ha <;> omega

theorem sees_cons {e : Edit α} {es : List (Edit α)} {q : Nat} {x : Edit α} :
    Sees (e :: es) q x ↔ (e.At q ∧ e.rest q = x) ∨ Sees es q x := by
  simp [Sees]

theorem sees_pins {es : List (Edit α)} {p : Nat} :
    PIns (Sees es) p ↔ ∃ e ∈ es, e.start = p ∧ e.stop = p := by
  constructor
  · rintro ⟨i, e, he, ha, hr⟩
    refine ⟨e, he, ?_⟩
    unfold Edit.rest at hr
    split at hr
    · rw [hr]; exact ⟨rfl, rfl⟩
    · have := congrArg Edit.stop hr
      simp only at this
      rcases ha with ha | ha
      · contradiction
      · omega
  · rintro ⟨e, he, h1, h2⟩
    refine ⟨e.insert, e, he, .inl h1, ?_⟩
    unfold Edit.rest
    rw [if_pos h1]
    cases e
    simp_all

theorem sees_del {es : List (Edit α)} {g : Nat} : VDel (Sees es) g ↔ deletes es g = true := by
  unfold deletes
  rw [List.any_eq_true]
  constructor
  · rintro ⟨s, i, hs, e, he, ha, hr⟩
    refine ⟨e, he, ?_⟩
    have : e.stop = s := by
      unfold Edit.rest at hr
      split at hr
      · rw [hr]
      · exact congrArg Edit.stop hr
    simp only [Bool.and_eq_true, decide_eq_true_eq]
    rcases ha with ha | ha <;> omega
  · rintro ⟨e, he, h⟩
    simp only [Bool.and_eq_true, decide_eq_true_eq] at h
    by_cases hs : e.start = g
    · refine ⟨e.stop, e.insert, h.2, e, he, .inl hs, ?_⟩
      unfold Edit.rest
      rw [if_pos hs, ← hs]
    · refine ⟨e.stop, [], h.2, e, he, .inr ⟨by omega, h.2⟩, ?_⟩
      unfold Edit.rest
      rw [if_neg hs]

theorem sees_clash {es fs : List (Edit α)} {q : Nat} : VClash (Sees es) (Sees fs) q ↔ ClashAt es fs q := by
  constructor
  · rintro ⟨_, _, ⟨e, he, ha, rfl⟩, ⟨f, hf, hb, rfl⟩, h1, h2⟩
    exact ⟨e, he, f, hf, ha, hb, h1, h2⟩
  · rintro ⟨e, he, f, hf, ha, hb, h1, h2⟩
    exact ⟨_, _, ⟨e, he, ha, rfl⟩, ⟨f, hf, hb, rfl⟩, h1, h2⟩

theorem trouble_iff {es fs : List (Edit α)} :
    Trouble 0 false (Sees es) (Sees fs) ↔ InsertsBehindClash es fs := by
  unfold Trouble InsertsBehindClash
  simp only [sees_pins, sees_del, sees_clash, Bool.false_eq_true, false_and, or_false, Nat.zero_le,
    true_and]
  constructor
  · rintro ⟨q, p, _, h3, h4, h5, h6⟩
    refine ⟨q, p, h5, h6, h4, ?_⟩
    rcases h3 with ⟨e, h, h'⟩ | ⟨e, h, h'⟩
    · exact ⟨e, .inl h, h'⟩
    · exact ⟨e, .inr h, h'⟩
  · rintro ⟨q, p, h5, h6, h4, e, h3, h'⟩
    refine ⟨q, p, by omega, ?_, h4, h5, h6⟩
    rcases h3 with h | h
    · exact .inl ⟨e, h, h'⟩
    · exact .inr ⟨e, h, h'⟩

/-! ### The view of a fragment stream -/

section
variable {c h : Bool} {p : List α} {f : Fragment α} {fs : List (Fragment α)}

/-- A copy shows nothing. -/
theorem sees_copy {i : List α} {n k q : Nat} (hq : q < k + n) (x : Edit α) :
    ¬ Sees (fedits k (.copy i n :: fs)) q x := sees_lt (fedits_LB fs (k + n)) hq x

/-- What follows a change shows nothing at once. -/
theorem sees_after {k : Nat} (H : FS c false p fs) (x : Edit α) : ¬ Sees (fedits k fs) k x :=
  sees_lt (H.LB_succ k) (by omega) x

/-- A change at its start. -/
theorem sees_change {i d : List α} {n k : Nat} (H : FS c h p (.change i d n :: fs)) (x : Edit α) :
    Sees (fedits k (.change i d n :: fs)) k x ↔ x = ⟨k, k + n, i⟩ := by
  obtain ⟨p', _, _, _, hF⟩ := H.inv_change
  rw [fedits, sees_cons]
  have : ¬ Sees (fedits (k + n) fs) k x := sees_lt (hF.LB_succ (k + n)) (by omega) x
  constructor
  · rintro (⟨_, h⟩ | h)
    · rw [← h]; simp [Edit.rest]
    · exact absurd h this
  · rintro rfl
    exact .inl ⟨.inl rfl, by simp [Edit.rest]⟩

/-- A change further on. -/
theorem sees_change_inner {i d : List α} {n k q : Nat} (hq : k < q) (hq' : q < k + n)
    (H : FS c h p (.change i d n :: fs)) (x : Edit α) :
    Sees (fedits k (.change i d n :: fs)) q x ↔ x = ⟨q, k + n, []⟩ := by
  obtain ⟨p', _, _, _, hF⟩ := H.inv_change
  rw [fedits, sees_cons]
  have : ¬ Sees (fedits (k + n) fs) q x := sees_lt (hF.LB_succ (k + n)) (by omega) x
  have hr : (⟨k, k + n, i⟩ : Edit α).rest q = ⟨q, k + n, []⟩ := by
    unfold Edit.rest; rw [if_neg (by simp only; omega)]
  rw [hr]
  constructor
  · rintro (⟨_, h⟩ | h)
    · exact h.symm
    · exact absurd h this
  · rintro rfl
    exact .inl ⟨.inr ⟨hq, hq'⟩, rfl⟩

variable [DecidableEq α]

/-- The rest of a stream after a fragment or a part of it. -/
theorem split_agree {k m : Nat} (H : FS c h p (f :: fs)) (hm : m ≤ f.length) {j : Nat} (hj : k + m ≤ j)
    (hk : k < j) :
    Agree j (Sees (fedits k (f :: fs))) (Sees (fedits (k + m) ((splitFragment f m).2.toList ++ fs))) := by
  intro q hq x
  cases f with
  | copy w n =>
    simp only [length_copy] at hm
    simp only [splitFragment, splitCopy]
    split
    · simp only [Option.toList_some, List.cons_append, List.nil_append, fedits]
      rw [show k + m + (n - m) = k + n by omega]
    · simp only [Option.toList_none, List.nil_append, fedits]
      rw [show k + m = k + n by omega]
  | change i d n =>
    simp only [length_change] at hm
    simp only [splitFragment, splitChange, Nat.lt_irrefl, or_false]
    split
    · simp only [Option.toList_some, List.cons_append, List.nil_append, fedits, sees_cons]
      rw [show k + m + (n - m) = k + n by omega]
      simp only [Edit.At, Edit.rest]
      by_cases e : k + m = q
      · subst e
        have : k ≠ k + m := by omega
        have h2 : k < k + m := by omega
        have h3 : k + m < k + n := by omega
        have h4 : m ≠ 0 := by omega
        simp [this, h2, h3, h4]
      · have h1 : k ≠ q := by omega
        have h2 : k < q := by omega
        have h3 : k + m < q := by omega
        simp [h1, h2, h3, e]
    · have e : m = n := by omega
      subst e
      simp only [Option.toList_none, List.nil_append, fedits, sees_cons]
      constructor
      · rintro (⟨a, _⟩ | a)
        · simp only [Edit.At] at a; omega
        · exact a
      · exact .inr


theorem no_pins {k q : Nat} (H : FS c h p (f :: fs)) (hk : k ≤ q) (hq : q < k + f.length) :
    ¬ PIns (Sees (fedits k (f :: fs))) q := by
  rintro ⟨i', h⟩
  cases f with
  | copy i n => exact sees_copy hq _ h
  | change i d n =>
    simp only [length_change] at hq
    by_cases e : k = q
    · subst e
      have := congrArg Edit.stop ((sees_change H _).1 h)
      simp only at this; omega
    · have := congrArg Edit.stop ((sees_change_inner (by omega) hq H _).1 h)
      simp only at this; omega

theorem del_change {i d : List α} {n k q : Nat} (hk : k ≤ q) (hq : q < k + n) :
    VDel (Sees (fedits k (.change i d n :: fs))) q := by
  rw [sees_del]
  simp [fedits, deletes, hk, hq]

/-- The stream does not start with a change that inserts. -/
def NI (F : List (Fragment α)) : Prop := ∀ i d n G, F = .change i d n :: G → i = []

theorem NI.of_copy {p : List α} {F : List (Fragment α)} (H : FS c false p F) : NI F := by
  intro i d n G e
  subst e
  cases H

theorem NI.of_split {i d : List α} {n m : Nat} (H : FS c h p (.change i d n :: fs)) :
    NI ((splitFragment (.change i d n) m).2.toList ++ fs) := by
  obtain ⟨p', _, _, _, hF⟩ := H.inv_change
  simp only [splitFragment, splitChange, Nat.lt_irrefl, or_false]
  split
  · intro i' d' n' G e
    simp only [Option.toList_some, List.cons_append, List.nil_append, List.drop_length,
      List.cons.injEq, Fragment.change.injEq] at e
    exact e.1.1.symm
  · exact NI.of_copy hF

/-- One step of `_merge`: either it yields a literal, and one was foreseen, or it does not, and one
is foreseen for the rest exactly when it was foreseen before. -/
def LitStep (k : Nat) (f0 : Fragment α) (fs0 : List (Fragment α)) (f1 : Fragment α)
    (fs1 : List (Fragment α)) (w : Bool) (o : Option (MFragment α)) (t0 t1 : Option (Fragment α))
    (w' : Bool) : Prop :=
  ∃ k' p', (∃ c h, FS c h p' (t0.toList ++ fs0)) ∧ (∃ c h, FS c h p' (t1.toList ++ fs1)) ∧
    (w' = true → NI (t0.toList ++ fs0) ∨ NI (t1.toList ++ fs1)) ∧
    ((∃ x ∈ o.toList, ¬ x.noLit) ∧
        Trouble k w (Sees (fedits k (f0 :: fs0))) (Sees (fedits k (f1 :: fs1))) ∨
      (∀ x ∈ o.toList, x.noLit) ∧
        (Trouble k w (Sees (fedits k (f0 :: fs0))) (Sees (fedits k (f1 :: fs1))) ↔
          Trouble k' w' (Sees (fedits k' (t0.toList ++ fs0))) (Sees (fedits k' (t1.toList ++ fs1)))))

theorem LitStep.swap {k : Nat} {f0 f1 : Fragment α} {fs0 fs1 : List (Fragment α)} {w w' : Bool}
    {o : Option (MFragment α)} {t0 t1 : Option (Fragment α)}
    (H : LitStep k f0 fs0 f1 fs1 w o t0 t1 w') : LitStep k f1 fs1 f0 fs0 w o t1 t0 w' := by
  obtain ⟨k', p', h0, h1, hn, h⟩ := H
  refine ⟨k', p', h1, h0, fun e => (hn e).symm, ?_⟩
  rcases h with ⟨h, h'⟩ | ⟨h, h'⟩
  · exact .inl ⟨h, Trouble.swap_iff.1 h'⟩
  · exact .inr ⟨h, Trouble.swap_iff.trans (h'.trans Trouble.swap_iff)⟩

section
variable {c0 h0 c1 h1 : Bool} {f0 f1 : Fragment α} {fs0 fs1 : List (Fragment α)} {k : Nat}

/-- A step that takes the same length off both. -/
theorem LitStep.split {m : Nat} {w w' : Bool} {o : Option (MFragment α)}
    (H0 : FS c0 h0 p (f0 :: fs0)) (H1 : FS c1 h1 p (f1 :: fs1)) (m0 : m ≤ f0.length)
    (m1 : m ≤ f1.length) (hc : w' = true → ∃ i d n, f0 = .change i d n ∨ f1 = .change i d n)
    (h : (∃ x ∈ o.toList, ¬ x.noLit) ∧
        Trouble k w (Sees (fedits k (f0 :: fs0))) (Sees (fedits k (f1 :: fs1))) ∨
      (∀ x ∈ o.toList, x.noLit) ∧
        (Trouble k w (Sees (fedits k (f0 :: fs0))) (Sees (fedits k (f1 :: fs1))) ↔
          Trouble (k + m) w' (Sees (fedits (k + m) ((splitFragment f0 m).2.toList ++ fs0)))
            (Sees (fedits (k + m) ((splitFragment f1 m).2.toList ++ fs1))))) :
    LitStep k f0 fs0 f1 fs1 w o (splitFragment f0 m).2 (splitFragment f1 m).2 w' := by
  refine ⟨k + m, p.drop m, (split_FS H0 m0 k).1, (split_FS H1 m1 k).1, ?_, h⟩
  intro hw
  obtain ⟨i, d, n, e | e⟩ := hc hw
  · subst e; exact .inl (NI.of_split H0)
  · subst e; exact .inr (NI.of_split H1)

theorem pending_lit (H0 : FS c0 h0 p (f0 :: fs0)) (H1 : FS c1 h1 p (f1 :: fs1))
    (hn : NI (f0 :: fs0) ∨ NI (f1 :: fs1)) (hc : ∃ i d n, f0 = .change i d n ∨ f1 = .change i d n) :
    LitStep k f0 fs0 f1 fs1 true (pendingConflict f0 f1).1 (pendingConflict f0 f1).2.1
      (pendingConflict f0 f1).2.2 true := by
  have m0 : min f0.length f1.length ≤ f0.length := Nat.min_le_left _ _
  have m1 : min f0.length f1.length ≤ f1.length := Nat.min_le_right _ _
  refine LitStep.split H0 H1 m0 m1 (fun _ => hc) ?_
  generalize hm : min f0.length f1.length = m at m0 m1
  simp only [pendingConflict, hm, Option.toList_some, List.mem_singleton, exists_eq_left, forall_eq]
  by_cases hpos : 0 < m
  · right
    constructor
    · have key : ∀ f : Fragment α, insertOrLit (splitFragment f m).1 ≠ .strLit := by
        intro f
        cases f with
        | copy i n => simp [splitFragment, splitCopy, hpos, insertOrLit]
        | change i d n => simp [splitFragment, splitChange, hpos, insertOrLit]
      exact ⟨key f0, key f1⟩
    · refine trouble_over (by omega) (split_agree H0 m0 (Nat.le_refl _) (by omega))
        (split_agree H1 m1 (Nat.le_refl _) (by omega)) ?_ ?_ (.inl rfl)
      · exact fun g a b => ⟨no_pins H0 a (by omega), no_pins H1 a (by omega)⟩
      · intro g a b
        obtain ⟨i, d, n, e | e⟩ := hc
        · subst e; exact .inl (del_change a (by simp only [length_change] at m0; omega))
        · subst e; exact .inr (del_change a (by simp only [length_change] at m1; omega))
  · left
    have hz : m = 0 := by omega
    have key : ∀ {c h : Bool} {f : Fragment α} {fs : List (Fragment α)}, FS c h p (f :: fs) →
        f.length = 0 → ∃ i, i ≠ [] ∧ f = .change i [] 0 := by
      intro c h f fs H hl
      cases f with
      | copy i n =>
        obtain ⟨_, _, h2, h3, _⟩ := H.inv_copy
        have := List.length_pos_iff.2 h3
        simp only [length_copy] at hl; omega
      | change i d n =>
        obtain ⟨_, _, h2, h3, _⟩ := H.inv_change
        simp only [length_change] at hl
        have hd : d = [] := List.eq_nil_of_length_eq_zero (by omega)
        subst hd hl
        exact ⟨i, h3.resolve_right (by simp), rfl⟩
    have lit : ∀ {c h : Bool} {f : Fragment α} {fs : List (Fragment α)}, FS c h p (f :: fs) →
        NI (f :: fs) → insertOrLit (splitFragment f m).1 = .strLit := by
      intro c h f fs H hf
      subst hz
      cases f with
      | copy i n => simp [splitFragment, splitCopy, insertOrLit]
      | change i d n =>
        have : i = [] := hf i d n fs rfl
        subst this
        simp [splitFragment, splitChange, insertOrLit]
    constructor
    · intro hx
      simp only [MFragment.noLit] at hx
      rcases hn with hn | hn
      · exact hx.1 (lit H0 hn)
      · exact hx.2 (lit H1 hn)
    · refine ⟨k, k, Nat.le_refl _, Nat.le_refl _, ?_, fun g a b => by omega, .inr ⟨rfl, rfl⟩⟩
      by_cases hl : f0.length = 0
      · obtain ⟨i, _, rfl⟩ := key H0 hl
        exact .inl ⟨i, (sees_change H0 _).2 rfl⟩
      · obtain ⟨i, _, rfl⟩ := key H1 (by omega)
        exact .inr ⟨i, (sees_change H1 _).2 rfl⟩

theorem copyCopy_lit {w : Bool} {i0 i1 : List α} {n0 n1 : Nat} (H0 : FS c0 h0 p (.copy i0 n0 :: fs0))
    (H1 : FS c1 h1 p (.copy i1 n1 :: fs1)) :
    LitStep k (.copy i0 n0) fs0 (.copy i1 n1) fs1 w (copyCopy i0 n0 i1 n1).1
      (copyCopy i0 n0 i1 n1).2.1 (copyCopy i0 n0 i1 n1).2.2 false := by
  have p0 : 0 < n0 := by
    obtain ⟨_, _, h2, h3, _⟩ := H0.inv_copy
    have := List.length_pos_iff.2 h3
    omega
  have p1 : 0 < n1 := by
    obtain ⟨_, _, h2, h3, _⟩ := H1.inv_copy
    have := List.length_pos_iff.2 h3
    omega
  have go : ∀ m, 0 < m → m ≤ n0 → m ≤ n1 → ∀ f,
      LitStep k (.copy i0 n0) fs0 (.copy i1 n1) fs1 w (some (.input f))
        (splitFragment (.copy i0 n0) m).2 (splitFragment (.copy i1 n1) m).2 false := by
    intro m hpos m0 m1 f
    refine LitStep.split H0 H1 m0 m1 (by simp) (.inr ⟨by simp [MFragment.noLit], ?_⟩)
    refine trouble_gap (by omega) (split_agree H0 m0 (Nat.le_refl _) (by omega))
      (split_agree H1 m1 (Nat.le_refl _) (by omega)) ?_
    exact fun g a b x => ⟨sees_copy (by omega) x, sees_copy (by omega) x⟩
  rcases copyCopy_cases i0 i1 n0 n1 with ⟨hle, e⟩ | ⟨hle, e⟩
  · rw [e]
    have := go n0 p0 (Nat.le_refl _) hle (.copy i0 n0)
    simpa [splitFragment, splitCopy] using this
  · rw [e]
    have := go n1 p1 hle (Nat.le_refl _) (.copy i1 n1)
    simpa [splitFragment, splitCopy] using this

theorem copyChange_lit {ci i d : List α} {cn n : Nat} (H0 : FS c0 h0 p (.copy ci cn :: fs0))
    (H1 : FS c1 h1 p (.change i d n :: fs1)) :
    LitStep k (.copy ci cn) fs0 (.change i d n) fs1 false (copyChange ci cn i d n).1
      (copyChange ci cn i d n).2.1 (copyChange ci cn i d n).2.2 false := by
  have p0 : 0 < cn := by
    obtain ⟨_, _, h2, h3, _⟩ := H0.inv_copy
    have := List.length_pos_iff.2 h3
    omega
  have go : ∀ m o, m ≤ cn → m ≤ n → (∀ x ∈ o.toList, x.noLit) →
      LitStep k (.copy ci cn) fs0 (.change i d n) fs1 false o
        (splitFragment (.copy ci cn) m).2 (splitFragment (.change i d n) m).2 false := by
    intro m o m0 m1 ho
    refine LitStep.split H0 H1 m0 m1 (by simp) (.inr ⟨ho, ?_⟩)
    have hj : k + m ≤ max (k + m) (k + 1) := Nat.le_max_left _ _
    have hj' : k < max (k + m) (k + 1) := by omega
    refine trouble_quiet (by omega) hj (split_agree H0 m0 hj hj') (split_agree H1 m1 hj hj') ?_ ?_
    · rintro q a b ⟨x, y, hx, _⟩
      exact sees_copy (by omega) x hx
    · rintro q a b ⟨x, y, hx, _⟩
      have hm : m = 0 := by omega
      subst hm
      simp only [splitFragment, splitCopy, p0, if_true, Option.toList_some, List.cons_append,
        List.nil_append] at hx
      exact sees_copy (by omega) x hx
  by_cases hle : n ≤ cn
  · rw [copyChange_le hle]
    have := go n (some (.input (.change i d n))) hle (Nat.le_refl _) (by simp [MFragment.noLit])
    simpa [splitFragment, splitChange] using this
  · have hmin : min cn n = cn := by omega
    have hne : n ≠ cn := by omega
    have := go cn (copyChange ci cn i d n).1 (Nat.le_refl _) (by omega) (by
      simp only [copyChange, hmin, hne, if_false]
      split <;> simp [MFragment.noLit])
    have e1 : (copyChange ci cn i d n).2.1 = (splitFragment (.copy ci cn) cn).2 := by
      simp [copyChange, hmin, hne, splitFragment, splitCopy]
    have e2 : (copyChange ci cn i d n).2.2 = (splitFragment (.change i d n) cn).2 := by
      simp [copyChange, hmin, hne, splitFragment]
    rw [e1, e2]
    exact this

theorem compose_lit {i0 d0 d1 : List α} {n1 : Nat} (H0 : FS c0 h0 p (.change i0 d0 0 :: fs0))
    (H1 : FS c1 h1 p (.change [] d1 n1 :: fs1)) :
    LitStep k (.change i0 d0 0) fs0 (.change [] d1 n1) fs1 false none none (some (.change i0 d1 n1))
      false := by
  obtain ⟨p0, e0, l0, a0, hF0⟩ := H0.inv_change
  obtain ⟨p1, e1, l1, a1, hF1⟩ := H1.inv_change
  have hd : d0 = [] := List.eq_nil_of_length_eq_zero l0.symm
  subst hd
  simp only [List.nil_append] at e0
  subst e0 l1
  refine ⟨k, p, ⟨_, _, hF0⟩, ⟨true, true, ?_⟩, by simp, .inr ⟨by simp, ?_⟩⟩
  · rw [e1]
    exact FS.change (a0.imp_right (by simp)) hF1
  · refine trouble_quiet (Nat.le_refl _) (Nat.le_succ k) (j := k + 1) ?_ ?_ ?_ ?_
    · intro q hq x
      simp only [fedits, sees_cons, Option.toList_none, List.nil_append, Nat.add_zero, Edit.At]
      constructor
      · rintro (⟨a, _⟩ | a)
        · omega
        · exact a
      · exact .inr
    · intro q hq x
      simp only [fedits, sees_cons, Option.toList_some, List.cons_append, List.nil_append, Edit.At,
        Edit.rest]
      have : k ≠ q := by omega
      simp [this]
    · rintro q a b ⟨x, y, hx, hy, hc, _⟩
      have : q = k := by omega
      subst this
      rw [sees_change H0] at hx
      rw [sees_change H1] at hy
      subst hx hy
      exact hc (.inl ⟨rfl, rfl⟩)
    · rintro q a b ⟨x, y, hx, _⟩
      have : q = k := by omega
      subst this
      exact sees_after hF0 x hx

theorem identical_lit {i d : List α} {n : Nat} (H0 : FS c0 h0 p (.change i d n :: fs0))
    (H1 : FS c1 h1 p (.change i d n :: fs1)) (f : Fragment α) :
    LitStep k (.change i d n) fs0 (.change i d n) fs1 false (some (.input f)) none none false := by
  obtain ⟨p0, e0, l0, a0, hF0⟩ := H0.inv_change
  have hs : (splitFragment (.change i d n) n).2 = none := by simp [splitFragment, splitChange]
  have hj : k + n ≤ max (k + n) (k + 1) := Nat.le_max_left _ _
  have hj' : k < max (k + n) (k + 1) := by omega
  have := LitStep.split (k := k) (w := false) (w' := false) (o := some (.input f)) (m := n) H0 H1
    (Nat.le_refl _) (Nat.le_refl _) (by simp) (.inr ⟨by simp [MFragment.noLit], ?_⟩)
  · rw [hs] at this; exact this
  · refine trouble_quiet (by omega) hj (split_agree H0 (Nat.le_refl _) hj hj')
      (split_agree H1 (Nat.le_refl _) hj hj') ?_ ?_
    · rintro q a b ⟨x, y, hx, hy, _, hne⟩
      by_cases e : q = k
      · subst e
        rw [sees_change H0] at hx
        rw [sees_change H1] at hy
        exact hne (hx.trans hy.symm)
      · rw [sees_change_inner (by omega) (by omega) H0] at hx
        rw [sees_change_inner (by omega) (by omega) H1] at hy
        exact hne (hx.trans hy.symm)
    · rintro q a b ⟨x, y, hx, _⟩
      rw [hs] at hx
      exact sees_lt (hF0.LB_succ (k + n)) (by omega) x hx

theorem ordinary_lit {i0 d0 i1 d1 : List α} {n0 n1 : Nat} (H0 : FS c0 h0 p (.change i0 d0 n0 :: fs0))
    (H1 : FS c1 h1 p (.change i1 d1 n1 :: fs1)) (hcomp : hasComposable i0 n0 i1 n1 = false)
    (hid : ¬ (i0 = i1 ∧ n0 = n1)) :
    LitStep k (.change i0 d0 n0) fs0 (.change i1 d1 n1) fs1 false (ordinaryConflict i0 d0 n0 i1 d1 n1).1
      (ordinaryConflict i0 d0 n0 i1 d1 n1).2.1 (ordinaryConflict i0 d0 n0 i1 d1 n1).2.2 true := by
  obtain ⟨p0, e0, l0, a0, hF0⟩ := H0.inv_change
  obtain ⟨p1, e1, l1, a1, hF1⟩ := H1.inv_change
  have m0 : min n0 n1 ≤ n0 := Nat.min_le_left _ _
  have m1 : min n0 n1 ≤ n1 := Nat.min_le_right _ _
  have hc : VClash (Sees (fedits k (.change i0 d0 n0 :: fs0)))
      (Sees (fedits k (.change i1 d1 n1 :: fs1))) k := by
    refine ⟨_, _, (sees_change H0 _).2 rfl, (sees_change H1 _).2 rfl, ?_, ?_⟩
    · intro h
      simp only [hasComposable, Bool.or_eq_false_iff, Bool.and_eq_false_iff, beq_eq_false_iff_ne,
        ne_eq, List.length_eq_zero_iff] at hcomp
      rcases h with ⟨h, h'⟩ | ⟨h, h'⟩
      · simp only at h h'
        rcases hcomp.1 with c | c
        · omega
        · exact c h'
      · simp only at h h'
        rcases hcomp.2 with c | c
        · exact c h
        · omega
    · intro h
      simp only [Edit.mk.injEq] at h
      exact hid ⟨h.2.2, by omega⟩
  refine LitStep.split (m := min n0 n1) H0 H1 m0 m1 (fun _ => ⟨_, _, _, .inl rfl⟩) (.inr ⟨?_, ?_⟩)
  · simp only [ordinaryConflict]
    split <;> simp [MFragment.noLit]
  · by_cases hpos : 0 < min n0 n1
    · refine trouble_over (by omega) (split_agree H0 m0 (Nat.le_refl _) (by omega))
        (split_agree H1 m1 (Nat.le_refl _) (by omega)) ?_ ?_ (.inr hc)
      · exact fun g a b => ⟨no_pins H0 a (by simp only [length_change]; omega),
          no_pins H1 a (by simp only [length_change]; omega)⟩
      · exact fun g a b => .inl (del_change a (by omega))
    · have hz : min n0 n1 = 0 := by omega
      rw [hz]
      have key : ∀ {c h : Bool} {i d : List α} {n : Nat} {fs : List (Fragment α)},
          FS c h p (.change i d n :: fs) →
          (VDel (Sees (fedits k (.change i d n :: fs))) k ↔
            VDel (Sees (fedits (k + 0) ((splitFragment (.change i d n) 0).2.toList ++ fs))) k) ∧
          ¬ PIns (Sees (fedits (k + 0) ((splitFragment (.change i d n) 0).2.toList ++ fs))) k := by
        intro c h i d n fs H
        obtain ⟨p', e, l, a, hF⟩ := H.inv_change
        simp only [splitFragment, splitChange, Nat.lt_irrefl, or_false, Nat.add_zero, Nat.sub_zero,
          List.drop_zero, List.drop_length]
        by_cases hn : 0 < n
        · simp only [hn, if_true, Option.toList_some, List.cons_append, List.nil_append]
          have H' : FS true true p (.change [] d n :: fs) := by
            rw [e, l]
            refine FS.change (.inr ?_) hF
            intro hd; subst hd; simp at l; omega
          refine ⟨⟨fun _ => del_change (Nat.le_refl _) (by omega),
            fun _ => del_change (Nat.le_refl _) (by omega)⟩, ?_⟩
          exact no_pins H' (Nat.le_refl _) (by simp only [length_change]; omega)
        · simp only [hn, if_false, Option.toList_none, List.nil_append]
          have hz : n = 0 := by omega
          subst hz
          refine ⟨⟨?_, ?_⟩, ?_⟩
          · rintro ⟨s, i', hs, hx⟩
            have := congrArg Edit.stop ((sees_change H _).1 hx)
            simp only at this; omega
          · rintro ⟨s, i', hs, hx⟩
            exact absurd hx (sees_after hF _)
          · rintro ⟨i', hx⟩
            exact sees_after hF _ hx
      refine trouble_open (split_agree H0 (by simp) (by omega) (by omega))
        (split_agree H1 (by simp) (by omega) (by omega)) hc ?_ ⟨(key H0).2, (key H1).2⟩
      rw [(key H0).1, (key H1).1]

theorem lit_step {w : Bool} (H0 : FS c0 h0 p (f0 :: fs0)) (H1 : FS c1 h1 p (f1 :: fs1))
    (hn : w = true → NI (f0 :: fs0) ∨ NI (f1 :: fs1)) :
    LitStep k f0 fs0 f1 fs1 w (processFragments f0 f1 w).1 (processFragments f0 f1 w).2.1
      (processFragments f0 f1 w).2.2.1 (processFragments f0 f1 w).2.2.2 := by
  cases f0 with
  | copy i0 n0 =>
    cases f1 with
    | copy i1 n1 => exact copyCopy_lit H0 H1
    | change i1 d1 n1 =>
      cases w with
      | true => exact pending_lit H0 H1 (hn rfl) ⟨_, _, _, .inr rfl⟩
      | false => exact copyChange_lit H0 H1
  | change i0 d0 n0 =>
    cases f1 with
    | copy i1 n1 =>
      cases w with
      | true => exact pending_lit H0 H1 (hn rfl) ⟨_, _, _, .inl rfl⟩
      | false => exact (copyChange_lit H1 H0).swap
    | change i1 d1 n1 =>
      cases w with
      | true => exact pending_lit H0 H1 (hn rfl) ⟨_, _, _, .inl rfl⟩
      | false =>
        simp only [processFragments, Bool.false_eq_true, if_false, changeChange]
        by_cases hc : hasComposable i0 n0 i1 n1 = true
        · simp only [hc, if_true]
          by_cases hz : n0 = 0 ∧ i1.length = 0
          · obtain ⟨a, b⟩ := hz
            have b := List.eq_nil_of_length_eq_zero b
            subst a b
            simp only [List.length_nil, and_self, if_true]
            exact compose_lit H0 H1
          · simp only [hz, if_false]
            simp only [hasComposable, Bool.or_eq_true, Bool.and_eq_true, beq_iff_eq] at hc
            obtain ⟨a, b⟩ := hc.resolve_left hz
            have a := List.eq_nil_of_length_eq_zero a
            subst a b
            exact (compose_lit H1 H0).swap
        · have hc : hasComposable i0 n0 i1 n1 = false := by simpa using hc
          simp only [hc, Bool.false_eq_true, if_false]
          by_cases hi : areIdentical i0 d0 n0 i1 d1 n1 = true
          · simp only [hi, if_true]
            simp only [areIdentical, Bool.and_eq_true, beq_iff_eq] at hi
            obtain ⟨⟨b1, b2⟩, b3, b4⟩ := hi
            obtain ⟨_, _, l0, _, _⟩ := H0.inv_change
            obtain ⟨_, _, l1, _, _⟩ := H1.inv_change
            have hi := eq_of_commonPrefixLength b1 b2
            have hd := eq_of_commonPrefixLength (a := d0) (b := d1) (by omega) (by omega)
            subst hi hd b3
            exact identical_lit H0 H1 _
          · simp only [hi, Bool.false_eq_true, if_false]
            refine ordinary_lit H0 H1 hc ?_
            rintro ⟨a, b⟩
            subst a b
            obtain ⟨_, e0, l0, _, _⟩ := H0.inv_change
            obtain ⟨_, e1, l1, _, _⟩ := H1.inv_change
            have hd : d0 = d1 := (List.append_inj (e0.symm.trans e1) (by omega)).1
            subst hd
            apply hi
            simp [areIdentical, commonPrefixLength_self, l0]

end
end

/-! ### The whole loop -/

variable [DecidableEq α]

theorem loop_lit : ∀ (fuel k : Nat) (p : List α) (F0 F1 : List (Fragment α)) (w : Bool)
    (out : List (MFragment α)), (∃ c h, FS c h p F0) → (∃ c h, FS c h p F1) →
    (w = true → NI F0 ∨ NI F1) → mergeLoop fuel F0 F1 w = some out →
    ((∃ x ∈ out, ¬ x.noLit) ↔ Trouble k w (Sees (fedits k F0)) (Sees (fedits k F1))) := by
  have base : ∀ (k : Nat) (F : List (Fragment α)) (w : Bool), (∃ c h, FS c h [] F) →
      (Trouble k w (Sees (fedits k ([] : List (Fragment α)))) (Sees (fedits k F)) ↔ w = true ∧ F ≠ []) := by
    intro k F w ⟨c, h, H⟩
    have hnil : ∀ q x, ¬ Sees (fedits k ([] : List (Fragment α))) q x := by
      rintro q x ⟨e, he, _⟩
      simp [fedits] at he
    constructor
    · rintro ⟨q, p, h1, h2, h3, h4, h5⟩
      constructor
      · rcases h5 with ⟨_, x, _, h5, _⟩ | h5
        · exact absurd h5 (hnil _ _)
        · exact h5.1
      · rintro rfl
        rcases h3 with ⟨i, h3⟩ | ⟨i, h3⟩
        · exact hnil _ _ h3
        · exact hnil _ _ h3
    · rintro ⟨hw, hF⟩
      rcases H.nil_of with h | ⟨i, _, rfl⟩
      · exact absurd h hF
      · exact ⟨k, k, Nat.le_refl _, Nat.le_refl _, .inr ⟨i, (sees_change H _).2 rfl⟩,
          fun g a b => by omega, .inr ⟨hw, rfl⟩⟩
  intro fuel
  induction fuel with
  | zero =>
    intro k p F0 F1 w out h0 h1 hn hm
    cases F0 with
    | nil =>
      obtain ⟨_, _, h0⟩ := h0
      have := h0.inv_nil
      subst this
      rw [base k F1 w h1]
      cases F1 with
      | nil => simp only [mergeLoop, Option.some.injEq] at hm; subst hm; simp
      | cons f1 fs1 =>
        simp only [mergeLoop, Option.some.injEq] at hm
        subst hm
        cases w <;> simp [flushRemaining, MFragment.noLit]
    | cons f0 fs0 =>
      cases F1 with
      | nil =>
        obtain ⟨_, _, h1⟩ := h1
        have := h1.inv_nil
        subst this
        rw [Trouble.swap_iff, base k _ w h0]
        simp only [mergeLoop, Option.some.injEq] at hm
        subst hm
        cases w <;> simp [flushRemaining, MFragment.noLit]
      | cons f1 fs1 => simp [mergeLoop] at hm
  | succ fuel ih =>
    intro k p F0 F1 w out h0 h1 hn hm
    cases F0 with
    | nil =>
      obtain ⟨_, _, h0⟩ := h0
      have := h0.inv_nil
      subst this
      rw [base k F1 w h1]
      cases F1 with
      | nil => simp only [mergeLoop, Option.some.injEq] at hm; subst hm; simp
      | cons f1 fs1 =>
        simp only [mergeLoop, Option.some.injEq] at hm
        subst hm
        cases w <;> simp [flushRemaining, MFragment.noLit]
    | cons f0 fs0 =>
      cases F1 with
      | nil =>
        obtain ⟨_, _, h1⟩ := h1
        have := h1.inv_nil
        subst this
        rw [Trouble.swap_iff, base k _ w h0]
        simp only [mergeLoop, Option.some.injEq] at hm
        subst hm
        cases w <;> simp [flushRemaining, MFragment.noLit]
      | cons f1 fs1 =>
        obtain ⟨_, _, h0⟩ := h0
        obtain ⟨_, _, h1⟩ := h1
        obtain ⟨k', p', a0, a1, an, hs⟩ := lit_step (k := k) (w := w) h0 h1 hn
        simp only [mergeLoop] at hm
        split at hm
        · cases hm
        · next out' hm' =>
          simp only [Option.some.injEq] at hm
          subst hm
          have hi := ih k' p' _ _ _ _ a0 a1 an hm'
          rcases hs with ⟨⟨x, hx, hl⟩, ht⟩ | ⟨hl, ht⟩
          · exact ⟨fun _ => ht, fun _ => ⟨x, List.mem_append_left _ hx, hl⟩⟩
          · rw [ht, ← hi]
            constructor
            · rintro ⟨x, hx, hx'⟩
              rcases List.mem_append.1 hx with hx | hx
              · exact absurd (hl x hx) hx'
              · exact ⟨x, hx, hx'⟩
            · rintro ⟨x, hx, hx'⟩
              exact ⟨x, List.mem_append_right _ hx, hx'⟩

/-! ### The literal and the exception -/

theorem consolidateConflicts_lit : ∀ (fuel : Nat) (L : List (MFragment α)), L.length ≤ fuel →
    (∃ x ∈ L, ¬ x.noLit) → consolidateConflicts .bytes fuel L = .error .typeError := by
  intro fuel
  induction fuel with
  | zero =>
    rintro L hl ⟨x, hx, _⟩
    have := List.eq_nil_of_length_eq_zero (by omega : L.length = 0)
    subst this
    cases hx
  | succ fuel ih =>
    rintro L hl ⟨x, hx, hn⟩
    cases hLe : L with
    | nil => rw [hLe] at hx; cases hx
    | cons x0 L0 =>
    obtain ⟨g, o, r, h1, h2, h3, h4, h5, h6, h7, h8, h9⟩ := decompose L
    have hr : r.length < L.length := h8 (by rw [hLe]; simp)
    rw [hLe] at h1 h2 h3
    simp only [consolidateConflicts, h1, h2, h3]
    by_cases hg : x ∈ g
    · cases x with
      | input f => exact absurd trivial hn
      | conflict a b =>
        by_cases ha : a = .strLit
        · have : joinSides .bytes (g.map (·.version1)) = .error .typeError := by
            unfold joinSides
            rw [if_pos ⟨rfl, List.mem_map.2 ⟨_, hg, ha⟩⟩]
          rw [this]
          rfl
        · have hb : b = .strLit := Classical.byContradiction fun hb => hn ⟨ha, hb⟩
          have : joinSides .bytes (g.map (·.version2)) = .error .typeError := by
            unfold joinSides
            rw [if_pos ⟨rfl, List.mem_map.2 ⟨_, hg, hb⟩⟩]
          rw [this]
          rcases joinSides_bytes (g.map (·.version1)) with e | e
          · rw [e]; rfl
          · rw [e]; simp [joinSides, bind, Except.bind]
    · have hxr : x ∈ r := by
        rw [h4] at hx
        simp only [List.mem_append] at hx
        rcases hx with hx | hx | hx
        · exact absurd hx hg
        · have := h6 x hx
          cases x with
          | input f => exact absurd trivial hn
          | conflict a b => cases this
        · exact hx
      rw [ih r (by omega) ⟨x, hxr, hn⟩]
      rcases joinSides_bytes (g.map (·.version1)) with e | e
      · rw [e]; rfl
      rcases joinSides_bytes (g.map (·.version2)) with e' | e'
      · rw [e, e']; simp [joinSides, bind, Except.bind]
      obtain ⟨d, hd1, _⟩ := reSplit_ok (g.flatMap (·.version1.toList)) (g.flatMap (·.version2.toList))
      have j1 := joinSides_ok (kind := .tuple) (s := g.map (·.version1)) (.inl (by simp))
      have j2 := joinSides_ok (kind := .tuple) (s := g.map (·.version2)) (.inl (by simp))
      rw [List.flatMap_map] at j1 j2
      rw [e, e', j1, j2]
      simp only [bind, Except.bind, hd1]

/-- Merging bytes raises exactly when an insertion comes right behind a clash. -/
theorem merge_bytes_iff {parent b0 b1 : List α} {d0 d1 : List (DiffItem α)}
    (h0 : diffTokenSequences parent b0 = some d0) (h1 : diffTokenSequences parent b1 = some d1) :
    mergeTokenSequence .bytes parent b0 b1 = .error .typeError ↔
      InsertsBehindClash (editsOf 0 d0) (editsOf 0 d1) := by
  obtain ⟨cs0, hc0, hd0, hF0, hs0, ha0⟩ := merge_setup parent b0
  obtain ⟨cs1, hc1, hd1, hF1, hs1, ha1⟩ := merge_setup parent b1
  have e0 : cs0.asDiffStream parent = d0 := by rw [h0] at hd0; simpa using hd0.symm
  have e1 : cs1.asDiffStream parent = d1 := by rw [h1] at hd1; simpa using hd1.symm
  subst e0 e1
  obtain ⟨merged, m1, _⟩ := mergeLoop_general _ 0 parent _ _ false hF0 hF1 (Nat.le_refl _)
  have hl := loop_lit _ 0 parent _ _ false merged hF0 hF1 (by simp) m1
  rw [fedits_map, fedits_map, trouble_iff] at hl
  rw [← hl, merge_eq hc0 hc1 hs0 hs1 m1]
  constructor
  · intro he
    refine Classical.byContradiction fun hn => ?_
    obtain ⟨out, o1, _⟩ := consolidate_spec .bytes merged (.inr fun x hx =>
      Classical.byContradiction fun h => hn ⟨x, hx, h⟩)
    rw [o1] at he
    cases he
  · intro hx
    unfold consolidate
    rw [consolidateConflicts_lit _ _ (Nat.le_refl _) hx]
    rfl

end Gaspra
