import Verif.Proofs.Merge
import Verif.Spec.MergeLocal

/-!
# Merging is local
-/

set_option linter.unusedSectionVars false
set_option linter.unusedSimpArgs false
set_option linter.unusedVariables false

namespace Gaspra

variable {α : Type _}

/-! ## Consolidation -/

/-- The symbols of the raw output of `_merge`: tokens, conflicts, and a mark for a fragment that
inserts nothing. -/
abbrev Sym (α : Type _) := Option α ⊕ (List α × List α)

/-- The symbols of a raw fragment. -/
def MFragment.flat : MFragment α → List (Sym α)
  | .input f => if f.insert = [] then [.inl none] else f.insert.map fun t => .inl (some t)
  | .conflict a b => [.inr (a.toList, b.toList)]

/-- The symbols of the raw output. -/
def flats (L : List (MFragment α)) : List (Sym α) := L.flatMap MFragment.flat

/-- A fragment as tokens and changes. -/
def MFragment.spelled : MFragment α → List (α ⊕ (List α × List α))
  | .input f => f.insert.map Sum.inl
  | .conflict a b => [.inr (a.toList, b.toList)]

theorem flats_append (a b : List (MFragment α)) : flats (a ++ b) = flats a ++ flats b := by
  simp [flats]

theorem flats_cons (x : MFragment α) (b : List (MFragment α)) : flats (x :: b) = x.flat ++ flats b := by
  simp [flats]

theorem spell_nil : spell ([] : List (DiffItem α)) = [] := rfl

theorem spell_cons (x : DiffItem α) (d : List (DiffItem α)) : spell (x :: d) = spell [x] ++ spell d := by
  simp [spell]

variable [DecidableEq α]

/-- What a group of conflicts with these sides turns into. -/
def emit (v1 v2 : List α) : List (α ⊕ (List α × List α)) :=
  match diffTokenSequences v2 v1 with
  | some d => spell d
  | none => []

/-- Adjacent conflicts are put together and compared. -/
def grouped : List α → List α → List (Sym α) → List (α ⊕ (List α × List α))
  | v1, v2, [] => emit v1 v2
  | v1, v2, .inr (a, b) :: r => grouped (v1 ++ a) (v2 ++ b) r
  | v1, v2, .inl none :: r => emit v1 v2 ++ grouped [] [] r
  | v1, v2, .inl (some t) :: r => emit v1 v2 ++ .inl t :: grouped [] [] r

theorem emit_nil : emit ([] : List α) [] = [] := by
  obtain ⟨d, h, h1, h2, h3, _⟩ := reSplit_ok ([] : List α) []
  obtain ⟨cs, hc, V⟩ := findChangeset_spec ([] : List α) []
  have hd : diffTokenSequences ([] : List α) [] = some (cs.asDiffStream []) := by
    simp only [diffTokenSequences, hc]
  unfold emit
  rw [hd]
  have hn := V.normal (OccursAt.whole _)
  obtain ⟨i1, i2⟩ := V.into (OccursAt.whole ([] : List α))
  generalize cs.asDiffStream ([] : List α) = d at *
  cases d with
  | nil => rfl
  | cons y d =>
    have := hn y (by simp)
    cases y with
    | common p =>
      simp [intoText] at i1
      exact absurd i1.1 this
    | change a b =>
      simp [intoText, fromText] at i1 i2
      rcases this.1 with h | h
      · exact absurd i1.1 h
      · exact absurd i2.1 h

theorem grouped_token (X Y : List (Sym α)) (t : α) : ∀ v1 v2,
    grouped v1 v2 (X ++ .inl (some t) :: Y) = grouped v1 v2 X ++ .inl t :: grouped [] [] Y := by
  induction X with
  | nil => intro v1 v2; simp [grouped]
  | cons x X ih =>
    intro v1 v2
    rcases x with (_ | u) | ⟨a, b⟩ <;> simp [grouped, ih]

theorem grouped_tokens (w : List α) : grouped [] [] (w.map fun t => (.inl (some t) : Sym α)) = w.map Sum.inl := by
  induction w with
  | nil => simp [grouped, emit_nil]
  | cons t w ih => simp [grouped, emit_nil, ih]

theorem grouped_conflicts (g r : List (MFragment α)) (hg : ∀ x ∈ g, x.isConflict = true) : ∀ v1 v2,
    grouped v1 v2 (flats (g ++ r)) = grouped (v1 ++ g.flatMap (·.version1.toList))
      (v2 ++ g.flatMap (·.version2.toList)) (flats r) := by
  induction g with
  | nil => intro v1 v2; simp
  | cons x g ih =>
    intro v1 v2
    have ih := ih (fun y hy => hg y (by simp [hy]))
    cases x with
    | input f => have := hg (.input f) (by simp); simp [MFragment.isConflict] at this
    | conflict a b =>
      simp only [List.cons_append, flats_cons, MFragment.flat, List.singleton_append, grouped]
      rw [List.nil_append, ih]
      simp [MFragment.version1, MFragment.version2]

theorem grouped_input (f : Fragment α) (r : List (MFragment α)) (v1 v2 : List α) :
    grouped v1 v2 (flats (.input f :: r)) = emit v1 v2 ++ f.insert.map Sum.inl ++ grouped [] [] (flats r) := by
  rw [flats_cons, MFragment.flat]
  have key : ∀ (w : List α) (t : α) v1 v2, grouped v1 v2 ((t :: w).map (fun t => (.inl (some t) : Sym α)) ++ flats r) =
      emit v1 v2 ++ (t :: w).map Sum.inl ++ grouped [] [] (flats r) := by
    intro w
    induction w with
    | nil => intro t v1 v2; simp [grouped]
    | cons u w ih =>
      intro t v1 v2
      rw [List.map_cons, List.cons_append, grouped, ih]
      simp [emit_nil]
  cases h : f.insert with
  | nil => simp [grouped]
  | cons t w => simpa using key w t v1 v2

theorem grouped_inputs (o r : List (MFragment α)) (ho : ∀ x ∈ o, x.isConflict = false) (hor : o = [] → r = []) :
    ∀ v1 v2, grouped v1 v2 (flats (o ++ r)) =
      emit v1 v2 ++ o.flatMap (·.spelled) ++ grouped [] [] (flats r) := by
  induction o with
  | nil =>
    intro v1 v2
    rw [hor rfl]
    simp [flats, grouped, emit_nil]
  | cons x o ih =>
    intro v1 v2
    cases x with
    | conflict a b => have := ho (.conflict a b) (by simp); simp [MFragment.isConflict] at this
    | input f =>
      rw [List.cons_append, grouped_input]
      cases o with
      | nil => simp [MFragment.spelled]
      | cons y o =>
        rw [ih (fun z hz => ho z (by simp [hz])) (by simp)]
        simp [MFragment.spelled, emit_nil]

theorem spelled_toM (d : List (DiffItem α)) : (d.map toM).flatMap (·.spelled) = spell d := by
  induction d with
  | nil => rfl
  | cons x d ih =>
    rw [spell_cons, List.map_cons, List.flatMap_cons, ih]
    cases x <;> simp [toM, MFragment.spelled, spell, Side.toList]

theorem pass1_spells : ∀ (fuel : Nat) (L R : List (MFragment α)),
    consolidateConflicts .tuple fuel L = .ok R → R.flatMap (·.spelled) = grouped [] [] (flats L) := by
  intro fuel
  induction fuel with
  | zero =>
    intro L R h
    cases L with
    | nil => simp [consolidateConflicts] at h; subst h; simp [flats, grouped, emit_nil]
    | cons => simp [consolidateConflicts] at h
  | succ fuel ih =>
    intro L R h
    cases hLe : L with
    | nil => rw [hLe] at h; simp [consolidateConflicts] at h; subst h; simp [flats, grouped, emit_nil]
    | cons x0 L0 =>
    obtain ⟨g, o, r, h1, h2, h3, h4, h5, h6, h7, h8, h9⟩ := decompose L
    have hgL : ∀ x ∈ g, x ∈ L := fun x hx => by rw [h4]; simp [hx]
    obtain ⟨hj1, hj2⟩ := noLit_versions (kind := .tuple) (Or.inl (by simp)) hgL h5
    have j1 := joinSides_ok hj1
    have j2 := joinSides_ok hj2
    rw [List.flatMap_map] at j1 j2
    rw [hLe] at h1 h2 h3 h
    simp only [consolidateConflicts, h1, h2, h3, j1, j2, bind, Except.bind] at h
    obtain ⟨cs, hc, V⟩ := findChangeset_spec (g.flatMap (·.version2.toList)) (g.flatMap (·.version1.toList))
    have hre : reSplit (g.flatMap (·.version1.toList)) (g.flatMap (·.version2.toList)) =
        .ok ((cs.asDiffStream (g.flatMap (·.version2.toList))).map toM) := by
      simp only [reSplit, hc, stream_eq, List.map_map]
      congr 1
      apply List.map_congr_left
      intro x _
      cases x <;> rfl
    have hem : emit (g.flatMap (·.version1.toList)) (g.flatMap (·.version2.toList)) =
        spell (cs.asDiffStream (g.flatMap (·.version2.toList))) := by
      simp only [emit, diffTokenSequences, hc]
    rw [hre] at h
    dsimp only at h
    cases hr : consolidateConflicts Kind.tuple fuel r with
    | error e => rw [hr] at h; simp at h
    | ok R' =>
      rw [hr] at h
      simp only [pure, Except.pure, Except.ok.injEq] at h
      rw [← hLe, h4, grouped_conflicts g (o ++ r) h5, grouped_inputs o r h6 h7, ← ih r R' hr, ← h]
      simp only [List.nil_append, hem, List.flatMap_append, spelled_toM]

theorem spelled_inputs (o : List (MFragment α)) (ho : ∀ x ∈ o, x.isConflict = false) :
    o.flatMap (·.spelled) = (o.flatMap (·.insert.toList)).map Sum.inl := by
  induction o with
  | nil => rfl
  | cons x o ih =>
    cases x with
    | conflict a b => have := ho (.conflict a b) (by simp); simp [MFragment.isConflict] at this
    | input f =>
      rw [List.flatMap_cons, ih (fun z hz => ho z (by simp [hz]))]
      simp [MFragment.spelled, MFragment.insert, Side.toList]

theorem pass2_spells : ∀ (fuel : Nat) (R : List (MFragment α)) (out : List (DiffItem α)),
    consolidateAllLoop .tuple fuel R = .ok out → (∀ x ∈ R, x.Clean) → NoAdj R →
    spell out = R.flatMap (·.spelled) := by
  intro fuel
  induction fuel with
  | zero =>
    intro R out h _ _
    cases R with
    | nil => simp [consolidateAllLoop] at h; subst h; rfl
    | cons => simp [consolidateAllLoop] at h
  | succ fuel ih =>
    intro R out h hc hn
    cases hRe : R with
    | nil => rw [hRe] at h; simp [consolidateAllLoop] at h; subst h; rfl
    | cons x0 R0 =>
    obtain ⟨g, o, r, h1, h2, h3, h4, h5, h6, h7, h8, h9⟩ := decompose R
    have hgR : ∀ x ∈ g, x ∈ R := fun x hx => by rw [h4]; simp [hx]
    obtain ⟨hj1, hj2⟩ := noLit_versions (kind := .tuple) (Or.inl (by simp)) hgR h5
    have j1 := joinSides_ok hj1
    have j2 := joinSides_ok hj2
    have j3 := joinSides_ok (kind := .tuple) (s := o.map (·.insert)) (Or.inl (by simp))
    rw [List.flatMap_map] at j1 j2 j3
    rw [hRe] at h1 h2 h3 h
    simp only [consolidateAllLoop, h1, h2, h3, j1, j2, j3, bind, Except.bind] at h
    cases hr : consolidateAllLoop Kind.tuple fuel r with
    | error e => rw [hr] at h; simp at h
    | ok out' =>
      rw [hr] at h
      simp only [pure, Except.pure, Except.ok.injEq] at h
      have ih' := ih r out' hr (fun x hx => hc x (by rw [h4]; simp [hx]))
        (by rw [h4] at hn; exact hn.right.right)
      have sa : ∀ a b : List (DiffItem α), spell (a ++ b) = spell a ++ spell b := by intro a b; simp [spell]
      have hmid : spell (if (o.flatMap (·.insert.toList)).isEmpty then []
          else [DiffItem.common (o.flatMap (·.insert.toList))]) = o.flatMap (·.spelled) := by
        rw [spelled_inputs o h6]
        cases o.flatMap (·.insert.toList) <;> simp [spell]
      have hfst : spell (if bothEmpty (g.flatMap (·.version1.toList)) (g.flatMap (·.version2.toList)) then []
          else [DiffItem.change (g.flatMap (·.version1.toList)) (g.flatMap (·.version2.toList))]) =
          g.flatMap (·.spelled) := by
        rw [h4] at hn
        rcases group_le_one hn h5 with e | ⟨x, e⟩
        · subst e; rfl
        · cases x with
          | input f => have := h5 (.input f) (by simp [e]); simp [MFragment.isConflict] at this
          | conflict u v =>
            obtain ⟨a, b, rfl, rfl, hnorm⟩ := hc _ (hgR (.conflict u v) (by simp [e]))
            subst e
            have hbe : bothEmpty a b = false := by
              cases hbe : bothEmpty a b with
              | false => rfl
              | true =>
                obtain ⟨rfl, rfl⟩ := bothEmpty_iff.1 hbe
                have := hnorm.1
                simp at this
            simp [MFragment.version1, MFragment.version2, Side.toList, hbe, spell, MFragment.spelled]
      rw [← hRe, ← h, h4, sa, sa, hfst, hmid, ih']
      simp

/-- The result of consolidation: maximal groups of conflicts are compared. -/
theorem consolidate_spells {L : List (MFragment α)} {out : List (DiffItem α)}
    (h : consolidate .tuple L = .ok out) : spell out = grouped [] [] (flats L) := by
  obtain ⟨R, h1, _, h3, h4, _, _⟩ := pass1_spec .tuple L.length L (Nat.le_refl _) (Or.inl (by simp))
  obtain ⟨out', o1, _⟩ := pass2_spec .tuple R.length R (Nat.le_refl _) h3 h4
  have hrun : consolidate .tuple L = .ok (if out'.isEmpty then [.common []] else out') := by
    simp only [consolidate, consolidateAll, h1, bind, Except.bind, o1, pure, Except.pure]
  rw [hrun] at h
  have e : spell out = spell out' := by
    cases h
    cases out' <;> simp [spell]
  rw [e, pass2_spells _ _ _ o1 h3 h4, pass1_spells _ _ _ h1]

/-! ## The loop -/

/-- A copy fragment, unless it is empty. -/
def copyOf (w : List α) : List (Fragment α) := if w = [] then [] else [.copy w w.length]

/-- `F` is `G`, a copied token and `H`. -/
def CutAt (t : α) (F G H : List (Fragment α)) : Prop :=
  ∃ G' u v H', F = G' ++ .copy (u ++ t :: v) (u ++ t :: v).length :: H' ∧ G = G' ++ copyOf u ∧
    H = copyOf v ++ H'

theorem mergeLoop_fuel : ∀ (fuel : Nat) (F0 F1 : List (Fragment α)) (w : Bool) (out : List (MFragment α)),
    mergeLoop fuel F0 F1 w = some out → ∀ k, mergeLoop (fuel + k) F0 F1 w = some out := by
  intro fuel
  induction fuel with
  | zero =>
    intro F0 F1 w out h k
    cases F0 <;> cases F1 <;> simp_all [mergeLoop]
  | succ fuel ih =>
    intro F0 F1 w out h k
    cases F0 with
    | nil => cases F1 <;> simp_all [mergeLoop]
    | cons f0 F0 =>
      cases F1 with
      | nil => simp_all [mergeLoop]
      | cons f1 F1 =>
        rw [show fuel + 1 + k = (fuel + k) + 1 by omega]
        simp only [mergeLoop] at h ⊢
        cases hm : mergeLoop fuel ((processFragments f0 f1 w).2.1.toList ++ F0)
            ((processFragments f0 f1 w).2.2.1.toList ++ F1) (processFragments f0 f1 w).2.2.2 with
        | none => rw [hm] at h; simp at h
        | some o => rw [hm] at h; rw [ih _ _ _ _ hm k]; exact h

theorem mergeLoop_unique {a b : Nat} {F0 F1 : List (Fragment α)} {w : Bool} {o o' : List (MFragment α)}
    (h : mergeLoop a F0 F1 w = some o) (h' : mergeLoop b F0 F1 w = some o') : o = o' := by
  have x := mergeLoop_fuel _ _ _ _ _ h b
  have y := mergeLoop_fuel _ _ _ _ _ h' a
  rw [Nat.add_comm b a, x] at y
  simpa using y

theorem mergeLoop_invert {fuel : Nat} {f0 f1 : Fragment α} {fs0 fs1 : List (Fragment α)} {w : Bool}
    {out : List (MFragment α)} (h : mergeLoop fuel (f0 :: fs0) (f1 :: fs1) w = some out) :
    ∃ fuel' out', fuel = fuel' + 1 ∧
      mergeLoop fuel' ((processFragments f0 f1 w).2.1.toList ++ fs0)
        ((processFragments f0 f1 w).2.2.1.toList ++ fs1) (processFragments f0 f1 w).2.2.2 = some out' ∧
      out = (processFragments f0 f1 w).1.toList ++ out' := by
  cases fuel with
  | zero => simp [mergeLoop] at h
  | succ fuel =>
    simp only [mergeLoop] at h
    cases hm : mergeLoop fuel ((processFragments f0 f1 w).2.1.toList ++ fs0)
        ((processFragments f0 f1 w).2.2.1.toList ++ fs1) (processFragments f0 f1 w).2.2.2 with
    | none => rw [hm] at h; simp at h
    | some o =>
      rw [hm] at h
      exact ⟨fuel, o, rfl, hm, by simpa using h.symm⟩

theorem flat_copy {w : List α} {n : Nat} (hw : w ≠ []) :
    (MFragment.input (.copy w n)).flat = w.map fun t => .inl (some t) := by
  simp [MFragment.flat, hw]

/-- Two copies with a common beginning. -/
theorem copies_step {fuel : Nat} {u v0 v1 : List α} {H0 H1 : List (Fragment α)} {w : Bool}
    {out : List (MFragment α)} (hu : u ≠ [])
    (h : mergeLoop fuel (.copy (u ++ v0) (u ++ v0).length :: H0) (.copy (u ++ v1) (u ++ v1).length :: H1) w =
      some out) :
    ∃ fr outR, mergeLoop fr (copyOf v0 ++ H0) (copyOf v1 ++ H1) false = some outR ∧
      flats out = (u.map fun t => .inl (some t)) ++ flats outR := by
  obtain ⟨fuel', out', rfl, h1, h2⟩ := mergeLoop_invert h
  have hp : processFragments (.copy (u ++ v0) (u ++ v0).length) (.copy (u ++ v1) (u ++ v1).length) w =
      (let r := copyCopy (u ++ v0) (u ++ v0).length (u ++ v1) (u ++ v1).length; (r.1, r.2.1, r.2.2, false)) := by
    simp [processFragments]
  rw [hp] at h1 h2
  dsimp only at h1 h2
  simp only [copyCopy, List.length_append, splitCopy] at h1 h2
  have step : ∀ {o : Option (MFragment α)} {t0 t1 : Option (Fragment α)} (hv0 : v0 ≠ []) (hv1 : v1 ≠ []),
      copyCopy v0 v0.length v1 v1.length = (o, t0, t1) →
      mergeLoop fuel' (t0.toList ++ H0) (t1.toList ++ H1) false = some out' →
      mergeLoop (fuel' + 1) (copyOf v0 ++ H0) (copyOf v1 ++ H1) false = some (o.toList ++ out') := by
    intro o t0 t1 hv0 hv1 hc hm
    simp only [copyOf, hv0, hv1, if_false, List.singleton_append]
    refine mergeLoop_step ?_ hm
    simp [processFragments, hc]
  rcases Nat.lt_trichotomy v0.length v1.length with hl | hl | hl
  · have hv1 : v1 ≠ [] := by rintro rfl; simp at hl
    rw [if_pos (by omega), if_pos (by omega)] at h1
    rw [if_pos (by omega)] at h2
    simp only [Option.toList_none, Option.toList_some, List.nil_append, List.singleton_append] at h1 h2
    have e1 : (u ++ v1).drop (u.length + v0.length) = v1.drop v0.length := by
      rw [List.drop_append, List.drop_of_length_le (by omega)]; simp
    have e2 : u.length + v1.length - (u.length + v0.length) = v1.length - v0.length := by omega
    rw [e1, e2] at h1
    by_cases hv0 : v0 = []
    · subst hv0
      refine ⟨fuel', out', ?_, ?_⟩
      · simpa [copyOf, hv1] using h1
      · rw [h2, flats_cons, flat_copy (by simp [hu])]; simp
    · refine ⟨fuel' + 1, _, step (o := some (.input (.copy v0 v0.length))) (t0 := none)
        (t1 := some (.copy (v1.drop v0.length) (v1.length - v0.length))) hv0 hv1 ?_ ?_, ?_⟩
      · simp [copyCopy, hl, splitCopy]
      · simpa using h1
      · rw [h2]
        simp only [Option.toList_some, List.singleton_append, flats_cons]
        rw [flat_copy hv0, flat_copy (by simp [hu])]; simp
  · rw [if_neg (by omega), if_neg (by omega)] at h1
    rw [if_neg (by omega)] at h2
    simp only [Option.toList_none, Option.toList_some, List.nil_append, List.singleton_append] at h1 h2
    by_cases hv0 : v0 = []
    · subst hv0
      have hv1 : v1 = [] := List.eq_nil_of_length_eq_zero (by simpa using hl.symm)
      subst hv1
      refine ⟨fuel', out', ?_, ?_⟩
      · simpa [copyOf] using h1
      · rw [h2, flats_cons, flat_copy (by simp [hu])]; simp
    · have hv1 : v1 ≠ [] := by rintro rfl; simp at hl; exact hv0 hl
      refine ⟨fuel' + 1, _, step (o := some (.input (.copy v1 v1.length))) (t0 := none)
        (t1 := none) hv0 hv1 ?_ ?_, ?_⟩
      · simp [copyCopy, hl]
      · simpa using h1
      · rw [h2]
        simp only [Option.toList_some, List.singleton_append, flats_cons]
        rw [flat_copy hv1, flat_copy (by simp [hu])]; simp
  · have hv0 : v0 ≠ [] := by rintro rfl; simp at hl
    rw [if_neg (by omega), if_pos (by omega), if_pos (by omega)] at h1
    rw [if_neg (by omega)] at h2
    simp only [Option.toList_none, Option.toList_some, List.nil_append, List.singleton_append] at h1 h2
    have e1 : (u ++ v0).drop (u.length + v1.length) = v0.drop v1.length := by
      rw [List.drop_append, List.drop_of_length_le (by omega)]; simp
    have e2 : u.length + v0.length - (u.length + v1.length) = v0.length - v1.length := by omega
    rw [e1, e2] at h1
    by_cases hv1 : v1 = []
    · subst hv1
      refine ⟨fuel', out', ?_, ?_⟩
      · simpa [copyOf, hv0] using h1
      · rw [h2, flats_cons, flat_copy (by simp [hu])]; simp
    · refine ⟨fuel' + 1, _, step (o := some (.input (.copy v1 v1.length)))
        (t0 := some (.copy (v0.drop v1.length) (v0.length - v1.length))) (t1 := none) hv0 hv1 ?_ ?_, ?_⟩
      · simp only [copyCopy, if_neg (show ¬ v0.length < v1.length by omega),
          if_pos (show v1.length ≠ v0.length by omega), splitCopy, if_pos hl]
      · simpa using h1
      · rw [h2]
        simp only [Option.toList_some, List.singleton_append, flats_cons]
        rw [flat_copy hv1, flat_copy (by simp [hu])]; simp

theorem CutAt.cons {t : α} {F G H X : List (Fragment α)} (h : CutAt t F G H) :
    CutAt t (X ++ F) (X ++ G) H := by
  obtain ⟨G', u, v, H', rfl, rfl, rfl⟩ := h
  exact ⟨X ++ G', u, v, H', by simp, by simp, rfl⟩

theorem CutAt.inv_nil {t : α} {F H : List (Fragment α)} (h : CutAt t F [] H) :
    ∃ v H', F = .copy (t :: v) (t :: v).length :: H' ∧ H = copyOf v ++ H' := by
  obtain ⟨G', u, v, H', rfl, h2, rfl⟩ := h
  have h2 := h2.symm
  rw [List.append_eq_nil_iff] at h2
  obtain ⟨rfl, hu⟩ := h2
  have : u = [] := by
    unfold copyOf at hu
    split at hu
    · assumption
    · simp at hu
  subst this
  exact ⟨v, H', by simp, rfl⟩

theorem CutAt.inv_cons {t : α} {F G H : List (Fragment α)} {g : Fragment α} (h : CutAt t F (g :: G) H) :
    (∃ F', F = g :: F' ∧ CutAt t F' G H) ∨
    ∃ u v H', g = .copy u u.length ∧ G = [] ∧ u ≠ [] ∧ F = .copy (u ++ t :: v) (u ++ t :: v).length :: H' ∧
      H = copyOf v ++ H' := by
  obtain ⟨G', u, v, H', rfl, h2, rfl⟩ := h
  cases G' with
  | cons x G' =>
    rw [List.cons_append, List.cons.injEq] at h2
    obtain ⟨rfl, rfl⟩ := h2
    exact .inl ⟨_, rfl, G', u, v, H', rfl, rfl, rfl⟩
  | nil =>
    right
    rw [List.nil_append] at h2
    unfold copyOf at h2
    split at h2
    · simp at h2
    · next hu =>
      simp only [List.cons.injEq] at h2
      exact ⟨u, v, H', h2.1, h2.2, hu, rfl, rfl⟩

/-- What a copy and a change that is not longer give, in either order. -/
theorem copy_vs_change (c i d : List α) (cn : Nat) (w : Bool) (h : d.length ≤ cn) :
    processFragments (.copy c cn) (.change i d d.length) w =
      (if w then some (.conflict (if 0 < d.length then .seq (c.take d.length) else .strLit)
          (insertOrLit (splitChange i d d.length i.length d.length).1)) else some (.input (.change i d d.length)),
        if d.length < cn then some (.copy (c.drop d.length) (cn - d.length)) else none, none, w) ∧
    processFragments (.change i d d.length) (.copy c cn) w =
      (if w then some (.conflict (insertOrLit (splitChange i d d.length i.length d.length).1)
          (if 0 < d.length then .seq (c.take d.length) else .strLit)) else some (.input (.change i d d.length)),
        none, if d.length < cn then some (.copy (c.drop d.length) (cn - d.length)) else none, w) := by
  have hm : min cn d.length = d.length := by omega
  have hm' : min d.length cn = d.length := by omega
  have ht : (splitChange i d d.length i.length d.length).2 = none := by simp [splitChange]
  have hc : insertOrLit (splitCopy c cn d.length).1 =
      (if 0 < d.length then .seq (c.take d.length) else .strLit) := by
    simp only [splitCopy, gt_iff_lt]
    split <;> rfl
  cases w
  · constructor
    · simp only [processFragments, Bool.false_eq_true, if_false, copyChange, hm, if_true, splitCopy, gt_iff_lt]
      split <;> rfl
    · simp only [processFragments, Bool.false_eq_true, if_false, copyChange, hm, if_true, splitCopy, gt_iff_lt]
      split <;> rfl
  · constructor
    · simp only [processFragments, if_true, pendingConflict, length_copy, length_change, hm, splitFragment, ht, hc]
      rfl
    · simp only [processFragments, if_true, pendingConflict, length_copy, length_change, hm', splitFragment, ht, hc]
      rfl

theorem rest_copy (u : List α) (n : Nat) (h : n ≤ u.length) :
    (if n < u.length then some (Fragment.copy (u.drop n) (u.length - n)) else none).toList =
      copyOf (u.drop n) := by
  unfold copyOf
  by_cases hn : n < u.length
  · rw [if_pos hn, if_neg (by intro e; have := congrArg List.length e; simp at this; omega)]
    simp
  · rw [if_neg hn, if_pos (List.drop_of_length_le (by omega))]
    rfl

theorem long_copy {t : α} {u v : List α} {n : Nat} (h : n ≤ u.length) :
    (u ++ t :: v).take n = u.take n ∧
    (if n < (u ++ t :: v).length then some (Fragment.copy ((u ++ t :: v).drop n) ((u ++ t :: v).length - n))
      else none) = some (.copy (u.drop n ++ t :: v) (u.drop n ++ t :: v).length) := by
  refine ⟨by rw [List.take_append_of_le_length h], ?_⟩
  rw [if_pos (by simp; omega), List.drop_append_of_le_length h]
  congr 2
  simp; omega

/-- A token copied by both branches cuts the run of `_merge` in two. -/
theorem mergeLoop_cut {t : α} : ∀ (fuel : Nat) (p : List α) (F0 F1 G0 G1 H0 H1 : List (Fragment α)) (w : Bool)
    (out : List (MFragment α)), (∃ c h, FS c h p G0) → (∃ c h, FS c h p G1) → CutAt t F0 G0 H0 → CutAt t F1 G1 H1 →
    mergeLoop fuel F0 F1 w = some out →
    ∃ fl fr outL outR, mergeLoop fl G0 G1 w = some outL ∧ mergeLoop fr H0 H1 false = some outR ∧
      flats out = flats outL ++ .inl (some t) :: flats outR := by
  intro fuel
  induction fuel with
  | zero =>
    intro p F0 F1 G0 G1 H0 H1 w out _ _ C0 C1 h
    obtain ⟨a, u, v, b, rfl, _⟩ := C0
    obtain ⟨a', u', v', b', rfl, _⟩ := C1
    cases a <;> cases a' <;> simp [mergeLoop] at h
  | succ fuel ih =>
    rintro p F0 F1 G0 G1 H0 H1 w out ⟨c0, h0, S0⟩ ⟨c1, h1, S1⟩ C0 C1 h
    cases G0 with
    | nil =>
      obtain ⟨v0, H0', rfl, rfl⟩ := C0.inv_nil
      have := S0.inv_nil; subst this
      rcases S1.nil_of with rfl | ⟨i, hi, rfl⟩
      · obtain ⟨v1, H1', rfl, rfl⟩ := C1.inv_nil
        obtain ⟨fr, outR, r1, r2⟩ := copies_step (u := [t]) (by simp) h
        exact ⟨0, fr, [], outR, rfl, r1, by simpa [flats] using r2⟩
      · rcases C1.inv_cons with ⟨F1', rfl, C1'⟩ | ⟨u, v, H', e, _⟩
        · obtain ⟨v1, H1', rfl, rfl⟩ := C1'.inv_nil
          obtain ⟨fuel', out', _, m1, m2⟩ := mergeLoop_invert h
          have hp := (copy_vs_change (t :: v0) i [] (t :: v0).length w (by simp)).1
          simp only [List.length_nil] at hp
          rw [hp] at m1 m2
          simp only [List.length_cons, List.drop_zero, Nat.sub_zero, Option.toList_some, Option.toList_none,
            List.nil_append, List.singleton_append, Nat.zero_lt_succ, if_true] at m1
          obtain ⟨fr, outR, r1, r2⟩ := copies_step (u := [t]) (by simp) m1
          refine ⟨1, fr, flushRemaining [] [.change i [] 0] w, outR, by simp [mergeLoop], r1, ?_⟩
          rw [m2, flats_append, r2]
          have : flats ((if w then some (MFragment.conflict (if 0 < 0 then Side.seq ((t :: v0).take 0) else .strLit)
              (insertOrLit (splitChange i [] 0 i.length 0).1)) else some (.input (.change i [] 0))).toList) =
              flats (flushRemaining [] [.change i [] 0] w) := by
            cases w
            · simp [flushRemaining]
            · simp [flushRemaining, splitChange, List.length_pos_iff.2 hi, insertOrLit]
          rw [this]
          simp
        · cases e
    | cons g0 G0 =>
    cases G1 with
    | nil =>
      obtain ⟨v1, H1', rfl, rfl⟩ := C1.inv_nil
      have := S1.inv_nil; subst this
      rcases S0.nil_of with e | ⟨i, hi, e⟩
      · simp at e
      · rw [e] at C0 ⊢
        rcases C0.inv_cons with ⟨F0', rfl, C0'⟩ | ⟨u, v, H', e, _⟩
        · obtain ⟨v0, H0', rfl, rfl⟩ := C0'.inv_nil
          obtain ⟨fuel', out', _, m1, m2⟩ := mergeLoop_invert h
          have hp := (copy_vs_change (t :: v1) i [] (t :: v1).length w (by simp)).2
          simp only [List.length_nil] at hp
          rw [hp] at m1 m2
          simp only [List.length_cons, List.drop_zero, Nat.sub_zero, Option.toList_some, Option.toList_none,
            List.nil_append, List.singleton_append, Nat.zero_lt_succ, if_true] at m1
          obtain ⟨fr, outR, r1, r2⟩ := copies_step (u := [t]) (by simp) m1
          refine ⟨1, fr, flushRemaining [.change i [] 0] [] w, outR, by simp [mergeLoop], r1, ?_⟩
          rw [m2, flats_append, r2]
          have : flats ((if w then some (MFragment.conflict (insertOrLit (splitChange i [] 0 i.length 0).1)
              (if 0 < 0 then Side.seq ((t :: v1).take 0) else .strLit)) else some (.input (.change i [] 0))).toList) =
              flats (flushRemaining [.change i [] 0] [] w) := by
            cases w
            · simp [flushRemaining]
            · simp [flushRemaining, splitChange, List.length_pos_iff.2 hi, insertOrLit]
          rw [this]
          simp
        · cases e
    | cons g1 G1 =>
    obtain ⟨_, _, _, c, p', e, T0, T1, _⟩ := process_step (k := 0) w S0 S1
    rcases C0.inv_cons with ⟨F0', rfl, C0'⟩ | ⟨u0, v0, H0', rfl, rfl, hu0, rfl, rfl⟩
    · rcases C1.inv_cons with ⟨F1', rfl, C1'⟩ | ⟨u1, v1, H1', rfl, rfl, hu1, rfl, rfl⟩
      · obtain ⟨fuel', out', hf, m1, m2⟩ := mergeLoop_invert h
        cases hf
        rcases hP : processFragments g0 g1 w with ⟨o, z0, z1, w'⟩
        rw [hP] at m1 m2 T0 T1
        obtain ⟨fl, fr, outL, outR, l1, r1, r2⟩ := ih p' _ _ _ _ _ _ _ _ T0 T1 C0'.cons C1'.cons m1
        exact ⟨fl + 1, fr, _, outR, mergeLoop_step hP l1, r1, by rw [m2, flats_append, r2, flats_append]; simp⟩
      · obtain ⟨q, hq, _, _, S1'⟩ := S1.inv_copy
        have := S1'.inv_nil; subst this
        rw [List.append_nil] at hq; subst hq
        have fin : ∀ (n : Nat) (o o' : Option (MFragment α)) (z : Option (Fragment α)) (w' : Bool),
            processFragments g0 (.copy (p ++ t :: v1) (p ++ t :: v1).length) w =
              (o, none, some (.copy (p.drop n ++ t :: v1) (p.drop n ++ t :: v1).length), w') →
            processFragments g0 (.copy p p.length) w = (o', none, z, w') → z.toList = copyOf (p.drop n) →
            flats o.toList = flats o'.toList →
            ∃ fl fr outL outR, mergeLoop fl (g0 :: G0) [.copy p p.length] w = some outL ∧
              mergeLoop fr H0 (copyOf v1 ++ H1') false = some outR ∧
              flats out = flats outL ++ .inl (some t) :: flats outR := by
          intro n o o' z w' e1 e2 hz he
          obtain ⟨fuel', out', hf, m1, m2⟩ := mergeLoop_invert h
          cases hf
          rw [e1] at m1 m2
          rw [e2] at T0 T1
          obtain ⟨fl, fr, outL, outR, l1, r1, r2⟩ := ih p' _ _ _ _ _ _ _ _ T0 T1 C0'.cons
            ⟨[], p.drop n, v1, H1', rfl, by simp [hz], rfl⟩ m1
          exact ⟨fl + 1, fr, _, outR, mergeLoop_step e2 l1, r1, by
            rw [m2, flats_append, r2, flats_append, he]; simp⟩
        cases g0 with
        | copy w0 n0 =>
          obtain ⟨q, hq, rfl, hw0, S0'⟩ := S0.inv_copy
          have hl : w0.length ≤ p.length := by rw [hq]; simp
          have lc := (long_copy (t := t) (v := v1) hl).2
          rw [if_pos (by simp; omega)] at lc
          by_cases hlt : w0.length < p.length
          · refine fin w0.length (some (.input (.copy w0 w0.length))) (some (.input (.copy w0 w0.length)))
              (if w0.length < p.length then some (.copy (p.drop w0.length) (p.length - w0.length)) else none)
              false ?_ ?_ (rest_copy p _ hl) rfl
            · simp only [processFragments, copyCopy, splitCopy]
              rw [if_pos (by simp; omega), if_pos (by simp; omega), lc]
            · simp only [processFragments, copyCopy, splitCopy]
              rw [if_pos hlt]
          · have hqn : q = [] := by
              apply List.eq_nil_of_length_eq_zero
              have := congrArg List.length hq
              simp at this; omega
            subst hqn
            rw [List.append_nil] at hq
            subst hq
            refine fin p.length (some (.input (.copy p p.length))) (some (.input (.copy p p.length))) none
              false ?_ ?_ (by simp [copyOf]) rfl
            · simp only [processFragments, copyCopy, splitCopy]
              rw [if_pos (by simp), if_pos (by simp), lc]
            · simp [processFragments, copyCopy]
        | change i d n =>
          obtain ⟨q, hq, rfl, _, S0'⟩ := S0.inv_change
          have hd : d.length ≤ p.length := by rw [hq]; simp
          have lc := long_copy (t := t) (v := v1) hd
          have e1 := (copy_vs_change (p ++ t :: v1) i d (p ++ t :: v1).length w (by simp; omega)).2
          have e2 := (copy_vs_change p i d p.length w hd).2
          rw [lc.1, lc.2] at e1
          exact fin d.length _ _ _ w e1 e2 (rest_copy p _ hd) rfl
    · obtain ⟨q, hq, _, _, S0'⟩ := S0.inv_copy
      have := S0'.inv_nil; subst this
      rw [List.append_nil] at hq; subst hq
      rcases C1.inv_cons with ⟨F1', rfl, C1'⟩ | ⟨u1, v1, H1', rfl, rfl, hu1, rfl, rfl⟩
      · have fin : ∀ (n : Nat) (o o' : Option (MFragment α)) (z : Option (Fragment α)) (w' : Bool),
            processFragments (.copy (p ++ t :: v0) (p ++ t :: v0).length) g1 w =
              (o, some (.copy (p.drop n ++ t :: v0) (p.drop n ++ t :: v0).length), none, w') →
            processFragments (.copy p p.length) g1 w = (o', z, none, w') → z.toList = copyOf (p.drop n) →
            flats o.toList = flats o'.toList →
            ∃ fl fr outL outR, mergeLoop fl [.copy p p.length] (g1 :: G1) w = some outL ∧
              mergeLoop fr (copyOf v0 ++ H0') H1 false = some outR ∧
              flats out = flats outL ++ .inl (some t) :: flats outR := by
          intro n o o' z w' e1 e2 hz he
          obtain ⟨fuel', out', hf, m1, m2⟩ := mergeLoop_invert h
          cases hf
          rw [e1] at m1 m2
          rw [e2] at T0 T1
          obtain ⟨fl, fr, outL, outR, l1, r1, r2⟩ := ih p' _ _ _ _ _ _ _ _ T0 T1
            ⟨[], p.drop n, v0, H0', rfl, by simp [hz], rfl⟩ C1'.cons m1
          exact ⟨fl + 1, fr, _, outR, mergeLoop_step e2 l1, r1, by
            rw [m2, flats_append, r2, flats_append, he]; simp⟩
        cases g1 with
        | copy w1 n1 =>
          obtain ⟨q, hq, rfl, hw1, S1'⟩ := S1.inv_copy
          have hl : w1.length ≤ p.length := by rw [hq]; simp
          have lc := (long_copy (t := t) (v := v0) hl).2
          rw [if_pos (by simp; omega)] at lc
          refine fin w1.length (some (.input (.copy w1 w1.length))) (some (.input (.copy w1 w1.length)))
            (if w1.length < p.length then some (.copy (p.drop w1.length) (p.length - w1.length)) else none)
            false ?_ ?_ (rest_copy p _ hl) rfl
          · simp only [processFragments, copyCopy, splitCopy]
            rw [if_neg (by simp; omega), if_pos (by simp; omega), if_pos (by simp; omega), lc]
          · simp only [processFragments, copyCopy, splitCopy]
            rw [if_neg (by omega)]
            by_cases hlt : w1.length < p.length
            · rw [if_pos (by omega)]
            · rw [if_neg (by omega), if_neg hlt]
        | change i d n =>
          obtain ⟨q, hq, rfl, _, S1'⟩ := S1.inv_change
          have hd : d.length ≤ p.length := by rw [hq]; simp
          have lc := long_copy (t := t) (v := v0) hd
          have e1 := (copy_vs_change (p ++ t :: v0) i d (p ++ t :: v0).length w (by simp; omega)).1
          have e2 := (copy_vs_change p i d p.length w hd).1
          rw [lc.1, lc.2] at e1
          exact fin d.length _ _ _ w e1 e2 (rest_copy p _ hd) rfl
      · obtain ⟨q, hq, _, _, S1'⟩ := S1.inv_copy
        have := S1'.inv_nil; subst this
        rw [List.append_nil] at hq; subst hq
        have e : ∀ v : List α, p ++ t :: v = (p ++ [t]) ++ v := by simp
        rw [e v0, e v1] at h
        obtain ⟨fr, outR, r1, r2⟩ := copies_step (by simp) h
        refine ⟨1, fr, [.input (.copy p p.length)], outR, ?_, r1, ?_⟩
        · simp [mergeLoop, processFragments, copyCopy]
        · rw [r2, flats_cons, flat_copy hu1]
          simp [flats]

end Gaspra
