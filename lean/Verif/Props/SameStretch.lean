import Verif.Props.Rewritten

/-!
# C134: both branches change the same stretches
-/

set_option linter.unusedSectionVars false
set_option linter.unusedSimpArgs false

namespace Gaspra

variable {α : Type _} [DecidableEq α]

/-- Adjacent common pieces made one, empty ones left out. -/
def joinCommon : List (DiffItem α) → List (DiffItem α)
  | [] => []
  | .change a b :: d => .change a b :: joinCommon d
  | .common c :: d =>
    match joinCommon d with
    | .common c' :: r => .common (c ++ c') :: r
    | r => if c = [] then r else .common c :: r

/-- Both diffs have the same common pieces and replace the same stretches of the parent between them; the
last list has the diff of the two versions in the place of every stretch. -/
inductive SameSpots : List (DiffItem α) → List (DiffItem α) → List (DiffItem α) → Prop
  | nil : SameSpots [] [] []
  | common (c : List α) {d0 d1 e : List (DiffItem α)} : SameSpots d0 d1 e →
      SameSpots (.common c :: d0) (.common c :: d1) (.common c :: e)
  | change (z0 z1 o : List α) {k d0 d1 e : List (DiffItem α)} : diffTokenSequences z1 z0 = some k →
      SameSpots d0 d1 e → SameSpots (.change z0 o :: d0) (.change z1 o :: d1) (k ++ e)

theorem joinCommon_cons {x : DiffItem α} {d d' : List (DiffItem α)} (h : joinCommon d = joinCommon d') :
    joinCommon (x :: d) = joinCommon (x :: d') := by
  cases x <;> simp only [joinCommon, h]

theorem joinCommon_append : ∀ (k : List (DiffItem α)) {d d' : List (DiffItem α)},
    joinCommon d = joinCommon d' → joinCommon (k ++ d) = joinCommon (k ++ d')
  | [], _, _, h => h
  | _ :: k, _, _, h => joinCommon_cons (joinCommon_append k h)

/-- What the loop of the merge yields. -/
def spotsRaw : List (DiffItem α) → List (DiffItem α) → List (MFragment α)
  | .common c :: d0, .common _ :: d1 => .input (.copy c c.length) :: spotsRaw d0 d1
  | .change z0 o :: d0, .change z1 _ :: d1 =>
    (if z0 = z1 then .input (.change z0 o o.length) else .conflict (.seq z0) (.seq z1)) :: spotsRaw d0 d1
  | _, _ => []

theorem Alternating.rest {x : DiffItem α} {d : List (DiffItem α)} (h : Alternating (x :: d)) :
    Alternating d := by
  cases d with
  | nil => trivial
  | cons => exact h.2

/-- Two different changes of the same stretch are a conflict between what is inserted. -/
theorem change_same_stretch {z0 z1 o : List α} (h0 : z0 ≠ [] ∨ o ≠ []) (h1 : z1 ≠ [] ∨ o ≠ []) :
    processFragments (.change z0 o o.length) (.change z1 o o.length) false =
      (if z0 = z1 then (some (.input (.change z0 o o.length)), none, none, false)
       else (some (.conflict (.seq z0) (.seq z1)), none, none, true)) := by
  have hcomp : hasComposable z0 o.length z1 o.length = false := by
    rcases Decidable.em (o = []) with ho | ho
    · simp only [ho, ne_eq, not_true, or_false] at h0 h1
      simp [hasComposable, h0, h1, ho]
    · simp [hasComposable, ho]
  by_cases hz : z0 = z1
  · subst hz
    have hid : areIdentical z0 o o.length z0 o o.length = true := by
      simp [areIdentical, commonPrefixLength_self]
    simp [processFragments, changeChange, hcomp, hid]
  · have hid : areIdentical z0 o o.length z1 o o.length = false := by
      cases hb : areIdentical z0 o o.length z1 o o.length with
      | false => rfl
      | true =>
        exfalso
        simp only [areIdentical, Bool.and_eq_true, beq_iff_eq] at hb
        exact hz (eq_of_commonPrefixLength hb.1.1 hb.1.2)
    have s0 : o.length > 0 ∨ z0.length > 0 := by
      rcases h0 with h | h
      · exact .inr (List.length_pos_iff.2 h)
      · exact .inl (List.length_pos_iff.2 h)
    have s1 : o.length > 0 ∨ z1.length > 0 := by
      rcases h1 with h | h
      · exact .inr (List.length_pos_iff.2 h)
      · exact .inl (List.length_pos_iff.2 h)
    simp [processFragments, changeChange, hcomp, hid, hz, ordinaryConflict, splitChange, s0, s1,
      Fragment.insert]

theorem mergeLoop_spots {d0 d1 e : List (DiffItem α)} (h : SameSpots d0 d1 e) :
    ∀ (f : Nat) (within : Bool), (∀ x ∈ d0, x.Normal) → (∀ x ∈ d1, x.Normal) → Alternating d0 →
      d0.length ≤ f → (within = true → ∀ x ∈ d0.head?, x.isChange = false) →
      mergeLoop f (d0.map toFrag) (d1.map toFrag) within = some (spotsRaw d0 d1) := by
  induction h with
  | nil => intro f w _ _ _ _ _; cases f <;> rfl
  | @common c d0 d1 e hs ih =>
    intro f w n0 n1 a hf _
    obtain ⟨f, rfl⟩ : ∃ g, f = g + 1 := ⟨f - 1, by simp at hf; omega⟩
    have p : processFragments (.copy c c.length) (.copy c c.length) w =
        (some (.input (.copy c c.length)), none, none, false) := by
      simp [processFragments, copyCopy]
    have := ih f false (fun x hx => n0 x (by simp [hx])) (fun x hx => n1 x (by simp [hx])) a.rest
      (by simpa using hf) (by simp)
    simp only [List.map_cons, toFrag, mergeLoop, p, Option.toList_none, Option.toList_some, List.nil_append,
      this, spotsRaw, List.cons_append]
  | @change z0 z1 o k d0 d1 e hk hs ih =>
    intro f w n0 n1 a hf hw
    obtain ⟨f, rfl⟩ : ∃ g, f = g + 1 := ⟨f - 1, by simp at hf; omega⟩
    have hwf : w = false := by
      cases w with
      | false => rfl
      | true =>
        have := hw rfl (.change z0 o) (by simp)
        simp [DiffItem.isChange] at this
    subst hwf
    have p := change_same_stretch (n0 (.change z0 o) (by simp)).1 (n1 (.change z1 o) (by simp)).1
    have hh : ∀ x ∈ d0.head?, x.isChange = false := by
      intro x hx
      cases d0 with
      | nil => simp at hx
      | cons y d0 =>
        simp at hx
        subst hx
        have := a.1
        simp only [DiffItem.isChange] at this
        cases y <;> simp_all [DiffItem.isChange]
    have ih' := fun w => ih f w (fun x hx => n0 x (by simp [hx])) (fun x hx => n1 x (by simp [hx])) a.rest
      (by simpa using hf) (fun _ => hh)
    by_cases hz : z0 = z1
    · rw [if_pos hz] at p
      simp only [List.map_cons, toFrag, mergeLoop, p, Option.toList_none, Option.toList_some, List.nil_append,
        ih', spotsRaw, List.cons_append, if_pos hz]
    · rw [if_neg hz] at p
      simp only [List.map_cons, toFrag, mergeLoop, p, Option.toList_none, Option.toList_some, List.nil_append,
        ih', spotsRaw, List.cons_append, if_neg hz]

theorem spotsRaw_head {d0 d1 e : List (DiffItem α)} (h : SameSpots d0 d1 e) :
    ∀ y ∈ (spotsRaw d0 d1).head?, y.isConflict = true → ∀ x ∈ d0.head?, x.isChange = true := by
  cases h <;> simp [spotsRaw, MFragment.isConflict, DiffItem.isChange]

theorem spotsRaw_noAdj {d0 d1 e : List (DiffItem α)} (h : SameSpots d0 d1 e) :
    Alternating d0 → NoAdj (spotsRaw d0 d1) ∧ ∀ x ∈ spotsRaw d0 d1, x.noLit := by
  induction h with
  | nil => intro _; exact ⟨trivial, by simp [spotsRaw]⟩
  | @common c d0 d1 e hs ih =>
    intro a
    obtain ⟨i1, i2⟩ := ih a.rest
    refine ⟨?_, by simpa [spotsRaw, MFragment.noLit] using i2⟩
    simp only [spotsRaw]
    cases hq : spotsRaw d0 d1 with
    | nil => trivial
    | cons y r => rw [hq] at i1; exact ⟨.inl rfl, i1⟩
  | @change z0 z1 o k d0 d1 e hk hs ih =>
    intro a
    obtain ⟨i1, i2⟩ := ih a.rest
    refine ⟨?_, ?_⟩
    · simp only [spotsRaw]
      cases hq : spotsRaw d0 d1 with
      | nil => trivial
      | cons y r =>
        rw [hq] at i1
        refine ⟨.inr ?_, i1⟩
        cases hy : y.isConflict with
        | false => rfl
        | true =>
          exfalso
          have := spotsRaw_head hs y (by simp [hq]) hy
          cases d0 with
          | nil => cases hs; simp [spotsRaw] at hq
          | cons x d0 =>
            have hx := this x (by simp)
            exact a.1 hx.symm
    · intro x hx
      simp only [spotsRaw, List.mem_cons] at hx
      rcases hx with rfl | hx
      · by_cases hz : z0 = z1 <;> simp [hz, MFragment.noLit]
      · exact i2 x hx

/-- The fragments that replace one fragment in the first pass. -/
def splitRaw : MFragment α → List (MFragment α)
  | .conflict (.seq a) (.seq b) => ((diffTokenSequences b a).getD []).map toM
  | x => [x]

theorem reSplit_nil : reSplit ([] : List α) [] = .ok [] := by
  obtain ⟨e, e1, e2, _⟩ := reSplit_diff ([] : List α) []
  rw [show diffTokenSequences ([] : List α) [] = some [] by rw [C62_diff_exact]; exact .empty] at e1
  cases e1
  exact e2

theorem NoAdj.group {g r : List (MFragment α)} (h : NoAdj (g ++ r)) (hg : ∀ x ∈ g, x.isConflict = true) :
    g = [] ∨ ∃ x, g = [x] := by
  match g, h, hg with
  | [], _, _ => exact .inl rfl
  | [x], _, _ => exact .inr ⟨x, rfl⟩
  | x :: y :: g, h, hg =>
    have h1 := hg x (by simp)
    have h2 := hg y (by simp)
    have := h.1
    simp [h1, h2] at this

theorem flatMap_splitRaw_inputs {o : List (MFragment α)} (ho : ∀ x ∈ o, x.isConflict = false) :
    o.flatMap splitRaw = o := by
  induction o with
  | nil => rfl
  | cons x o ih =>
    rw [List.flatMap_cons, ih fun y hy => ho y (by simp [hy])]
    cases x with
    | input f => rfl
    | conflict a b => have := ho (.conflict a b) (by simp); simp [MFragment.isConflict] at this

/-- The first pass, when no conflicts are adjacent. -/
theorem consolidateConflicts_apart (kind : Kind) : ∀ (f : Nat) (L : List (MFragment α)), L.length ≤ f →
    NoAdj L → (∀ x ∈ L, x.noLit) → consolidateConflicts kind f L = .ok (L.flatMap splitRaw) := by
  have js : ∀ l : List α, joinSides kind [.seq l] = .ok l := by
    intro l; rw [joinSides_ok (.inr (by simp))]; simp [Side.toList]
  have j0 : joinSides kind ([] : List (Side α)) = .ok [] := by
    rw [joinSides_ok (.inr (by simp))]; rfl
  intro f
  induction f with
  | zero =>
    intro L hL _ _
    have : L = [] := List.eq_nil_of_length_eq_zero (by omega)
    subst this
    rfl
  | succ f ih =>
    intro L hL hn hl
    cases L with
    | nil => rfl
    | cons x0 L0 =>
      obtain ⟨g, o, r, eg, eo, er, e, hg, ho, _, hlt, _⟩ := decompose (x0 :: L0)
      have hlt := hlt (by simp)
      rw [e] at hn hl
      have hr := ih r (by omega) (by
        rw [← List.append_assoc] at hn
        exact hn.right) (fun x hx => hl x (by simp [hx]))
      have hgo : ∃ out, joinSides kind (g.map (·.version1)) = .ok (g.flatMap (·.version1.toList)) ∧
          joinSides kind (g.map (·.version2)) = .ok (g.flatMap (·.version2.toList)) ∧
          reSplit (g.flatMap (·.version1.toList)) (g.flatMap (·.version2.toList)) = .ok out ∧
          g.flatMap splitRaw = out := by
        rcases hn.group hg with rfl | ⟨x, rfl⟩
        · exact ⟨[], j0, j0, reSplit_nil, rfl⟩
        · have h1 := hg x (by simp)
          have h2 := hl x (by simp)
          match x, h1, h2 with
          | .conflict (.seq a) (.seq b), _, _ =>
            obtain ⟨d, d1, d2, _⟩ := reSplit_diff a b
            refine ⟨d.map toM, ?_, ?_, ?_, ?_⟩
            · simpa [MFragment.version1, Side.toList] using js a
            · simpa [MFragment.version2, Side.toList] using js b
            · simpa [MFragment.version1, MFragment.version2, Side.toList] using d2
            · simp [splitRaw, d1]
          | .conflict .strLit _, _, h2 => exact absurd rfl h2.1
          | .conflict (.seq _) .strLit, _, h2 => exact absurd rfl h2.2
      obtain ⟨out, g1, g2, g3, g4⟩ := hgo
      have ho' := flatMap_splitRaw_inputs ho
      rw [e, List.flatMap_append, List.flatMap_append, g4, ho', ← e]
      simp only [consolidateConflicts, eg, eo, er, g1, g2, g3, hr, bind, Except.bind, pure, Except.pure,
        List.append_assoc]

/-- One fragment as an item of a diff. -/
def rawItem : MFragment α → DiffItem α
  | .input f => .common f.insert
  | .conflict a b => .change a.toList b.toList

theorem joinCommon_inputs {o : List (MFragment α)} {r : List (DiffItem α)}
    (ho : ∀ x ∈ o, x.isConflict = false) (hr : ∀ x ∈ (joinCommon r).head?, x.isChange = true) :
    joinCommon (o.map rawItem ++ r) =
      (if (o.flatMap (·.insert.toList)).isEmpty then [] else [.common (o.flatMap (·.insert.toList))]) ++
        joinCommon r := by
  induction o with
  | nil => rfl
  | cons x o ih =>
    have ih := ih fun y hy => ho y (by simp [hy])
    match x, ho x (by simp) with
    | .input f, _ =>
      have ef : (MFragment.input f : MFragment α).insert.toList = f.insert := rfl
      simp only [List.map_cons, rawItem, List.cons_append, joinCommon, ih, List.flatMap_cons, ef]
      generalize o.flatMap (fun x => x.insert.toList) = t
      cases t with
      | nil =>
        simp only [List.isEmpty_nil, if_true, List.nil_append, List.append_nil]
        cases hj : joinCommon r with
        | nil => by_cases hf : f.insert = [] <;> simp [hf]
        | cons y r' =>
          have := hr y (by simp [hj])
          cases y with
          | common c => simp [DiffItem.isChange] at this
          | change a b => by_cases hf : f.insert = [] <;> simp [hf]
      | cons u t => simp

/-- The second pass, on the output of the first one, joins common pieces. -/
theorem consolidateAllLoop_join (kind : Kind) : ∀ (f : Nat) (L : List (MFragment α)), L.length ≤ f →
    NoAdj L → (∀ x ∈ L, x.Clean) → consolidateAllLoop kind f L = .ok (joinCommon (L.map rawItem)) := by
  have j0 : joinSides kind ([] : List (Side α)) = .ok [] := by
    rw [joinSides_ok (.inr (by simp))]; rfl
  intro f
  induction f with
  | zero =>
    intro L hL _ _
    have : L = [] := List.eq_nil_of_length_eq_zero (by omega)
    subst this
    rfl
  | succ f ih =>
    intro L hL hn hl
    cases L with
    | nil => rfl
    | cons x0 L0 =>
      obtain ⟨g, o, r, eg, eo, er, e, hg, ho, _, hlt, hh⟩ := decompose (x0 :: L0)
      have hlt := hlt (by simp)
      rw [e] at hn hl
      have hr := ih r (by omega) (by
        rw [← List.append_assoc] at hn
        exact hn.right) (fun x hx => hl x (by simp [hx]))
      have hhead : ∀ x ∈ (joinCommon (r.map rawItem)).head?, x.isChange = true := by
        cases r with
        | nil => simp [joinCommon]
        | cons y r =>
          match y, hh y (by simp) with
          | .conflict a b, _ => simp [rawItem, joinCommon, DiffItem.isChange]
      have hj := joinCommon_inputs (r := r.map rawItem) ho hhead
      have ji : joinSides kind (o.map (·.insert)) = .ok (o.flatMap (·.insert.toList)) := by
        rw [joinSides_ok (.inr ?_), List.flatMap_map]
        intro h
        obtain ⟨y, hy, e⟩ := List.mem_map.1 h
        match y, ho y hy with
        | .input f, _ => simp [MFragment.insert] at e
      have hgo : ∃ v1 v2, joinSides kind (g.map (·.version1)) = .ok v1 ∧
          joinSides kind (g.map (·.version2)) = .ok v2 ∧
          ∀ d, joinCommon (g.map rawItem ++ d) =
            (if bothEmpty v1 v2 then [] else [.change v1 v2]) ++ joinCommon d := by
        rcases hn.group hg with rfl | ⟨x, rfl⟩
        · exact ⟨[], [], j0, j0, fun d => by simp [bothEmpty]⟩
        · have h1 := hg x (by simp)
          have h2 := hl x (by simp)
          match x, h1, h2 with
          | .conflict _ _, _, ⟨a, b, rfl, rfl, hab⟩ =>
            refine ⟨a, b, ?_, ?_, ?_⟩
            · simp only [List.map_cons, List.map_nil, MFragment.version1]
              rw [joinSides_ok (.inr (by simp))]; simp [Side.toList]
            · simp only [List.map_cons, List.map_nil, MFragment.version2]
              rw [joinSides_ok (.inr (by simp))]; simp [Side.toList]
            · intro d
              have hb : bothEmpty a b = false := by
                have := hab.1
                cases a <;> cases b <;> simp_all [bothEmpty]
              simp [rawItem, Side.toList, joinCommon, hb]
      obtain ⟨v1, v2, g1, g2, g3⟩ := hgo
      rw [e, List.map_append, List.map_append, g3, hj, ← e]
      simp only [consolidateAllLoop, eg, eo, er, g1, g2, ji, hr, bind, Except.bind, pure, Except.pure,
        List.append_assoc]

/-- The fragments after the first pass, as a diff. -/
theorem spotsRaw_join {d0 d1 e : List (DiffItem α)} (h : SameSpots d0 d1 e) :
    joinCommon (((spotsRaw d0 d1).flatMap splitRaw).map rawItem) = joinCommon e := by
  induction h with
  | nil => rfl
  | common c hs ih =>
    simp only [spotsRaw, List.flatMap_cons, splitRaw, List.map_append, List.map_cons, List.map_nil, rawItem,
      Fragment.insert, List.cons_append, List.nil_append]
    exact joinCommon_cons ih
  | @change z0 z1 o k d0 d1 e hk hs ih =>
    by_cases hz : z0 = z1
    · subst hz
      rw [C13_diff_self] at hk
      injection hk with hk
      simp only [spotsRaw, List.flatMap_cons, if_true, splitRaw, List.map_append, List.map_cons, List.map_nil,
        rawItem, Fragment.insert, List.cons_append, List.nil_append]
      subst hk
      by_cases hz : z0 = []
      · simp only [hz, if_true, List.nil_append, joinCommon, ih]
        cases joinCommon e with
        | nil => rfl
        | cons y r => cases y <;> simp
      · simp only [hz, if_false, List.cons_append, List.nil_append]
        exact joinCommon_cons ih
    · simp only [spotsRaw, List.flatMap_cons, if_neg hz, splitRaw, List.map_append, hk, Option.getD_some,
        List.map_map]
      have : k.map (rawItem ∘ toM) = k := by
        rw [List.map_congr_left (g := id) (fun x _ => by cases x <;> rfl)]
        simp
      rw [this]
      exact joinCommon_append k ih

/-- C134.  If both branches change the same stretches of the parent, the merge is the common text with the
diff of the two versions in the place of every stretch. -/
theorem C134_same_stretches (kind : Kind) {parent b0 b1 : List α} {d0 d1 e : List (DiffItem α)}
    (h0 : diffTokenSequences parent b0 = some d0) (h1 : diffTokenSequences parent b1 = some d1)
    (h : SameSpots d0 d1 e) :
    mergeTokenSequence kind parent b0 b1 =
      .ok (if joinCommon e = [] then [.common []] else joinCommon e) := by
  obtain ⟨_, k0, n0, a0⟩ := C12_diff_normal_form parent b0
  obtain ⟨_, k1, n1, _⟩ := C12_diff_normal_form parent b1
  rw [h0] at k0
  cases k0
  rw [h1] at k1
  cases k1
  have hloop := mergeLoop_spots h (d0.length + d1.length) false n0 n1 a0 (by omega) (by simp)
  rw [merge_of_diffs kind h0 h1 hloop]
  obtain ⟨r1, r2⟩ := spotsRaw_noAdj h a0
  have p1 := consolidateConflicts_apart kind _ _ (Nat.le_refl _) r1 r2
  obtain ⟨R, q1, _, q2, q3, _⟩ := pass1_spec kind _ _ (Nat.le_refl _) (.inr r2)
  rw [p1] at q1
  cases q1
  have p2 := consolidateAllLoop_join kind _ _ (Nat.le_refl _) q3 q2
  rw [spotsRaw_join h] at p2
  simp only [consolidate, consolidateAll, p1, p2, bind, Except.bind, pure, Except.pure]
  cases joinCommon e <;> simp

/-- C134.  Both branches append something to the text. -/
theorem C134_append (kind : Kind) {p z0 z1 : List α} (hp : p ≠ []) (h0 : z0 ≠ []) (h1 : z1 ≠ []) :
    ∃ d, diffTokenSequences z1 z0 = some d ∧
      mergeTokenSequence kind p (p ++ z0) (p ++ z1) = .ok (joinCommon (.common p :: d)) := by
  obtain ⟨d, hd, _⟩ := C09_diff_reconstructs z1 z0
  refine ⟨d, hd, ?_⟩
  have h := C134_same_stretches kind (diff_append p hp h0) (diff_append p hp h1)
    (.common p (.change z0 z1 [] hd .nil))
  rw [List.append_nil] at h
  rw [h, if_neg]
  simp only [joinCommon]
  cases joinCommon d with
  | nil => simp [hp]
  | cons y r => cases y <;> simp [hp]

/-- C134.  Both branches insert something new at the same place in the middle of the text. -/
theorem C134_insert (kind : Kind) {x y z0 z1 : List α} (hx : x ≠ []) (hy : y ≠ []) (h0 : z0 ≠ [])
    (h1 : z1 ≠ []) (n0 : ∀ t ∈ z0, t ∉ x ++ y) (n1 : ∀ t ∈ z1, t ∉ x ++ y)
    (hf : ∀ i, OccursAt (x ++ y) y i → x.length ≤ i) :
    ∃ d, diffTokenSequences z1 z0 = some d ∧
      mergeTokenSequence kind (x ++ y) (x ++ z0 ++ y) (x ++ z1 ++ y) =
        .ok (joinCommon (.common x :: (d ++ [.common y]))) := by
  obtain ⟨d, hd, _⟩ := C09_diff_reconstructs z1 z0
  refine ⟨d, hd, ?_⟩
  have h := C134_same_stretches kind (C133_found hx hy h0 n0 hf) (C133_found hx hy h1 n1 hf)
    (.common x (.change z0 z1 [] hd (.common y .nil)))
  rw [h, if_neg]
  simp only [joinCommon]
  cases joinCommon (d ++ [.common y]) with
  | nil => simp [hx]
  | cons y r => cases y <;> simp [hx]

-- Both branches append: what they have in common at the start belongs to the common text.
example : mergeTokenSequence .str "ab".toList "abxyz".toList "abxw".toList =
    .ok [.common "abx".toList, .change "yz".toList "w".toList] := by decide +kernel
example : joinCommon [.common "ab".toList, .common "x".toList, .change "yz".toList "w".toList] =
    [.common "abx".toList, .change "yz".toList "w".toList] := by decide
-- Two stretches, one replaced and one inserted.
example : mergeTokenSequence .str "abcdef".toList "ab1de2f".toList "ab3de4f".toList =
    .ok [.common "ab".toList, .change "1".toList "3".toList, .common "de".toList,
      .change "2".toList "4".toList, .common "f".toList] := by decide +kernel
-- The conditions of `C134_same_stretches` are met by these texts, and both deletions are kept.
example : mergeTokenSequence .bytes [1, 2, 3, 4] [1, 7, 3] [1, 8, 3] =
    .ok [.common [1], .change [7] [8], .common [3]] :=
  C134_same_stretches .bytes (d0 := [.common [1], .change [7] [2], .common [3], .change [] [4]])
    (d1 := [.common [1], .change [8] [2], .common [3], .change [] [4]]) (by decide +kernel) (by decide +kernel)
    (.common [1] (.change [7] [8] [2] (k := [.change [7] [8]]) (by decide +kernel)
      (.common [3] (.change [] [] [4] (k := []) (by decide +kernel) .nil))))

end Gaspra
