import Verif.Proofs.MergeClean

/-!
# The two consolidation passes, and termination of `_merge`
-/

set_option linter.unusedSectionVars false
set_option linter.unusedSimpArgs false
set_option linter.unusedVariables false

namespace Gaspra

variable {α : Type _}

/-! ## Tokens -/

/-- The tokens of a conflict side. -/
def Side.toList : Side α → List α
  | .seq l => l
  | .strLit => []

/-- The tokens of a raw fragment that end up in the output. -/
def MFragment.tokens : MFragment α → List α
  | .input f => f.insert
  | .conflict a b => a.toList ++ b.toList

/-- No side is the literal `""`. -/
def MFragment.noLit : MFragment α → Prop
  | .input _ => True
  | .conflict a b => a ≠ .strLit ∧ b ≠ .strLit

theorem substring_iff_infix {s w : List α} : Substring s w ↔ w <:+: s := by
  constructor
  · rintro ⟨i, p, q, h, _⟩; exact ⟨p, q, h.symm⟩
  · rintro ⟨p, q, h⟩; exact ⟨p.length, p, q, h.symm, rfl⟩

/-! ## Decomposition -/

theorem mem_takeWhile_true {β : Type _} {f : β → Bool} : ∀ {l : List β} {x : β},
    x ∈ l.takeWhile f → f x = true := by
  intro l
  induction l with
  | nil => intro x h; simp at h
  | cons a l ih =>
    intro x h
    rw [List.takeWhile_cons] at h
    by_cases ha : f a = true
    · simp only [ha, if_true, List.mem_cons] at h
      rcases h with rfl | h
      · exact ha
      · exact ih h
    · simp [ha] at h

theorem dropWhile_head_false {β : Type _} {f : β → Bool} : ∀ {l l' : List β} {x : β},
    l.dropWhile f = x :: l' → f x = false := by
  intro l
  induction l with
  | nil => intro l' x h; simp at h
  | cons a l ih =>
    intro l' x h
    rw [List.dropWhile_cons] at h
    by_cases ha : f a = true
    · simp only [ha, if_true] at h; exact ih h
    · simp [ha] at h
      rw [← h.1]; simpa using ha

theorem decompose (L : List (MFragment α)) :
    ∃ g o r, L.takeWhile (·.isConflict) = g ∧
      (L.dropWhile (·.isConflict)).takeWhile (fun f => !f.isConflict) = o ∧
      (L.dropWhile (·.isConflict)).dropWhile (fun f => !f.isConflict) = r ∧
      L = g ++ (o ++ r) ∧ (∀ x ∈ g, x.isConflict = true) ∧ (∀ x ∈ o, x.isConflict = false) ∧
      (o = [] → r = []) ∧ (L ≠ [] → r.length < L.length) ∧
      (∀ x ∈ r.head?, x.isConflict = true) := by
  have e : L = L.takeWhile (·.isConflict) ++
      ((L.dropWhile (·.isConflict)).takeWhile (fun f => !f.isConflict) ++
        (L.dropWhile (·.isConflict)).dropWhile (fun f => !f.isConflict)) := by
    rw [List.takeWhile_append_dropWhile, List.takeWhile_append_dropWhile]
  have hg : ∀ x ∈ L.takeWhile (·.isConflict), x.isConflict = true := fun x hx =>
    mem_takeWhile_true (f := fun f : MFragment α => f.isConflict) hx
  have ho : ∀ x ∈ (L.dropWhile (·.isConflict)).takeWhile (fun f => !f.isConflict),
      x.isConflict = false := fun x hx => by
    simpa using mem_takeWhile_true hx
  have hor : (L.dropWhile (·.isConflict)).takeWhile (fun f => !f.isConflict) = [] →
      (L.dropWhile (·.isConflict)).dropWhile (fun f => !f.isConflict) = [] := by
    intro h
    cases hd : L.dropWhile (·.isConflict) with
    | nil => rfl
    | cons x l =>
      have hx : x.isConflict = false := by
        simpa using dropWhile_head_false hd
      rw [hd] at h
      simp [List.takeWhile_cons, hx] at h
  have hrh : ∀ x ∈ ((L.dropWhile (·.isConflict)).dropWhile (fun f => !f.isConflict)).head?,
      x.isConflict = true := by
    intro x hx
    cases hd : (L.dropWhile (·.isConflict)).dropWhile (fun f => !f.isConflict) with
    | nil => rw [hd] at hx; simp at hx
    | cons y l =>
      rw [hd] at hx; simp at hx; subst hx
      simpa using dropWhile_head_false hd
  refine ⟨_, _, _, rfl, rfl, rfl, e, hg, ho, hor, fun hne => ?_, hrh⟩
  generalize L.takeWhile (·.isConflict) = g at *
  generalize (L.dropWhile (·.isConflict)).takeWhile (fun f => !f.isConflict) = o at *
  generalize (L.dropWhile (·.isConflict)).dropWhile (fun f => !f.isConflict) = r at *
  have hl := congrArg List.length e
  simp only [List.length_append] at hl
  cases o with
  | nil =>
    have := hor rfl
    subst this
    have : 0 < L.length := List.length_pos_iff.2 hne
    simpa using this
  | cons => simp at hl; omega

/-- No two adjacent conflicts. -/
def NoAdj : List (MFragment α) → Prop
  | [] => True
  | [_] => True
  | x :: y :: rest => (x.isConflict = false ∨ y.isConflict = false) ∧ NoAdj (y :: rest)

theorem NoAdj.append {a b : List (MFragment α)} (ha : NoAdj a) (hb : NoAdj b)
    (h : ∀ x ∈ a.getLast?, ∀ y ∈ b.head?, x.isConflict = false ∨ y.isConflict = false) :
    NoAdj (a ++ b) := by
  induction a with
  | nil => simpa using hb
  | cons x a ih =>
    cases a with
    | nil =>
      cases b with
      | nil => trivial
      | cons y b => exact ⟨h x (by simp) y (by simp), hb⟩
    | cons y a =>
      refine ⟨ha.1, ih ha.2 ?_⟩
      intro u hu v hv
      exact h u (by simpa using hu) v hv

theorem NoAdj.tail {x : MFragment α} {l : List (MFragment α)} (h : NoAdj (x :: l)) : NoAdj l := by
  cases l with
  | nil => trivial
  | cons y l => exact h.2

theorem NoAdj.right {a b : List (MFragment α)} (h : NoAdj (a ++ b)) : NoAdj b := by
  induction a with
  | nil => exact h
  | cons x a ih => exact ih h.tail

theorem NoAdj.of_inputs {o : List (MFragment α)} (h : ∀ x ∈ o, x.isConflict = false) : NoAdj o := by
  induction o with
  | nil => trivial
  | cons x o ih =>
    cases o with
    | nil => trivial
    | cons y o => exact ⟨Or.inl (h x (by simp)), ih (fun z hz => h z (by simp [hz]))⟩

/-- The raw fragment of a diff item. -/
def toM : DiffItem α → MFragment α
  | .common p => .input (.copy p p.length)
  | .change a b => .conflict (.seq a) (.seq b)

theorem toM_tokens (x : DiffItem α) : (toM x).tokens = x.tokens := by
  cases x <;> rfl

theorem toM_isConflict (x : DiffItem α) : (toM x).isConflict = x.isChange := by
  cases x <;> rfl

theorem NoAdj.of_alternating {d : List (DiffItem α)} (h : Alternating d) : NoAdj (d.map toM) := by
  induction d with
  | nil => trivial
  | cons x d ih =>
    cases d with
    | nil => trivial
    | cons y d =>
      refine ⟨?_, ih h.2⟩
      have := h.1
      rw [toM_isConflict, toM_isConflict]
      revert this
      cases x.isChange <;> cases y.isChange <;> simp

theorem mem_tokens_iff (d : List (DiffItem α)) (t : α) :
    (∃ x ∈ d, t ∈ x.tokens) ↔ t ∈ intoText d ∨ t ∈ fromText d := by
  induction d with
  | nil => simp [intoText, fromText]
  | cons x d ih =>
    simp only [List.mem_cons, exists_eq_or_imp, ih, intoText, fromText, List.flatMap_cons,
      List.mem_append]
    cases x with
    | common p => simp [DiffItem.tokens]; grind
    | change a b => simp [DiffItem.tokens]; grind

theorem change_infix {d : List (DiffItem α)} {a b : List α} (h : .change a b ∈ d) :
    a <:+: intoText d ∧ b <:+: fromText d := by
  obtain ⟨l, r, rfl⟩ := List.append_of_mem h
  constructor
  · exact ⟨intoText l, intoText r, by simp [intoText]⟩
  · exact ⟨fromText l, fromText r, by simp [fromText]⟩

/-- Every maximal run of conflicts (continuing `a1`, `a2`) has its first sides spelling a
substring of `b0` and its second sides a substring of `b1`. -/
def GroupsOK (b0 b1 : List α) : List α → List α → List (MFragment α) → Prop
  | a1, a2, [] => a1 <:+: b0 ∧ a2 <:+: b1
  | a1, a2, .input _ :: r => a1 <:+: b0 ∧ a2 <:+: b1 ∧ GroupsOK b0 b1 [] [] r
  | a1, a2, .conflict v1 v2 :: r => GroupsOK b0 b1 (a1 ++ v1.toList) (a2 ++ v2.toList) r

theorem GroupsOK.conflicts {b0 b1 : List α} : ∀ (g : List (MFragment α)) (a1 a2 : List α)
    (r : List (MFragment α)), (∀ x ∈ g, x.isConflict = true) → GroupsOK b0 b1 a1 a2 (g ++ r) →
    GroupsOK b0 b1 (a1 ++ g.flatMap (·.version1.toList)) (a2 ++ g.flatMap (·.version2.toList)) r := by
  intro g
  induction g with
  | nil => intro a1 a2 r _ h; simpa using h
  | cons x g ih =>
    intro a1 a2 r hg h
    cases x with
    | input f => have := hg (.input f) (by simp); simp [MFragment.isConflict] at this
    | conflict v1 v2 =>
      have := ih _ _ r (fun y hy => hg y (by simp [hy])) h
      simpa [MFragment.version1, MFragment.version2] using this

theorem GroupsOK.inputs {b0 b1 : List α} : ∀ (o : List (MFragment α)) (a1 a2 : List α)
    (r : List (MFragment α)), (∀ x ∈ o, x.isConflict = false) → GroupsOK b0 b1 a1 a2 (o ++ r) →
    (o = [] → r = []) → (a1 <:+: b0 ∧ a2 <:+: b1) ∧ GroupsOK b0 b1 [] [] r := by
  intro o
  induction o with
  | nil =>
    intro a1 a2 r _ h hr
    have := hr rfl; subst this
    exact ⟨h, by simp [GroupsOK]⟩
  | cons x o ih =>
    intro a1 a2 r ho h hr
    cases x with
    | conflict u v => have := ho (.conflict u v) (by simp); simp [MFragment.isConflict] at this
    | input f =>
      obtain ⟨h1, h2, h3⟩ := h
      refine ⟨⟨h1, h2⟩, ?_⟩
      cases o with
      | nil => exact h3
      | cons y o => exact (ih [] [] r (fun z hz => ho z (by simp [hz])) h3 (by simp)).2

variable [DecidableEq α]

/-! ## Joining -/

theorem joinSides_ok {kind : Kind} {s : List (Side α)} (h : kind ≠ .bytes ∨ .strLit ∉ s) :
    joinSides kind s = .ok (s.flatMap (·.toList)) := by
  unfold joinSides
  rw [if_neg (by rintro ⟨h1, h2⟩; rcases h with h | h <;> contradiction)]
  rfl

theorem reSplit_ok (v1 v2 : List α) : ∃ d, reSplit v1 v2 = .ok (d.map toM) ∧
    intoText d = v1 ∧ fromText d = v2 ∧ (∀ x ∈ d, x.Normal) ∧ Alternating d := by
  obtain ⟨cs, h, V⟩ := findChangeset_spec v2 v1
  obtain ⟨h1, h2⟩ := V.into (OccursAt.whole v2)
  refine ⟨cs.asDiffStream v2, ?_, h1, h2, V.normal (OccursAt.whole _), V.alternating (OccursAt.whole _)⟩
  simp only [reSplit, h, stream_eq, List.map_map]
  congr 1
  apply List.map_congr_left
  intro x _
  cases x <;> rfl

/-! ## First pass -/

theorem mem_versions {g : List (MFragment α)} (hg : ∀ x ∈ g, x.isConflict = true) (t : α) :
    (∃ x ∈ g, t ∈ x.tokens) ↔
      t ∈ g.flatMap (·.version1.toList) ∨ t ∈ g.flatMap (·.version2.toList) := by
  constructor
  · rintro ⟨x, hx, ht⟩
    cases x with
    | input => have := hg _ hx; simp [MFragment.isConflict] at this
    | conflict a b =>
      simp only [MFragment.tokens, List.mem_append] at ht
      rcases ht with ht | ht
      · left; exact List.mem_flatMap.2 ⟨_, hx, ht⟩
      · right; exact List.mem_flatMap.2 ⟨_, hx, ht⟩
  · rintro (h | h)
    · obtain ⟨x, hx, ht⟩ := List.mem_flatMap.1 h
      cases x with
      | input => simp [MFragment.version1, Side.toList] at ht
      | conflict a b => exact ⟨_, hx, by simp [MFragment.tokens]; left; exact ht⟩
    · obtain ⟨x, hx, ht⟩ := List.mem_flatMap.1 h
      cases x with
      | input => simp [MFragment.version2, Side.toList] at ht
      | conflict a b => exact ⟨_, hx, by simp [MFragment.tokens]; right; exact ht⟩

theorem noLit_versions {kind : Kind} {L g : List (MFragment α)}
    (hk : kind ≠ .bytes ∨ ∀ x ∈ L, x.noLit) (hsub : ∀ x ∈ g, x ∈ L)
    (hg : ∀ x ∈ g, x.isConflict = true) :
    (kind ≠ .bytes ∨ Side.strLit ∉ g.map (·.version1)) ∧
    (kind ≠ .bytes ∨ Side.strLit ∉ g.map (·.version2)) := by
  rcases hk with hk | hk
  · exact ⟨Or.inl hk, Or.inl hk⟩
  · constructor <;> right
    · intro h
      obtain ⟨x, hx, he⟩ := List.mem_map.1 h
      cases x with
      | input => have := hg _ hx; simp [MFragment.isConflict] at this
      | conflict a b => exact (hk _ (hsub _ hx)).1 he
    · intro h
      obtain ⟨x, hx, he⟩ := List.mem_map.1 h
      cases x with
      | input => have := hg _ hx; simp [MFragment.isConflict] at this
      | conflict a b => exact (hk _ (hsub _ hx)).2 he

/-- A conflict of the first pass's output. -/
def MFragment.Clean : MFragment α → Prop
  | .input _ => True
  | .conflict a b => ∃ x y, a = .seq x ∧ b = .seq y ∧ (DiffItem.change x y).Normal

theorem pass1_spec (kind : Kind) : ∀ (fuel : Nat) (L : List (MFragment α)), L.length ≤ fuel →
    (kind ≠ .bytes ∨ ∀ x ∈ L, x.noLit) →
    ∃ R, consolidateConflicts kind fuel L = .ok R ∧
      (∀ t, (∃ x ∈ R, t ∈ x.tokens) ↔ (∃ x ∈ L, t ∈ x.tokens)) ∧
      (∀ x ∈ R, x.Clean) ∧ NoAdj R ∧
      ((∀ x ∈ L, x.isConflict = false) → R = L) ∧
      (∀ b0 b1 : List α, GroupsOK b0 b1 [] [] L → ∀ x y, .conflict (.seq x) (.seq y) ∈ R →
        x <:+: b0 ∧ y <:+: b1) := by
  intro fuel
  induction fuel with
  | zero =>
    intro L hL _
    have : L = [] := List.eq_nil_of_length_eq_zero (by omega)
    subst this
    exact ⟨[], rfl, by simp, by simp, trivial, by simp, by simp⟩
  | succ fuel ih =>
    intro L hL hk
    cases hLe : L with
    | nil => exact ⟨[], rfl, by simp, by simp, trivial, by simp, by simp⟩
    | cons x0 L0 =>
    obtain ⟨g, o, r, h1, h2, h3, h4, h5, h6, h7, h8, h9⟩ := decompose L
    have hr : r.length < L.length := h8 (by rw [hLe]; simp)
    have hgL : ∀ x ∈ g, x ∈ L := fun x hx => by rw [h4]; simp [hx]
    obtain ⟨hj1, hj2⟩ := noLit_versions hk hgL h5
    obtain ⟨d, hd1, hd2, hd3, hd4, hd5⟩ := reSplit_ok (g.flatMap (·.version1.toList))
      (g.flatMap (·.version2.toList))
    have hkr : kind ≠ .bytes ∨ ∀ x ∈ r, x.noLit := by
      rcases hk with hk | hk
      · left; exact hk
      · right; intro x hx; exact hk x (by rw [h4]; simp [hx])
    obtain ⟨R', hR1, hR2, hR3, hR4, hR5, hR6⟩ := ih r (by omega) hkr
    have j1 := joinSides_ok hj1
    have j2 := joinSides_ok hj2
    rw [List.flatMap_map] at j1 j2
    refine ⟨d.map toM ++ o ++ R', ?_, ?_, ?_, ?_, ?_, ?_⟩
    · rw [hLe] at h1 h2 h3
      simp only [consolidateConflicts, h1, h2, h3, j1, j2]
      simp only [bind, Except.bind, hd1, hR1, pure, Except.pure]
    · intro t
      have ed : (∃ x ∈ d.map toM, t ∈ x.tokens) ↔ (∃ x ∈ g, t ∈ x.tokens) := by
        rw [mem_versions h5, ← hd2, ← hd3, ← mem_tokens_iff]
        constructor
        · rintro ⟨x, hx, ht⟩
          obtain ⟨y, hy, rfl⟩ := List.mem_map.1 hx
          exact ⟨y, hy, by rwa [toM_tokens] at ht⟩
        · rintro ⟨y, hy, ht⟩
          exact ⟨toM y, List.mem_map.2 ⟨y, hy, rfl⟩, by rwa [toM_tokens]⟩
      rw [← hLe, h4]
      simp only [List.mem_append, or_and_right, exists_or, ed, hR2 t]
      grind
    · intro x hx
      simp only [List.mem_append, List.mem_map] at hx
      rcases hx with (⟨y, hy, rfl⟩ | hx) | hx
      · cases y with
        | common => trivial
        | change a b => exact ⟨a, b, rfl, rfl, hd4 _ hy⟩
      · have := h6 x hx
        cases x with
        | input => trivial
        | conflict => simp [MFragment.isConflict] at this
      · exact hR3 x hx
    · by_cases ho : o = []
      · have := h7 ho
        subst this ho
        have : R' = [] := hR5 (by simp)
        subst this
        simpa using NoAdj.of_alternating hd5
      · apply NoAdj.append (NoAdj.append (NoAdj.of_alternating hd5) (NoAdj.of_inputs h6) ?_) hR4 ?_
        · intro x hx y hy
          right; exact h6 y (List.mem_of_mem_head? hy)
        · intro x hx y hy
          left
          obtain ⟨o', z, rfl⟩ : ∃ o' z, o = o' ++ [z] := by
            rcases List.eq_nil_or_concat o with h | ⟨o', z, h⟩
            · exact absurd h ho
            · exact ⟨o', z, by simpa using h⟩
          rw [← List.append_assoc] at hx
          simp at hx
          subst hx
          exact h6 z (by simp)
    · intro hall
      rw [← hLe] at hall
      have hg0 : g = [] := by
        cases g with
        | nil => rfl
        | cons y g =>
          have e1 := h5 y (by simp)
          have e2 := hall y (hgL y (by simp))
          rw [e1] at e2; simp at e2
      subst hg0
      simp at hd2 hd3
      have hd0 : d = [] := by
        cases d with
        | nil => rfl
        | cons y d =>
          have := hd4 y (by simp)
          cases y with
          | common p =>
            simp [intoText] at hd2
            exact absurd hd2.1 this
          | change a b =>
            simp [intoText, fromText] at hd2 hd3
            rcases this.1 with h | h
            · exact absurd hd2.1 h
            · exact absurd hd3.1 h
      subst hd0
      have : R' = r := hR5 (fun x hx => hall x (by rw [h4]; simp [hx]))
      subst this
      rw [← hLe, h4]; simp
    · intro b0 b1 hG x y hxy
      rw [← hLe, h4] at hG
      have hG' := GroupsOK.conflicts g [] [] (o ++ r) h5 hG
      obtain ⟨⟨hs1, hs2⟩, hG''⟩ := GroupsOK.inputs o _ _ r h6 hG' h7
      simp only [List.nil_append] at hs1 hs2
      simp only [List.mem_append, List.mem_map] at hxy
      rcases hxy with (⟨z, hz, hze⟩ | hxy) | hxy
      · cases z with
        | common => simp [toM] at hze
        | change a b =>
          simp [toM] at hze
          obtain ⟨rfl, rfl⟩ := hze
          obtain ⟨i1, i2⟩ := change_infix hz
          rw [hd2] at i1; rw [hd3] at i2
          exact ⟨i1.trans hs1, i2.trans hs2⟩
      · have := h6 _ hxy
        simp [MFragment.isConflict] at this
      · exact hR6 b0 b1 hG'' x y hxy

/-! ## Second pass -/

theorem MergeNormal.cons_change {a b : List α} {l : List (DiffItem α)}
    (h : (DiffItem.change a b).Normal) (hl : MergeNormal l) : MergeNormal (.change a b :: l) := by
  cases l with
  | nil => exact h
  | cons y l => exact ⟨h, Or.inl rfl, hl⟩

theorem MergeNormal.cons_common {p : List α} {l : List (DiffItem α)}
    (h : p ≠ []) (hl : MergeNormal l) (hh : ∀ y ∈ l.head?, y.isChange = true) :
    MergeNormal (.common p :: l) := by
  cases l with
  | nil => exact h
  | cons y l => exact ⟨h, Or.inr (hh y (by simp)), hl⟩

theorem group_le_one {g r : List (MFragment α)} (h : NoAdj (g ++ r))
    (hg : ∀ x ∈ g, x.isConflict = true) : g = [] ∨ ∃ x, g = [x] := by
  cases g with
  | nil => left; rfl
  | cons x g =>
    right
    cases g with
    | nil => exact ⟨x, rfl⟩
    | cons y g =>
      have h1 := h.1
      have h2 := hg x (by simp)
      have h3 := hg y (by simp)
      rw [h2, h3] at h1
      simp at h1

theorem pass2_spec (kind : Kind) : ∀ (fuel : Nat) (R : List (MFragment α)), R.length ≤ fuel →
    (∀ x ∈ R, x.Clean) → NoAdj R →
    ∃ out, consolidateAllLoop kind fuel R = .ok out ∧
      (∀ t, (∃ x ∈ out, t ∈ x.tokens) ↔ (∃ x ∈ R, t ∈ x.tokens)) ∧
      MergeNormal out ∧
      (∀ x ∈ R.head?, x.isConflict = true → ∀ y ∈ out.head?, y.isChange = true) ∧
      ((∀ x ∈ R, x.isConflict = false) → out =
        if R.flatMap (·.insert.toList) = [] then [] else [.common (R.flatMap (·.insert.toList))]) ∧
      (∀ a b, .change a b ∈ out → .conflict (.seq a) (.seq b) ∈ R) := by
  intro fuel
  induction fuel with
  | zero =>
    intro R hR _ _
    have : R = [] := List.eq_nil_of_length_eq_zero (by omega)
    subst this
    exact ⟨[], rfl, by simp, trivial, by simp, by simp, by simp⟩
  | succ fuel ih =>
    intro R hR hc hn
    cases hRe : R with
    | nil => exact ⟨[], rfl, by simp, trivial, by simp, by simp, by simp⟩
    | cons x0 R0 =>
    obtain ⟨g, o, r, h1, h2, h3, h4, h5, h6, h7, h8, h9⟩ := decompose R
    have hr : r.length < R.length := h8 (by rw [hRe]; simp)
    have hgR : ∀ x ∈ g, x ∈ R := fun x hx => by rw [h4]; simp [hx]
    have hcl : kind ≠ .bytes ∨ ∀ x ∈ R, x.noLit := by
      right
      intro x hx
      have := hc x hx
      cases x with
      | input => trivial
      | conflict a b =>
        obtain ⟨u, v, rfl, rfl, _⟩ := this
        exact ⟨by simp, by simp⟩
    obtain ⟨hj1, hj2⟩ := noLit_versions hcl hgR h5
    have j1 := joinSides_ok hj1
    have j2 := joinSides_ok hj2
    have hj3 : kind ≠ .bytes ∨ Side.strLit ∉ o.map (·.insert) := by
      right
      intro h
      obtain ⟨x, hx, he⟩ := List.mem_map.1 h
      have := h6 x hx
      cases x with
      | input => simp [MFragment.insert] at he
      | conflict => simp [MFragment.isConflict] at this
    have j3 := joinSides_ok hj3
    rw [List.flatMap_map] at j1 j2 j3
    obtain ⟨out', hO1, hO2, hO3, hO4, hO5, hO6⟩ := ih r (by omega)
      (fun x hx => hc x (by rw [h4]; simp [hx]))
      (by rw [h4] at hn; exact hn.right.right)
    have hrun : consolidateAllLoop kind (fuel + 1) (x0 :: R0) = .ok
        ((if bothEmpty (g.flatMap (·.version1.toList)) (g.flatMap (·.version2.toList)) then []
          else [.change (g.flatMap (·.version1.toList)) (g.flatMap (·.version2.toList))]) ++
        (if (o.flatMap (·.insert.toList)).isEmpty then []
          else [.common (o.flatMap (·.insert.toList))]) ++ out') := by
      rw [hRe] at h1 h2 h3
      simp only [consolidateAllLoop, h1, h2, h3, j1, j2, j3]
      simp only [bind, Except.bind, hO1, pure, Except.pure]
    have hgcase : (g = [] ∧ bothEmpty (g.flatMap (·.version1.toList)) (g.flatMap (·.version2.toList)) = true) ∨
        ∃ a b, g = [.conflict (.seq a) (.seq b)] ∧ (DiffItem.change a b).Normal ∧
          bothEmpty a b = false := by
      rw [h4] at hn
      rcases group_le_one hn h5 with h | ⟨x, h⟩
      · left; subst h; exact ⟨rfl, rfl⟩
      · right
        cases x with
        | input f => have := h5 (.input f) (by simp [h]); simp [MFragment.isConflict] at this
        | conflict u v =>
          obtain ⟨a, b, rfl, rfl, hnorm⟩ := hc _ (hgR (.conflict u v) (by simp [h]))
          refine ⟨a, b, h, hnorm, ?_⟩
          cases hbe : bothEmpty a b with
          | false => rfl
          | true =>
            obtain ⟨rfl, rfl⟩ := bothEmpty_iff.1 hbe
            have := hnorm.1
            simp at this
    have hout'head : ∀ y ∈ out'.head?, y.isChange = true := by
      cases hrc : r with
      | nil =>
        have := hO5 (by rw [hrc]; simp)
        rw [hrc] at this; simp at this
        rw [this]; simp
      | cons z r' =>
        rw [hrc] at hO4 h9
        exact hO4 z (by simp) (h9 z (by simp))
    generalize hT : o.flatMap (·.insert.toList) = T at *
    have htok_o : ∀ t, (∃ x ∈ o, t ∈ x.tokens) ↔ t ∈ T := by
      intro t
      rw [← hT, List.mem_flatMap]
      constructor
      · rintro ⟨x, hx, ht⟩
        refine ⟨x, hx, ?_⟩
        have := h6 x hx
        cases x with
        | input => exact ht
        | conflict => simp [MFragment.isConflict] at this
      · rintro ⟨x, hx, ht⟩
        refine ⟨x, hx, ?_⟩
        have := h6 x hx
        cases x with
        | input => exact ht
        | conflict => simp [MFragment.isConflict] at this
    have hmid : MergeNormal ((if T.isEmpty then [] else [.common T]) ++ out') := by
      cases hTe : T with
      | nil => simpa using hO3
      | cons t T' => exact MergeNormal.cons_common (by simp) hO3 hout'head
    have htok_mid : ∀ t, (∃ x ∈ (if T.isEmpty then [] else [DiffItem.common T]), t ∈ x.tokens) ↔ t ∈ T := by
      intro t
      cases hTe : T with
      | nil => simp
      | cons t T' => simp [DiffItem.tokens]
    rcases hgcase with ⟨rfl, hbe⟩ | ⟨a, b, hge, hnorm, hbe⟩
    · rw [hbe] at hrun
      simp only [if_true, List.nil_append] at hrun
      refine ⟨_, hrun, ?_, hmid, ?_, ?_, ?_⟩
      · intro t
        rw [← hRe, h4]
        simp only [List.nil_append, List.mem_append, or_and_right, exists_or, htok_o, htok_mid, hO2 t]
      · intro x hx hxc y hy
        rw [← hRe, h4] at hx
        cases o with
        | nil =>
          have := h7 rfl
          subst this
          simp at hx
        | cons z o' =>
          simp at hx; subst hx
          have := h6 z (by simp)
          rw [this] at hxc; simp at hxc
      · intro hall
        rw [← hRe] at hall
        have hr0 : r = [] := by
          cases r with
          | nil => rfl
          | cons z r' =>
            have e1 := h9 z (by simp)
            have e2 := hall z (by rw [h4]; simp)
            rw [e1] at e2; simp at e2
        subst hr0
        have : out' = [] := by simpa using hO5 (by simp)
        subst this
        rw [← hRe, h4]
        simp only [List.nil_append, List.append_nil, hT]
        cases T <;> simp
      · intro u v huv
        rw [← hRe, h4]
        simp only [List.mem_append] at huv
        rcases huv with huv | huv
        · cases T with
          | nil => simp at huv
          | cons => simp at huv
        · simp [hO6 u v huv]
    · subst hge
      simp only [List.flatMap_cons, List.flatMap_nil, List.append_nil, MFragment.version1,
        MFragment.version2, Side.toList, hbe, Bool.false_eq_true, if_false, List.cons_append,
        List.nil_append] at hrun
      refine ⟨_, hrun, ?_, MergeNormal.cons_change hnorm hmid, ?_, ?_, ?_⟩
      · intro t
        rw [← hRe, h4]
        simp only [List.mem_cons, List.mem_append, List.not_mem_nil, or_false, or_and_right, exists_or,
          exists_eq_left, htok_o, htok_mid, hO2 t]
        simp [DiffItem.tokens, MFragment.tokens, Side.toList]
      · intro x _ _ y hy
        simp at hy; subst hy; rfl
      · intro hall
        have := hall (.conflict (.seq a) (.seq b)) (by rw [← hRe, h4]; simp)
        simp [MFragment.isConflict] at this
      · intro u v huv
        rw [← hRe, h4]
        simp only [List.mem_cons, List.mem_append] at huv
        rcases huv with huv | huv | huv
        · cases huv; simp
        · cases T with
          | nil => simp at huv
          | cons => simp at huv
        · simp [hO6 u v huv]

/-! ## Both passes -/

/-- Both consolidation passes succeed unless a literal `""` meets `bytes`; facts about the
result. -/
theorem consolidate_spec (kind : Kind) (L : List (MFragment α))
    (hk : kind ≠ .bytes ∨ ∀ x ∈ L, x.noLit) :
    ∃ out, consolidate kind L = .ok out ∧
      (∀ t, (∃ x ∈ out, t ∈ x.tokens) ↔ (∃ x ∈ L, t ∈ x.tokens)) ∧
      (MergeNormal out ∧ out ≠ [] ∨ out = [.common []]) ∧
      ((∀ x ∈ L, x.isConflict = false) → out = [.common (L.flatMap (·.insert.toList))]) ∧
      (∀ b0 b1 : List α, GroupsOK b0 b1 [] [] L → ∀ x y, .change x y ∈ out →
        x <:+: b0 ∧ y <:+: b1) := by
  obtain ⟨R, h1, h2, h3, h4, h5, h6⟩ := pass1_spec kind L.length L (Nat.le_refl _) hk
  obtain ⟨out, o1, o2, o3, o4, o5, o6⟩ := pass2_spec kind R.length R (Nat.le_refl _) h3 h4
  have hrun : consolidate kind L = .ok (if out.isEmpty then [.common []] else out) := by
    simp only [consolidate, consolidateAll, h1, bind, Except.bind, o1, pure, Except.pure]
  refine ⟨_, hrun, ?_, ?_, ?_, ?_⟩
  · intro t
    rw [← h2 t, ← o2 t]
    cases out <;> simp [DiffItem.tokens]
  · cases out with
    | nil => right; rfl
    | cons => left; exact ⟨o3, by simp⟩
  · intro hall
    have hR := h5 hall
    subst hR
    have := o5 hall
    rw [this]
    split <;> simp_all
  · intro b0 b1 hG x y hxy
    have : .change x y ∈ out := by
      cases out with
      | nil => simp at hxy
      | cons => simpa using hxy
    exact h6 b0 b1 hG x y (o6 x y this)

end Gaspra
