import Verif.Proofs.AnchorMerge

/-!
# Diffs of texts with regions
-/

set_option linter.unusedSectionVars false
set_option linter.unusedSimpArgs false
set_option linter.unusedVariables false

namespace Gaspra

variable {α : Type _}

/-- Every change changes something. -/
def NonVoid (s : List (α ⊕ (List α × List α))) : Prop := ∀ a b, .inr (a, b) ∈ s → a ≠ [] ∨ b ≠ []

theorem NonVoid.nil_of {s : List (α ⊕ (List α × List α))} (h : NonVoid s) (h0 : oldS s = [])
    (h1 : newS s = []) : s = [] := by
  cases s with
  | nil => rfl
  | cons x s =>
    cases x with
    | inl t => simp [oldS] at h0
    | inr ab =>
      have := h ab.1 ab.2 (by simp)
      simp [oldS, newS] at h0 h1
      simp [h0.1, h1.1] at this

/-- Two cuts of a spelled diff, the first one in front of the second one. -/
theorem NonVoid.prefix {s X Y X' Y' : List (α ⊕ (List α × List α))} (h : NonVoid s) (e : s = X ++ Y)
    (e' : s = X' ++ Y') (h0 : (oldS X).length ≤ (oldS X').length) (h1 : (newS X).length ≤ (newS X').length) :
    ∃ S, X' = X ++ S ∧ Y = S ++ Y' := by
  have e'' : X ++ Y = X' ++ Y' := e ▸ e'
  by_cases hl : X.length ≤ X'.length
  · obtain ⟨S, hS, hS'⟩ := append_cut e'' hl
    exact ⟨S, hS, hS'⟩
  · obtain ⟨S, hS, hS'⟩ := append_cut e''.symm (by omega)
    have : S = [] := by
      apply NonVoid.nil_of (fun a b hab => h a b (by rw [e', hS']; simp [hab]))
      · rw [hS, oldS_append] at h0
        exact List.eq_nil_of_length_eq_zero (by simp at h0; omega)
      · rw [hS, newS_append] at h1
        exact List.eq_nil_of_length_eq_zero (by simp at h1; omega)
    subst this
    exact ⟨[], by simpa using hS.symm, by simpa using hS'.symm⟩

theorem NonVoid.cut_unique {s X Y X' Y' : List (α ⊕ (List α × List α))} (h : NonVoid s) (e : s = X ++ Y)
    (e' : s = X' ++ Y') (h0 : oldS X = oldS X') (h1 : newS X = newS X') : X = X' ∧ Y = Y' := by
  obtain ⟨S, hS, hS'⟩ := h.prefix e e' (by rw [h0]; exact Nat.le_refl _) (by rw [h1]; exact Nat.le_refl _)
  have : S = [] := by
    apply NonVoid.nil_of (fun a b hab => h a b (by rw [e, hS']; simp [hab]))
    · have := congrArg oldS hS
      rw [oldS_append, ← h0] at this
      simpa using this
    · have := congrArg newS hS
      rw [newS_append, ← h1] at this
      simpa using this
  subst this
  exact ⟨by simpa using hS.symm, by simpa using hS'⟩

/-- The diff keeps a landmark. -/
theorem landmark_cut {o m u c v u' v' : List α} {d : List (DiffItem α)} (h : IsDiff o m d)
    (ho : o = u ++ c ++ v) (hm : m = u' ++ c ++ v') (L : Landmark u c v u' v') :
    ∃ X Y, spell d = X ++ tokens c ++ Y ∧ oldS X = u ∧ newS X = u' ∧ oldS Y = v ∧ newS Y = v' := by
  obtain ⟨d1, x, y, d2, hd, h1, h2, h3, h4, _, _⟩ := isDiff_landmark h _ _ _ _ _ ho hm L
  refine ⟨spell d1 ++ tokens x, tokens y ++ spell d2, ?_, ?_, ?_, ?_, ?_⟩
  · rw [hd, spellAppend, spellCommon]; simp [tokens]
  · rw [oldS_append, oldS_tokens, oldS_spell, h1]
  · rw [newS_append, newS_tokens, newS_spell, h2]
  · rw [oldS_append, oldS_tokens, oldS_spell, h3]
  · rw [newS_append, newS_tokens, newS_spell, h4]

/-! ## Regions -/

/-- The text of regions without what follows them. -/
def preText (f : Region α → List α) (rs : List (Region α)) : List α := rs.flatMap fun r => r.keep ++ f r

/-- The unchanged text at the front. -/
def headKeep (rs : List (Region α)) (last : List α) : List α :=
  match rs with
  | [] => last
  | r :: _ => r.keep

/-- What follows the unchanged text at the front. -/
def afterHead (f : Region α → List α) (rs : List (Region α)) (last : List α) : List α :=
  match rs with
  | [] => []
  | r :: rs => f r ++ regionText f rs last

theorem regionText_append (f : Region α → List α) (rs rs' : List (Region α)) (last : List α) :
    regionText f (rs ++ rs') last = preText f rs ++ regionText f rs' last := by
  simp [regionText, preText]

theorem regionText_head (f : Region α → List α) (rs : List (Region α)) (last : List α) :
    regionText f rs last = headKeep rs last ++ afterHead f rs last := by
  cases rs <;> simp [regionText, headKeep, afterHead]

/-- `f` fills in regions with the old or the new text. -/
def Fills (f : Region α → List α) : Prop := ∀ r, f r = r.old ∨ f r = r.new

theorem Fills.mem {f : Region α → List α} (hf : Fills f) {r : Region α} {t : α} (h : t ∈ f r) :
    t ∈ r.old ++ r.new := by
  rcases hf r with e | e <;> rw [e] at h <;> simp [h]

theorem Fills.all {f : Region α → List α} (hf : Fills f) {r : Region α} {t : α} (h : t ∈ r.keep ++ f r) :
    t ∈ r.all := by
  rw [List.mem_append] at h
  unfold Region.all
  rcases h with h | h
  · simp [h]
  · have := hf.mem h
    simp at this
    rcases this with h | h <;> simp [h]

theorem mem_preText {f : Region α → List α} (hf : Fills f) {rs : List (Region α)} {t : α}
    (h : t ∈ preText f rs) : ∃ r ∈ rs, t ∈ r.all := by
  simp only [preText, List.mem_flatMap] at h
  obtain ⟨r, hr, ht⟩ := h
  exact ⟨r, hr, hf.all ht⟩

theorem mem_afterHead {f : Region α → List α} (hf : Fills f) {rs : List (Region α)} {last : List α} {t : α}
    (h : t ∈ afterHead f rs last) : ∃ r rs', rs = r :: rs' ∧
      (t ∈ r.old ++ r.new ∨ (∃ r' ∈ rs', t ∈ r'.all) ∨ t ∈ last) := by
  cases rs with
  | nil => simp [afterHead] at h
  | cons r rs =>
    simp only [afterHead, regionText, List.mem_append] at h
    rcases h with h | h | h
    · exact ⟨r, rs, rfl, .inl (hf.mem h)⟩
    · exact ⟨r, rs, rfl, .inr (.inl (mem_preText hf h))⟩
    · exact ⟨r, rs, rfl, .inr (.inr h)⟩

theorem Region.mem_all {r : Region α} {t : α} (h : t ∈ r.old ++ r.new) : t ∈ r.all := by
  unfold Region.all; simp at h ⊢; rcases h with h | h <;> simp [h]

theorem Region.keep_all {r : Region α} {t : α} (h : t ∈ r.keep) : t ∈ r.all := by
  unfold Region.all; simp [h]

/-- Unchanged text together with unchanged regions is a landmark. -/
theorem Separated.landmark {rs1 mid rs2 : List (Region α)} {last : List α} {f : Region α → List α}
    (h : Separated (rs1 ++ mid ++ rs2) last) (hf : Fills f)
    (hne : preText Region.old mid ++ headKeep rs2 last ≠ []) :
    Landmark (preText Region.old rs1) (preText Region.old mid ++ headKeep rs2 last)
      (afterHead Region.old rs2 last) (preText f rs1) (afterHead f rs2 last) := by
  have ho : Fills (Region.old (α := α)) := fun r => .inl rfl
  have hp := h.regions
  rw [List.pairwise_append, List.pairwise_append] at hp
  obtain ⟨⟨-, -, p12⟩, p3, p123⟩ := hp
  -- The block against what is before it.
  have A : ∀ {g : Region α → List α}, Fills g →
      Apart (preText Region.old mid ++ headKeep rs2 last) (preText g rs1) := by
    intro g hg t hc hu
    obtain ⟨r1, m1, t1⟩ := mem_preText hg hu
    rw [List.mem_append] at hc
    rcases hc with hc | hc
    · obtain ⟨r, m, t2⟩ := mem_preText ho hc
      exact p12 r1 m1 r m t t1 t2
    · cases rs2 with
      | nil => exact h.last r1 (by simp [m1]) t hc t1
      | cons r2 rs3 => exact p123 r1 (by simp [m1]) r2 (by simp) t t1 (Region.keep_all hc)
  -- The block against what is behind it.
  have B : ∀ {g : Region α → List α}, Fills g →
      Apart (preText Region.old mid ++ headKeep rs2 last) (afterHead g rs2 last) := by
    intro g hg t hc hv
    obtain ⟨r2, rs3, rfl, hw⟩ := mem_afterHead hg hv
    rw [List.mem_append] at hc
    rw [List.pairwise_cons] at p3
    rcases hc with hc | hc
    · obtain ⟨r, m, t2⟩ := mem_preText ho hc
      rcases hw with hv | ⟨r', m', hv⟩ | hv
      · exact p123 r (by simp [m]) r2 (by simp) t t2 (Region.mem_all hv)
      · exact p123 r (by simp [m]) r' (by simp [m']) t t2 hv
      · exact h.last r (by simp [m]) t hv t2
    · rcases hw with hv | ⟨r', m', hv⟩ | hv
      · exact h.keep r2 (by simp) t hc hv
      · exact p3.1 r' m' t (Region.keep_all hc) hv
      · exact h.last r2 (by simp) t hv (Region.keep_all hc)
  -- What is before against what is behind.
  have C : ∀ {g g' : Region α → List α}, Fills g → Fills g' →
      Apart (preText g rs1) (afterHead g' rs2 last) := by
    intro g g' hg hg' t hu hv
    obtain ⟨r1, m1, t1⟩ := mem_preText hg hu
    obtain ⟨r2, rs3, rfl, hw⟩ := mem_afterHead hg' hv
    rcases hw with hv | ⟨r', m', hv⟩ | hv
    · exact p123 r1 (by simp [m1]) r2 (by simp) t t1 (Region.mem_all hv)
    · exact p123 r1 (by simp [m1]) r' (by simp [m']) t t1 hv
    · exact h.last r1 (by simp [m1]) t hv t1
  exact ⟨hne, A ho, B ho, A hf, B hf, C ho hf, fun t hv hu => C hf ho t hu hv⟩

/-- A spelled diff that follows the regions. -/
def Follows (f : Region α → List α) (last : List α) :
    List (Region α) → List (α ⊕ (List α × List α)) → Prop
  | [], s => s = tokens last
  | r :: rs, s => ∃ S s', s = tokens r.keep ++ S ++ s' ∧ oldS S = r.old ∧ newS S = f r ∧
      (f r = r.old → S = tokens r.old) ∧ Follows f last rs s'

theorem preText_append (f : Region α → List α) (rs rs' : List (Region α)) :
    preText f (rs ++ rs') = preText f rs ++ preText f rs' := by simp [preText]

theorem preText_same {f : Region α → List α} {r : Region α} (h : f r = r.old) :
    preText f [r] = preText Region.old [r] := by simp [preText, h]

section
variable {rs1 mid rs2 : List (Region α)} {last : List α} {f : Region α → List α} {d : List (DiffItem α)}

/-- The diff keeps unchanged text together with unchanged regions. -/
theorem block_cut (h : Separated (rs1 ++ mid ++ rs2) last) (hf : Fills f) (hmid : preText f mid = preText Region.old mid)
    (hd : IsDiff (regionText Region.old (rs1 ++ mid ++ rs2) last) (regionText f (rs1 ++ mid ++ rs2) last) d)
    (hne : preText Region.old mid ++ headKeep rs2 last ≠ []) :
    ∃ X Y, spell d = X ++ (tokens (preText Region.old mid) ++ tokens (headKeep rs2 last) ++ Y) ∧
      oldS X = preText Region.old rs1 ∧ newS X = preText f rs1 ∧
      oldS Y = afterHead Region.old rs2 last ∧ newS Y = afterHead f rs2 last := by
  obtain ⟨X, Y, h1, h2⟩ := landmark_cut hd
    (by rw [List.append_assoc, regionText_append, regionText_append, regionText_head]; simp only [List.append_assoc])
    (by rw [List.append_assoc, regionText_append, regionText_append, regionText_head, hmid]; simp only [List.append_assoc])
    (h.landmark hf hne)
  exact ⟨X, Y, by rw [h1]; simp [tokens], h2⟩

/-- A cut between regions. -/
theorem region_cut (h : Separated (rs1 ++ rs2) last) (hf : Fills f) (h0 : rs1 ≠ [])
    (hd : IsDiff (regionText Region.old (rs1 ++ rs2) last) (regionText f (rs1 ++ rs2) last) d) :
    ∃ X Y, spell d = X ++ Y ∧ oldS X = preText Region.old rs1 ∧ newS X = preText f rs1 := by
  by_cases hne : headKeep rs2 last = []
  · cases rs2 with
    | cons r rs =>
      refine absurd hne (h.between r ?_)
      cases rs1 with
      | nil => exact absurd rfl h0
      | cons _ _ => simp
    | nil =>
      refine ⟨spell d, [], by simp, ?_, ?_⟩
      · rw [oldS_spell, hd.texts.1, regionText_append]
        simp only [headKeep] at hne
        simp [regionText, hne]
      · rw [newS_spell, hd.texts.2, regionText_append]
        simp only [headKeep] at hne
        simp [regionText, hne]
  · obtain ⟨X, Y, h1, h2, h3, _⟩ := block_cut (mid := []) (by simpa using h) hf rfl (by simpa using hd) (by simpa [preText] using hne)
    exact ⟨X, _, h1, h2, h3⟩

/-- The diff follows the regions. -/
theorem follows_from (hf : Fills f) (hn : NonVoid (spell d)) : ∀ (rs2 rs1 : List (Region α)),
    Separated (rs1 ++ rs2) last →
    IsDiff (regionText Region.old (rs1 ++ rs2) last) (regionText f (rs1 ++ rs2) last) d →
    ∀ X Y, spell d = X ++ Y → oldS X = preText Region.old rs1 → newS X = preText f rs1 →
    Follows f last rs2 Y := by
  intro rs2
  induction rs2 with
  | nil =>
    intro rs1 h hd X Y hs h0 h1
    simp only [Follows]
    have t0 := hd.texts.1
    have t1 := hd.texts.2
    rw [← oldS_spell, hs, oldS_append, h0, regionText_append] at t0
    rw [← newS_spell, hs, newS_append, h1, regionText_append] at t1
    have y0 : oldS Y = last := by simpa [regionText] using List.append_cancel_left t0
    have y1 : newS Y = last := by simpa [regionText] using List.append_cancel_left t1
    have hnY : NonVoid Y := fun a b hab => hn a b (by rw [hs]; simp [hab])
    by_cases hl : last = []
    · rw [hl] at y0 y1
      rw [hl, hnY.nil_of y0 y1]; rfl
    · obtain ⟨X', Y', e1, e2, e3, e4, e5⟩ := block_cut (rs2 := []) (mid := []) (by simpa using h) hf rfl (by simpa using hd)
        (by simpa [preText, headKeep] using hl)
      obtain ⟨rfl, rfl⟩ := hn.cut_unique hs e1 (by rw [h0, e2]) (by rw [h1, e3])
      simp only [afterHead] at e4 e5
      have : Y' = [] := NonVoid.nil_of (fun a b hab => hnY a b (by simp [hab])) e4 e5
      subst this
      simp [preText, tokens, headKeep]
  | cons r rs ih =>
    intro rs1 h hd X Y hs h0 h1
    have hnY : NonVoid Y := fun a b hab => hn a b (by rw [hs]; simp [hab])
    -- The unchanged text.
    obtain ⟨Y0, hY0⟩ : ∃ Y0, Y = tokens r.keep ++ Y0 := by
      by_cases hk : r.keep = []
      · exact ⟨Y, by simp [hk, tokens]⟩
      · obtain ⟨X', Y', e1, e2, e3, _⟩ := block_cut (rs2 := r :: rs) (mid := []) (by simpa using h) hf rfl (by simpa using hd)
          (by simpa [preText, headKeep] using hk)
        obtain ⟨rfl, rfl⟩ := hn.cut_unique hs e1 (by rw [h0, e2]) (by rw [h1, e3])
        exact ⟨Y', by simp [preText, headKeep, tokens]⟩
    subst hY0
    have hs' : spell d = (X ++ tokens r.keep) ++ Y0 := by rw [hs]; simp
    have h' : Separated ((rs1 ++ [r]) ++ rs) last := by simpa using h
    have hd' : IsDiff (regionText Region.old ((rs1 ++ [r]) ++ rs) last) (regionText f ((rs1 ++ [r]) ++ rs) last) d := by
      simpa using hd
    obtain ⟨X2, Y2, g1, g2, g3⟩ := region_cut h' hf (by simp) hd'
    have q0 : oldS (X ++ tokens r.keep) = preText Region.old rs1 ++ r.keep := by rw [oldS_append, oldS_tokens, h0]
    have q1 : newS (X ++ tokens r.keep) = preText f rs1 ++ r.keep := by rw [newS_append, newS_tokens, h1]
    obtain ⟨S, hS, hS'⟩ := hn.prefix hs' g1
      (by rw [q0, g2, preText_append]; simp [preText]) (by rw [q1, g3, preText_append]; simp [preText])
    have s0 : oldS S = r.old := by
      have := congrArg oldS hS
      rw [oldS_append, g2, q0, preText_append] at this
      simp only [preText, List.flatMap_cons, List.flatMap_nil, List.append_nil, ← List.append_assoc] at this
      exact (List.append_cancel_left this).symm
    have s1 : newS S = f r := by
      have := congrArg newS hS
      rw [newS_append, g3, q1, preText_append] at this
      simp only [preText, List.flatMap_cons, List.flatMap_nil, List.append_nil, ← List.append_assoc] at this
      exact (List.append_cancel_left this).symm
    refine ⟨S, Y2, by rw [hS', List.append_assoc], s0, s1, ?_, ih (rs1 ++ [r]) h' hd' X2 Y2 g1 g2 g3⟩
    intro hr
    have hnS : NonVoid S := fun a b hab => hnY a b (by rw [hS']; simp [hab])
    by_cases hold : r.old = []
    · rw [hold] at s0 hr
      rw [hr] at s1
      rw [hold, hnS.nil_of s0 s1]; rfl
    · obtain ⟨X', Y', e1, e2, e3, _⟩ := block_cut (rs2 := rs) (mid := [r]) (by simpa using h) hf (preText_same hr)
        (by simpa using hd) (by simp [preText, hold])
      obtain ⟨rfl, e6⟩ := hn.cut_unique hs e1 (by rw [h0, e2]) (by rw [h1, e3])
      have e7 : Y0 = tokens r.old ++ (tokens (headKeep rs last) ++ Y') := by
        simp only [preText, List.flatMap_cons, List.flatMap_nil, List.append_nil, tokens, List.map_append,
          List.append_assoc] at e6
        exact List.append_cancel_left e6
      have hnY0 : NonVoid Y0 := fun a b hab => hnY a b (by simp [hab])
      exact (hnY0.cut_unique hS' e7 (by rw [s0, oldS_tokens]) (by rw [s1, newS_tokens, hr])).1

end

/-! ## Both branches -/

theorem startsPlain_tokens {w : List α} {s : List (α ⊕ (List α × List α))} (h : StartsPlain s) :
    StartsPlain (tokens w ++ s) := by
  cases w with
  | nil => exact h
  | cons t w => trivial

theorem SideBySide.tokens' (w : List α) {s0 s1 : List (α ⊕ (List α × List α))} {p m : List α}
    (h : SideBySide s0 s1 p m) : SideBySide (tokens w ++ s0) (tokens w ++ s1) (w ++ p) (w ++ m) := by
  induction w with
  | nil => exact h
  | cons t w ih => exact .token ih

/-- Changes of the first branch against unchanged text. -/
theorem SideBySide.changes {S : List (α ⊕ (List α × List α))} (hS : NoAdjacent S)
    {s0 s1 : List (α ⊕ (List α × List α))} {p m : List α} (p0 : StartsPlain s0) (p1 : StartsPlain s1)
    (h : SideBySide s0 s1 p m) :
    SideBySide (S ++ s0) (tokens (oldS S) ++ s1) (oldS S ++ p) (newS S ++ m) := by
  induction S with
  | nil => exact h
  | cons x S ih =>
    have ih := ih hS.2
    cases x with
    | inl t => exact .token ih
    | inr ab =>
      obtain ⟨a, b⟩ := ab
      have hp : StartsPlain (S ++ s0) := by
        cases S with
        | nil => exact p0
        | cons y S =>
          rcases hS.1 with ⟨t, ht⟩ | h1
          · cases ht
          · cases y with
            | inl t => trivial
            | inr _ => exact h1.elim
      have := SideBySide.left (a := a) (b := b) hp (startsPlain_tokens (w := oldS S) p1) ih
      simpa [oldS, newS, tokens] using this

theorem SideBySide.symm {s0 s1 : List (α ⊕ (List α × List α))} {p m : List α} (h : SideBySide s0 s1 p m) :
    SideBySide s1 s0 p m := by
  induction h with
  | nil => exact .nil
  | token _ ih => exact .token ih
  | left p0 p1 _ ih => exact .right p1 p0 ih
  | right p0 p1 _ ih => exact .left p1 p0 ih
  | same p0 p1 _ ih => exact .same p1 p0 ih

theorem noAdjacent_suffix {X Y : List (α ⊕ (List α × List α))} (h : NoAdjacent (X ++ Y)) : NoAdjacent Y := by
  induction X with
  | nil => exact h
  | cons x X ih => exact ih h.2

theorem noAdjacent_prefix {X Y : List (α ⊕ (List α × List α))} (h : NoAdjacent (X ++ Y)) : NoAdjacent X := by
  induction X with
  | nil => trivial
  | cons x X ih =>
    refine ⟨?_, ih h.2⟩
    rcases h.1 with h1 | h1
    · exact .inl h1
    · right
      cases X with
      | nil => trivial
      | cons y X => cases y <;> first | trivial | exact h1.elim

theorem follows_plain {f : Region α → List α} {last : List α} {rs : List (Region α)}
    {s : List (α ⊕ (List α × List α))} (h : Follows f last rs s) (hk : ∀ r ∈ rs.head?, r.keep ≠ []) :
    StartsPlain s := by
  cases rs with
  | nil => rw [show s = tokens last from h]; cases last <;> trivial
  | cons r rs =>
    obtain ⟨S, s', rfl, _⟩ := h
    have := hk r (by simp)
    cases hr : r.keep with
    | nil => exact absurd hr this
    | cons t w => trivial

/-- Two diffs that follow the regions, each changing its own ones. -/
theorem follows_side {last : List α} : ∀ (rs : List (Region α)) (s0 s1 : List (α ⊕ (List α × List α))),
    (∀ r ∈ rs.tail, r.keep ≠ []) → Follows Region.one last rs s0 → Follows Region.two last rs s1 →
    NoAdjacent s0 → NoAdjacent s1 →
    SideBySide s0 s1 (regionText Region.old rs last) (regionText Region.new rs last) := by
  intro rs
  induction rs with
  | nil =>
    intro s0 s1 _ h0 h1 _ _
    rw [show s0 = tokens last from h0, show s1 = tokens last from h1]
    simpa [regionText] using SideBySide.tokens' last SideBySide.nil
  | cons r rs ih =>
    intro s0 s1 hk h0 h1 n0 n1
    obtain ⟨S0, t0, rfl, a0, b0, c0, f0⟩ := h0
    obtain ⟨S1, t1, rfl, a1, b1, c1, f1⟩ := h1
    have hk' : ∀ r ∈ rs.head?, r.keep ≠ [] := fun r hr => hk r (by
      cases rs with
      | nil => simp at hr
      | cons y rs => simp at hr; simp [hr])
    have ih := ih t0 t1 (fun r hr => hk r (List.mem_of_mem_tail hr)) f0 f1 (noAdjacent_suffix n0) (noAdjacent_suffix n1)
    have q0 := follows_plain f0 hk'
    have q1 := follows_plain f1 hk'
    have e : ∀ f : Region α → List α, regionText f (r :: rs) last = r.keep ++ (f r ++ regionText f rs last) := by
      intro f; simp [regionText]
    rw [e, e]
    simp only [List.append_assoc] at n0 n1 ⊢
    apply SideBySide.tokens'
    cases hb : r.first with
    | true =>
      have h1' : S1 = tokens r.old := c1 (by simp [Region.two, hb])
      have hn : newS S0 = r.new := by rw [b0]; simp [Region.one, hb]
      subst h1'
      have := SideBySide.changes (noAdjacent_prefix (noAdjacent_suffix n0)) q0 q1 ih
      rwa [a0, hn] at this
    | false =>
      have h0' : S0 = tokens r.old := c0 (by simp [Region.one, hb])
      have hn : newS S1 = r.new := by rw [b1]; simp [Region.two, hb]
      subst h0'
      have := (SideBySide.changes (noAdjacent_prefix (noAdjacent_suffix n1)) q1 q0 ih.symm).symm
      rwa [a1, hn] at this

theorem noAdjacent_spell {d : List (DiffItem α)} (hn : ∀ x ∈ d, x.Normal) (ha : Alternating d) :
    NoAdjacent (spell d) := by
  induction d with
  | nil => trivial
  | cons x d ih =>
    have hn' : ∀ x ∈ d, x.Normal := fun y hy => hn y (by simp [hy])
    have ha' : Alternating d := by
      cases d with
      | nil => trivial
      | cons y d => exact ha.2
    have ih := ih hn' ha'
    cases x with
    | common w =>
      rw [spellCommon]
      clear hn ha
      induction w with
      | nil => exact ih
      | cons t w ihw => exact ⟨.inl ⟨t, rfl⟩, ihw⟩
    | change a b =>
      rw [spellChange]
      refine ⟨.inr ?_, ih⟩
      cases d with
      | nil => trivial
      | cons y d =>
        cases y with
        | common w =>
          have := hn (.common w) (by simp)
          rw [spellCommon]
          cases w with
          | nil => exact absurd rfl this
          | cons _ _ => trivial
        | change _ _ => exact absurd rfl ha.1

theorem nonVoid_spell {d : List (DiffItem α)} (hn : ∀ x ∈ d, x.Normal) : NonVoid (spell d) := by
  intro a b h
  simp only [spell, List.mem_flatMap] at h
  obtain ⟨x, hx, h⟩ := h
  cases x with
  | common w => simp at h
  | change a' b' =>
    simp at h
    have := (hn _ hx).1
    rwa [← h.1, ← h.2] at this

theorem fills_one : Fills (Region.one (α := α)) := fun r => by unfold Region.one; cases r.first <;> simp
theorem fills_two : Fills (Region.two (α := α)) := fun r => by unfold Region.two; cases r.first <;> simp

variable [DecidableEq α]

/-- The diff of the old text and the text with regions filled in follows the regions. -/
theorem follows_diff {rs : List (Region α)} {last : List α} {f : Region α → List α} (h : Separated rs last)
    (hf : Fills f) : ∃ d, diffTokenSequences (regionText Region.old rs last) (regionText f rs last) = some d ∧
      Follows f last rs (spell d) ∧ NoAdjacent (spell d) := by
  obtain ⟨d, hd, hn, ha⟩ := C12_diff_normal_form (regionText Region.old rs last) (regionText f rs last)
  refine ⟨d, hd, ?_, noAdjacent_spell hn ha⟩
  exact follows_from hf (nonVoid_spell hn) rs [] h ((C62_diff_exact _ _ _).1 hd) [] (spell d) rfl rfl rfl

theorem merge_separated (kind : Kind) {rs : List (Region α)} {last : List α} (h : Separated rs last) :
    mergeTokenSequence kind (regionText Region.old rs last) (regionText Region.one rs last)
      (regionText Region.two rs last) = .ok [.common (regionText Region.new rs last)] := by
  obtain ⟨d0, h0, f0, n0⟩ := follows_diff h fills_one
  obtain ⟨d1, h1, f1, n1⟩ := follows_diff h fills_two
  exact (follows_side rs _ _ h.between f0 f1 n0 n1).merge h0 h1

end Gaspra
