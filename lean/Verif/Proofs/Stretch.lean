import Verif.Spec.Stretch
import Verif.Proofs.Regions
import Verif.Proofs.MergeCut

/-!
# Merging goes stretch by stretch
-/

set_option linter.unusedSectionVars false
set_option linter.unusedSimpArgs false
set_option linter.unusedVariables false

namespace Gaspra

variable {α : Type _}

/-! ## Edits of parts of a spelled diff -/

theorem editsS_append (s : List (α ⊕ (List α × List α))) : ∀ (s' : List (α ⊕ (List α × List α))) (pos : Nat),
    editsS pos (s ++ s') = editsS pos s ++ editsS (pos + (oldS s).length) s' := by
  induction s with
  | nil => intro s' pos; simp [editsS, oldS]
  | cons x s ih =>
    intro s' pos
    cases x with
    | inl t =>
      simp only [List.cons_append, editsS, ih]
      congr 2
      simp [oldS]; omega
    | inr ab =>
      simp only [List.cons_append, editsS, ih]
      congr 3
      simp [oldS]; omega

theorem editsS_shift (s : List (α ⊕ (List α × List α))) : ∀ (pos c : Nat),
    editsS (pos + c) s = (editsS pos s).map fun e => ⟨e.start + c, e.stop + c, e.insert⟩ := by
  induction s with
  | nil => intro pos c; rfl
  | cons x s ih =>
    intro pos c
    cases x with
    | inl t =>
      simp only [editsS]
      rw [← ih]; congr 1; omega
    | inr ab =>
      simp only [editsS, List.map_cons]
      rw [← ih]
      congr 1
      · congr 1; omega
      · congr 1; omega

theorem editsS_le (s : List (α ⊕ (List α × List α))) : ∀ pos, ∀ e ∈ editsS pos s, e.stop ≤ pos + (oldS s).length := by
  induction s with
  | nil => intro pos e he; cases he
  | cons x s ih =>
    intro pos e he
    cases x with
    | inl t => have := ih _ e he; simp [oldS] at this ⊢; omega
    | inr ab =>
      simp only [editsS, List.mem_cons] at he
      rcases he with rfl | he
      · simp [oldS]
      · have := ih _ e he; simp [oldS] at this ⊢; omega

/-- A spelled diff that a diff can be: no change is void, and no two are adjacent. -/
def Proper (s : List (α ⊕ (List α × List α))) : Prop := NoAdjacent s ∧ NonVoid s

theorem Proper.left {X Y : List (α ⊕ (List α × List α))} (h : Proper (X ++ Y)) : Proper X :=
  ⟨noAdjacent_prefix h.1, fun a b hab => h.2 a b (by simp [hab])⟩
theorem Proper.right {X Y : List (α ⊕ (List α × List α))} (h : Proper (X ++ Y)) : Proper Y :=
  ⟨noAdjacent_suffix h.1, fun a b hab => h.2 a b (by simp [hab])⟩

theorem Proper.apart {s : List (α ⊕ (List α × List α))} (h : NoAdjacent s) : ∀ pos,
    (editsS pos s).Pairwise fun e e' => e.stop < e'.start := by
  induction s with
  | nil => intro pos; exact .nil
  | cons x s ih =>
    intro pos
    cases x with
    | inl t => exact ih h.2 _
    | inr ab =>
      simp only [editsS, List.pairwise_cons]
      refine ⟨fun e he => ?_, ih h.2 _⟩
      rcases h.1 with ⟨t, ht⟩ | hp
      · cases ht
      · exact editsS_gt hp _ e he

theorem NonVoid.real {s : List (α ⊕ (List α × List α))} (h : NonVoid s) : ∀ pos, ∀ e ∈ editsS pos s,
    e.start < e.stop ∨ e.insert ≠ [] := by
  induction s with
  | nil => intro pos e he; cases he
  | cons x s ih =>
    intro pos e he
    have ih := ih fun a b hab => h a b (by simp [hab])
    cases x with
    | inl t => exact ih _ e he
    | inr ab =>
      obtain ⟨a, b⟩ := ab
      simp only [editsS, List.mem_cons] at he
      rcases he with rfl | he
      · rcases h a b (by simp) with h | h
        · exact .inr h
        · left; have := List.length_pos_iff.2 h; simp; omega
      · exact ih _ e he

theorem Proper.valid {s : List (α ⊕ (List α × List α))} (h : Proper s) {n : Nat} (hn : n = (oldS s).length) :
    ValidEdits n (editsS 0 s) :=
  ⟨Proper.apart h.1 0, fun e he => ⟨(editsS_ge s 0 e he).2, by have := editsS_le s 0 e he; omega⟩, h.2.real 0⟩

variable [DecidableEq α]

/-! ## Cutting -/

/-- The merge of two spelled diffs of the same text. -/
def mergeS (p : List α) (s0 s1 : List (α ⊕ (List α × List α))) : List (α ⊕ (List α × List α)) :=
  mergeOf p (editsS 0 s0) (editsS 0 s1)

theorem edits_at_token {X Y : List (α ⊕ (List α × List α))} {t : α} {u : List α} (hX : oldS X = u) :
    deletes (editsS 0 (X ++ .inl t :: Y)) u.length = false ∧
      editsBefore u.length (editsS 0 (X ++ .inl t :: Y)) = editsS 0 X ∧
      editsAfter u.length (editsS 0 (X ++ .inl t :: Y)) = editsS 0 Y := by
  have e : editsS 0 (X ++ .inl t :: Y) = editsS 0 X ++ editsS (u.length + 1) Y := by
    rw [editsS_append, hX]; simp [editsS]
  have a : ∀ e ∈ editsS 0 X, e.start ≤ e.stop ∧ e.stop ≤ u.length := fun e he =>
    ⟨(editsS_ge X 0 e he).2, by have := editsS_le X 0 e he; rw [hX] at this; omega⟩
  have b : ∀ e ∈ editsS (u.length + 1) Y, u.length < e.start ∧ e.start ≤ e.stop := fun e he => by
    have := editsS_ge Y _ e he; omega
  rw [e]
  refine ⟨?_, ?_, ?_⟩
  · rw [deletes_append, deletes_none (es := editsS 0 X) fun e he => .inl (a e he).2,
      deletes_none (es := editsS (u.length + 1) Y) fun e he => .inr (b e he).1]
    rfl
  · simp only [editsBefore, List.filter_append]
    rw [List.filter_eq_self.2 fun e he => by simpa using (a e he).2,
      List.filter_eq_nil_iff.2 fun e he => by have := b e he; simp; omega, List.append_nil]
  · simp only [editsAfter, List.filter_append]
    rw [List.filter_eq_nil_iff.2 fun e he => by have := a e he; simp; omega,
      List.filter_eq_self.2 fun e he => by simpa using (b e he).1, List.nil_append]
    have := editsS_shift Y 0 (u.length + 1)
    rw [Nat.zero_add] at this
    rw [this, List.map_map]
    conv => rhs; rw [← List.map_id (editsS 0 Y)]
    apply List.map_congr_left
    intro e he
    cases e
    simp

theorem mergeS_token {X0 X1 Y0 Y1 : List (α ⊕ (List α × List α))} {t : α} {u v : List α}
    (p0 : Proper (X0 ++ .inl t :: Y0)) (p1 : Proper (X1 ++ .inl t :: Y1))
    (hX0 : oldS X0 = u) (hX1 : oldS X1 = u) (hY0 : oldS Y0 = v) (hY1 : oldS Y1 = v) :
    mergeS (u ++ t :: v) (X0 ++ .inl t :: Y0) (X1 ++ .inl t :: Y1) =
      mergeS u X0 X1 ++ .inl t :: mergeS v Y0 Y1 := by
  have l0 : (u ++ t :: v).length = (oldS (X0 ++ .inl t :: Y0)).length := by
    rw [oldS_append, hX0, ← hY0]; simp [oldS]
  have l1 : (u ++ t :: v).length = (oldS (X1 ++ .inl t :: Y1)).length := by
    rw [oldS_append, hX1, ← hY1]; simp [oldS]
  obtain ⟨a0, b0, c0⟩ := edits_at_token (Y := Y0) (t := t) hX0
  obtain ⟨a1, b1, c1⟩ := edits_at_token (Y := Y1) (t := t) hX1
  unfold mergeS
  rw [mergeOf_cut (p0.valid l0) (p1.valid l1) (g := u.length) (by simp) a0 a1, b0, b1, c0, c1]
  simp

theorem mergeS_nil : mergeS ([] : List α) [] [] = [] := by
  have v : ValidEdits ([] : List α).length (editsS 0 ([] : List (α ⊕ (List α × List α)))) :=
    ⟨.nil, by simp [editsS], by simp [editsS]⟩
  unfold mergeS
  rw [mergeOf_clean v v (by intro e he; cases he)]
  simp [mergedText, weave, editsS, insertedAt, bothInserts]

theorem mergeS_tokens (c : List α) {Y0 Y1 : List (α ⊕ (List α × List α))} {v : List α}
    (p0 : Proper (tokens c ++ Y0)) (p1 : Proper (tokens c ++ Y1)) (hY0 : oldS Y0 = v) (hY1 : oldS Y1 = v) :
    mergeS (c ++ v) (tokens c ++ Y0) (tokens c ++ Y1) = tokens c ++ mergeS v Y0 Y1 := by
  induction c with
  | nil => rfl
  | cons t c ih =>
    have := mergeS_token (X0 := []) (X1 := []) (Y0 := tokens c ++ Y0) (Y1 := tokens c ++ Y1) (t := t) (u := [])
      (v := c ++ v) p0 p1 rfl rfl (by rw [oldS_append, oldS_tokens, hY0]) (by rw [oldS_append, oldS_tokens, hY1])
    rw [mergeS_nil] at this
    rw [ih (Proper.right (X := [_]) p0) (Proper.right (X := [_]) p1)] at this
    exact this

/-- Two spelled diffs that begin with the same token, or are both empty. -/
def SameStart (s0 s1 : List (α ⊕ (List α × List α))) : Prop :=
  (s0 = [] ∧ s1 = []) ∨ ∃ t z0 z1, s0 = .inl t :: z0 ∧ s1 = .inl t :: z1

theorem mergeS_append {X0 X1 Y0 Y1 : List (α ⊕ (List α × List α))} {u v : List α} (hs : SameStart Y0 Y1)
    (p0 : Proper (X0 ++ Y0)) (p1 : Proper (X1 ++ Y1))
    (hX0 : oldS X0 = u) (hX1 : oldS X1 = u) (hY0 : oldS Y0 = v) (hY1 : oldS Y1 = v) :
    mergeS (u ++ v) (X0 ++ Y0) (X1 ++ Y1) = mergeS u X0 X1 ++ mergeS v Y0 Y1 := by
  rcases hs with ⟨rfl, rfl⟩ | ⟨t, z0, z1, rfl, rfl⟩
  · simp only [oldS, List.flatMap_nil] at hY0
    subst hY0
    simp [mergeS_nil]
  · have e : v = t :: oldS z0 := by rw [← hY0]; simp [oldS]
    have e1 : oldS z1 = oldS z0 := by
      have := hY1
      rw [e] at this
      simpa [oldS] using this
    rw [e, mergeS_token p0 p1 hX0 hX1 rfl e1]
    congr 1
    exact (mergeS_tokens [t] p0.right p1.right rfl e1).symm

/-! ## One stretch -/

theorem sideBySide_old {S : List (α ⊕ (List α × List α))} (h : NoAdjacent S) :
    SideBySide S (tokens (oldS S)) (oldS S) (newS S) := by
  have := SideBySide.changes h (s0 := []) (s1 := []) (by trivial) (by trivial) SideBySide.nil
  simpa using this

theorem editsS_plain (w : List α) (pos : Nat) : editsS pos (tokens w) = [] := by
  have := editsS_tokens w pos []
  simpa [editsS] using this

theorem mergeS_left {S : List (α ⊕ (List α × List α))} (p : Proper S) :
    mergeS (oldS S) S (tokens (oldS S)) = tokens (newS S) := by
  have h := sideBySide_old p.1
  have hm := h.merged 0 [] [] [] (by simp) (by simp) (by simp [insertedAt, bothInserts]) (.inl ⟨rfl, rfl⟩)
  simp only [List.nil_append] at hm
  unfold mergeS
  rw [mergeOf_clean (p.valid rfl) (by rw [editsS_plain]; exact ⟨.nil, by simp, by simp⟩) (h.compatible 0), mergedText, hm]

theorem mergeS_right {S : List (α ⊕ (List α × List α))} (p : Proper S) :
    mergeS (oldS S) (tokens (oldS S)) S = tokens (newS S) := by
  have h := (sideBySide_old p.1).symm
  have hm := h.merged 0 [] [] [] (by simp) (by simp) (by simp [insertedAt, bothInserts]) (.inl ⟨rfl, rfl⟩)
  simp only [List.nil_append] at hm
  unfold mergeS
  rw [mergeOf_clean (by rw [editsS_plain]; exact ⟨.nil, by simp, by simp⟩) (p.valid rfl) (h.compatible 0), mergedText, hm]

/-- A spelled diff of texts that have no token in common is one change. -/
theorem Proper.single {S : List (α ⊕ (List α × List α))} (p : Proper S) (ha : Apart (oldS S) (newS S)) :
    S = [] ∨ S = [.inr (newS S, oldS S)] := by
  match S, p, ha with
  | [], _, _ => exact .inl rfl
  | .inl t :: s, _, ha => exact absurd (show t ∈ newS (.inl t :: s) by simp [newS]) (ha t (by simp [oldS]))
  | [.inr (a, b)], _, _ => right; simp [newS, oldS]
  | .inr (a, b) :: .inl t :: s, _, ha =>
    exact absurd (show t ∈ newS (.inr (a, b) :: .inl t :: s) by simp [newS]) (ha t (by simp [oldS]))
  | .inr _ :: .inr _ :: s, p, _ =>
    rcases p.1.1 with ⟨t, h⟩ | h
    · cases h
    · exact absurd h (by simp [StartsPlain])

theorem mergeS_same {S : List (α ⊕ (List α × List α))} (p : Proper S) :
    mergeS (oldS S) S S = tokens (newS S) := by
  have h : SideBySide S S (oldS S) (newS S) := by
    have n := p.1
    clear p
    induction S with
    | nil => exact .nil
    | cons x S ih =>
      cases x with
      | inl t => simpa [oldS, newS] using SideBySide.token (t := t) (ih n.2)
      | inr ab =>
        have hp : StartsPlain S := n.1.resolve_left fun ⟨t, h⟩ => by cases h
        simpa [oldS, newS] using SideBySide.same (a := ab.1) (b := ab.2) hp hp (ih n.2)
  have hm := h.merged 0 [] [] [] (by simp) (by simp) (by simp [insertedAt, bothInserts]) (.inl ⟨rfl, rfl⟩)
  simp only [List.nil_append] at hm
  unfold mergeS
  rw [mergeOf_clean (p.valid rfl) (p.valid rfl) (h.compatible 0), mergedText, hm]

/-- Two spelled diffs of the same texts, which have no token in common. -/
theorem Proper.equal {S0 S1 : List (α ⊕ (List α × List α))} (p0 : Proper S0) (p1 : Proper S1)
    (ho : oldS S0 = oldS S1) (hn : newS S0 = newS S1) (ha : Apart (oldS S0) (newS S0)) : S0 = S1 := by
  rcases p0.single ha with e0 | e0
  · subst e0
    exact (p1.2.nil_of ho.symm hn.symm).symm
  · rcases p1.single (by rw [← ho, ← hn]; exact ha) with e1 | e1
    · subst e1
      exact p0.2.nil_of ho hn
    · rw [e0, e1, ho, hn]

/-- The fragments of a spelled diff insert the text it leads to. -/
theorem allTokens_stream {S : List (α ⊕ (List α × List α))} (p : Proper S) :
    allTokens (streamOf 0 (oldS S) (editsS 0 S)) = newS S := by
  have v := p.valid rfl
  have a := applyEdits_stream _ _ _ _ 0 (FS_streamOf (editsS 0 S) 0 (oldS S) v.ve).1
  rw [fedits_streamOf _ 0 _ v.ve] at a
  have h := sideBySide_old p.1
  have hm := h.merged 0 [] [] [] (by simp) (by simp) (by simp [insertedAt, bothInserts]) (.inl ⟨rfl, rfl⟩)
  simp only [List.nil_append, editsS_plain] at hm
  rw [allTokens, ← a, ← hm]
  congr 1
  · funext g
    simp [insertedAt, bothInserts_nil_right]
  · funext g
    simp [deletes]

theorem spelledTokens_append (s s' : List (α ⊕ (List α × List α))) :
    spelledTokens (s ++ s') = spelledTokens s ++ spelledTokens s' := by simp [spelledTokens]

theorem spelledTokens_spell (d : List (DiffItem α)) {t : α} (h : t ∈ spelledTokens (spell d)) :
    t ∈ intoText d ∨ t ∈ fromText d := by
  have : ∀ s : List (α ⊕ (List α × List α)), t ∈ spelledTokens s → t ∈ newS s ∨ t ∈ oldS s := by
    intro s hs
    simp only [spelledTokens, List.mem_flatMap] at hs
    obtain ⟨x, hx, ht⟩ := hs
    simp only [newS, oldS, List.mem_flatMap]
    cases x with
    | inl y => exact .inl ⟨_, hx, ht⟩
    | inr ab =>
      simp only [List.mem_append] at ht
      rcases ht with ht | ht
      · exact .inl ⟨_, hx, ht⟩
      · exact .inr ⟨_, hx, ht⟩
  simpa [newS_spell, oldS_spell] using this _ h

theorem emit_mem {v1 v2 : List α} {t : α} (h : t ∈ spelledTokens (emit v1 v2)) : t ∈ v1 ∨ t ∈ v2 := by
  obtain ⟨d, hd, h1, h2⟩ := C09_diff_reconstructs v2 v1
  simp only [emit, hd] at h
  rcases spelledTokens_spell d h with h | h
  · left; rwa [h1] at h
  · right; rwa [h2] at h

theorem grouped_mem {t : α} : ∀ (F : List (Sym α)) (v1 v2 : List α), t ∈ spelledTokens (grouped v1 v2 F) →
    t ∈ v1 ∨ t ∈ v2 ∨ ∃ x ∈ F, x = .inl (some t) ∨ ∃ a b, x = .inr (a, b) ∧ (t ∈ a ∨ t ∈ b) := by
  intro F
  induction F with
  | nil =>
    intro v1 v2 h
    rcases emit_mem h with h | h
    · exact .inl h
    · exact .inr (.inl h)
  | cons x F ih =>
    intro v1 v2 h
    rcases x with (_ | y) | ⟨a, b⟩
    · simp only [grouped, spelledTokens_append, List.mem_append] at h
      rcases h with h | h
      · rcases emit_mem h with h | h
        · exact .inl h
        · exact .inr (.inl h)
      · rcases ih _ _ h with h | h | ⟨x, hx, h⟩
        · simp at h
        · simp at h
        · exact .inr (.inr ⟨x, by simp [hx], h⟩)
    · simp only [grouped, spelledTokens_append, List.mem_append] at h
      rcases h with h | h
      · rcases emit_mem h with h | h
        · exact .inl h
        · exact .inr (.inl h)
      · rw [show ∀ r, spelledTokens (Sum.inl y :: r) = y :: spelledTokens r from fun r => by simp [spelledTokens],
          List.mem_cons] at h
        rcases h with rfl | h
        · exact .inr (.inr ⟨_, by simp, .inl rfl⟩)
        · rcases ih _ _ h with h | h | ⟨x, hx, h⟩
          · simp at h
          · simp at h
          · exact .inr (.inr ⟨x, by simp [hx], h⟩)
    · simp only [grouped] at h
      rcases ih _ _ h with h | h | ⟨x, hx, h⟩
      · rw [List.mem_append] at h
        rcases h with h | h
        · exact .inl h
        · exact .inr (.inr ⟨_, by simp, .inr ⟨a, b, rfl, .inl h⟩⟩)
      · rw [List.mem_append] at h
        rcases h with h | h
        · exact .inr (.inl h)
        · exact .inr (.inr ⟨_, by simp, .inr ⟨a, b, rfl, .inr h⟩⟩)
      · exact .inr (.inr ⟨x, by simp [hx], h⟩)

theorem flats_mem {L : List (MFragment α)} {x : Sym α} (h : x ∈ flats L) {t : α}
    (ht : x = .inl (some t) ∨ ∃ a b, x = .inr (a, b) ∧ (t ∈ a ∨ t ∈ b)) : ∃ y ∈ L, t ∈ y.tokens := by
  simp only [flats, List.mem_flatMap] at h
  obtain ⟨y, hy, hx⟩ := h
  refine ⟨y, hy, ?_⟩
  cases y with
  | input f =>
    simp only [MFragment.flat] at hx
    split at hx
    · simp at hx; subst hx
      rcases ht with ht | ⟨a, b, ht, _⟩ <;> simp at ht
    · simp only [List.mem_map] at hx
      obtain ⟨z, hz, rfl⟩ := hx
      rcases ht with ht | ⟨a, b, ht, _⟩
      · simp at ht; subst ht; exact hz
      · simp at ht
  | conflict a b =>
    simp only [MFragment.flat, List.mem_singleton] at hx
    subst hx
    rcases ht with ht | ⟨a', b', ht, h⟩
    · simp at ht
    · simp only [Sum.inr.injEq, Prod.mk.injEq] at ht
      obtain ⟨rfl, rfl⟩ := ht
      simpa [MFragment.tokens] using h

/-- A merge has only tokens of the branches. -/
theorem mergeS_own {p : List α} {S0 S1 : List (α ⊕ (List α × List α))} (p0 : Proper S0) (p1 : Proper S1)
    (h0 : oldS S0 = p) (h1 : oldS S1 = p) {t : α} (h : t ∈ spelledTokens (mergeS p S0 S1)) :
    t ∈ newS S0 ∨ t ∈ newS S1 := by
  have v0 := p0.valid rfl
  have v1 := p1.valid rfl
  have a0 := allTokens_stream p0
  have a1 := allTokens_stream p1
  rw [h0] at v0 a0
  rw [h1] at v1 a1
  obtain ⟨L, hL, hl, _⟩ := mergeLoop_general _ 0 p _ _ false ⟨_, _, (FS_streamOf _ 0 p v0.ve).1⟩
    ⟨_, _, (FS_streamOf _ 0 p v1.ve).1⟩ (Nat.le_refl _)
  rw [mergeS, mergeOf_eq v0 v1 hL] at h
  rcases grouped_mem _ _ _ h with h | h | ⟨x, hx, h⟩
  · simp at h
  · simp at h
  · have := hl t (flats_mem hx h)
    rwa [a0, a1] at this

/-! ## All stretches -/

/-- A stretch as a region that the first (second) branch rewrites. -/
def Stretch.toLeft (s : Stretch α) : Region α := ⟨s.keep, s.old, s.left, true⟩
def Stretch.toRight (s : Stretch α) : Region α := ⟨s.keep, s.old, s.right, true⟩

theorem Divided.separated {ss : List (Stretch α)} {last : List α} (h : Divided ss last)
    {f : Stretch α → Region α} (hk : ∀ s, (f s).keep = s.keep) (ho : ∀ s, (f s).old = s.old)
    (hn : ∀ s, ∀ t ∈ (f s).new, t ∈ s.left ++ s.right) : Separated (ss.map f) last := by
  have sub : ∀ s, ∀ t ∈ (f s).all, t ∈ s.all := by
    intro s t ht
    simp only [Region.all, hk, ho, List.mem_append] at ht
    rcases ht with (ht | ht) | ht
    · simp [Stretch.all, ht]
    · simp [Stretch.all, ht]
    · have := hn s t ht
      simp [Stretch.all] at this ⊢
      rcases this with h | h <;> simp [h]
  refine ⟨?_, ?_, ?_, ?_⟩
  · intro r hr
    rw [← List.map_tail] at hr
    obtain ⟨s, hs, rfl⟩ := List.mem_map.1 hr
    rw [hk]; exact h.between s hs
  · intro r hr
    obtain ⟨s, hs, rfl⟩ := List.mem_map.1 hr
    rw [hk, ho]
    refine (h.keep s hs).sub (fun t ht => ht) fun t ht => ?_
    rw [List.mem_append] at ht
    rcases ht with ht | ht
    · simp [ht]
    · have := hn s t ht
      simp at this ⊢
      rcases this with h | h <;> simp [h]
  · rw [List.pairwise_map]
    exact h.stretches.imp fun {a b} hab => hab.sub (sub a) (sub b)
  · intro r hr
    obtain ⟨s, hs, rfl⟩ := List.mem_map.1 hr
    exact (h.last s hs).sub (fun t ht => ht) (sub s)

theorem follows_old {last : List α} : ∀ {rs : List (Region α)} {s : List (α ⊕ (List α × List α))},
    Follows Region.new last rs s → oldS s = regionText Region.old rs last := by
  intro rs
  induction rs with
  | nil => intro s h; rw [show s = tokens last from h, oldS_tokens]; simp [regionText]
  | cons r rs ih =>
    intro s h
    obtain ⟨S, s', rfl, h1, _, _, h4⟩ := h
    rw [oldS_append, oldS_append, oldS_tokens, h1, ih h4]
    simp [regionText]

theorem follows_start {last : List α} {ss : List (Stretch α)} (hk : ∀ s ∈ ss.head?, s.keep ≠ [])
    {s0 s1 : List (α ⊕ (List α × List α))} (h0 : Follows Region.new last (ss.map Stretch.toLeft) s0)
    (h1 : Follows Region.new last (ss.map Stretch.toRight) s1) : SameStart s0 s1 := by
  cases ss with
  | nil =>
    simp only [List.map_nil, Follows] at h0 h1
    subst h0 h1
    cases last with
    | nil => exact .inl ⟨rfl, rfl⟩
    | cons t w => exact .inr ⟨t, _, _, rfl, rfl⟩
  | cons s ss =>
    obtain ⟨S0, t0, rfl, _⟩ := h0
    obtain ⟨S1, t1, rfl, _⟩ := h1
    have hs := hk s (by simp)
    simp only [Stretch.toLeft, Stretch.toRight]
    cases e : s.keep with
    | nil => exact absurd e hs
    | cons t w => exact .inr ⟨t, _, _, rfl, rfl⟩

theorem merges_along {last : List α} : ∀ (ss : List (Stretch α)) (s0 s1 : List (α ⊕ (List α × List α))),
    (∀ s ∈ ss.tail, s.keep ≠ []) → Follows Region.new last (ss.map Stretch.toLeft) s0 →
    Follows Region.new last (ss.map Stretch.toRight) s1 → Proper s0 → Proper s1 →
    MergesAlong last ss (mergeS (stretchText Stretch.old ss last) s0 s1) := by
  intro ss
  induction ss with
  | nil =>
    intro s0 s1 _ h0 h1 p0 p1
    simp only [List.map_nil, Follows] at h0 h1
    subst h0 h1
    have := mergeS_tokens last (Y0 := []) (Y1 := []) (v := []) (by simpa using p0) (by simpa using p1) rfl rfl
    rw [mergeS_nil] at this
    simp only [List.append_nil] at this
    simp only [stretchText, List.flatMap_nil, List.nil_append]
    rw [this]
    exact .nil
  | cons s ss ih =>
    intro s0 s1 hk h0 h1 p0 p1
    obtain ⟨S0, t0, rfl, a0, b0, c0, f0⟩ := h0
    obtain ⟨S1, t1, rfl, a1, b1, c1, f1⟩ := h1
    have hk' : ∀ s ∈ ss.head?, s.keep ≠ [] := fun s hs => hk s (by
      cases ss with
      | nil => simp at hs
      | cons y ss => simp at hs; simp [hs])
    simp only [List.append_assoc] at p0 p1
    have q0 := p0.right
    have q1 := p1.right
    have ih := ih t0 t1 (fun s hs => hk s (List.mem_of_mem_tail hs)) f0 f1 q0.right q1.right
    have o0 : oldS t0 = stretchText Stretch.old ss last := by
      rw [follows_old f0]; simp [regionText, stretchText, List.flatMap_map, Stretch.toLeft]
    have o1 : oldS t1 = stretchText Stretch.old ss last := by
      rw [follows_old f1]; simp [regionText, stretchText, List.flatMap_map, Stretch.toRight]
    simp only [Stretch.toLeft, Stretch.toRight] at a0 b0 c0 a1 b1 c1 p0 p1 ⊢
    have e : stretchText Stretch.old (s :: ss) last = s.keep ++ (s.old ++ stretchText Stretch.old ss last) := by
      simp [stretchText]
    rw [e]
    simp only [List.append_assoc]
    rw [mergeS_tokens s.keep p0 p1 (by rw [oldS_append, a0, o0]) (by rw [oldS_append, a1, o1]),
      mergeS_append (follows_start hk' f0 f1) q0 q1 a0 a1 o0 o1, ← List.append_assoc]
    refine .cons ⟨?_, ?_, ?_, ?_⟩ ih
    · intro hr
      have := mergeS_left q0.left
      rw [c1 hr]
      rwa [a0, b0] at this
    · intro hl
      have := mergeS_right q1.left
      rw [c0 hl]
      rwa [a1, b1] at this
    · intro he ha
      have e := Proper.equal q0.left q1.left (by rw [a0, a1]) (by rw [b0, b1, he]) (by rw [a0, b0]; exact ha)
      have := mergeS_same q0.left
      rw [← e]
      rwa [a0, b0] at this
    · intro t ht
      have := mergeS_own q0.left q1.left a0 a1 ht
      rwa [b0, b1] at this

/-- The diffs of both branches go stretch by stretch. -/
theorem stretch_diffs {ss : List (Stretch α)} {last : List α} (h : Divided ss last) :
    ∃ d0 d1, diffTokenSequences (stretchText Stretch.old ss last) (stretchText Stretch.left ss last) = some d0 ∧
      diffTokenSequences (stretchText Stretch.old ss last) (stretchText Stretch.right ss last) = some d1 ∧
      Follows Region.new last (ss.map Stretch.toLeft) (spell d0) ∧
      Follows Region.new last (ss.map Stretch.toRight) (spell d1) ∧ Proper (spell d0) ∧ Proper (spell d1) := by
  have e0 : ∀ f, regionText Region.old (ss.map f) last = ss.flatMap (fun s => (f s).keep ++ (f s).old) ++ last := by
    intro f; simp [regionText, List.flatMap_map]
  have sl : Separated (ss.map Stretch.toLeft) last := h.separated (fun _ => rfl) (fun _ => rfl)
    fun s t ht => by simp [Stretch.toLeft] at ht; simp [ht]
  have sr : Separated (ss.map Stretch.toRight) last := h.separated (fun _ => rfl) (fun _ => rfl)
    fun s t ht => by simp [Stretch.toRight] at ht; simp [ht]
  have go : ∀ (f : Stretch α → Region α) (g : Stretch α → List α), Separated (ss.map f) last →
      (∀ s, (f s).keep = s.keep) → (∀ s, (f s).old = s.old) → (∀ s, (f s).new = g s) →
      ∃ d, diffTokenSequences (stretchText Stretch.old ss last) (stretchText g ss last) = some d ∧
        Follows Region.new last (ss.map f) (spell d) ∧ Proper (spell d) := by
    intro f g hs h1 h2 h3
    have fn : Fills (Region.new (α := α)) := fun r => .inr rfl
    have x1 : regionText Region.old (ss.map f) last = stretchText Stretch.old ss last := by
      simp [regionText, stretchText, List.flatMap_map, h1, h2]
    have x2 : regionText Region.new (ss.map f) last = stretchText g ss last := by
      simp [regionText, stretchText, List.flatMap_map, h1, h3]
    obtain ⟨d, hd, hn, ha⟩ := C12_diff_normal_form (stretchText Stretch.old ss last) (stretchText g ss last)
    refine ⟨d, hd, ?_, noAdjacent_spell hn ha, nonVoid_spell hn⟩
    refine follows_from fn (nonVoid_spell hn) (ss.map f) [] hs ?_ [] (spell d) rfl rfl rfl
    rw [List.nil_append, x1, x2]
    exact (C62_diff_exact _ _ _).1 hd
  obtain ⟨d0, h0, f0, q0⟩ := go Stretch.toLeft Stretch.left sl (fun _ => rfl) (fun _ => rfl) (fun _ => rfl)
  obtain ⟨d1, h1, f1, q1⟩ := go Stretch.toRight Stretch.right sr (fun _ => rfl) (fun _ => rfl) (fun _ => rfl)
  exact ⟨d0, d1, h0, h1, f0, f1, q0, q1⟩

/-- The merge goes stretch by stretch. -/
theorem merge_stretches {kind : Kind} {ss : List (Stretch α)} {last : List α} (h : Divided ss last)
    {out : List (DiffItem α)} (hm : mergeTokenSequence kind (stretchText Stretch.old ss last)
      (stretchText Stretch.left ss last) (stretchText Stretch.right ss last) = .ok out) :
    MergesAlong last ss (spell out) := by
  obtain ⟨d0, d1, h0, h1, f0, f1, q0, q1⟩ := stretch_diffs h
  rw [mergeOf_merge h0 h1 hm, ← editsS_spell, ← editsS_spell]
  exact merges_along ss _ _ h.between f0 f1 q0 q1

/-! ## Stretches that are settled -/

/-- What a settled stretch becomes. -/
def Stretch.pick (s : Stretch α) : List α := if s.right = s.old then s.left else s.right

theorem settled_side {last : List α} : ∀ (ss : List (Stretch α)) (s0 s1 : List (α ⊕ (List α × List α))),
    (∀ s ∈ ss.tail, s.keep ≠ []) →
    (∀ s ∈ ss, s.right = s.old ∨ s.left = s.old ∨ (s.left = s.right ∧ Apart s.old s.left)) →
    Follows Region.new last (ss.map Stretch.toLeft) s0 → Follows Region.new last (ss.map Stretch.toRight) s1 →
    Proper s0 → Proper s1 →
    SideBySide s0 s1 (stretchText Stretch.old ss last) (stretchText Stretch.pick ss last) := by
  intro ss
  induction ss with
  | nil =>
    intro s0 s1 _ _ h0 h1 _ _
    rw [show s0 = tokens last from h0, show s1 = tokens last from h1]
    simpa [stretchText] using SideBySide.tokens' last SideBySide.nil
  | cons s ss ih =>
    intro s0 s1 hk hs h0 h1 p0 p1
    obtain ⟨S0, t0, rfl, a0, b0, c0, f0⟩ := h0
    obtain ⟨S1, t1, rfl, a1, b1, c1, f1⟩ := h1
    have hk' : ∀ (f : Stretch α → Region α), (∀ s, (f s).keep = s.keep) →
        ∀ r ∈ (ss.map f).head?, r.keep ≠ [] := fun f hf r hr => by
      cases ss with
      | nil => simp at hr
      | cons y ss => simp at hr; rw [← hr, hf]; exact hk y (by simp)
    simp only [List.append_assoc] at p0 p1 ⊢
    have q0 := p0.right
    have q1 := p1.right
    have ih := ih t0 t1 (fun s hs => hk s (List.mem_of_mem_tail hs)) (fun s h => hs s (by simp [h])) f0 f1
      q0.right q1.right
    have e : ∀ f : Stretch α → List α,
        stretchText f (s :: ss) last = s.keep ++ (f s ++ stretchText f ss last) := by
      intro f; simp [stretchText]
    rw [e, e]
    simp only [Stretch.toLeft, Stretch.toRight] at a0 b0 c0 a1 b1 c1 ⊢
    apply SideBySide.tokens'
    have g0 := follows_plain f0 (hk' _ fun _ => rfl)
    have g1 := follows_plain f1 (hk' _ fun _ => rfl)
    by_cases hr : s.right = s.old
    · rw [Stretch.pick, if_pos hr, c1 hr]
      have := SideBySide.changes q0.left.1 g0 g1 ih
      rwa [a0, b0] at this
    · rw [Stretch.pick, if_neg hr]
      rcases hs s (by simp) with h | h | ⟨h, ha⟩
      · exact absurd h hr
      · rw [c0 h]
        have := (SideBySide.changes q1.left.1 g1 g0 ih.symm).symm
        rwa [a1, b1] at this
      · have e := Proper.equal q0.left q1.left (by rw [a0, a1]) (by rw [b0, b1, h]) (by rw [a0, b0]; exact ha)
        subst e
        rcases q0.left.single (by rw [a0, b0]; exact ha) with e | e
        · subst e
          have x0 : s.old = [] := a0.symm
          have x1 : s.right = [] := b1.symm
          exact absurd (x1.trans x0.symm) hr
        · rw [e, a0, b1]
          exact .same g0 g1 ih

theorem merge_settled (kind : Kind) {ss : List (Stretch α)} {last : List α} (h : Divided ss last)
    (hs : ∀ s ∈ ss, s.right = s.old ∨ s.left = s.old ∨ (s.left = s.right ∧ Apart s.old s.left)) :
    mergeTokenSequence kind (stretchText Stretch.old ss last) (stretchText Stretch.left ss last)
      (stretchText Stretch.right ss last) = .ok [.common (stretchText Stretch.pick ss last)] := by
  obtain ⟨d0, d1, h0, h1, f0, f1, q0, q1⟩ := stretch_diffs h
  exact (settled_side ss _ _ h.between hs f0 f1 q0 q1).merge h0 h1

end Gaspra
