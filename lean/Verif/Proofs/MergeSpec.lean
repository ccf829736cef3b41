import Verif.Spec.Merge
import Verif.Model.Merge
import Verif.Proofs.Changesets

/-!
# Fragment streams, edits and `weave`
-/

set_option linter.unusedSectionVars false
set_option linter.unusedSimpArgs false
set_option linter.unusedVariables false

namespace Gaspra

variable {α : Type _}

/-! ## `weave` -/

theorem weave_congr {f f' : Nat → List α} {keep keep' : Nat → Bool} :
    ∀ (p : List α) (k : Nat), (∀ g, k ≤ g → f g = f' g) → (∀ g, k ≤ g → keep g = keep' g) →
    weave f keep k p = weave f' keep' k p := by
  intro p
  induction p with
  | nil => intro k h _; exact h k (Nat.le_refl k)
  | cons t p ih =>
    intro k h h'
    simp only [weave, h k (Nat.le_refl k), h' k (Nat.le_refl k)]
    rw [ih (k + 1) (fun g hg => h g (by omega)) (fun g hg => h' g (by omega))]

theorem weave_keep {f : Nat → List α} {keep : Nat → Bool} (p : List α) :
    ∀ (w : List α) (k : Nat), (∀ g, k ≤ g → g < k + w.length → f g = [] ∧ keep g = true) →
    weave f keep k (w ++ p) = w ++ weave f keep (k + w.length) p := by
  intro w
  induction w with
  | nil => intro k _; simp
  | cons t w ih =>
    intro k h
    have h0 := h k (Nat.le_refl k) (by simp)
    simp only [List.cons_append, weave, h0.1, h0.2, if_true, List.nil_append]
    rw [ih (k + 1) (fun g h1 h2 => h g (by omega) (by simp; omega))]
    simp [Nat.add_assoc, Nat.add_comm 1]

theorem weave_drop {f : Nat → List α} {keep : Nat → Bool} (p : List α) :
    ∀ (w : List α) (k : Nat), (∀ g, k ≤ g → g < k + w.length → f g = [] ∧ keep g = false) →
    weave f keep k (w ++ p) = weave f keep (k + w.length) p := by
  intro w
  induction w with
  | nil => intro k _; simp
  | cons t w ih =>
    intro k h
    have h0 := h k (Nat.le_refl k) (by simp)
    simp only [List.cons_append, weave, h0.1, h0.2, Bool.false_eq_true, if_false, List.nil_append]
    rw [ih (k + 1) (fun g h1 h2 => h g (by omega) (by simp; omega))]
    simp [Nat.add_assoc, Nat.add_comm 1]

theorem weave_head {f f' : Nat → List α} {keep : Nat → Bool} {i : List α} (p : List α) (k : Nat)
    (h0 : f k = i ++ f' k) (h : ∀ g, k < g → f g = f' g) :
    weave f keep k p = i ++ weave f' keep k p := by
  cases p with
  | nil => simpa [weave] using h0
  | cons t p =>
    simp only [weave, h0]
    rw [weave_congr p (k + 1) (fun g hg => h g (by omega)) (fun g _ => rfl)]
    simp

/-- An edit that inserts `i` and removes `d` at the current position. -/
theorem weave_edit {f f' : Nat → List α} {keep keep' : Nat → Bool} {i d : List α} (p : List α)
    (k : Nat) (h0 : f k = i ++ (if d = [] then f' k else []))
    (hins : ∀ g, k < g → g < k + d.length → f g = [])
    (hdel : ∀ g, k ≤ g → g < k + d.length → keep g = false)
    (hf : ∀ g, k < g → k + d.length ≤ g → f g = f' g)
    (hk : ∀ g, k + d.length ≤ g → keep g = keep' g) :
    weave f keep k (d ++ p) = i ++ weave f' keep' (k + d.length) p := by
  cases d with
  | nil =>
    simp only [if_true] at h0
    simp only [List.nil_append, List.length_nil, Nat.add_zero] at *
    rw [weave_head p k h0 (fun g hg => hf g hg (by omega))]
    rw [weave_congr p k (fun g _ => rfl) hk]
  | cons t d =>
    simp only [List.cons_ne_nil, if_false, List.append_nil] at h0
    simp only [List.length_cons] at *
    simp only [List.cons_append, weave, h0, hdel k (Nat.le_refl k) (by omega), Bool.false_eq_true,
      if_false, List.append_nil]
    rw [weave_drop p d (k + 1) (fun g h1 h2 => ⟨hins g (by omega) (by omega),
      hdel g (by omega) (by omega)⟩)]
    rw [show k + 1 + d.length = k + (d.length + 1) by omega]
    rw [weave_congr p _ (fun g hg => hf g (by omega) hg) hk]

/-! ## Fragment streams -/

@[simp] theorem insert_copy (i : List α) (n : Nat) : (Fragment.copy i n).insert = i := rfl
@[simp] theorem insert_change (i d : List α) (n : Nat) : (Fragment.change i d n).insert = i := rfl
@[simp] theorem length_copy (i : List α) (n : Nat) : (Fragment.copy i n).length = n := rfl
@[simp] theorem length_change (i d : List α) (n : Nat) : (Fragment.change i d n).length = n := rfl

/-- The fragment of a diff item. -/
def toFrag : DiffItem α → Fragment α
  | .common p => .copy p p.length
  | .change a b => .change a b b.length

theorem stream_eq (cs : Changeset α) (o : List α) :
    cs.stream o = (cs.asDiffStream o).map toFrag := by
  induction cs with
  | leaf => simp only [Changeset.stream, Changeset.asDiffStream]; split <;> simp [toFrag]
  | node _ _ p s ihp ihs =>
    simp only [Changeset.stream, Changeset.asDiffStream, ihp, ihs]
    simp [toFrag]

/-- A fragment stream over the parent text `p`; `c` and `h` say whether its first fragment may be
a copy resp. a change. -/
inductive FS : Bool → Bool → List α → List (Fragment α) → Prop
  | nil {c h : Bool} : FS c h [] []
  | copy {h : Bool} {w p : List α} {F : List (Fragment α)} (hw : w ≠ []) (hF : FS false true p F) :
      FS true h (w ++ p) (.copy w w.length :: F)
  | change {c : Bool} {i d p : List α} {F : List (Fragment α)} (hne : i ≠ [] ∨ d ≠ [])
      (hF : FS true false p F) : FS c true (d ++ p) (.change i d d.length :: F)

theorem FS.weaken {c h : Bool} {p : List α} {F : List (Fragment α)} (H : FS c h p F) :
    FS true true p F := by
  cases H with
  | nil => exact .nil
  | copy hw hF => exact .copy hw hF
  | change hne hF => exact .change hne hF

theorem FS_of_diff : ∀ (d : List (DiffItem α)), (∀ x ∈ d, x.Normal) → Alternating d →
    FS (match d.head? with | some (.common _) => true | some _ => false | none => true)
      (match d.head? with | some (.common _) => false | some _ => true | none => true)
      (fromText d) (d.map toFrag) := by
  intro d
  induction d with
  | nil => intro _ _; exact .nil
  | cons x d ih =>
    intro hn ha
    have hx := hn x (by simp)
    have hn' : ∀ y ∈ d, y.Normal := fun y hy => hn y (by simp [hy])
    have ha' : Alternating d := by
      cases d with
      | nil => trivial
      | cons y d => exact ha.2
    have ih' := ih hn' ha'
    cases x with
    | common w =>
      have hF : FS false true (fromText d) (d.map toFrag) := by
        cases d with
        | nil => exact .nil
        | cons y d =>
          cases y with
          | common v => exact absurd rfl ha.1
          | change a b => exact ih'
      exact FS.copy hx hF
    | change a b =>
      have hF : FS true false (fromText d) (d.map toFrag) := by
        cases d with
        | nil => exact .nil
        | cons y d =>
          cases y with
          | common v => exact ih'
          | change a b => exact absurd rfl ha.1
      exact FS.change hx.1 hF

/-- The edits of a fragment stream. -/
def fedits : Nat → List (Fragment α) → List (Edit α)
  | _, [] => []
  | k, .copy _ n :: F => fedits (k + n) F
  | k, .change i _ n :: F => ⟨k, k + n, i⟩ :: fedits (k + n) F

theorem fedits_map : ∀ (d : List (DiffItem α)) (k : Nat),
    fedits k (d.map toFrag) = editsOf k d := by
  intro d
  induction d with
  | nil => intro k; rfl
  | cons x d ih =>
    intro k
    cases x <;> simp [toFrag, fedits, editsOf, ih]

/-- All edits start at `k` or later. -/
def LB (k : Nat) (es : List (Edit α)) : Prop := ∀ e ∈ es, k ≤ e.start ∧ e.start ≤ e.stop

theorem LB.mono {k k' : Nat} {es : List (Edit α)} (h : LB k es) (hk : k' ≤ k) : LB k' es :=
  fun e he => ⟨Nat.le_trans hk (h e he).1, (h e he).2⟩

theorem fedits_LB : ∀ (F : List (Fragment α)) (k : Nat), LB k (fedits k F) := by
  intro F
  induction F with
  | nil => intro k e he; simp [fedits] at he
  | cons f F ih =>
    intro k
    cases f with
    | copy i n => exact (ih (k + n)).mono (by omega)
    | change i d n =>
      intro e he
      simp only [fedits, List.mem_cons] at he
      rcases he with rfl | he
      · exact ⟨Nat.le_refl _, by simp⟩
      · have := ih (k + n) e he
        exact ⟨by omega, this.2⟩

theorem FS.LB_succ {c : Bool} {p : List α} {F : List (Fragment α)} (H : FS c false p F) (k : Nat) :
    LB (k + 1) (fedits k F) := by
  cases H with
  | nil => intro e he; simp [fedits] at he
  | @copy _ w p F hw hF =>
    have : 0 < w.length := List.length_pos_iff.2 hw
    exact (fedits_LB F (k + w.length)).mono (by omega)

theorem insertedAt_lt {k g : Nat} {es : List (Edit α)} (h : LB k es) (hg : g < k) :
    insertedAt es g = [] := by
  simp only [insertedAt, List.flatMap_eq_nil_iff]
  intro e he
  have := (h e he).1
  rw [if_neg (by omega)]

theorem deletes_lt {k g : Nat} {es : List (Edit α)} (h : LB k es) (hg : g < k) :
    deletes es g = false := by
  simp only [deletes, List.any_eq_false]
  intro e he
  have := (h e he).1
  simp; omega

theorem insertedAt_cons (e : Edit α) (es : List (Edit α)) (g : Nat) :
    insertedAt (e :: es) g = (if e.start = g then e.insert else []) ++ insertedAt es g := by
  simp [insertedAt]

theorem deletes_cons (e : Edit α) (es : List (Edit α)) (g : Nat) :
    deletes (e :: es) g = ((decide (e.start ≤ g) && decide (g < e.stop)) || deletes es g) := by
  simp [deletes]

/-! ## Edits are faithful -/

theorem applyEdits_stream : ∀ (F : List (Fragment α)) (c h : Bool) (p : List α) (k : Nat),
    FS c h p F → weave (insertedAt (fedits k F)) (fun g => !deletes (fedits k F) g) k p =
      F.flatMap (·.insert) := by
  intro F
  induction F with
  | nil => intro c h p k H; cases H; rfl
  | cons f F ih =>
    intro c h p k H
    cases H with
    | @copy _ w p _ hw hF =>
      have hl := fedits_LB F (k + w.length)
      simp only [fedits, List.flatMap_cons, insert_copy, insert_change]
      rw [weave_keep p w k (fun g h1 h2 => ⟨insertedAt_lt hl h2, by simp [deletes_lt hl h2]⟩)]
      rw [ih _ _ p _ hF]
    | @change _ i d p _ hne hF =>
      have hl := hF.LB_succ (k + d.length)
      simp only [fedits, List.flatMap_cons, insert_copy, insert_change]
      rw [← ih _ _ p (k + d.length) hF]
      apply weave_edit
      · have : insertedAt (fedits (k + d.length) F) k = [] := insertedAt_lt hl (by omega)
        simp [insertedAt_cons, this]
      · intro g h1 h2
        rw [insertedAt_cons, insertedAt_lt hl (by omega), if_neg (by simp; omega)]; rfl
      · intro g h1 h2
        simp [deletes_cons, h1, h2]
      · intro g h1 h2
        rw [insertedAt_cons, if_neg (by simp; omega)]; rfl
      · intro g h1
        simp [deletes_cons]; intro; omega

end Gaspra
