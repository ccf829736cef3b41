import Verif.Proofs.Anchor
import Verif.Props.Merge
import Verif.Props.Changesets

/-!
# Edits between landmarks merge cleanly
-/

set_option linter.unusedSectionVars false
set_option linter.unusedSimpArgs false
set_option linter.unusedVariables false

namespace Gaspra

variable {α : Type _}

/-- The text a spelled diff starts from. -/
def oldS (s : List (α ⊕ (List α × List α))) : List α :=
  s.flatMap fun
    | .inl t => [t]
    | .inr (_, b) => b

/-- The text a spelled diff leads to. -/
def newS (s : List (α ⊕ (List α × List α))) : List α :=
  s.flatMap fun
    | .inl t => [t]
    | .inr (a, _) => a

/-- The edits of a spelled diff. -/
def editsS : Nat → List (α ⊕ (List α × List α)) → List (Edit α)
  | _, [] => []
  | pos, .inl _ :: rest => editsS (pos + 1) rest
  | pos, .inr (a, b) :: rest => ⟨pos, pos + b.length, a⟩ :: editsS (pos + b.length) rest

abbrev tokens (w : List α) : List (α ⊕ (List α × List α)) := w.map Sum.inl

theorem oldS_append (s s' : List (α ⊕ (List α × List α))) : oldS (s ++ s') = oldS s ++ oldS s' := by
  simp [oldS]
theorem newS_append (s s' : List (α ⊕ (List α × List α))) : newS (s ++ s') = newS s ++ newS s' := by
  simp [newS]
theorem oldS_tokens (w : List α) : oldS (tokens w) = w := by
  induction w with
  | nil => rfl
  | cons t w ih => simpa [oldS, tokens] using ih
theorem newS_tokens (w : List α) : newS (tokens w) = w := by
  induction w with
  | nil => rfl
  | cons t w ih => simpa [newS, tokens] using ih

theorem spellAppend (d e : List (DiffItem α)) : spell (d ++ e) = spell d ++ spell e := by simp [spell]
theorem spellCommon (w : List α) (d : List (DiffItem α)) : spell (.common w :: d) = tokens w ++ spell d := by
  simp [spell]
theorem spellChange (a b : List α) (d : List (DiffItem α)) : spell (.change a b :: d) = .inr (a, b) :: spell d := by
  simp [spell]

theorem oldS_spell (d : List (DiffItem α)) : oldS (spell d) = fromText d := by
  induction d with
  | nil => rfl
  | cons x d ih =>
    cases x with
    | common w => rw [spellCommon, oldS_append, oldS_tokens, ih]; simp [fromText]
    | change a b => rw [spellChange]; simp [oldS, fromText] at *; exact ih

theorem newS_spell (d : List (DiffItem α)) : newS (spell d) = intoText d := by
  induction d with
  | nil => rfl
  | cons x d ih =>
    cases x with
    | common w => rw [spellCommon, newS_append, newS_tokens, ih]; simp [intoText]
    | change a b => rw [spellChange]; simp [newS, intoText] at *; exact ih

theorem editsS_tokens (w : List α) : ∀ (pos : Nat) (s : List (α ⊕ (List α × List α))),
    editsS pos (tokens w ++ s) = editsS (pos + w.length) s := by
  induction w with
  | nil => intros; rfl
  | cons t w ih =>
    intro pos s
    have := ih (pos + 1) s
    simp only [tokens, List.map_cons, List.cons_append, editsS, List.length_cons] at *
    rw [this]; congr 1; omega

theorem editsS_spell (d : List (DiffItem α)) : ∀ pos, editsS pos (spell d) = editsOf pos d := by
  induction d with
  | nil => intros; rfl
  | cons x d ih =>
    intro pos
    cases x with
    | common w => rw [spellCommon, editsS_tokens, ih]; rfl
    | change a b => rw [spellChange]; simp only [editsS, editsOf, ih]

/-! ## Two spelled diffs side by side -/

/-- No change at the front. -/
def StartsPlain : List (α ⊕ (List α × List α)) → Prop
  | .inr _ :: _ => False
  | _ => True

/-- No two changes are adjacent. -/
def NoAdjacent : List (α ⊕ (List α × List α)) → Prop
  | [] => True
  | x :: rest => ((∃ t, x = .inl t) ∨ StartsPlain rest) ∧ NoAdjacent rest

/-- Two spelled diffs of the same text whose changes are the same ones or separated by tokens that both
keep, that text, and the text with all the changes made. -/
inductive SideBySide : List (α ⊕ (List α × List α)) → List (α ⊕ (List α × List α)) → List α → List α → Prop
  | nil : SideBySide [] [] [] []
  | token {s0 s1 p m t} : SideBySide s0 s1 p m → SideBySide (.inl t :: s0) (.inl t :: s1) (t :: p) (t :: m)
  | left {s0 s1 p m a b} : StartsPlain s0 → StartsPlain s1 → SideBySide s0 s1 p m →
      SideBySide (.inr (a, b) :: s0) (tokens b ++ s1) (b ++ p) (a ++ m)
  | right {s0 s1 p m a b} : StartsPlain s0 → StartsPlain s1 → SideBySide s0 s1 p m →
      SideBySide (tokens b ++ s0) (.inr (a, b) :: s1) (b ++ p) (a ++ m)
  | same {s0 s1 p m a b} : StartsPlain s0 → StartsPlain s1 → SideBySide s0 s1 p m →
      SideBySide (.inr (a, b) :: s0) (.inr (a, b) :: s1) (b ++ p) (a ++ m)

theorem editsS_ge (s : List (α ⊕ (List α × List α))) : ∀ pos, ∀ e ∈ editsS pos s, pos ≤ e.start ∧ e.start ≤ e.stop := by
  induction s with
  | nil => intro pos e he; cases he
  | cons x s ih =>
    intro pos e he
    cases x with
    | inl t => have := ih _ e he; omega
    | inr ab =>
      simp only [editsS, List.mem_cons] at he
      rcases he with rfl | he
      · simp
      · have := ih _ e he; omega

theorem editsS_gt {s : List (α ⊕ (List α × List α))} (h : StartsPlain s) (pos : Nat) :
    ∀ e ∈ editsS pos s, pos < e.start := by
  intro e he
  cases s with
  | nil => cases he
  | cons x s =>
    cases x with
    | inl t => have := editsS_ge s (pos + 1) e he; omega
    | inr ab => exact absurd h (by simp [StartsPlain])

/-- The edits of both sides are apart. -/
theorem SideBySide.compatible {s0 s1 : List (α ⊕ (List α × List α))} {p m : List α} (h : SideBySide s0 s1 p m) :
    ∀ pos, ∀ e0 ∈ editsS pos s0, ∀ e1 ∈ editsS pos s1, e0.Compatible e1 := by
  induction h with
  | nil => intro pos e0 h0; cases h0
  | token _ ih => intro pos; exact ih (pos + 1)
  | @left s0 s1 p m a b p0 p1 _ ih =>
    intro pos e0 h0 e1 h1
    rw [editsS_tokens] at h1
    simp only [editsS, List.mem_cons] at h0
    rcases h0 with rfl | h0
    · have := editsS_gt p1 _ e1 h1
      exact .inr ⟨.inl (by simp; omega), .inl (by simp; omega)⟩
    · exact ih _ e0 h0 e1 h1
  | @right s0 s1 p m a b p0 p1 _ ih =>
    intro pos e0 h0 e1 h1
    rw [editsS_tokens] at h0
    simp only [editsS, List.mem_cons] at h1
    rcases h1 with rfl | h1
    · have := editsS_gt p0 _ e0 h0
      exact .inr ⟨.inr (by simp; omega), .inl (by simp; omega)⟩
    · exact ih _ e0 h0 e1 h1
  | @same s0 s1 p m a b p0 p1 _ ih =>
    intro pos e0 h0 e1 h1
    simp only [editsS, List.mem_cons] at h0 h1
    rcases h0 with rfl | h0 <;> rcases h1 with rfl | h1
    · exact .inl rfl
    · have := editsS_gt p1 _ e1 h1
      exact .inr ⟨.inl (by simp; omega), .inl (by simp; omega)⟩
    · have := editsS_gt p0 _ e0 h0
      exact .inr ⟨.inr (by simp; omega), .inl (by simp; omega)⟩
    · exact ih _ e0 h0 e1 h1

theorem insertedAt_append (es es' : List (Edit α)) (g : Nat) :
    insertedAt (es ++ es') g = insertedAt es g ++ insertedAt es' g := by simp [insertedAt]
theorem deletes_append (es es' : List (Edit α)) (g : Nat) :
    deletes (es ++ es') g = (deletes es g || deletes es' g) := by simp [deletes]
theorem insertedAt_none {es : List (Edit α)} {g : Nat} (h : ∀ e ∈ es, e.start ≠ g) : insertedAt es g = [] := by
  simp only [insertedAt, List.flatMap_eq_nil_iff]
  intro e he
  simp [h e he]
theorem deletes_none {es : List (Edit α)} {g : Nat} (h : ∀ e ∈ es, e.stop ≤ g ∨ g < e.start) :
    deletes es g = false := by
  simp only [deletes, List.any_eq_false]
  intro e he
  have := h e he
  simp; omega

/-- Deleted text is left out. -/
theorem weave_deleted (ins : Nat → List α) (keep : Nat → Bool) : ∀ (b : List α) (pos : Nat) (p : List α),
    (∀ g, pos ≤ g → g < pos + b.length → keep g = false) →
    (∀ g, pos < g → g < pos + b.length → ins g = []) → b ≠ [] →
    weave ins keep pos (b ++ p) = ins pos ++ weave ins keep (pos + b.length) p := by
  intro b
  induction b with
  | nil => intro _ _ _ _ h; exact absurd rfl h
  | cons t b ih =>
    intro pos p hk hi _
    simp only [List.cons_append, weave]
    rw [hk pos (Nat.le_refl _) (by simp)]
    cases b with
    | nil => simp
    | cons t' b =>
      rw [ih (pos + 1) p (fun g h1 h2 => hk g (by omega) (by simp at *; omega))
        (fun g h1 h2 => hi g (by omega) (by simp at *; omega)) (by simp),
        hi (pos + 1) (by omega) (by simp)]
      have : pos + 1 + (t' :: b).length = pos + (t :: t' :: b).length := by simp; omega
      rw [this]; simp

theorem weave_kept (ins : Nat → List α) (keep : Nat → Bool) (pos : Nat) (t : α) (p : List α)
    (h : keep pos = true) : weave ins keep pos (t :: p) = ins pos ++ t :: weave ins keep (pos + 1) p := by
  simp [weave, h]

variable [DecidableEq α]

/-- The merged text of two diffs side by side.  The edits `q0` and `q1` are those made before; what they
insert at the present place is `x`. -/
theorem SideBySide.merged {s0 s1 : List (α ⊕ (List α × List α))} {p m : List α} (h : SideBySide s0 s1 p m) :
    ∀ (pos : Nat) (q0 q1 : List (Edit α)) (x : List α),
      (∀ e ∈ q0, e.start ≤ pos ∧ e.stop ≤ pos) → (∀ e ∈ q1, e.start ≤ pos ∧ e.stop ≤ pos) →
      bothInserts (insertedAt q0 pos) (insertedAt q1 pos) = x →
      ((insertedAt q0 pos = [] ∧ insertedAt q1 pos = []) ∨ (StartsPlain s0 ∧ StartsPlain s1)) →
      weave (fun g => bothInserts (insertedAt (q0 ++ editsS pos s0) g) (insertedAt (q1 ++ editsS pos s1) g))
        (fun g => !deletes (q0 ++ editsS pos s0) g && !deletes (q1 ++ editsS pos s1) g) pos p = x ++ m := by
  induction h with
  | nil =>
    intro pos q0 q1 x b0 b1 hx _
    simpa [weave, editsS] using hx
  | @token s0 s1 p m t _ ih =>
    intro pos q0 q1 x b0 b1 hx _
    have n0 : ∀ e ∈ editsS (pos + 1) s0, pos < e.start := fun e he => by
      have := editsS_ge _ _ e he; omega
    have n1 : ∀ e ∈ editsS (pos + 1) s1, pos < e.start := fun e he => by
      have := editsS_ge _ _ e he; omega
    simp only [editsS]
    have i0 : insertedAt (q0 ++ editsS (pos + 1) s0) pos = insertedAt q0 pos := by
      rw [insertedAt_append, insertedAt_none (es := editsS _ s0) (fun e he => by have := n0 e he; omega), List.append_nil]
    have i1 : insertedAt (q1 ++ editsS (pos + 1) s1) pos = insertedAt q1 pos := by
      rw [insertedAt_append, insertedAt_none (es := editsS _ s1) (fun e he => by have := n1 e he; omega), List.append_nil]
    have k0 : deletes (q0 ++ editsS (pos + 1) s0) pos = false := by
      rw [deletes_append, deletes_none (es := q0) (fun e he => .inl (b0 e he).2), deletes_none (es := editsS _ s0) (fun e he => .inr (n0 e he))]; rfl
    have k1 : deletes (q1 ++ editsS (pos + 1) s1) pos = false := by
      rw [deletes_append, deletes_none (es := q1) (fun e he => .inl (b1 e he).2), deletes_none (es := editsS _ s1) (fun e he => .inr (n1 e he))]; rfl
    rw [weave_kept _ _ _ _ _ (by simp only [k0, k1]; rfl), i0, i1, hx]
    have z0 : insertedAt q0 (pos + 1) = [] := insertedAt_none fun e he => by have := b0 e he; omega
    have z1 : insertedAt q1 (pos + 1) = [] := insertedAt_none fun e he => by have := b1 e he; omega
    rw [ih (pos + 1) q0 q1 [] (fun e he => by have := b0 e he; omega) (fun e he => by have := b1 e he; omega)
      (by rw [z0, z1]; simp [bothInserts]) (.inl ⟨z0, z1⟩)]
    simp
  | @left s0 s1 p m a b p0 p1 _ ih =>
    intro pos q0 q1 x b0 b1 hx hc
    obtain ⟨c0, c1⟩ := hc.resolve_right fun h => absurd h.1 (by simp [StartsPlain])
    have hx0 : x = [] := by rw [← hx, c0, c1]; simp [bothInserts]
    subst hx0
    simp only [editsS, editsS_tokens]
    have n0 : ∀ e ∈ editsS (pos + b.length) s0, pos + b.length < e.start := editsS_gt p0 _
    have n1 : ∀ e ∈ editsS (pos + b.length) s1, pos + b.length < e.start := editsS_gt p1 _
    have i0 : insertedAt (q0 ++ [⟨pos, pos + b.length, a⟩]) pos = a := by
      rw [insertedAt_append, c0]; simp [insertedAt]
    have b0' : ∀ e ∈ q0 ++ [⟨pos, pos + b.length, a⟩], e.start ≤ pos + b.length ∧ e.stop ≤ pos + b.length := by
      intro e he
      simp only [List.mem_append, List.mem_singleton] at he
      rcases he with he | rfl
      · have := b0 e he; omega
      · simp
    have b1' : ∀ e ∈ q1, e.start ≤ pos + b.length ∧ e.stop ≤ pos + b.length := fun e he => by
      have := b1 e he; omega
    have shape : q0 ++ ⟨pos, pos + b.length, a⟩ :: editsS (pos + b.length) s0 =
        q0 ++ [⟨pos, pos + b.length, a⟩] ++ editsS (pos + b.length) s0 := by simp
    rw [shape]
    by_cases hb : b = []
    · subst hb
      have := ih pos (q0 ++ [⟨pos, pos, a⟩]) q1 a (by simpa using b0') (by simpa using b1')
        (by
          rw [c1]
          have : insertedAt (q0 ++ [⟨pos, pos, a⟩]) pos = a := by simpa using i0
          rw [this]; unfold bothInserts; split
          · rfl
          · simp)
        (.inr ⟨p0, p1⟩)
      simpa using this
    · have hb0 : 0 < b.length := List.length_pos_iff.2 hb
      rw [weave_deleted _ _ b pos p ?_ ?_ hb]
      · have z0 : insertedAt (q0 ++ [⟨pos, pos + b.length, a⟩]) (pos + b.length) = [] :=
          insertedAt_none fun e he => by
            simp only [List.mem_append, List.mem_singleton] at he
            rcases he with he | rfl
            · have := b0 e he; omega
            · simp; omega
        have z1 : insertedAt q1 (pos + b.length) = [] := insertedAt_none fun e he => by have := b1 e he; omega
        rw [ih (pos + b.length) _ q1 [] b0' b1' (by rw [z0, z1]; simp [bothInserts]) (.inl ⟨z0, z1⟩)]
        have j0 : insertedAt (q0 ++ [⟨pos, pos + b.length, a⟩] ++ editsS (pos + b.length) s0) pos = a := by
          rw [insertedAt_append, i0, insertedAt_none (es := editsS _ s0) (fun e he => by have := n0 e he; omega)]; simp
        have j1 : insertedAt (q1 ++ editsS (pos + b.length) s1) pos = [] := by
          rw [insertedAt_append, c1, insertedAt_none (es := editsS _ s1) (fun e he => by have := n1 e he; omega)]; rfl
        rw [j0, j1]
        unfold bothInserts
        split <;> simp_all
      · intro g h1 h2
        have : deletes (q0 ++ [⟨pos, pos + b.length, a⟩] ++ editsS (pos + b.length) s0) g = true := by
          rw [deletes_append, deletes_append]
          simp [deletes, h1, h2]
        simp only [this, Bool.not_true, Bool.false_and, Bool.and_false]
      · intro g h1 h2
        have j0 : insertedAt (q0 ++ [⟨pos, pos + b.length, a⟩] ++ editsS (pos + b.length) s0) g = [] :=
          insertedAt_none fun e he => by
            simp only [List.mem_append, List.mem_singleton] at he
            rcases he with (he | rfl) | he
            · have := b0 e he; omega
            · simp; omega
            · have := n0 e he; omega
        have j1 : insertedAt (q1 ++ editsS (pos + b.length) s1) g = [] :=
          insertedAt_none fun e he => by
            simp only [List.mem_append] at he
            rcases he with he | he
            · have := b1 e he; omega
            · have := n1 e he; omega
        rw [j0, j1]; simp [bothInserts]
  | @right s0 s1 p m a b p0 p1 _ ih =>
    intro pos q0 q1 x b0 b1 hx hc
    obtain ⟨c0, c1⟩ := hc.resolve_right fun h => absurd h.2 (by simp [StartsPlain])
    have hx0 : x = [] := by rw [← hx, c0, c1]; simp [bothInserts]
    subst hx0
    simp only [editsS, editsS_tokens]
    have n0 : ∀ e ∈ editsS (pos + b.length) s0, pos + b.length < e.start := editsS_gt p0 _
    have n1 : ∀ e ∈ editsS (pos + b.length) s1, pos + b.length < e.start := editsS_gt p1 _
    have i1 : insertedAt (q1 ++ [⟨pos, pos + b.length, a⟩]) pos = a := by
      rw [insertedAt_append, c1]; simp [insertedAt]
    have b1' : ∀ e ∈ q1 ++ [⟨pos, pos + b.length, a⟩], e.start ≤ pos + b.length ∧ e.stop ≤ pos + b.length := by
      intro e he
      simp only [List.mem_append, List.mem_singleton] at he
      rcases he with he | rfl
      · have := b1 e he; omega
      · simp
    have b0' : ∀ e ∈ q0, e.start ≤ pos + b.length ∧ e.stop ≤ pos + b.length := fun e he => by
      have := b0 e he; omega
    have shape : q1 ++ ⟨pos, pos + b.length, a⟩ :: editsS (pos + b.length) s1 =
        q1 ++ [⟨pos, pos + b.length, a⟩] ++ editsS (pos + b.length) s1 := by simp
    rw [shape]
    by_cases hb : b = []
    · subst hb
      have := ih pos q0 (q1 ++ [⟨pos, pos, a⟩]) a (by simpa using b0') (by simpa using b1')
        (by
          rw [c0]
          have : insertedAt (q1 ++ [⟨pos, pos, a⟩]) pos = a := by simpa using i1
          rw [this]; unfold bothInserts; split
          · assumption
          · simp)
        (.inr ⟨p0, p1⟩)
      simpa using this
    · have hb0 : 0 < b.length := List.length_pos_iff.2 hb
      rw [weave_deleted _ _ b pos p ?_ ?_ hb]
      · have z1 : insertedAt (q1 ++ [⟨pos, pos + b.length, a⟩]) (pos + b.length) = [] :=
          insertedAt_none fun e he => by
            simp only [List.mem_append, List.mem_singleton] at he
            rcases he with he | rfl
            · have := b1 e he; omega
            · simp; omega
        have z0 : insertedAt q0 (pos + b.length) = [] := insertedAt_none fun e he => by have := b0 e he; omega
        rw [ih (pos + b.length) q0 _ [] b0' b1' (by rw [z0, z1]; simp [bothInserts]) (.inl ⟨z0, z1⟩)]
        have j1 : insertedAt (q1 ++ [⟨pos, pos + b.length, a⟩] ++ editsS (pos + b.length) s1) pos = a := by
          rw [insertedAt_append, i1, insertedAt_none (es := editsS _ s1) (fun e he => by have := n1 e he; omega)]; simp
        have j0 : insertedAt (q0 ++ editsS (pos + b.length) s0) pos = [] := by
          rw [insertedAt_append, c0, insertedAt_none (es := editsS _ s0) (fun e he => by have := n0 e he; omega)]; rfl
        rw [j0, j1]
        unfold bothInserts
        split <;> simp_all
      · intro g h1 h2
        have : deletes (q1 ++ [⟨pos, pos + b.length, a⟩] ++ editsS (pos + b.length) s1) g = true := by
          rw [deletes_append, deletes_append]
          simp [deletes, h1, h2]
        simp only [this, Bool.not_true, Bool.false_and, Bool.and_false]
      · intro g h1 h2
        have j1 : insertedAt (q1 ++ [⟨pos, pos + b.length, a⟩] ++ editsS (pos + b.length) s1) g = [] :=
          insertedAt_none fun e he => by
            simp only [List.mem_append, List.mem_singleton] at he
            rcases he with (he | rfl) | he
            · have := b1 e he; omega
            · simp; omega
            · have := n1 e he; omega
        have j0 : insertedAt (q0 ++ editsS (pos + b.length) s0) g = [] :=
          insertedAt_none fun e he => by
            simp only [List.mem_append] at he
            rcases he with he | he
            · have := b0 e he; omega
            · have := n0 e he; omega
        rw [j0, j1]; simp [bothInserts]
  | @same s0 s1 p m a b p0 p1 _ ih =>
    intro pos q0 q1 x b0 b1 hx hc
    obtain ⟨c0, c1⟩ := hc.resolve_right fun h => absurd h.1 (by simp [StartsPlain])
    have hx0 : x = [] := by rw [← hx, c0, c1]; simp [bothInserts]
    subst hx0
    simp only [editsS]
    have n0 : ∀ e ∈ editsS (pos + b.length) s0, pos + b.length < e.start := editsS_gt p0 _
    have n1 : ∀ e ∈ editsS (pos + b.length) s1, pos + b.length < e.start := editsS_gt p1 _
    have shape : ∀ (q : List (Edit α)) s, q ++ ⟨pos, pos + b.length, a⟩ :: editsS (pos + b.length) s =
        q ++ [⟨pos, pos + b.length, a⟩] ++ editsS (pos + b.length) s := by simp
    have bd : ∀ q : List (Edit α), (∀ e ∈ q, e.start ≤ pos ∧ e.stop ≤ pos) →
        ∀ e ∈ q ++ [⟨pos, pos + b.length, a⟩], e.start ≤ pos + b.length ∧ e.stop ≤ pos + b.length := by
      intro q hq e he
      simp only [List.mem_append, List.mem_singleton] at he
      rcases he with he | rfl
      · have := hq e he; omega
      · simp
    have ii : ∀ q : List (Edit α), insertedAt q pos = [] →
        insertedAt (q ++ [⟨pos, pos + b.length, a⟩]) pos = a := by
      intro q hq
      rw [insertedAt_append, hq]; simp [insertedAt]
    have self : bothInserts a a = a := by simp [bothInserts]
    rw [shape, shape]
    by_cases hb : b = []
    · subst hb
      have := ih pos (q0 ++ [⟨pos, pos, a⟩]) (q1 ++ [⟨pos, pos, a⟩]) a (by simpa using bd q0 b0)
        (by simpa using bd q1 b1) (by
          have e0 : insertedAt (q0 ++ [⟨pos, pos, a⟩]) pos = a := by simpa using ii q0 c0
          have e1 : insertedAt (q1 ++ [⟨pos, pos, a⟩]) pos = a := by simpa using ii q1 c1
          rw [e0, e1, self]) (.inr ⟨p0, p1⟩)
      simpa using this
    · have hb0 : 0 < b.length := List.length_pos_iff.2 hb
      rw [weave_deleted _ _ b pos p ?_ ?_ hb]
      · have zz : ∀ q : List (Edit α), (∀ e ∈ q, e.start ≤ pos ∧ e.stop ≤ pos) →
            insertedAt (q ++ [⟨pos, pos + b.length, a⟩]) (pos + b.length) = [] := fun q hq =>
          insertedAt_none fun e he => by
            simp only [List.mem_append, List.mem_singleton] at he
            rcases he with he | rfl
            · have := hq e he; omega
            · simp; omega
        rw [ih (pos + b.length) _ _ [] (bd q0 b0) (bd q1 b1) (by rw [zz q0 b0, zz q1 b1]; simp [bothInserts])
          (.inl ⟨zz q0 b0, zz q1 b1⟩)]
        have j0 : insertedAt (q0 ++ [⟨pos, pos + b.length, a⟩] ++ editsS (pos + b.length) s0) pos = a := by
          rw [insertedAt_append, ii q0 c0, insertedAt_none (es := editsS _ s0) (fun e he => by have := n0 e he; omega)]; simp
        have j1 : insertedAt (q1 ++ [⟨pos, pos + b.length, a⟩] ++ editsS (pos + b.length) s1) pos = a := by
          rw [insertedAt_append, ii q1 c1, insertedAt_none (es := editsS _ s1) (fun e he => by have := n1 e he; omega)]; simp
        rw [j0, j1, self]
        simp
      · intro g h1 h2
        have : deletes (q0 ++ [⟨pos, pos + b.length, a⟩] ++ editsS (pos + b.length) s0) g = true := by
          rw [deletes_append, deletes_append]
          simp [deletes, h1, h2]
        simp only [this, Bool.not_true, Bool.false_and, Bool.and_false]
      · intro g h1 h2
        have jj : ∀ (q : List (Edit α)) s, (∀ e ∈ q, e.start ≤ pos ∧ e.stop ≤ pos) →
            (∀ e ∈ editsS (pos + b.length) s, pos + b.length < e.start) →
            insertedAt (q ++ [⟨pos, pos + b.length, a⟩] ++ editsS (pos + b.length) s) g = [] := fun q s hq hs =>
          insertedAt_none fun e he => by
            simp only [List.mem_append, List.mem_singleton] at he
            rcases he with (he | rfl) | he
            · have := hq e he; omega
            · simp; omega
            · have := hs e he; omega
        rw [jj q0 s0 b0 n0, jj q1 s1 b1 n1]; simp [bothInserts]

/-- Branches whose changes are separated merge to the text with all changes made. -/
theorem SideBySide.merge {kind : Kind} {parent b0 b1 m : List α} {d0 d1 : List (DiffItem α)}
    (h0 : diffTokenSequences parent b0 = some d0) (h1 : diffTokenSequences parent b1 = some d1)
    (h : SideBySide (spell d0) (spell d1) parent m) :
    mergeTokenSequence kind parent b0 b1 = .ok [.common m] := by
  have hm := h.merged 0 [] [] [] (by simp) (by simp) (by simp [insertedAt, bothInserts]) (.inl ⟨rfl, rfl⟩)
  have hc := h.compatible 0
  simp only [List.nil_append, editsS_spell] at hm hc
  rw [C18_clean_merge h0 h1 hc, mergedText, hm]

end Gaspra
