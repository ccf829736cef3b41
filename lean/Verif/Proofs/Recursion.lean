import Verif.Proofs.Changesets
import Verif.Spec.Recursion

/-!
# Nested calls of `find_changeset`
-/

set_option linter.unusedSectionVars false
set_option linter.unusedSimpArgs false
set_option linter.unusedVariables false

namespace Gaspra

variable {α : Type _} [DecidableEq α]

/-- The result with less fuel. -/
theorem findChangesetAux_limit (o m : List α) : ∀ (f : Nat) (os ms : Slice) (cs : Changeset α),
    findChangesetAux o m f os ms = some cs →
    ∀ g, findChangesetAux o m g os ms = if cs.depth ≤ g then some cs else none := by
  intro f
  induction f with
  | zero => intro os ms cs h; simp [findChangesetAux] at h
  | succ f ih =>
    intro os ms cs h g
    cases g with
    | zero =>
      have : ¬ cs.depth ≤ 0 := by cases cs <;> simp [Changeset.depth]
      simp [findChangesetAux, this]
    | succ g =>
      simp only [findChangesetAux] at h ⊢
      cases hl : findLcs (os.get o) (ms.get m) with
      | none => simp [hl] at h
      | some t =>
        obtain ⟨a, b, n⟩ := t
        simp only [hl] at h ⊢
        by_cases hn : n = 0
        · rw [if_pos hn] at h ⊢
          cases h
          simp [Changeset.depth]
        · rw [if_neg hn] at h ⊢
          cases hp : findChangesetAux o m f ⟨os.start, some (os.start + a)⟩
              ⟨ms.start, some (ms.start + b)⟩ with
          | none => simp [hp] at h
          | some p =>
            cases hs : findChangesetAux o m f ⟨os.start + a + n, os.stop⟩
                ⟨ms.start + b + n, ms.stop⟩ with
            | none => simp [hp, hs] at h
            | some s =>
              simp only [hp, hs, Option.some.injEq] at h
              subst h
              rw [ih _ _ _ hp g, ih _ _ _ hs g]
              simp only [Changeset.depth]
              by_cases h1 : p.depth ≤ g
              · by_cases h2 : s.depth ≤ g
                · have : 1 + max p.depth s.depth ≤ g + 1 := by omega
                  simp [h1, h2, this]
                · have : ¬ 1 + max p.depth s.depth ≤ g + 1 := by omega
                  simp [h1, h2, this]
              · have : ¬ 1 + max p.depth s.depth ≤ g + 1 := by omega
                simp [h1, this]

/-- Each common piece takes at least one token of both inputs. -/
theorem Valid.depth_le {i j : Nat} {x y : List α} {cs : Changeset α} (V : Valid i x j y cs) :
    cs.depth ≤ min x.length y.length + 1 ∧ cs.calls ≤ 2 * min x.length y.length + 1 := by
  induction V with
  | leaf _ => simp [Changeset.depth, Changeset.calls]
  | node hw _ _ _ _ _ ih1 ih2 =>
    have := List.length_pos_iff.2 hw
    simp only [Changeset.depth, Changeset.calls, List.length_append]
    omega

/-- The number of calls is determined by the number of common pieces. -/
theorem Changeset.calls_eq (cs : Changeset α) (o : List α) :
    cs.calls = 2 * ((cs.asDiffStream o).filter fun d => match d with
      | .common _ => true | .change _ _ => false).length + 1 := by
  induction cs with
  | leaf a b _ _ =>
    simp only [calls, asDiffStream]
    split <;> simp
  | node co cm p s ih1 ih2 =>
    simp only [calls, asDiffStream, List.filter_append, List.length_append, ih1, ih2,
      List.filter_cons, List.filter_nil]
    simp; omega

/-! ## Inputs that need deep recursion -/

/-- No two adjacent tokens are both `a`. -/
def NoPair (a : α) : List α → Prop
  | [] => True
  | [_] => True
  | x :: y :: rest => ¬ (x = a ∧ y = a) ∧ NoPair a (y :: rest)

theorem NoPair.tail {a t : α} {s : List α} (h : NoPair a (t :: s)) : NoPair a s := by
  cases s with
  | nil => trivial
  | cons u s => exact h.2

theorem NoPair.absurd {a : α} : ∀ (p q : List α), ¬ NoPair a (p ++ a :: a :: q)
  | [], q => fun h => h.1 ⟨rfl, rfl⟩
  | t :: p, q => fun h => NoPair.absurd p q (NoPair.tail h)

/-- `n` times the tokens `a`, `x`. -/
def comb (a x : α) : Nat → List α
  | 0 => []
  | n + 1 => a :: x :: comb a x n

theorem comb_noPair {a x : α} (h : x ≠ a) : ∀ n, NoPair a (x :: comb a x n)
  | 0 => trivial
  | n + 1 => by
    refine ⟨fun e => h e.1, ?_⟩
    exact ⟨fun e => h e.2, comb_noPair h n⟩

theorem comb_noPair' {a x : α} (h : x ≠ a) (n : Nat) : NoPair a (comb a x n) :=
  (comb_noPair h n).tail

theorem mem_comb {a x t : α} : ∀ n, t ∈ comb a x n → t = a ∨ t = x
  | 0 => by simp [comb]
  | n + 1 => by
    simp only [comb, List.mem_cons]
    rintro (h | h | h)
    · exact .inl h
    · exact .inr h
    · exact mem_comb n h

theorem comb_depth {a x y : α} (hxa : x ≠ a) (hya : y ≠ a) (hxy : x ≠ y) :
    ∀ (n i j : Nat) (X Y : List α) (cs : Changeset α),
      (X = [] ∧ Y = []) ∨ (X = [x] ∧ Y = [y]) →
      Valid i (X ++ comb a x n) j (Y ++ comb a y n) cs → cs.depth = n + 1 := by
  intro n
  induction n with
  | zero =>
    intro i j X Y cs hXY V
    have hno : ∀ t, t ∈ X ++ comb a x 0 → t ∉ Y ++ comb a y 0 := by
      rcases hXY with ⟨rfl, rfl⟩ | ⟨rfl, rfl⟩ <;> simp [comb]
      exact hxy
    generalize hu : X ++ comb a x 0 = u at V hno
    generalize hv : Y ++ comb a y 0 = v at V hno
    cases V with
    | leaf => simp [Changeset.depth]
    | node hw =>
      exfalso
      rename_i w _ _ _ _ _
      obtain ⟨t, ht⟩ := List.exists_mem_of_ne_nil _ hw
      exact hno t (by simp [ht]) (by simp [ht])
  | succ n ih =>
    intro i j X Y cs hXY V
    have hX : a ∉ X := by rcases hXY with ⟨rfl, rfl⟩ | ⟨rfl, rfl⟩ <;> simp [Ne.symm hxa]
    have hY : a ∉ Y := by rcases hXY with ⟨rfl, rfl⟩ | ⟨rfl, rfl⟩ <;> simp [Ne.symm hya]
    have hmem : ∀ t, t ∈ X ++ comb a x (n + 1) → t ∈ Y ++ comb a y (n + 1) → t = a := by
      intro t h1 h2
      have m1 : t = a ∨ t = x := by
        rcases List.mem_append.1 h1 with h | h
        · rcases hXY with ⟨rfl, rfl⟩ | ⟨rfl, rfl⟩ <;> simp at h
          exact .inr h
        · exact mem_comb _ h
      have m2 : t = a ∨ t = y := by
        rcases List.mem_append.1 h2 with h | h
        · rcases hXY with ⟨rfl, rfl⟩ | ⟨rfl, rfl⟩ <;> simp at h
          exact .inr h
        · exact mem_comb _ h
      rcases m1 with h | h
      · exact h
      · rcases m2 with h' | h'
        · exact h'
        · exact absurd (h ▸ h') hxy
    have hnp : NoPair a (X ++ comb a x (n + 1)) := by
      rcases hXY with ⟨rfl, rfl⟩ | ⟨rfl, rfl⟩
      · exact comb_noPair' hxa _
      · exact comb_noPair hxa _
    have hX2 : X.length = Y.length := by rcases hXY with ⟨rfl, rfl⟩ | ⟨rfl, rfl⟩ <;> rfl
    have hVp : ∀ {i j cs}, Valid i X j Y cs → cs.depth = 1 := by
      intro i j cs V
      have := ih
      have hno : ∀ t, t ∈ X → t ∉ Y := by
        rcases hXY with ⟨rfl, rfl⟩ | ⟨rfl, rfl⟩ <;> simp
        exact hxy
      cases V with
      | leaf => simp [Changeset.depth]
      | node hw =>
        exfalso
        rename_i w _ _ _ _ _
        obtain ⟨t, ht⟩ := List.exists_mem_of_ne_nil _ hw
        exact hno t (by simp [ht]) (by simp [ht])
    clear hXY
    have hu : X ++ comb a x (n + 1) = X ++ a :: x :: comb a x n := rfl
    have hv : Y ++ comb a y (n + 1) = Y ++ a :: y :: comb a y n := rfl
    have hca : CommonSubstring (X ++ comb a x (n + 1)) (Y ++ comb a y (n + 1)) [a] :=
      common_single (by simp [hu]) (by simp [hv])
    have ofirst : OccursAt (Y ++ comb a y (n + 1)) [a] Y.length :=
      ⟨Y, y :: comb a y n, by simp [hv], rfl⟩
    have ofirstO : OccursAt (X ++ comb a x (n + 1)) [a] X.length :=
      ⟨X, x :: comb a x n, by simp [hu], rfl⟩
    generalize hU : X ++ comb a x (n + 1) = U at V hmem hnp hca ofirstO hu
    generalize hV : Y ++ comb a y (n + 1) = W at V hmem hca ofirst hv
    cases V with
    | leaf hno =>
      exfalso
      exact hno a (by rw [hu]; simp) (by rw [hv]; simp)
    | node hw hmax hfirst hfirstO hp hs =>
      rename_i x1 w x2 y1 y2 p s
      have hall : ∀ t, t ∈ w → t = a := fun t ht => hmem t (by simp [ht]) (by simp [ht])
      have hwa : w = [a] := by
        cases w with
        | nil => exact absurd rfl hw
        | cons c w =>
          have hc := hall c (by simp)
          subst hc
          cases w with
          | nil => rfl
          | cons d w =>
            exfalso
            have hd := hall d (by simp)
            subst hd
            exact NoPair.absurd (a := d) x1 (w ++ x2) (by simpa using hnp)
      subst hwa
      have h1 := hfirst [a] Y.length hca rfl ofirst
      have h2 := hfirstO X.length ofirstO
      -- nothing before the first `a`
      have key : ∀ {P Q R S : List α}, a ∉ P → P ++ a :: Q = R ++ a :: S → R.length ≤ P.length →
          P = R ∧ Q = S := by
        intro P
        induction P with
        | nil =>
          intro Q R S _ h hl
          cases R with
          | nil => simpa using h
          | cons _ _ => simp at hl
        | cons t P ihP =>
          intro Q R S hn h hl
          cases R with
          | nil =>
            simp at h hn
            exact absurd h.1.symm hn.1
          | cons r R =>
            simp at h hn hl
            obtain ⟨e1, e2⟩ := ihP (by exact hn.2) h.2 hl
            exact ⟨by rw [h.1, e1], e2⟩
      obtain ⟨e1, e2⟩ := key (Q := x :: comb a x n) (R := x1) (S := x2) hX (by simpa using hu.symm) h2
      obtain ⟨e3, e4⟩ := key (Q := y :: comb a y n) (R := y1) (S := y2) hY (by simpa using hv.symm) h1
      subst e1 e2 e3 e4
      have hd := ih _ _ [x] [y] s (.inr ⟨rfl, rfl⟩) hs
      simp only [Changeset.depth, hd, hVp hp]
      omega

end Gaspra
