import Verif.Proofs.Stretch
import Verif.Props.Landmark

/-!
# C88: merging stretch by stretch
-/

set_option linter.unusedSimpArgs false

namespace Gaspra

variable {α : Type _} [DecidableEq α]

/-- C88.  Between landmarks the merge goes stretch by stretch: the unchanged text is kept, a stretch that
only one branch changed is the one of this branch, and conflicts are confined to the stretches that both
changed and have no tokens from elsewhere. -/
theorem C88_stretches {kind : Kind} {ss : List (Stretch α)} {last : List α} (h : Divided ss last)
    {out : List (DiffItem α)} (hm : mergeTokenSequence kind (stretchText Stretch.old ss last)
      (stretchText Stretch.left ss last) (stretchText Stretch.right ss last) = .ok out) :
    MergesAlong last ss (spell out) :=
  merge_stretches h hm

/-! Within a stretch there is no such guarantee. -/

theorem occurs_later {o : α} {X : List α} (hX : X ≠ []) (ho : o ∉ X) {i : Nat}
    (h : OccursAt (o :: o :: X) (o :: X) i) : 1 ≤ i := by
  obtain ⟨pre, post, e, rfl⟩ := h
  cases pre with
  | cons _ _ => simp
  | nil =>
    exfalso
    cases X with
    | nil => exact hX rfl
    | cons x X => simp at e; exact ho (by simp [e.1])

/-- A text that starts with `o` shares no more than this with `o :: Z` if it has no token of `Z`. -/
theorem shared_one {o : α} {P Z z : List α} (h : ∀ t ∈ Z, t ∉ P) (hz : CommonSubstring P (o :: Z) z) :
    z.length ≤ 1 := by
  obtain ⟨⟨_, p1, q1, e1, _⟩, ⟨_, p2, q2, e2, _⟩⟩ := hz
  match z, e1, e2 with
  | [], _, _ => simp
  | [_], _, _ => simp
  | a :: b :: z, e1, e2 =>
    exfalso
    refine h b ?_ (by rw [e1]; simp)
    cases p2 with
    | nil => simp at e2; simp [e2.2]
    | cons y p2 => simp at e2; simp [e2.2]

/-- C88.  All three texts begin with `o`, and the merge, which reports no conflict, does not. -/
theorem C88_lost (kind : Kind) {o : α} {X Z : List α} (hX : X ≠ []) (ho : o ∉ X) (hZ : ∀ t ∈ Z, t ∉ o :: X) :
    mergeTokenSequence kind (o :: o :: X) (o :: X) (o :: Z) = .ok [.common Z] := by
  have h0 : diffTokenSequences (o :: o :: X) (o :: X) = some [.change [] [o], .common (o :: X)] := by
    rw [C62_diff_exact]
    have := IsDiff.split (o1 := [o]) (o2 := []) (m1 := []) (m2 := []) (w := o :: X) (by simp)
      (fun z hz => by
        obtain ⟨_, ⟨_, p, q, e, _⟩⟩ := hz
        have := congrArg List.length e
        simp at this ⊢; omega)
      (fun _ _ _ _ _ => by simp)
      (fun i hi => occurs_later hX ho (by simpa using hi))
      (IsDiff.change (by simp) (by simp)) IsDiff.empty
    simpa using this
  have h1 : diffTokenSequences (o :: o :: X) (o :: Z) = some [.common [o], .change Z (o :: X)] := by
    rw [C62_diff_exact]
    have := IsDiff.split (o1 := []) (o2 := o :: X) (m1 := []) (m2 := Z) (w := [o]) (by simp)
      (fun z hz => shared_one (Z := Z) (fun t ht hp => hZ t ht (by simpa using hp)) hz)
      (fun _ _ _ _ _ => by simp) (fun _ _ => by simp)
      IsDiff.empty (IsDiff.change (by simp) fun t ht hz => hZ t hz ht)
    simpa using this
  rw [C18_clean_merge h0 h1 (by simp [editsOf, Edit.Compatible, Edit.Disjoint])]
  congr 3
  simp only [mergedText, editsOf]
  rw [weave]
  have d := weave_deleted (p := []) (fun g => bothInserts (insertedAt [(⟨0, 0 + [o].length, []⟩ : Edit α)] g)
      (insertedAt [⟨0 + [o].length, 0 + [o].length + (o :: X).length, Z⟩] g))
    (fun g => !deletes [(⟨0, 0 + [o].length, []⟩ : Edit α)] g &&
      !deletes [⟨0 + [o].length, 0 + [o].length + (o :: X).length, Z⟩] g) (o :: X) 1
    (by intro g h1 h2; simp [deletes] at h2 ⊢; omega)
    (by intro g h1 h2; simp [insertedAt, bothInserts]; omega) (by simp)
  rw [List.append_nil] at d
  simp only [Nat.zero_add] at d ⊢
  rw [d]
  simp [weave, deletes, insertedAt, bothInserts]

/-- C88.  The parent begins with one `o`, both branches begin with two, and the merge, which reports no
conflict, begins with three. -/
theorem C88_doubled (kind : Kind) {o : α} {X Z : List α} (hX : X ≠ []) (ho : o ∉ X) (hZ : ∀ t ∈ Z, t ∉ o :: X) :
    mergeTokenSequence kind (o :: X) (o :: o :: X) (o :: o :: Z) = .ok [.common (o :: o :: o :: Z)] := by
  have h0 : diffTokenSequences (o :: X) (o :: o :: X) = some [.change [o] [], .common (o :: X)] := by
    rw [C62_diff_exact]
    have len : ∀ z, CommonSubstring ([] ++ (o :: X) ++ []) ([o] ++ (o :: X) ++ []) z →
        z.length ≤ (o :: X).length ∧ (z.length = (o :: X).length → z = o :: X) := by
      intro z hz
      obtain ⟨⟨_, p, q, e, _⟩, _⟩ := hz
      have l := congrArg List.length e
      simp at l e
      refine ⟨by simp; omega, fun hl => ?_⟩
      simp at hl
      have hp : p = [] := List.eq_nil_of_length_eq_zero (by omega)
      have hq : q = [] := List.eq_nil_of_length_eq_zero (by omega)
      subst hp hq
      simpa using e.symm
    have := IsDiff.split (o1 := []) (o2 := []) (m1 := [o]) (m2 := []) (w := o :: X) (by simp)
      (fun z hz => (len z hz).1)
      (fun z j hz hl hj => by
        have e := (len z hz).2 hl
        subst e
        exact occurs_later hX ho (by simpa using hj))
      (fun i hi => by simp) (IsDiff.change (by simp) (by simp)) IsDiff.empty
    simpa using this
  have h1 : diffTokenSequences (o :: X) (o :: o :: Z) = some [.common [o], .change (o :: Z) X] := by
    rw [C62_diff_exact]
    have long : ∀ z, CommonSubstring ([] ++ [o] ++ X) ([] ++ [o] ++ (o :: Z)) z → z.length ≤ 1 := by
      intro z hz
      obtain ⟨⟨_, p1, q1, e1, _⟩, ⟨_, p2, q2, e2, _⟩⟩ := hz
      match z, e1, e2 with
      | [], _, _ => simp
      | [_], _, _ => simp
      | a :: b :: z, e1, e2 =>
        exfalso
        have hb : b ∈ X := by
          cases p1 with
          | nil => simp at e1; simp [e1.2]
          | cons y p1 => simp at e1; simp [e1.2]
        have hb2 : b = o ∨ b ∈ Z := by
          have : b ∈ [] ++ [o] ++ (o :: Z) := by rw [e2]; simp
          simpa using this
        rcases hb2 with rfl | hb2
        · exact ho hb
        · exact hZ b hb2 (by simp [hb])
    have := IsDiff.split (o1 := []) (o2 := X) (m1 := []) (m2 := o :: Z) (w := [o]) (by simp)
      long (fun _ _ _ _ _ => by simp) (fun _ _ => by simp)
      IsDiff.empty (IsDiff.change (by simp) fun t ht hz => by
        rcases List.mem_cons.1 hz with rfl | hz
        · exact ho ht
        · exact hZ t hz (by simp [ht]))
    simpa using this
  rw [C18_clean_merge h0 h1 (by simp [editsOf, Edit.Compatible, Edit.Disjoint])]
  congr 3
  simp only [mergedText, editsOf]
  rw [weave]
  have d := weave_deleted (p := []) (fun g => bothInserts
      (insertedAt [(⟨0, 0 + ([] : List α).length, [o]⟩ : Edit α)] g)
      (insertedAt [⟨0 + [o].length, 0 + [o].length + X.length, o :: Z⟩] g))
    (fun g => !deletes [(⟨0, 0 + ([] : List α).length, [o]⟩ : Edit α)] g &&
      !deletes [⟨0 + [o].length, 0 + [o].length + X.length, o :: Z⟩] g) X 1
    (by intro g h1 h2; simp [deletes] at h2 ⊢; omega)
    (by
      intro g h1 h2
      have a : ¬ 0 = g := by omega
      have b : ¬ 1 = g := by omega
      simp [insertedAt, bothInserts, a, b]) hX
  rw [List.append_nil] at d
  simp only [Nat.zero_add] at d ⊢
  rw [d]
  have n : X.length ≠ 0 := fun h => hX (List.eq_nil_of_length_eq_zero h)
  simp [weave, deletes, insertedAt, bothInserts, n]
  omega

/-! Examples. -/

-- Both branches change the first stretch, one of them changes each of the others.
def sampleStretches : List (Stretch Nat) :=
  [⟨[], [1], [2], [3]⟩, ⟨[4], [5], [5], [6, 6]⟩, ⟨[7], [8], [], [8]⟩]
example : Divided sampleStretches [9] := by
  constructor <;> simp [sampleStretches, Apart, Stretch.all]
example : (stretchText Stretch.old sampleStretches [9], stretchText Stretch.left sampleStretches [9],
    stretchText Stretch.right sampleStretches [9]) =
    ([1, 4, 5, 7, 8, 9], [2, 4, 5, 7, 9], [3, 4, 6, 6, 7, 8, 9]) := by decide
example : mergeTokenSequence .tuple [1, 4, 5, 7, 8, 9] [2, 4, 5, 7, 9] [3, 4, 6, 6, 7, 8, 9] =
    .ok [.change [2] [3], .common [4, 6, 6, 7, 9]] := by decide +kernel
-- One more "o" than wanted is removed, or inserted.
example : mergeTokenSequence .str "ooxy".toList "oxy".toList "ozw".toList = .ok [.common "zw".toList] := by
  decide +kernel
example : mergeTokenSequence .str "oxy".toList "ooxy".toList "oozw".toList = .ok [.common "ooozw".toList] := by
  decide +kernel
example : "xy".toList ≠ [] ∧ 'o' ∉ "xy".toList ∧ ∀ t ∈ "zw".toList, t ∉ 'o' :: "xy".toList := by decide

end Gaspra
