import Verif.Props.DiffQuality
import Verif.Spec.DiffMirror

/-!
# C119: diffs of texts that are exchanged or read backwards
-/

set_option linter.unusedSectionVars false
set_option linter.unusedVariables false

namespace Gaspra

section
variable {α : Type _}

theorem OccursAt.mirror {s w : List α} {i : Nat} (h : OccursAt s w i) :
    OccursAt s.reverse w.reverse (s.length - (i + w.length)) := by
  obtain ⟨p, q, rfl, rfl⟩ := h
  exact ⟨q.reverse, p.reverse, by simp, by simp; omega⟩

theorem CommonSubstring.mirror {a b z : List α} (h : CommonSubstring a.reverse b.reverse z) :
    CommonSubstring a b z.reverse := by
  obtain ⟨⟨i, h1⟩, j, h2⟩ := h
  exact ⟨⟨_, by simpa using h1.mirror⟩, _, by simpa using h2.mirror⟩

/-- A longer match would contain two matches. -/
theorem only_longest {o m w : List α} {a b : Nat} (hw : w ≠ [])
    (only : ∀ z i j, z.length = w.length → OccursAt o z i → OccursAt m z j → i = a ∧ j = b)
    {z : List α} (h : CommonSubstring o m z) : z.length ≤ w.length := by
  apply Decidable.byContradiction
  intro hlt
  obtain ⟨⟨i, p, q, rfl, rfl⟩, j, p', q', rfl, rfl⟩ := h
  match z, hlt with
  | [], hlt => simp at hlt
  | t :: z, hlt =>
    simp only [List.length_cons] at hlt
    have h1 := only ((t :: z).take w.length) p.length p'.length (by simp; omega)
      ⟨p, (t :: z).drop w.length ++ q, by
        rw [List.append_assoc, List.append_assoc, ← List.append_assoc (List.take _ _), List.take_append_drop], rfl⟩
      ⟨p', (t :: z).drop w.length ++ q', by
        rw [List.append_assoc, List.append_assoc, ← List.append_assoc (List.take _ _), List.take_append_drop], rfl⟩
    have h2 := only (z.take w.length) (p.length + 1) (p'.length + 1) (by simp; omega)
      ⟨p ++ [t], z.drop w.length ++ q, by
        rw [List.append_assoc (p ++ [t]), ← List.append_assoc (List.take _ _), List.take_append_drop]; simp, by simp⟩
      ⟨p' ++ [t], z.drop w.length ++ q', by
        rw [List.append_assoc (p' ++ [t]), ← List.append_assoc (List.take _ _), List.take_append_drop]; simp, by simp⟩
    omega

theorem mirror_items (d1 d2 : List (DiffItem α)) (w : List α) :
    (d1 ++ .common w :: d2).reverse.map DiffItem.mirrored =
      d2.reverse.map DiffItem.mirrored ++ .common w.reverse :: d1.reverse.map DiffItem.mirrored := by
  simp [DiffItem.mirrored]

/-- The three diffs of texts that leave no choice. -/
theorem NoChoice.diffs {o m : List α} (h : NoChoice o m) : ∃ d, IsDiff o m d ∧
    IsDiff m o (d.map DiffItem.swap) ∧ IsDiff o.reverse m.reverse (d.reverse.map DiffItem.mirrored) := by
  induction h with
  | @apart o m h =>
    by_cases hne : o ≠ [] ∨ m ≠ []
    · refine ⟨_, .change hne h, .change hne.symm (fun t h1 h2 => h t h2 h1), .change ?_ ?_⟩
      · simpa using hne
      · simpa using h
    · rw [not_or, Decidable.not_not, Decidable.not_not] at hne
      obtain ⟨rfl, rfl⟩ := hne
      exact ⟨[], .empty, .empty, .empty⟩
  | @split o1 o2 m1 m2 w hw only _ _ ih1 ih2 =>
    obtain ⟨d1, a1, b1, c1⟩ := ih1
    obtain ⟨d2, a2, b2, c2⟩ := ih2
    have hO : OccursAt (o1 ++ w ++ o2) w o1.length := ⟨o1, o2, rfl, rfl⟩
    have hM : OccursAt (m1 ++ w ++ m2) w m1.length := ⟨m1, m2, rfl, rfl⟩
    refine ⟨d1 ++ .common w :: d2, ?_, ?_, ?_⟩
    · exact .split hw (fun z hz => only_longest hw only hz)
        (fun z j ⟨⟨i, hi⟩, _⟩ hl hj => Nat.le_of_eq (only z i j hl hi hj).2.symm)
        (fun i hi => Nat.le_of_eq (only w i _ rfl hi hM).1.symm) a1 a2
    · rw [List.map_append, List.map_cons]
      exact .split hw (fun z hz => only_longest hw only ⟨hz.2, hz.1⟩)
        (fun z j ⟨⟨i, hi⟩, _⟩ hl hj => Nat.le_of_eq (only z j i hl hj hi).1.symm)
        (fun i hi => Nat.le_of_eq (only w _ i rfl hO hi).2.symm) b1 b2
    · rw [mirror_items]
      have ho : (o1 ++ w ++ o2).reverse = o2.reverse ++ w.reverse ++ o1.reverse := by simp
      have hm : (m1 ++ w ++ m2).reverse = m2.reverse ++ w.reverse ++ m1.reverse := by simp
      have back : ∀ z i j, z.length = w.length → OccursAt (o1 ++ w ++ o2).reverse z i →
          OccursAt (m1 ++ w ++ m2).reverse z j → i = o2.length ∧ j = m2.length := by
        intro z i j hl hi hj
        have bi := hi.bound
        have bj := hj.bound
        have h1 := hi.mirror
        have h2 := hj.mirror
        rw [List.reverse_reverse] at h1 h2
        have := only _ _ _ (by rw [List.length_reverse]; exact hl) h1 h2
        simp only [List.length_reverse, List.length_append] at this bi bj
        omega
      rw [ho, hm] at back ⊢
      have hw' : w.reverse ≠ [] := by simpa using hw
      have back' : ∀ z i j, z.length = w.reverse.length → OccursAt (o2.reverse ++ w.reverse ++ o1.reverse) z i →
          OccursAt (m2.reverse ++ w.reverse ++ m1.reverse) z j →
          i = o2.reverse.length ∧ j = m2.reverse.length := by
        simpa using back
      exact .split hw' (fun z hz => only_longest hw' back' hz)
        (fun z j ⟨⟨i, hi⟩, _⟩ hl hj => Nat.le_of_eq (back' z i j hl hi hj).2.symm)
        (fun i hi => Nat.le_of_eq (back' _ i _ rfl hi ⟨_, _, rfl, rfl⟩).1.symm) c2 c1

end

section
variable {α : Type _} [DecidableEq α]

/-- C119, exchanged texts.  If there is never a choice, the diff in the other direction has the same items
with the sides of the changes exchanged. -/
theorem C119_exchanged {a b : List α} (h : NoChoice a b) : ∃ d, diffTokenSequences a b = some d ∧
    diffTokenSequences b a = some (d.map DiffItem.swap) := by
  obtain ⟨d, h1, h2, _⟩ := h.diffs
  exact ⟨d, (C62_diff_exact _ _ _).2 h1, (C62_diff_exact _ _ _).2 h2⟩

/-- C119, texts read backwards.  If there is never a choice, their diff is the diff read backwards. -/
theorem C119_backwards {a b : List α} (h : NoChoice a b) : ∃ d, diffTokenSequences a b = some d ∧
    diffTokenSequences a.reverse b.reverse = some (d.reverse.map DiffItem.mirrored) := by
  obtain ⟨d, h1, _, h2⟩ := h.diffs
  exact ⟨d, (C62_diff_exact _ _ _).2 h1, (C62_diff_exact _ _ _).2 h2⟩

theorem pieces_common {a b : List α} {d : List (DiffItem α)} (h : IsDiff a b d) :
    ∀ p, .common p ∈ d → CommonSubstring a b p := by
  induction h with
  | empty => simp
  | change _ _ => simp
  | @split o1 o2 m1 m2 w d1 d2 _ _ _ _ _ _ ih1 ih2 =>
    intro p hp
    simp only [List.mem_append, List.mem_cons, DiffItem.common.injEq] at hp
    rcases hp with hp | rfl | hp
    · obtain ⟨⟨_, u, v, rfl, _⟩, _, u', v', rfl, _⟩ := ih1 p hp
      exact ⟨⟨_, u, v ++ w ++ o2, by simp, rfl⟩, _, u', v' ++ w ++ m2, by simp, rfl⟩
    · exact ⟨⟨_, _, _, rfl, rfl⟩, _, _, _, rfl, rfl⟩
    · obtain ⟨⟨_, u, v, rfl, _⟩, _, u', v', rfl, _⟩ := ih2 p hp
      exact ⟨⟨_, o1 ++ w ++ u, v, by simp, rfl⟩, _, m1 ++ w ++ u', v', by simp, rfl⟩

theorem longest_at_least {a b : List α} {e : List (DiffItem α)} {p : List α} (h : CommonSubstring a b p)
    (he : diffTokenSequences a b = some e) (hp : p ≠ []) : ∃ q, .common q ∈ e ∧ p.length ≤ q.length := by
  obtain ⟨e', q, h1, h2, _, h3, _⟩ := C14_lcs_survives a b p hp h
  rw [he, Option.some.injEq] at h1
  exact ⟨q, h1 ▸ h2, h3 p h⟩

/-- C119, always.  Every common piece of a diff is at most as long as some common piece of the diff in the
other direction, and of the diff of the texts read backwards. -/
theorem C119_longest_piece {a b : List α} {d : List (DiffItem α)} (hd : diffTokenSequences a b = some d)
    {p : List α} (hp : .common p ∈ d) :
    (∃ e q, diffTokenSequences b a = some e ∧ .common q ∈ e ∧ p.length ≤ q.length) ∧
    ∃ e q, diffTokenSequences a.reverse b.reverse = some e ∧ .common q ∈ e ∧ p.length ≤ q.length := by
  have hc := pieces_common ((C62_diff_exact _ _ _).1 hd) p hp
  have hne : p ≠ [] := by
    obtain ⟨d', h', hn, _⟩ := C12_diff_normal_form a b
    rw [hd, Option.some.injEq] at h'
    subst h'
    exact hn _ hp
  obtain ⟨e, he, _⟩ := C09_diff_reconstructs b a
  obtain ⟨e', he', _⟩ := C09_diff_reconstructs a.reverse b.reverse
  obtain ⟨q, h1, h2⟩ := longest_at_least ⟨hc.2, hc.1⟩ he hne
  have hr : CommonSubstring a.reverse b.reverse p.reverse := by
    apply CommonSubstring.mirror
    simpa using hc
  obtain ⟨q', h1', h2'⟩ := longest_at_least hr he' (by simpa using hne)
  exact ⟨⟨e, q, he, h1, h2⟩, e', q', he', h1', by simpa using h2'⟩

end

/-- C119.  In general the diff of the texts read backwards is another one, and there is no bound on the
difference: for every `k` there are texts of which the diff keeps two tokens, but `k + 2` if they are read
backwards.  (C83 has the same for exchanged texts.) -/
theorem C119_backwards_differs (k : Nat) : ∃ (a b : List Nat) (d e : List (DiffItem Nat)),
    diffTokenSequences a b = some d ∧ (commonText d).length = 2 ∧
    diffTokenSequences a.reverse b.reverse = some e ∧ (commonText e).length = k + 2 := by
  obtain ⟨e, he, hl⟩ := fam_diff_back k
  have hA : (famA k).reverse = [] ++ [3, 0] ++ ([6, 9] ++ 1 :: laced 1 0 k).reverse := by simp [famA]
  have hB : (famB k).reverse = ([6, 9] ++ 2 :: laced 2 0 k).reverse ++ [3, 0] ++ [] := by simp [famB]
  have hd : IsDiff (famB k).reverse (famA k).reverse
      ([.change [] ([6, 9] ++ 2 :: laced 2 0 k).reverse] ++ .common [3, 0] ::
        [.change ([6, 9] ++ 1 :: laced 1 0 k).reverse []]) := by
    rw [hA, hB]
    refine .split (by simp) ?_ (by simp) ?_ (.change (.inl (by simp)) (by simp))
      (.change (.inr (by simp)) (by simp))
    · intro z hz
      rw [← hA, ← hB] at hz
      have hz := hz.mirror
      have := fam_common hz.2 hz.1
      simpa using this
    · intro i h
      apply Decidable.byContradiction; intro hlt
      rw [List.append_assoc] at h
      have hm := occursAt_head h (by omega)
      simp at hm
      have := laced_ge (by omega) hm (by omega)
      omega
  exact ⟨(famB k).reverse, (famA k).reverse, _, e, (C62_diff_exact _ _ _).2 hd, by simp [commonText],
    by rw [List.reverse_reverse, List.reverse_reverse]; exact (C62_diff_exact _ _ _).2 he, hl⟩

/-- A word is replaced, a character is inserted. -/
example : diffTokenSequences "one two three".toList "one 2 three!".toList =
    some [.common "one ".toList, .change "2".toList "two".toList, .common " three".toList,
      .change "!".toList []] ∧
    diffTokenSequences "one 2 three!".toList "one two three".toList =
    some [.common "one ".toList, .change "two".toList "2".toList, .common " three".toList,
      .change [] "!".toList] := by decide +kernel

/-- The places to look at are finitely many. -/
theorem only_of_windows {o m w : List Char} {a b : Nat} (hw : w ≠ [])
    (h : ((List.range o.length).all fun i => (List.range m.length).all fun j =>
      !decide (i + w.length ≤ o.length ∧ j + w.length ≤ m.length ∧
        (o.drop i).take w.length = (m.drop j).take w.length) || decide (i = a ∧ j = b)) = true) :
    ∀ z i j, z.length = w.length → OccursAt o z i → OccursAt m z j → i = a ∧ j = b := by
  rintro z i j hl ⟨p, q, rfl, rfl⟩ ⟨p', q', rfl, rfl⟩
  have hpos := List.length_pos_iff.2 hw
  have h1 := List.all_eq_true.1 (List.all_eq_true.1 h p.length (by simp; omega)) p'.length (by simp; omega)
  rw [Bool.or_eq_true, decide_eq_true_iff, Bool.not_eq_true', decide_eq_false_iff_not] at h1
  refine h1.resolve_left (fun hn => hn ⟨by simp; omega, by simp; omega, ?_⟩)
  rw [List.append_assoc, List.append_assoc, List.drop_left, List.drop_left, ← hl, List.take_left, List.take_left]

/-- The texts of the example leave no choice: first " three" is found, then "one ". -/
example : NoChoice "one two three".toList "one 2 three!".toList :=
  .split (o1 := "one two".toList) (m1 := "one 2".toList) (w := " three".toList) (o2 := []) (m2 := ['!'])
    (by simp) (only_of_windows (by simp) (by decide +kernel))
    (.split (o1 := []) (m1 := []) (w := "one ".toList) (o2 := "two".toList) (m2 := ['2'])
      (by simp) (only_of_windows (by simp) (by decide +kernel)) (.apart (by simp)) (.apart (by decide)))
    (.apart (by simp))

end Gaspra
