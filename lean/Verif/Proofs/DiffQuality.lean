import Verif.Props.DiffExact
import Verif.Spec.Diff

/-!
# How much of the common text a diff keeps
-/

set_option linter.unusedSectionVars false
set_option linter.unusedSimpArgs false
set_option linter.unusedVariables false

namespace Gaspra

section
variable {α : Type _}

theorem commonText_append (d e : List (DiffItem α)) :
    commonText (d ++ e) = commonText d ++ commonText e := by
  simp [commonText]

theorem commonText_sublist_into (d : List (DiffItem α)) : (commonText d).Sublist (intoText d) := by
  induction d with
  | nil => simp [commonText]
  | cons x d ih =>
    cases x with
    | common p => simpa [commonText, intoText] using (List.Sublist.refl p).append ih
    | change a b => simpa [commonText, intoText] using (List.nil_sublist a).append ih

theorem commonText_sublist_from (d : List (DiffItem α)) : (commonText d).Sublist (fromText d) := by
  induction d with
  | nil => simp [commonText]
  | cons x d ih =>
    cases x with
    | common p => simpa [commonText, fromText] using (List.Sublist.refl p).append ih
    | change a b => simpa [commonText, fromText] using (List.nil_sublist b).append ih

/-- A word that begins inside `u` begins with a token of `u`. -/
theorem occursAt_head {u v w : List α} {t : α} {i : Nat} (h : OccursAt (u ++ v) (t :: w) i)
    (hi : i < u.length) : t ∈ u := by
  obtain ⟨p, q, h, rfl⟩ := h
  have h1 := congrArg (·[p.length]?) h
  simp only [List.append_assoc] at h1
  rw [List.getElem?_append_left hi, List.getElem?_append_right (Nat.le_refl _)] at h1
  exact List.mem_of_getElem? (by simpa using h1)

theorem isDiff_nil_left (m : List α) :
    IsDiff [] m (if m = [] then [] else [.change m []]) := by
  split
  · rename_i h; subst h; exact .empty
  · rename_i h; exact .change (.inr h) (by simp)

theorem isDiff_nil_right (o : List α) :
    IsDiff o [] (if o = [] then [] else [.change [] o]) := by
  split
  · rename_i h; subst h; exact .empty
  · rename_i h; exact .change (.inl h) (by simp)

/-- Nothing is left of a text contained in the other one. -/
theorem isDiff_contained {p m q : List α} (hm : m ≠ [])
    (hf : ∀ i, OccursAt (p ++ m ++ q) m i → p.length ≤ i) :
    IsDiff (p ++ m ++ q) m ((if p = [] then [] else [.change [] p]) ++
      .common m :: (if q = [] then [] else [.change [] q])) := by
  have := IsDiff.split (o1 := p) (o2 := q) (m1 := []) (m2 := []) hm
    (fun z hz => by simpa using hz.2.length_le) (by simp) hf (isDiff_nil_right p) (isDiff_nil_right q)
  simpa using this

theorem isDiff_contains {p o q : List α} (ho : o ≠ [])
    (hf : ∀ i, OccursAt (p ++ o ++ q) o i → p.length ≤ i) :
    IsDiff o (p ++ o ++ q) ((if p = [] then [] else [.change p []]) ++
      .common o :: (if q = [] then [] else [.change q []])) := by
  have := IsDiff.split (o1 := []) (o2 := []) (m1 := p) (m2 := q) ho
    (fun z hz => by simpa using hz.1.length_le)
    (fun z j hz hl hj => by
      have : z = o := by
        obtain ⟨⟨i, a, b, h, -⟩, -⟩ := hz
        have h1 := congrArg List.length h
        simp only [List.length_append, List.nil_append, List.append_nil] at h1
        have ha : a = [] := List.eq_nil_of_length_eq_zero (by omega)
        have hb : b = [] := List.eq_nil_of_length_eq_zero (by omega)
        subst ha hb; simpa using h.symm
      subst this; exact hf j hj)
    (by simp) (isDiff_nil_left p) (isDiff_nil_left q)
  simpa using this

/-- A substring that avoids a token lies on one side of it. -/
theorem substring_avoid {u v z : List α} {t : α} (h : Substring (u ++ t :: v) z) (ht : t ∉ z) :
    Substring u z ∨ Substring v z := by
  obtain ⟨i, l, r, h, -⟩ := h
  rw [List.append_assoc, List.append_eq_append_iff] at h
  rcases h with ⟨a, rfl, h⟩ | ⟨c, rfl, h⟩
  · cases a with
    | nil =>
      simp only [List.nil_append] at h
      cases z with
      | nil => exact .inl ⟨u.length, u, [], by simp, rfl⟩
      | cons b z => simp at h; exact absurd (by simp [h.1]) ht
    | cons b a =>
      simp only [List.cons_append, List.cons.injEq] at h
      exact .inr ⟨a.length, a, r, by simp [h.2], rfl⟩
  · rw [List.append_eq_append_iff] at h
    rcases h with ⟨a, rfl, h⟩ | ⟨b, rfl, h⟩
    · exact .inl ⟨l.length, l, a, by simp, rfl⟩
    · cases b with
      | nil => exact .inl ⟨l.length, l, [], by simp, rfl⟩
      | cons b z => simp at h; exact absurd (by simp [h.1]) ht

theorem Substring.subset {s w : List α} (h : Substring s w) : ∀ t ∈ w, t ∈ s := by
  obtain ⟨i, p, q, rfl, _⟩ := h
  intro t ht; simp [ht]

end

/-! ## A family for which the diff keeps little -/

/-- `x1 n1 x2 n2 …`: shared tokens with tokens of residue `c` in between. -/
def laced (c : Nat) : Nat → Nat → List Nat
  | _, 0 => []
  | j, k + 1 => (3 * j + 12) :: (3 * j + c) :: laced c (j + 1) k

theorem laced_mod {c : Nat} : ∀ {k j t : Nat}, t ∈ laced c j k → t % 3 = 0 ∨ t % 3 = c % 3
  | 0, _, _, h => by simp [laced] at h
  | k + 1, j, t, h => by
    simp only [laced, List.mem_cons] at h
    rcases h with rfl | rfl | h
    · left; omega
    · right; omega
    · exact laced_mod h

theorem laced_ge {c : Nat} (hc : c % 3 ≠ 0) : ∀ {k j t : Nat}, t ∈ laced c j k → t % 3 = 0 → 12 ≤ t
  | 0, _, _, h, _ => by simp [laced] at h
  | k + 1, j, t, h, h0 => by
    simp only [laced, List.mem_cons] at h
    rcases h with rfl | rfl | h
    · omega
    · omega
    · exact laced_ge hc h h0

/-- Runs of shared tokens are short. -/
theorem laced_run {c : Nat} (hc : c % 3 ≠ 0) (e : List Nat) (n : Nat) (hn : 1 ≤ n)
    (he : e.length ≤ n) {z : List Nat} (hz : ∀ t ∈ z, t % 3 = 0) :
    ∀ {k j : Nat}, Substring (laced c j k ++ e) z → z.length ≤ n
  | 0, _, h => by
    have := h.length_le
    simp [laced] at this; omega
  | k + 1, j, h => by
    have h' : Substring ([3 * j + 12] ++ (3 * j + c) :: (laced c (j + 1) k ++ e)) z := by
      simpa [laced] using h
    rcases substring_avoid h' (fun h => by have := hz _ h; omega) with h1 | h1
    · have := h1.length_le; simp at this; omega
    · exact laced_run hc e n hn he hz h1

/-- The first text of the family. -/
def famA (k : Nat) : List Nat := [6, 9] ++ 1 :: (laced 1 0 k ++ [0, 3])
/-- The second text of the family. -/
def famB (k : Nat) : List Nat := [0, 3] ++ ([6, 9] ++ 2 :: laced 2 0 k)

theorem famA_mod {k t : Nat} (h : t ∈ famA k) : t % 3 = 0 ∨ t % 3 = 1 := by
  simp only [famA, List.cons_append, List.nil_append, List.mem_cons, List.mem_append,
    List.not_mem_nil, or_false] at h
  rcases h with rfl | rfl | rfl | h | rfl | rfl <;> first | omega | exact laced_mod h

theorem famB_mod {k t : Nat} (h : t ∈ famB k) : t % 3 = 0 ∨ t % 3 = 2 := by
  simp only [famB, List.cons_append, List.nil_append, List.mem_cons, List.mem_append,
    List.not_mem_nil, or_false] at h
  rcases h with rfl | rfl | rfl | rfl | rfl | h <;> first | omega | exact laced_mod h

theorem fam_common {k : Nat} {z : List Nat} (ha : Substring (famA k) z) (hb : Substring (famB k) z) :
    z.length ≤ 2 := by
  have hz : ∀ t ∈ z, t % 3 = 0 := fun t ht => by
    have := famA_mod (ha.subset t ht); have := famB_mod (hb.subset t ht); omega
  rcases substring_avoid ha (fun h => by have := hz _ h; omega) with h | h
  · simpa using h.length_le
  · exact laced_run (by omega) [0, 3] 2 (by omega) (by simp) hz h

/-- The diff from the first to the second text finds the two tokens at the end, and nothing else. -/
theorem fam_diff (k : Nat) : IsDiff (famA k) (famB k)
    ([.change [] ([6, 9] ++ 1 :: laced 1 0 k)] ++ .common [0, 3] ::
      [.change ([6, 9] ++ 2 :: laced 2 0 k) []]) := by
  have := IsDiff.split (o1 := [6, 9] ++ 1 :: laced 1 0 k) (o2 := []) (m1 := [])
    (m2 := [6, 9] ++ 2 :: laced 2 0 k) (w := [0, 3]) (by simp)
    (fun z hz => by
      have := fam_common (k := k) (z := z) (by simpa [famA] using hz.1) (by simpa [famB] using hz.2)
      simpa using this)
    (by simp)
    (fun i h => by
      apply Decidable.byContradiction; intro hlt
      rw [List.append_assoc] at h
      have hm := occursAt_head h (by omega)
      simp at hm
      have := laced_ge (by omega) hm (by omega)
      omega)
    (.change (.inl (by simp)) (by simp)) (.change (.inr (by simp)) (by simp))
  simpa [famA, famB] using this

/-- The diff of the parts after the first two tokens. -/
theorem fam_after : ∀ (k j a b : Nat), a % 3 = 2 → b % 3 = 1 → ∃ d,
    IsDiff (a :: laced 2 j k) (b :: (laced 1 j k ++ [0, 3])) d ∧ (commonText d).length = k
  | 0, j, a, b, ha, hb => by
    refine ⟨_, IsDiff.change (.inl (by simp)) ?_, by simp [commonText]⟩
    intro t ht
    simp [laced] at ht ⊢
    omega
  | k + 1, j, a, b, ha, hb => by
    obtain ⟨d, hd, hl⟩ := fam_after k (j + 1) (3 * j + 2) (3 * j + 1) (by omega) (by omega)
    have hd0 : IsDiff [a] [b] [.change [b] [a]] :=
      .change (.inl (by simp)) (by intro t ht; simp at ht ⊢; omega)
    have key : ∀ z, CommonSubstring (a :: laced 2 j (k + 1)) (b :: (laced 1 j (k + 1) ++ [0, 3])) z →
        (∀ t ∈ z, t % 3 = 0) := by
      intro z hz t ht
      have h1 := hz.1.subset t ht
      have h2 := hz.2.subset t ht
      simp only [List.mem_cons, List.mem_append, List.not_mem_nil, or_false] at h1 h2
      have h3 : t % 3 = 0 ∨ t % 3 = 2 := by
        rcases h1 with rfl | h1
        · omega
        · exact laced_mod h1
      have h4 : t % 3 = 0 ∨ t % 3 = 1 := by
        rcases h2 with rfl | h2 | rfl | rfl
        · omega
        · exact laced_mod h2
        · omega
        · omega
      omega
    refine ⟨_, by
      have := IsDiff.split (o1 := [a]) (m1 := [b]) (w := [3 * j + 12]) (by simp)
        (fun z hz => by
          have hz0 := key z (by simpa [laced] using hz)
          have h1 : Substring ([] ++ a :: (laced 2 j (k + 1) ++ [])) z := by
            simpa [laced] using hz.1
          rcases substring_avoid h1 (fun h => by have := hz0 _ h; omega) with h | h
          · have := h.length_le; simp at this; simp [this]
          · simpa using laced_run (by omega) [] 1 (by omega) (by simp) hz0 h)
        (fun z i hz hlen ⟨p, q, h, hp⟩ => by
          have hz0 := key z (by simpa [laced] using hz)
          match p, hp with
          | [], _ =>
            match z, hlen with
            | [t], _ =>
              simp at h
              have := hz0 t (by simp)
              omega
          | _ :: p, hp => simp at hp ⊢; omega)
        (fun i ⟨p, q, h, hp⟩ => by
          match p, hp with
          | [], _ => simp at h; omega
          | _ :: p, hp => simp at hp ⊢; omega)
        hd0 hd
      simpa [laced] using this, ?_⟩
    simp [commonText] at hl ⊢
    omega

/-- The diff from the second to the first text keeps the shared tokens. -/
theorem fam_diff_back (k : Nat) : ∃ d, IsDiff (famB k) (famA k) d ∧
    (commonText d).length = k + 2 := by
  obtain ⟨d, hd, hl⟩ := fam_after k 0 2 1 (by omega) (by omega)
  refine ⟨_, by
    have := IsDiff.split (o1 := [0, 3]) (m1 := []) (w := [6, 9]) (by simp)
      (fun z hz => by
        have := fam_common (k := k) (z := z) (by simpa [famA] using hz.2)
          (by simpa [famB] using hz.1)
        simpa using this)
      (by simp)
      (fun i ⟨p, q, h, hp⟩ => by
        match p, hp with
        | [], _ => simp at h
        | [_], _ => simp at h
        | _ :: _ :: p, hp => simp at hp ⊢; omega)
      (isDiff_nil_right [0, 3]) hd
    simpa [famA, famB] using this, ?_⟩
  simp [commonText] at hl ⊢
  omega

end Gaspra
