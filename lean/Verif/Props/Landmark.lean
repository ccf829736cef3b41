import Verif.Proofs.Regions
import Verif.Proofs.DiffQuality
import Verif.Props.Rename

/-!
# C86 and C87: landmarks
-/

set_option linter.unusedSimpArgs false

namespace Gaspra

variable {α : Type _} [DecidableEq α]

/-- C86.  A landmark is kept by the diff, in one common piece, and what the diff says about the text in
front of it (behind it) leads from the text in front of it (behind it) to the text in front of it (behind
it).  Where these are equal nothing is changed. -/
theorem C86_landmark {u c v u' v' : List α} (L : Landmark u c v u' v') :
    ∃ d1 x y d2, diffTokenSequences (u ++ c ++ v) (u' ++ c ++ v') = some (d1 ++ .common (x ++ c ++ y) :: d2) ∧
      fromText d1 ++ x = u ∧ intoText d1 ++ x = u' ∧ y ++ fromText d2 = v ∧ y ++ intoText d2 = v' ∧
      (u = u' → d1 = []) ∧ (v = v' → d2 = []) := by
  obtain ⟨d, hd, -⟩ := C09_diff_reconstructs (u ++ c ++ v) (u' ++ c ++ v')
  obtain ⟨d1, x, y, d2, rfl, h⟩ := isDiff_landmark ((C62_diff_exact _ _ _).1 hd) _ _ _ _ _ rfl rfl L
  exact ⟨d1, x, y, d2, hd, h⟩

/-- Nothing is left out of a list without repetitions by a sublist with the same members. -/
theorem sublist_eq {l l' : List α} (h : l.Sublist l') (hn : l'.Nodup) (hm : ∀ t ∈ l', t ∈ l) : l = l' := by
  induction h with
  | slnil => rfl
  | @cons l l' a h ih =>
    rw [List.nodup_cons] at hn
    exact absurd (h.subset (hm a (by simp))) hn.1
  | @cons_cons l l' a h ih =>
    rw [List.nodup_cons] at hn
    rw [ih hn.2 fun t ht => ?_]
    have := hm t (by simp [ht])
    rw [List.mem_cons] at this
    rcases this with rfl | h
    · exact absurd ht hn.1
    · exact h

/-- C86.  If no text has a token twice and the tokens that they share come in the same order, the diff
keeps all of them; it is then as small as any diff can be. -/
theorem C86_same_order (original modified : List α) (ho : original.Nodup) (hm : modified.Nodup)
    (horder : original.filter (· ∈ modified) = modified.filter (· ∈ original)) :
    ∃ d, diffTokenSequences original modified = some d ∧ commonText d = original.filter (· ∈ modified) := by
  obtain ⟨d, hd, h1, h2⟩ := C09_diff_reconstructs original modified
  have so : (commonText d).Sublist original := h2 ▸ commonText_sublist_from d
  have sm : (commonText d).Sublist modified := h1 ▸ commonText_sublist_into d
  refine ⟨d, hd, sublist_eq ?_ (ho.filter _) ?_⟩
  · have := so.filter (· ∈ modified)
    rwa [List.filter_eq_self.2 (fun t ht => by simpa using sm.subset ht)] at this
  · intro x hx
    rw [List.mem_filter] at hx
    obtain ⟨u, v, rfl⟩ := List.append_of_mem hx.1
    obtain ⟨u', v', rfl⟩ := List.append_of_mem (by simpa using hx.2 : x ∈ modified)
    have no : x ∉ u ∧ x ∉ v := by
      rw [List.nodup_append, List.nodup_cons] at ho
      exact ⟨fun h => ho.2.2 x h x (by simp) rfl, ho.2.1.1⟩
    have nm : x ∉ u' ∧ x ∉ v' := by
      rw [List.nodup_append, List.nodup_cons] at hm
      exact ⟨fun h => hm.2.2 x h x (by simp) rfl, hm.2.1.1⟩
    -- The shared tokens in front of `x` are the same.
    have key : u.filter (· ∈ u' ++ x :: v') = u'.filter (· ∈ u ++ x :: v) ∧
        v.filter (· ∈ u' ++ x :: v') = v'.filter (· ∈ u ++ x :: v) := by
      rw [List.filter_append, List.filter_append, List.filter_cons_of_pos (by simp),
        List.filter_cons_of_pos (by simp)] at horder
      exact split_at_new (fun h => no.1 (List.mem_filter.1 h).1) (fun h => nm.1 (List.mem_filter.1 h).1) horder
    have dm : ∀ t, t ∈ u' → t ∉ v' := fun t h1 h2 => by
      rw [List.nodup_append] at hm
      exact hm.2.2 t h1 t (by simp [h2]) rfl
    have L : Landmark u [x] v u' v' := by
      refine ⟨by simp, ?_, ?_, ?_, ?_, ?_, ?_⟩
      · intro t ht; rw [List.mem_singleton] at ht; subst ht; exact no.1
      · intro t ht; rw [List.mem_singleton] at ht; subst ht; exact no.2
      · intro t ht; rw [List.mem_singleton] at ht; subst ht; exact nm.1
      · intro t ht; rw [List.mem_singleton] at ht; subst ht; exact nm.2
      · intro t h1 h2
        have : t ∈ u'.filter (· ∈ u ++ x :: v) := by
          rw [← key.1, List.mem_filter]; exact ⟨h1, by simp [h2]⟩
        exact dm t (List.mem_filter.1 this).1 h2
      · intro t h1 h2
        have : t ∈ v'.filter (· ∈ u ++ x :: v) := by
          rw [← key.2, List.mem_filter]; exact ⟨h1, by simp [h2]⟩
        exact dm t h2 (List.mem_filter.1 this).1
    obtain ⟨d1, y, z, d2, h, -⟩ := C86_landmark L
    simp only [List.append_assoc, List.singleton_append] at h
    rw [h] at hd
    cases hd
    simp [commonText]
where
  split_at_new {x : α} {a b a' b' : List α} (h : x ∉ a) (h' : x ∉ a') (e : a ++ x :: b = a' ++ x :: b') :
      a = a' ∧ b = b' := by
    induction a generalizing a' with
    | nil =>
      cases a' with
      | nil => simpa using e
      | cons y a' => simp at e; exact absurd (by simp [e.1]) h'
    | cons y a ih =>
      cases a' with
      | nil => simp at e; exact absurd (by simp [e.1]) h
      | cons y' a' =>
        simp only [List.cons_append, List.cons.injEq] at e
        obtain ⟨rfl, e⟩ := e
        simp only [List.mem_cons, not_or] at h h'
        obtain ⟨rfl, rfl⟩ := ih h.2 h'.2 e
        exact ⟨rfl, rfl⟩

/-- C87.  Two branches that rewrite different regions of a text merge without a conflict, and all regions
are rewritten in the result, if there is unchanged text between the regions and no token occurs in two of
these places. -/
theorem C87_merge (kind : Kind) {rs : List (Region α)} {last : List α} (h : Separated rs last) :
    mergeTokenSequence kind (regionText Region.old rs last) (regionText Region.one rs last)
      (regionText Region.two rs last) = .ok [.common (regionText Region.new rs last)] :=
  merge_separated kind h

/-- C87.  The case of one change in each branch: `a` becomes `a'` in one branch and `b` becomes `b'` in the
other one, with `k` between them. -/
theorem C87_two_changes (kind : Kind) {a a' k b b' : List α} (hk : k ≠ []) (h1 : Apart k (a ++ a'))
    (h2 : Apart k (b ++ b')) (h3 : Apart (a ++ a') (b ++ b')) :
    mergeTokenSequence kind (a ++ k ++ b) (a' ++ k ++ b) (a ++ k ++ b') = .ok [.common (a' ++ k ++ b')] ∧
    mergeTokenSequence kind (a ++ k ++ b) (a ++ k ++ b') (a' ++ k ++ b) = .ok [.common (a' ++ k ++ b')] := by
  have S : ∀ x y : Bool, Separated [⟨[], a, a', x⟩, ⟨k, b, b', y⟩] [] := by
    intro x y
    refine ⟨by simpa using hk, ?_, ?_, by simp [Apart]⟩
    · intro r hr
      simp only [List.mem_cons, List.not_mem_nil, or_false] at hr
      rcases hr with rfl | rfl
      · intro t ht; cases ht
      · exact h2
    · simp only [List.pairwise_cons, List.mem_cons, List.not_mem_nil, or_false, forall_eq]
      refine ⟨?_, by simp⟩
      intro t ht hb
      simp only [Region.all, List.nil_append, List.append_assoc, List.mem_append] at ht hb
      rcases hb with hb | hb
      · exact h1 t hb (by simpa using ht)
      · exact h3 t (by simpa using ht) (by simpa using hb)
  constructor
  · simpa [regionText, Region.one, Region.two] using C87_merge kind (S true false)
  · simpa [regionText, Region.one, Region.two] using C87_merge kind (S false true)

/-- C87.  `gaspra-merge` by characters, words or lines, with git-compatible markers into a file, writes all
rewritten regions and no marker. -/
theorem C87_merge_file (cls sp : Nat → Bool) {args : Args} (h : args.GitFile) (hd : args.diff = false)
    (pn cn on : PyStr) {p c o : PyStr} {rs : List (Region PyStr)} {last : List PyStr} (hs : Separated rs last)
    (hp : CliPieces cls args p (regionText Region.old rs last))
    (hc : CliPieces cls args c (regionText Region.one rs last))
    (ho : CliPieces cls args o (regionText Region.two rs last)) :
    ∃ out r, mergeCli cls sp args {} pn cn on p c o = ({}, out, none) ∧
      r = (regionText Region.new rs last).flatten ∧ out.flatten = r ++ (if Whole r then [] else [nl]) := by
  obtain ⟨S, tk, e, T⟩ := mergeCli_eq cls sp args pn cn on hp hc ho
  rw [e]
  obtain ⟨out, h1, h2⟩ := mergeRun_pieces_clean sp h hd pn cn on T (C87_merge _ hs)
  exact ⟨out, _, h1, rfl, h2⟩

/-! Examples. -/

-- The landmark is the token 0.
example : Landmark [1, 2, 3] [0] [4, 5] [2, 9] [5, 5, 4] := by
  constructor <;> simp [Apart]
example : diffTokenSequences [1, 2, 3, 0, 4, 5] [2, 9, 0, 5, 5, 4] =
    some [.change [] [1], .common [2], .change [9] [3], .common [0], .change [] [4], .common [5], .change [5, 4] []] := by
  decide +kernel
-- A text moved across it can push the landmark out.
example : diffTokenSequences [1, 2, 0, 3] [0, 1, 2] =
    some [.change [0] [], .common [1, 2], .change [] [0, 3]] := by decide +kernel
example : diffTokenSequences [1, 2, 3, 4, 5, 6] [7, 1, 3, 8, 5, 9] =
    some [.change [7] [], .common [1], .change [] [2], .common [3], .change [8] [4], .common [5],
      .change [9] [6]] := by decide +kernel
-- Three regions: the first and the third are rewritten in one branch, the second one in the other.
def sampleRegions : List (Region Nat) :=
  [⟨[], [1, 1], [2], true⟩, ⟨[3, 3], [], [4, 5], false⟩, ⟨[6], [7], [], true⟩]
example : Separated sampleRegions [8] := by
  constructor <;> simp [sampleRegions, Apart, Region.all]
example : regionText Region.old sampleRegions [8] = [1, 1, 3, 3, 6, 7, 8] := by decide
example : regionText Region.one sampleRegions [8] = [2, 3, 3, 6, 8] := by decide
example : regionText Region.two sampleRegions [8] = [1, 1, 3, 3, 4, 5, 6, 7, 8] := by decide
example : mergeTokenSequence .tuple [1, 1, 3, 3, 6, 7, 8] [2, 3, 3, 6, 8] [1, 1, 3, 3, 4, 5, 6, 7, 8] =
    .ok [.common [2, 3, 3, 4, 5, 6, 8]] := by decide +kernel
-- By lines: the first line is rewritten in one file, the last one is removed in the other.
example : Separated [⟨[], [cps "a\n"], [cps "X\n", cps "a\n"], true⟩, ⟨[cps "b\n"], [cps "c\n"], [], false⟩] [] := by
  constructor <;> simp [Apart, Region.all] <;> decide
example : (mergeCli asciiWord pyIsSpace { output := some (cps "f"), gitCompatible := true, lines := true } {}
    (cps "p") (cps "c") (cps "o") (cps "a\nb\nc\n") (cps "X\na\nb\nc\n") (cps "a\nb\n")).2 =
    ([cps "X\na\nb\n"], none) := by decide +kernel
-- Without unchanged text between the regions there can be a conflict: both insert between 1 and 7.
example : mergeTokenSequence .tuple [1, 7] [1, 2, 7] [1, 3, 7] =
    .ok [.common [1], .change [2] [3], .common [7]] := by decide +kernel

end Gaspra
