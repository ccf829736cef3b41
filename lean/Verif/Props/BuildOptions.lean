import Verif.Proofs.BuildOptions
import Verif.Props.Substring

set_option linter.unusedSectionVars false

/-!
# C101: the options of `build`
-/

namespace Gaspra

variable {α : Type _} [DecidableEq α]

/-- The first place where the pattern occurs. -/
def FirstAt (text pattern : List α) (i : Nat) : Prop :=
  OccursAt text pattern i ∧ ∀ j, OccursAt text pattern j → i ≤ j

theorem buildWith_default (text : List α) : buildWith true true text = build text := by
  simp only [buildWith, build, if_true]
  rfl

/-- C101.  Searching for the first occurrence and for a longest common substring works with all
options; the answers are those with the default options. -/
theorem C101_any_options (reverseLinks markTerms : Bool) (text : List α) :
    ∃ h, buildWith reverseLinks markTerms text = some h ∧ ∀ s,
      (∀ i, saFindSubstring h s = some i ↔ FirstAt text s i) ∧
      (saFindSubstring h s = none ↔ ¬ Substring text s) ∧
      saFindLcs h s = findLcs text s := by
  obtain ⟨h, h', hb, hb', e, -, -⟩ := buildWith_spec reverseLinks markTerms text
  refine ⟨h', hb', fun s => ?_⟩
  obtain ⟨k, hk, h1, h2⟩ := C02_first_occurrence text s
  rw [hb] at hk; cases hk
  rw [e.findSubstring, e.findLcs]
  exact ⟨h1, h2, by simp only [findLcs, hb]⟩

/-- C101.  Listing all occurrences needs the reverse links, but not the terminal flags. -/
theorem C101_with_reverse_links (markTerms : Bool) (text : List α) :
    ∃ h, buildWith true markTerms text = some h ∧ ∀ s, ∃ ps, saFindSubstringAll h s = some ps ∧
      ps.Pairwise (· < ·) ∧ ∀ i, i ∈ ps ↔ OccursAt text s i := by
  obtain ⟨h, h', hb, hb', e, hr, -⟩ := buildWith_spec true markTerms text
  refine ⟨h', hb', fun s => ?_⟩
  obtain ⟨ps, h1, h2, h3⟩ := C01_find_substring_all text s
  simp only [findSubstring, hb] at h1
  exact ⟨ps, by rw [e.findSubstringAll hr, h1], h2, h3⟩

/-- C101.  Without reverse links the list has the first occurrence only, so it is complete exactly
if there are not two. -/
theorem C101_without_reverse_links (markTerms : Bool) (text : List α) :
    ∃ h, buildWith false markTerms text = some h ∧ ∀ s, ∃ ps, saFindSubstringAll h s = some ps ∧
      (∀ i, i ∈ ps ↔ FirstAt text s i) ∧ ps.length ≤ 1 ∧
      ((∀ i, i ∈ ps ↔ OccursAt text s i) ↔
        ∀ i j, OccursAt text s i → OccursAt text s j → i = j) := by
  obtain ⟨h, h', hb, hb', e, hr, -⟩ := buildWith_spec false markTerms text
  refine ⟨h', hb', fun s => ?_⟩
  obtain ⟨k, hk, h1⟩ := C101_any_options false markTerms text
  rw [hb'] at hk; cases hk
  obtain ⟨h1, h2, -⟩ := h1 s
  obtain ⟨_, last, L, hk, B, -⟩ := build_spec text
  rw [hb] at hk; cases hk
  have hm : ∀ s cur, matchNode h' 0 s = some cur → cur < h'.length := by
    intro s cur hc
    rw [e.matchNode] at hc
    rw [e.length_eq]
    exact ((matchNode_root B.hinv s).1 cur hc).1
  have mem : ∀ i, i ∈ (saFindSubstring h' s).toList ↔ FirstAt text s i := by
    intro i
    rw [← h1 i]
    cases saFindSubstring h' s <;> simp [eq_comm]
  refine ⟨_, findSubstringAll_of_rev_nil hr hm s, mem, ?_, ?_⟩
  · cases saFindSubstring h' s <;> simp
  · constructor
    · intro hall i j hi hj
      have a := (mem i).1 ((hall i).2 hi)
      have b := (mem j).1 ((hall j).2 hj)
      exact Nat.le_antisymm (a.2 j hj) (b.2 i hi)
    · intro hone i
      rw [mem]
      exact ⟨fun hi => hi.1, fun hi => ⟨hi, fun j hj => Nat.le_of_eq (hone i j hi hj)⟩⟩

/-- C101.  Listing the suffixes needs the terminal flags, but not the reverse links; without the
flags not even the empty suffix is listed. -/
theorem C101_terminals (reverseLinks : Bool) (text : List α) :
    (∃ h out, buildWith reverseLinks true text = some h ∧ allSuffixes h = some out ∧ out.Nodup ∧
      ∀ w, w ∈ out ↔ w <:+ text) ∧
    (∃ h, buildWith reverseLinks false text = some h ∧ allSuffixes h = some []) := by
  obtain ⟨k, out, hk, h1, h2, h3⟩ := C05_all_suffixes text
  constructor
  · obtain ⟨h, h', hb, hb', e, -, ht⟩ := buildWith_spec reverseLinks true text
    rw [hb] at hk; cases hk
    exact ⟨h', out, hb', by rw [e.allSuffixes ht, h1], h2, h3⟩
  · obtain ⟨h, h', hb, hb', e, -, ht⟩ := buildWith_spec reverseLinks false text
    rw [hb] at hk; cases hk
    refine ⟨h', hb', ?_⟩
    unfold allSuffixes at h1 ⊢
    rw [e.length_eq]
    exact allSuffixesFrom_nil e ht _ _ out h1

-- Two occurrences, of which one is found; with reverse links both are.
example : ((buildWith false true "bananas".toList).bind fun h => saFindSubstringAll h "ana".toList) =
    some [1] := by decide +kernel
example : ((buildWith true false "bananas".toList).bind fun h => saFindSubstringAll h "ana".toList) =
    some [1, 3] := by decide +kernel
example : ¬ ∀ i j, OccursAt "bananas".toList "ana".toList i → OccursAt "bananas".toList "ana".toList j →
    i = j := fun h => by
  have := h 1 3 ⟨"b".toList, "nas".toList, by decide, by decide⟩ ⟨"ban".toList, "s".toList, by decide, by decide⟩
  cases this
-- The options make different automata.
example : buildWith false false "aba".toList ≠ buildWith true true "aba".toList := by decide +kernel
example : ((buildWith false true "aba".toList).bind allSuffixes).map List.length = some 4 ∧
    ((buildWith false false "aba".toList).bind allSuffixes) = some [] := by decide +kernel

end Gaspra
