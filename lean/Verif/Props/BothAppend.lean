import Verif.Props.SameStretch
import Verif.Props.JoinedWords
import Verif.Props.CliDiff

/-!
# C135: both sides of every conflict, when both branches change the same stretches
-/

set_option linter.unusedSectionVars false
set_option linter.unusedSimpArgs false

namespace Gaspra

section

variable {α : Type _} [DecidableEq α]

theorem intoText_cons (x : DiffItem α) (d : List (DiffItem α)) : intoText (x :: d) = intoText [x] ++ intoText d := by
  simp [intoText]

theorem fromText_cons (x : DiffItem α) (d : List (DiffItem α)) : fromText (x :: d) = fromText [x] ++ fromText d := by
  simp [fromText]

theorem joinCommon_texts : ∀ d : List (DiffItem α),
    intoText (joinCommon d) = intoText d ∧ fromText (joinCommon d) = fromText d
  | [] => ⟨rfl, rfl⟩
  | .change a b :: d => by
    obtain ⟨h1, h2⟩ := joinCommon_texts d
    simp only [joinCommon]
    rw [intoText_cons, h1, ← intoText_cons, fromText_cons, h2, ← fromText_cons]
    exact ⟨rfl, rfl⟩
  | .common c :: d => by
    obtain ⟨h1, h2⟩ := joinCommon_texts d
    rw [intoText_cons _ d, fromText_cons _ d, ← h1, ← h2]
    simp only [joinCommon]
    cases joinCommon d with
    | nil => by_cases hc : c = [] <;> simp [hc, intoText, fromText]
    | cons y r =>
      cases y with
      | common c' => simp [intoText, fromText]
      | change a b => by_cases hc : c = [] <;> simp [hc, intoText, fromText]

theorem SameSpots.texts {d0 d1 e : List (DiffItem α)} (h : SameSpots d0 d1 e) :
    intoText e = intoText d0 ∧ fromText e = intoText d1 := by
  induction h with
  | nil => exact ⟨rfl, rfl⟩
  | common c _ ih =>
    refine ⟨by rw [intoText_cons, ih.1, ← intoText_cons], ?_⟩
    rw [fromText_cons, ih.2, intoText_cons (.common c)]
    rfl
  | @change z0 z1 o k d0 d1 e hk _ ih =>
    obtain ⟨k', h1, h2, h3⟩ := C09_diff_reconstructs z1 z0
    rw [hk] at h1
    cases h1
    have e1 : intoText (k ++ e) = intoText k ++ intoText e := by simp [intoText]
    have e2 : fromText (k ++ e) = fromText k ++ fromText e := by simp [fromText]
    rw [e1, e2, ih.1, ih.2, h2, h3, intoText_cons _ d0, intoText_cons _ d1]
    simp [intoText]

/-- C135.  If both branches change the same stretches, the first sides of all conflicts give the first branch
and the second sides the second one. -/
theorem C135_sides (kind : Kind) {parent b0 b1 : List α} {d0 d1 e : List (DiffItem α)}
    (h0 : diffTokenSequences parent b0 = some d0) (h1 : diffTokenSequences parent b1 = some d1)
    (h : SameSpots d0 d1 e) :
    ∃ d, mergeTokenSequence kind parent b0 b1 = .ok d ∧ intoText d = b0 ∧ fromText d = b1 := by
  refine ⟨_, C134_same_stretches kind h0 h1 h, ?_⟩
  obtain ⟨_, k0, t0, _⟩ := C09_diff_reconstructs parent b0
  obtain ⟨_, k1, t1, _⟩ := C09_diff_reconstructs parent b1
  rw [h0] at k0
  cases k0
  rw [h1] at k1
  cases k1
  obtain ⟨s0, s1⟩ := h.texts
  obtain ⟨j0, j1⟩ := joinCommon_texts e
  rw [s0, t0] at j0
  rw [s1, t1] at j1
  by_cases he : joinCommon e = []
  · rw [if_pos he]
    rw [he] at j0 j1
    exact ⟨j0, j1⟩
  · rw [if_neg he]
    exact ⟨j0, j1⟩

/-- Something put before the last token, which occurs nowhere else, is found as such, unless the new text
ends with the whole old one. -/
theorem diff_before_last {x z : List α} {e : α} (hx : x ≠ []) (hz : z ≠ []) (ex : e ∉ x) (ez : e ∉ z)
    (hs : ¬ x <:+ x ++ z) :
    diffTokenSequences (x ++ [e]) (x ++ z ++ [e]) = some [.common x, .change z [], .common [e]] := by
  have a := diff_prepend [e] (z := z) (by simp) hz (by
    intro j hj
    have g := occursAt_getElem hj (k := 0) (by simp)
    by_cases hlt : z.length ≤ j
    · exact hlt
    · exfalso
      rw [Nat.add_zero, List.getElem?_append_left (by omega),
        List.getElem?_eq_getElem (by omega : j < z.length)] at g
      simp at g
      exact ez (g ▸ List.getElem_mem _))
  rw [C62_diff_exact] at a ⊢
  have h := IsDiff.split (o1 := []) (o2 := [e]) (m1 := []) (m2 := z ++ [e]) (w := x) (d1 := []) hx
    (by
      rintro u ⟨⟨i, pre, post, e1, rfl⟩, ⟨j, pre', post', e2, rfl⟩⟩
      have hl := congrArg List.length e1
      simp only [List.nil_append, List.length_append, List.length_cons, List.length_nil] at hl
      by_cases hu : u.length ≤ x.length
      · exact hu
      exfalso
      have hp : pre = [] := List.length_eq_zero_iff.1 (by omega)
      have hq : post = [] := List.length_eq_zero_iff.1 (by omega)
      subst hp hq
      simp only [List.nil_append, List.append_nil] at e1 e2
      subst e1
      -- the last token is at the end of the new text only
      have hpost : post' = [] := by
        rcases List.eq_nil_or_concat post' with h | ⟨q, b, h⟩
        · exact h
        · exfalso
          subst h
          rw [List.concat_eq_append, ← List.append_assoc, ← List.append_assoc] at e2
          have := (List.append_inj' e2 rfl).1
          have hm : e ∈ x ++ z := by rw [this]; simp
          rcases List.mem_append.1 hm with h | h
          · exact ex h
          · exact ez h
      subst hpost
      rw [List.append_nil, ← List.append_assoc, ← List.append_assoc] at e2
      exact hs ⟨pre', ((List.append_inj' e2 rfl).1).symm⟩)
    (by simp) (by simp) .empty a
  simpa using h

end

/-- C135.  By characters, words or lines: if the changes of the two files replace the same stretches of the
parent, then the file that `gaspra-merge -g` writes has both files in it, one for each side of its
conflicts. -/
theorem C135_file (cls sp : Nat → Bool) {args : Args} (h : args.GitFile) (hd : args.diff = false)
    (pn cn on : PyStr) {p c o : PyStr} {qp qc qo : List PyStr} (hp : CliPieces cls args p qp)
    (hc : CliPieces cls args c qc) (ho : CliPieces cls args o qo) {d0 d1 e : List (DiffItem PyStr)}
    (h0 : diffTokenSequences qp qc = some d0) (h1 : diffTokenSequences qp qo = some d1)
    (hs : SameSpots d0 d1 e) :
    ∃ out n, mergeCli cls sp args {} pn cn on p c o = ({}, out, none) ∧ (n = [] ∨ n = [nl]) ∧
      GitOutput (basename cn) (basename on) out (c ++ n) (o ++ n) := by
  obtain ⟨d, out, n, m1, m2, m3, _, m5⟩ := C67_merge_file cls sp h hd pn cn on hp hc ho
  obtain ⟨d', k1, k2, k3⟩ := C135_sides .tuple h0 h1 hs
  rw [m1] at k1
  cases k1
  refine ⟨out, n, m3, m2, ?_⟩
  rw [into_joined, from_joined, k2, k3, hc.flatten, ho.flatten] at m5
  exact m5

/-- The lines of a text that ends in a newline. -/
theorem whole_lines {p : PyStr} (h : Whole p) :
    ∃ x : List PyStr, x.flatten = p ∧ ∀ l ∈ x, ∃ q, l = q ++ [nl] ∧ nl ∉ q := by
  have hl := isLinesOf nl p
  have hp := hl.linePiece h
  obtain ⟨h1, init, last, h2, h3, h4⟩ := hl
  rw [h2] at h1 hp
  refine ⟨init, ?_, h4⟩
  rcases hp last (by simp) with e | ⟨q, e, _⟩
  · subst e
    simpa using h1
  · exact absurd (by simp [e]) h3

/-- C135.  Both branches append lines to a file, and neither of the new files ends with all of the old one:
the merged file has both of them in it, one for each side of its conflicts. -/
theorem C135_append_lines (cls sp : Nat → Bool) {args : Args} (h : args.GitFile) (hd : args.diff = false)
    (hw : args.words = false) (hl : args.lines = true) (pn cn on : PyStr) {p s t : PyStr}
    (wp : Whole p) (ws : Whole s) (wt : Whole t) (hp : p ≠ []) (hs : s ≠ []) (ht : t ≠ [])
    (ns : ¬ p <:+ p ++ s) (nt : ¬ p <:+ p ++ t) :
    ∃ out n, mergeCli cls sp args {} pn cn on p (p ++ s) (p ++ t) = ({}, out, none) ∧ (n = [] ∨ n = [nl]) ∧
      GitOutput (basename cn) (basename on) out (p ++ s ++ n) (p ++ t ++ n) := by
  obtain ⟨x, rfl, lx⟩ := whole_lines wp
  obtain ⟨z, rfl, lz⟩ := whole_lines ws
  obtain ⟨y, rfl, ly⟩ := whole_lines wt
  have ne : ∀ {x : List PyStr}, (∀ l ∈ x, ∃ q, l = q ++ [nl] ∧ nl ∉ q) → [] ∉ x := by
    intro x h hm
    obtain ⟨q, e, _⟩ := h [] hm
    simp at e
  have nn : ∀ {x : List PyStr}, x.flatten ≠ [] → x ≠ [] := by
    rintro x h rfl
    exact h rfl
  have sx : ∀ {z : List PyStr}, ¬ x.flatten <:+ x.flatten ++ z.flatten → ¬ x <:+ x ++ z := by
    rintro z h ⟨u, e⟩
    exact h ⟨u.flatten, by rw [← List.flatten_append, e, List.flatten_append]⟩
  have cp : ∀ {w : List PyStr}, (∀ l ∈ w, ∃ q, l = q ++ [nl] ∧ nl ∉ q) →
      CliPieces cls args w.flatten (w ++ [[]]) := by
    intro w hq
    unfold CliPieces
    rw [if_neg (by simp [hw]), if_pos hl]
    exact ⟨by simp, w, [], rfl, by simp, hq⟩
  have ca : ∀ {z : List PyStr}, (∀ l ∈ z, ∃ q, l = q ++ [nl] ∧ nl ∉ q) →
      CliPieces cls args (x.flatten ++ z.flatten) (x ++ z ++ [[]]) := by
    intro z hz
    have := cp (w := x ++ z) (by
      intro l hl
      rcases List.mem_append.1 hl with h | h
      · exact lx l h
      · exact hz l h)
    rwa [List.flatten_append] at this
  obtain ⟨k, hk, _⟩ := C09_diff_reconstructs y z
  exact C135_file cls sp h hd pn cn on (cp lx) (ca lz) (ca ly)
    (diff_before_last (nn hp) (nn hs) (ne lx) (ne lz) (sx ns))
    (diff_before_last (nn hp) (nn ht) (ne lx) (ne ly) (sx nt))
    (.common x (.change z y [] hk (.common [[]] .nil)))

-- Two branches of a file, by lines.
example : (mergeCli asciiWord pyIsSpace { lines := true, gitCompatible := true, output := some (cps "f") } {}
      (cps "p") (cps "c") (cps "o") (cps "a\n") (cps "a\nb\nc\n") (cps "a\nb\nd\n")).2 =
    (["a\nb\n", "<<<<<<< c\nc\n", "=======\n", "d\n>>>>>>> o\n"].map cps, none) := by decide +kernel
-- If a branch ends with all of the parent, the parts of both are mixed: the first side is not the file
-- "a b a" any more.
example : (mergeCli asciiWord pyIsSpace { lines := true, gitCompatible := true, output := some (cps "f") } {}
      (cps "p") (cps "c") (cps "o") (cps "a\n") (cps "a\nb\na\n") (cps "a\nc\n")).2 =
    (["a\nb\na\nc\n"].map cps, none) := by decide +kernel
-- By characters, with a replaced stretch.
example : (match mergeTokenSequence .str "abcdef".toList "ab1de2f".toList "ab3de4f".toList with
    | .ok d => (intoText d, fromText d)
    | .error _ => ([], [])) = ("ab1de2f".toList, "ab3de4f".toList) := by decide +kernel

end Gaspra
