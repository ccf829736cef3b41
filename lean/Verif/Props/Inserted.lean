import Verif.Props.SameStart

/-!
# C139: what a branch inserts stays in one piece
-/

set_option linter.unusedSectionVars false
set_option linter.unusedSimpArgs false

namespace Gaspra

variable {α : Type _} [DecidableEq α]

/-- A change that inserts or deletes something. -/
def Fragment.Real : Fragment α → Prop
  | .copy _ _ => True
  | .change i _ n => i ≠ [] ∨ n ≠ 0

/-- The fragment is a change that inserts `z`. -/
def Fragment.Inserts (z : List α) : Fragment α → Prop
  | .copy _ _ => False
  | .change i _ _ => i = z

/-- A fragment of the output has `z` as its text on one side. -/
def MFragment.Shows (z : List α) (x : MFragment α) : Prop := x.text1 = z ∨ x.text2 = z

theorem splitChange_head {i d : List α} {n m : Nat} (h : i ≠ []) :
    (splitChange i d n i.length m).1 = some (.change i (d.take m) m) := by
  have : 0 < i.length := List.length_pos_iff.2 h
  simp [splitChange, this]

theorem splitChange_tail_real {i d : List α} {n m : Nat} {t : Fragment α}
    (h : (splitChange i d n i.length m).2 = some t) : t.Real := by
  simp only [splitChange, Nat.lt_irrefl, or_false] at h
  split at h
  · cases h
    right
    omega
  · cases h

theorem splitFragment_tail_real {f t : Fragment α} {m : Nat} (h : (splitFragment f m).2 = some t) : t.Real := by
  cases f with
  | copy i n =>
    simp only [splitFragment, splitCopy] at h
    split at h <;> cases h
    trivial
  | change i d n => exact splitChange_tail_real h

theorem areIdentical_insert {i0 d0 i1 d1 : List α} {n0 n1 : Nat} (h : areIdentical i0 d0 n0 i1 d1 n1 = true) :
    i0 = i1 := by
  simp only [areIdentical, Bool.and_eq_true, beq_iff_eq] at h
  exact eq_of_commonPrefixLength h.1.1 h.1.2

/-- One round of the loop: an inserted text is put out on one side or is still to come. -/
theorem processFragments_inserts {z : List α} (hz : z ≠ []) {f0 f1 : Fragment α} {w w' : Bool}
    {o : Option (MFragment α)} {t0 t1 : Option (Fragment α)} (r0 : f0.Real) (r1 : f1.Real)
    (h : processFragments f0 f1 w = (o, t0, t1, w')) :
    (∀ t ∈ t0, t.Real) ∧ (∀ t ∈ t1, t.Real) ∧
    (f0.Inserts z ∨ f1.Inserts z →
      (∃ x ∈ o, x.Shows z) ∨ (∃ t ∈ t0, t.Inserts z) ∨ ∃ t ∈ t1, t.Inserts z) := by
  have pend : ∀ {f0 f1 : Fragment α} {o : Option (MFragment α)} {t0 t1 : Option (Fragment α)},
      pendingConflict f0 f1 = (o, t0, t1) →
      (∀ t ∈ t0, t.Real) ∧ (∀ t ∈ t1, t.Real) ∧ (f0.Inserts z ∨ f1.Inserts z → ∃ x ∈ o, x.Shows z) := by
    intro f0 f1 o t0 t1 h
    simp only [pendingConflict, Prod.mk.injEq] at h
    obtain ⟨rfl, rfl, rfl⟩ := h
    refine ⟨fun t ht => splitFragment_tail_real ht, fun t ht => splitFragment_tail_real ht, ?_⟩
    intro h
    refine ⟨_, rfl, ?_⟩
    rcases h with h | h
    · left
      cases f0 with
      | copy => exact absurd h id
      | change i d n =>
        simp only [Fragment.Inserts] at h
        subst h
        simp only [splitFragment, splitChange_head hz, MFragment.text1, insertOrLit, Side.toList, Fragment.insert]
    · right
      cases f1 with
      | copy => exact absurd h id
      | change i d n =>
        simp only [Fragment.Inserts] at h
        subst h
        simp only [splitFragment, splitChange_head hz, MFragment.text2, insertOrLit, Side.toList, Fragment.insert]
  have cc : ∀ {ci i d : List α} {cn n : Nat} {o : Option (MFragment α)} {tc t : Option (Fragment α)},
      copyChange ci cn i d n = (o, tc, t) →
      (∀ t ∈ tc, t.Real) ∧ (∀ x ∈ t, x.Real) ∧ (i = z → ∃ x ∈ o, x.Shows z) := by
    intro ci i d cn n o tc t h
    simp only [copyChange] at h
    split at h
    · simp only [Prod.mk.injEq] at h
      obtain ⟨rfl, rfl, rfl⟩ := h
      refine ⟨?_, by simp, fun h => ⟨_, rfl, .inl h⟩⟩
      intro t ht
      split at ht
      · exact splitFragment_tail_real (f := .copy ci cn) ht
      · simp at ht
    · simp only [Prod.mk.injEq] at h
      obtain ⟨rfl, rfl, rfl⟩ := h
      refine ⟨by simp, fun t ht => splitChange_tail_real ht, ?_⟩
      rintro rfl
      rw [splitChange_head hz]
      exact ⟨_, rfl, .inl rfl⟩
  match f0, f1, r0, r1, h with
  | .copy i0 n0, .copy i1 n1, _, _, h =>
    simp only [processFragments, Prod.mk.injEq] at h
    obtain ⟨_, rfl, rfl, _⟩ := h
    refine ⟨?_, ?_, by rintro (h | h) <;> exact absurd h id⟩
    · intro t ht
      simp only [copyCopy] at ht
      split at ht
      · simp at ht
      · simp only at ht
        split at ht
        · exact splitFragment_tail_real (f := .copy i0 n0) ht
        · simp at ht
    · intro t ht
      simp only [copyCopy] at ht
      split at ht
      · exact splitFragment_tail_real (f := .copy i1 n1) ht
      · simp at ht
  | .change i0 d0 n0, .change i1 d1 n1, r0, r1, h =>
    cases w with
    | true =>
      simp only [processFragments, if_true, Prod.mk.injEq] at h
      obtain ⟨rfl, rfl, rfl, _⟩ := h
      obtain ⟨a, b, c⟩ := pend (f0 := .change i0 d0 n0) (f1 := .change i1 d1 n1) rfl
      exact ⟨a, b, fun h => .inl (c h)⟩
    | false =>
      simp only [processFragments, Bool.false_eq_true, if_false, changeChange] at h
      simp only [Fragment.Real] at r0 r1
      split at h
      · rename_i hc
        split at h
        · rename_i hcc
          simp only [Prod.mk.injEq] at h
          obtain ⟨rfl, rfl, rfl, _⟩ := h
          have e1 : i1 = [] := List.length_eq_zero_iff.1 hcc.2
          refine ⟨by simp, ?_, ?_⟩
          · rintro t ht
            simp only [Option.mem_some_iff] at ht
            subst ht
            right
            rcases r1 with r1 | r1
            · exact absurd e1 r1
            · exact r1
          · rintro (h | h)
            · exact .inr (.inr ⟨_, rfl, h⟩)
            · exact absurd (h.symm.trans e1) hz
        · rename_i hcc
          simp only [Prod.mk.injEq] at h
          obtain ⟨rfl, rfl, rfl, _⟩ := h
          have e : i0 = [] ∧ n1 = 0 := by
            simp only [hasComposable, Bool.or_eq_true, Bool.and_eq_true, beq_iff_eq] at hc
            rcases hc with hc | hc
            · exact absurd hc hcc
            · exact ⟨List.length_eq_zero_iff.1 hc.1, hc.2⟩
          refine ⟨?_, by simp, ?_⟩
          · rintro t ht
            simp only [Option.mem_some_iff] at ht
            subst ht
            left
            rcases r1 with r1 | r1
            · exact r1
            · exact absurd e.2 r1
          · rintro (h | h)
            · exact absurd (h.symm.trans e.1) hz
            · exact .inr (.inl ⟨_, rfl, h⟩)
      · rename_i hc
        split at h
        · rename_i hi
          simp only [Prod.mk.injEq] at h
          obtain ⟨rfl, rfl, rfl, _⟩ := h
          have e := areIdentical_insert hi
          refine ⟨by simp, by simp, ?_⟩
          rintro (h | h)
          · exact .inl ⟨_, rfl, .inl h⟩
          · exact .inl ⟨_, rfl, .inl (e.trans h)⟩
        · simp only [ordinaryConflict, Prod.mk.injEq] at h
          obtain ⟨rfl, rfl, rfl, _⟩ := h
          refine ⟨fun t ht => splitChange_tail_real ht, fun t ht => splitChange_tail_real ht, ?_⟩
          simp only [hasComposable, Bool.or_eq_true, Bool.and_eq_true, beq_iff_eq, List.length_eq_zero_iff,
            not_or, not_and] at hc
          -- both heads exist
          have s0 : ∃ k, (splitChange i0 d0 n0 i0.length (min n0 n1)).1 = some (.change i0 k (min n0 n1)) := by
            refine ⟨d0.take (min n0 n1), ?_⟩
            have : 0 < min n0 n1 ∨ 0 < i0.length := by
              by_cases hi : i0 = []
              · have := hc.2 hi
                have : n0 ≠ 0 := by
                  rcases r0 with r0 | r0
                  · exact absurd hi r0
                  · exact r0
                omega
              · exact .inr (List.length_pos_iff.2 hi)
            simp [splitChange, this]
          have s1 : ∃ k, (splitChange i1 d1 n1 i1.length (min n0 n1)).1 = some (.change i1 k (min n0 n1)) := by
            refine ⟨d1.take (min n0 n1), ?_⟩
            have : 0 < min n0 n1 ∨ 0 < i1.length := by
              by_cases hi : i1 = []
              · have h0 : n0 ≠ 0 := fun h => hc.1 h hi
                have : n1 ≠ 0 := by
                  rcases r1 with r1 | r1
                  · exact absurd hi r1
                  · exact r1
                omega
              · exact .inr (List.length_pos_iff.2 hi)
            simp [splitChange, this]
          obtain ⟨k0, s0⟩ := s0
          obtain ⟨k1, s1⟩ := s1
          rw [s0, s1]
          rintro (h | h)
          · exact .inl ⟨_, rfl, .inl h⟩
          · exact .inl ⟨_, rfl, .inr h⟩
  | .copy ci cn, .change i d n, _, _, h =>
    cases w with
    | true =>
      simp only [processFragments, if_true, Prod.mk.injEq] at h
      obtain ⟨rfl, rfl, rfl, _⟩ := h
      obtain ⟨a, b, c⟩ := pend (f0 := .copy ci cn) (f1 := .change i d n) rfl
      exact ⟨a, b, fun h => .inl (c h)⟩
    | false =>
      simp only [processFragments, Bool.false_eq_true, if_false, Prod.mk.injEq] at h
      obtain ⟨rfl, rfl, rfl, _⟩ := h
      obtain ⟨a, b, c⟩ := cc (ci := ci) (cn := cn) (i := i) (d := d) (n := n) rfl
      refine ⟨a, b, ?_⟩
      rintro (h | h)
      · exact absurd h id
      · exact .inl (c h)
  | .change i d n, .copy ci cn, _, _, h =>
    cases w with
    | true =>
      simp only [processFragments, if_true, Prod.mk.injEq] at h
      obtain ⟨rfl, rfl, rfl, _⟩ := h
      obtain ⟨a, b, c⟩ := pend (f0 := .change i d n) (f1 := .copy ci cn) rfl
      exact ⟨a, b, fun h => .inl (c h)⟩
    | false =>
      simp only [processFragments, Bool.false_eq_true, if_false, Prod.mk.injEq] at h
      obtain ⟨rfl, rfl, rfl, _⟩ := h
      obtain ⟨a, b, c⟩ := cc (ci := ci) (cn := cn) (i := i) (d := d) (n := n) rfl
      refine ⟨b, a, ?_⟩
      rintro (h | h)
      · exact .inl (c h)
      · exact absurd h id

theorem mergeLoop_inserts {z : List α} (hz : z ≠ []) : ∀ (fuel : Nat) (F0 F1 : List (Fragment α)) (w : Bool)
    (raw : List (MFragment α)), (∀ f ∈ F0, f.Real) → (∀ f ∈ F1, f.Real) → mergeLoop fuel F0 F1 w = some raw →
    (∃ f ∈ F0 ++ F1, f.Inserts z) → ∃ x ∈ raw, x.Shows z := by
  have flush : ∀ (F0 F1 : List (Fragment α)) (w : Bool), (F0 = [] ∨ F1 = []) → (∃ f ∈ F0 ++ F1, f.Inserts z) →
      ∃ x ∈ flushRemaining F0 F1 w, x.Shows z := by
    rintro F0 F1 w he ⟨f, hf, hi⟩
    have hm : f ∈ (if F0.isEmpty then F1 else F0) := by
      rcases he with rfl | rfl
      · simpa using hf
      · cases F0 with
        | nil => simp at hf
        | cons => simpa using hf
    have hins : f.insert = z := by
      cases f with
      | copy => exact absurd hi id
      | change => exact hi
    simp only [flushRemaining]
    refine ⟨_, List.mem_map.2 ⟨f, hm, rfl⟩, ?_⟩
    split
    · exact .inl hins
    · split
      · exact .inr hins
      · exact .inl hins
  intro fuel
  induction fuel with
  | zero =>
    intro F0 F1 w raw _ _ h hx
    match F0, F1, h, hx with
    | [], [], _, ⟨_, hf, _⟩ => simp at hf
    | [], _ :: _, h, hx => simp only [mergeLoop, Option.some.injEq] at h; rw [← h]; exact flush _ _ _ (.inl rfl) hx
    | _ :: _, [], h, hx => simp only [mergeLoop, Option.some.injEq] at h; rw [← h]; exact flush _ _ _ (.inr rfl) hx
    | _ :: _, _ :: _, h, _ => simp [mergeLoop] at h
  | succ fuel ih =>
    intro F0 F1 w raw r0 r1 h hx
    match F0, F1, r0, r1, h, hx with
    | [], [], _, _, _, ⟨_, hf, _⟩ => simp at hf
    | [], _ :: _, _, _, h, hx =>
      simp only [mergeLoop, Option.some.injEq] at h; rw [← h]; exact flush _ _ _ (.inl rfl) hx
    | _ :: _, [], _, _, h, hx =>
      simp only [mergeLoop, Option.some.injEq] at h; rw [← h]; exact flush _ _ _ (.inr rfl) hx
    | f0 :: F0, f1 :: F1, r0, r1, h, hx =>
      simp only [mergeLoop] at h
      rcases hr : processFragments f0 f1 w with ⟨o, t0, t1, w'⟩
      simp only [hr] at h
      obtain ⟨p1, p2, p3⟩ := processFragments_inserts hz (r0 f0 (by simp)) (r1 f1 (by simp)) hr
      cases hm : mergeLoop fuel (t0.toList ++ F0) (t1.toList ++ F1) w' with
      | none => rw [hm] at h; simp at h
      | some out =>
        rw [hm] at h
        simp only [Option.some.injEq] at h
        have next := ih _ _ _ _ (by
            intro f hf
            rcases List.mem_append.1 hf with hf | hf
            · exact p1 f (by simpa using hf)
            · exact r0 f (by simp [hf]))
          (by
            intro f hf
            rcases List.mem_append.1 hf with hf | hf
            · exact p2 f (by simpa using hf)
            · exact r1 f (by simp [hf])) hm
        have later : (∃ f ∈ t0.toList ++ F0 ++ (t1.toList ++ F1), f.Inserts z) → ∃ x ∈ raw, x.Shows z := by
          intro hh
          obtain ⟨x, hx, hs⟩ := next hh
          exact ⟨x, by rw [← h]; simp [hx], hs⟩
        obtain ⟨f, hf, hi⟩ := hx
        simp only [List.cons_append, List.mem_cons, List.mem_append] at hf
        have now : f0.Inserts z ∨ f1.Inserts z → ∃ x ∈ raw, x.Shows z := by
          intro hh
          rcases p3 hh with ⟨x, hx, hs⟩ | ⟨t, ht, hs⟩ | ⟨t, ht, hs⟩
          · exact ⟨x, by rw [← h]; simp only [List.mem_append, Option.mem_toList]; exact .inl hx, hs⟩
          · exact later ⟨t, by simp only [List.mem_append, Option.mem_toList]; exact .inl (.inl ht), hs⟩
          · exact later ⟨t, by simp only [List.mem_append, Option.mem_toList]; exact .inr (.inl ht), hs⟩
        rcases hf with rfl | hf | rfl | hf
        · exact now (.inl hi)
        · exact later ⟨f, by simp [hf], hi⟩
        · exact now (.inr hi)
        · exact later ⟨f, by simp [hf], hi⟩

theorem edit_change {e : Edit α} : ∀ {d : List (DiffItem α)} {pos : Nat}, e ∈ editsOf pos d →
    ∃ o, .change e.insert o ∈ d := by
  intro d
  induction d with
  | nil => intro pos h; simp [editsOf] at h
  | cons x d ih =>
    intro pos h
    cases x with
    | common c =>
      obtain ⟨o, ho⟩ := ih (show e ∈ editsOf (pos + c.length) d from h)
      exact ⟨o, by simp [ho]⟩
    | change z o =>
      simp only [editsOf, List.mem_cons] at h
      rcases h with rfl | h
      · exact ⟨o, by simp⟩
      · obtain ⟨o, ho⟩ := ih h
        exact ⟨o, by simp [ho]⟩

/-- A merge that yields something has come through the loop. -/
theorem merge_loop_of_ok {kind : Kind} {parent b0 b1 : List α} {d0 d1 d : List (DiffItem α)}
    (h0 : diffTokenSequences parent b0 = some d0) (h1 : diffTokenSequences parent b1 = some d1)
    (h : mergeTokenSequence kind parent b0 b1 = .ok d) :
    ∃ raw, mergeLoop (d0.length + d1.length) (d0.map toFrag) (d1.map toFrag) false = some raw := by
  obtain ⟨cs0, c0, k0, _, s0, _⟩ := merge_setup parent b0
  obtain ⟨cs1, c1, k1, _, s1, _⟩ := merge_setup parent b1
  rw [h0] at k0
  rw [h1] at k1
  injection k0 with k0
  injection k1 with k1
  rw [← k0] at s0
  rw [← k1] at s1
  simp only [mergeTokenSequence, c0, c1, s0, s1, List.length_map] at h
  cases hl : mergeLoop (d0.length + d1.length) (d0.map toFrag) (d1.map toFrag) false with
  | none => rw [hl] at h; simp at h
  | some raw => exact ⟨raw, rfl⟩

/-- C139.  For all parents and branches: what a change of either branch inserts is in one piece in one of the two
texts that result from taking the same side of all conflicts. -/
theorem C139_inserted {kind : Kind} {parent b0 b1 : List α} {d0 d1 d : List (DiffItem α)}
    (h0 : diffTokenSequences parent b0 = some d0) (h1 : diffTokenSequences parent b1 = some d1)
    (h : mergeTokenSequence kind parent b0 b1 = .ok d) (e : Edit α) (he : e ∈ editsOf 0 d0 ∨ e ∈ editsOf 0 d1) :
    e.insert <:+: intoText d ∨ e.insert <:+: fromText d := by
  by_cases hz : e.insert = []
  · rw [hz]; exact .inl (List.nil_infix)
  obtain ⟨_, k0, n0, _⟩ := C12_diff_normal_form parent b0
  obtain ⟨_, k1, n1, _⟩ := C12_diff_normal_form parent b1
  rw [h0] at k0
  cases k0
  rw [h1] at k1
  cases k1
  have real : ∀ {d : List (DiffItem α)}, (∀ x ∈ d, x.Normal) → ∀ f ∈ d.map toFrag, f.Real := by
    intro d n f hf
    obtain ⟨x, hx, rfl⟩ := List.mem_map.1 hf
    cases x with
    | common c => trivial
    | change z o =>
      rcases (n _ hx).1 with h | h
      · exact .inl h
      · exact .inr (by simpa using h)
  have ins : ∀ {d : List (DiffItem α)}, e ∈ editsOf 0 d → ∃ f ∈ d.map toFrag, f.Inserts e.insert := by
    intro d hd
    obtain ⟨o, ho⟩ := edit_change hd
    exact ⟨_, List.mem_map.2 ⟨_, ho, rfl⟩, rfl⟩
  obtain ⟨raw, hl⟩ := merge_loop_of_ok h0 h1 h
  rw [merge_of_diffs kind h0 h1 hl] at h
  obtain ⟨c1, c2⟩ := C138_consolidate h
  obtain ⟨x, hx, hs⟩ := mergeLoop_inserts hz _ _ _ _ _ (real n0) (real n1) hl (by
    rcases he with he | he
    · obtain ⟨f, hf, hi⟩ := ins he
      exact ⟨f, List.mem_append_left _ hf, hi⟩
    · obtain ⟨f, hf, hi⟩ := ins he
      exact ⟨f, List.mem_append_right _ hf, hi⟩)
  obtain ⟨a, b, rfl⟩ := List.append_of_mem hx
  rcases hs with hs | hs
  · left
    rw [c1, List.flatMap_append, List.flatMap_cons, hs]
    exact ⟨_, _, List.append_assoc _ _ _⟩
  · right
    rw [c2, List.flatMap_append, List.flatMap_cons, hs]
    exact ⟨_, _, List.append_assoc _ _ _⟩

/-- C139.  By characters, words or lines: the file that `gaspra-merge -g` writes has what every change of either
branch inserts in one piece in one of the two texts that its markers separate. -/
theorem C139_file (cls sp : Nat → Bool) {args : Args} (h : args.GitFile) (hd : args.diff = false)
    (pn cn on : PyStr) {p c o : PyStr} {qp qc qo : List PyStr} (hp : CliPieces cls args p qp)
    (hc : CliPieces cls args c qc) (ho : CliPieces cls args o qo) {d0 d1 : List (DiffItem PyStr)}
    (h0 : diffTokenSequences qp qc = some d0) (h1 : diffTokenSequences qp qo = some d1) :
    ∃ out s0 s1, mergeCli cls sp args {} pn cn on p c o = ({}, out, none) ∧
      GitOutput (basename cn) (basename on) out s0 s1 ∧
      ∀ e : Edit PyStr, e ∈ editsOf 0 d0 ∨ e ∈ editsOf 0 d1 →
        e.insert.flatten <:+: s0 ∨ e.insert.flatten <:+: s1 := by
  obtain ⟨d, out, n, m1, _, m3, _, m5⟩ := C67_merge_file cls sp h hd pn cn on hp hc ho
  refine ⟨out, _, _, m3, m5, fun e he => ?_⟩
  have fl : ∀ {a b : List PyStr}, a <:+: b → a.flatten <:+: b.flatten ++ n := by
    rintro a b ⟨u, v, rfl⟩
    exact ⟨u.flatten, v.flatten ++ n, by simp⟩
  rw [into_joined, from_joined]
  rcases C139_inserted h0 h1 m1 e he with h | h
  · exact .inl (fl h)
  · exact .inr (fl h)

-- Overlapping changes whose conflict loses text that both branches keep ("c"): both insertions are there.
example : mergeTokenSequence .str "abcd".toList "axd".toList "abyzcd".toList =
    .ok [.common "a".toList, .change "x".toList "b".toList, .common "yzd".toList] := by decide +kernel
example : "yz".toList <:+: intoText [.common "a".toList, .change "x".toList "b".toList, .common "yzd".toList] ∨
    "yz".toList <:+: fromText [.common "a".toList, .change "x".toList "b".toList, .common "yzd".toList] :=
  C139_inserted (kind := .str) (parent := "abcd".toList) (b0 := "axd".toList) (b1 := "abyzcd".toList)
    (d0 := [.common "a".toList, .change "x".toList "bc".toList, .common "d".toList])
    (d1 := [.common "ab".toList, .change "yz".toList [], .common "cd".toList])
    (by decide +kernel) (by decide +kernel) (by decide +kernel) ⟨2, 2, "yz".toList⟩ (.inr (by decide))
-- It may be on the side of the other branch only: the second branch's "x" is on the first side.
example : mergeTokenSequence .str "abcd".toList "aybcd".toList "xd".toList =
      .ok [.change "x".toList "a".toList, .common "yd".toList] ∧
    ¬ "x".toList <:+: fromText [.change "x".toList "a".toList, .common "yd".toList] := by
  decide +kernel

end Gaspra
