import Verif.Model.CommandsLimit
import Verif.Proofs.CliDiff
import Verif.Proofs.MergeCost
import Verif.Props.Recursion
import Verif.Props.Commands

set_option linter.unusedSectionVars false
set_option linter.unusedSimpArgs false
set_option linter.unusedVariables false

/-! # Proofs about the commands under the recursion limit -/

namespace Gaspra

section
variable {α : Type _} [DecidableEq α]

theorem findChangesetLim_eq {o m : List α} {cs : Changeset α} (h : findChangeset o m = some cs)
    (limit : Nat) :
    findChangesetLim limit o m = if cs.depth ≤ limit then .ok cs else .error .recursionError := by
  unfold findChangesetLim
  rw [findChangesetAux_limit _ _ _ _ _ _ h limit]
  by_cases hd : cs.depth ≤ limit <;> simp [hd]

/-- What a group of conflicts contains. -/
theorem group_tokens (g : List (MFragment α)) (hg : ∀ x ∈ g, x.isConflict = true) :
    ((g.map (·.version1)).flatMap (·.toList)).length + ((g.map (·.version2)).flatMap (·.toList)).length =
      outW (fun l => l.length) g := by
  induction g with
  | nil => rfl
  | cons x g ih =>
    have := ih fun y hy => hg y (by simp [hy])
    cases x with
    | input f => simpa [MFragment.isConflict] using hg _ List.mem_cons_self
    | conflict a b =>
      simp only [outW, List.map_cons, List.flatMap_cons, List.length_append, MFragment.version1,
        MFragment.version2, MFragment.tokens] at this ⊢
      omega

theorem consolidateConflictsLim_eq : ∀ (fuel : Nat) (L : List (MFragment α)),
    ∃ K, 2 * K ≤ outW (fun l => l.length) L + 2 ∧ ∀ limit,
      consolidateConflictsLim limit .tuple fuel L =
        if K ≤ limit then consolidateConflicts .tuple fuel L else .error .recursionError := by
  intro fuel
  induction fuel with
  | zero =>
    intro L
    refine ⟨0, by omega, fun limit => ?_⟩
    cases L <;> simp [consolidateConflictsLim, consolidateConflicts]
  | succ fuel ih =>
    intro L
    cases L with
    | nil => exact ⟨0, by omega, fun limit => by simp [consolidateConflictsLim, consolidateConflicts]⟩
    | cons x L =>
      obtain ⟨g, o, r, h1, h2, h3, h4, h5, _⟩ := decompose (x :: L)
      obtain ⟨K2, hK2, hr⟩ := ih r
      obtain ⟨cs, hcs, V⟩ := findChangeset_spec ((g.map (·.version2)).flatMap (·.toList))
        ((g.map (·.version1)).flatMap (·.toList))
      have hg := group_tokens g h5
      have hd := V.depth_le.1
      have hw : outW (fun l => l.length) (x :: L) = outW (fun l => l.length) g +
          (outW (fun l => l.length) o + outW (fun l => l.length) r) := by
        rw [h4]; simp [outW]
      refine ⟨max cs.depth K2, by omega, fun limit => ?_⟩
      simp only [consolidateConflictsLim, consolidateConflicts, h1, h2, h3,
        joinSides_ok (kind := .tuple) (.inl (by decide)), hr limit, reSplitLim, reSplit, hcs,
        bind, Except.bind, findChangesetLim_eq hcs limit]
      by_cases a : cs.depth ≤ limit
      · by_cases b : K2 ≤ limit
        · rw [if_pos a, if_pos b, if_pos (by omega)]
          rfl
        · rw [if_pos a, if_neg b, if_neg (by omega)]
          rfl
      · rw [if_neg a, if_neg (show ¬ max cs.depth K2 ≤ limit by omega)]

theorem mergeLoop_added {b0 b1 : List α} (h0 : b0 ≠ []) (h1 : b1 ≠ []) (hne : b0 ≠ b1) (fuel : Nat) :
    mergeLoop (fuel + 1) [.change b0 [] 0] [.change b1 [] 0] false =
      some [.conflict (.seq b0) (.seq b1)] := by
  have l0 := List.length_pos_iff.2 h0
  have l1 := List.length_pos_iff.2 h1
  have hi : areIdentical b0 [] 0 b1 [] 0 = false := by
    cases hid : areIdentical b0 [] 0 b1 [] 0 with
    | false => rfl
    | true =>
      simp only [areIdentical, Bool.and_eq_true, beq_iff_eq] at hid
      exact absurd (eq_of_commonPrefixLength hid.1.1 hid.1.2) hne
  have hc : hasComposable b0 0 b1 0 = false := by
    simp only [hasComposable, Bool.or_eq_false_iff, Bool.and_eq_false_iff, beq_eq_false_iff_ne]
    omega
  have e0 : b0.length > 0 := l0
  have e1 : b1.length > 0 := l1
  simp [mergeLoop, processFragments, changeChange, hi, hc, ordinaryConflict, splitChange, e0, e1,
    Fragment.insert]

theorem stream_added {b : List α} (hb : b ≠ []) {cs : Changeset α}
    (h : findChangeset [] b = some cs) : cs.stream [] = [.change b [] 0] := by
  obtain ⟨cs', h', V⟩ := findChangeset_spec ([] : List α) b
  rw [h] at h'
  cases h'
  generalize hx : ([] : List α) = x at V
  cases V with
  | leaf _ =>
    subst hx
    cases b with
    | nil => exact absurd rfl hb
    | cons c b => simp [Changeset.stream, bothEmpty]
  | node hw _ _ _ _ _ => simp at hx; exact absurd hx.2.1 hw

theorem consolidateLim_single (b0 b1 : List α) {cs : Changeset α} (h : findChangeset b1 b0 = some cs)
    (limit : Nat) :
    consolidateLim limit .tuple [.conflict (.seq b0) (.seq b1)] =
      if cs.depth ≤ limit then consolidate .tuple [.conflict (.seq b0) (.seq b1)]
      else .error .recursionError := by
  have j : ∀ b : List α, joinSides .tuple [.seq b] = .ok b := fun b => by simp [joinSides]
  simp only [consolidateLim, consolidate, consolidateConflictsLim, consolidateConflicts,
    List.length_singleton, List.takeWhile_cons, List.takeWhile_nil, List.dropWhile_cons,
    List.dropWhile_nil, MFragment.isConflict, if_true, List.map_cons, List.map_nil, MFragment.version1,
    MFragment.version2, j, bind, Except.bind, reSplitLim, reSplit, h, findChangesetLim_eq h limit]
  by_cases a : cs.depth ≤ limit
  · simp only [if_pos a]
    rfl
  · simp only [if_neg a]

/-- The two phases of a merge. -/
theorem mergeLim_eq (p b0 b1 : List α) :
    ∃ cs0 cs1 fragments K, findChangeset p b0 = some cs0 ∧ findChangeset p b1 = some cs1 ∧
      2 * K ≤ b0.length + b1.length + 2 ∧
      mergeTokenSequence .tuple p b0 b1 = consolidate .tuple fragments ∧
      mergeLoop ((cs0.stream p).length + (cs1.stream p).length) (cs0.stream p) (cs1.stream p) false =
        some fragments ∧
      (∀ limit, mergeStartLim limit p b0 b1 =
        if max cs0.depth cs1.depth ≤ limit then .ok fragments else .error .recursionError) ∧
      (∀ limit, consolidateLim limit .tuple fragments =
        if K ≤ limit then consolidate .tuple fragments else .error .recursionError) ∧
      (p = [] → b0 ≠ [] → b1 ≠ [] → b0 ≠ b1 → ∀ cs, findChangeset b1 b0 = some cs → K = cs.depth) := by
  obtain ⟨cs0, hc0, V0⟩ := findChangeset_spec p b0
  obtain ⟨cs1, hc1, V1⟩ := findChangeset_spec p b1
  have i0 := (V0.into (OccursAt.whole p)).1
  have i1 := (V1.into (OccursAt.whole p)).1
  obtain ⟨out, _, hm, _⟩ := C22_no_exception p b0 b1
  have hm' := hm
  simp only [mergeTokenSequence, hc0, hc1] at hm
  cases hl : mergeLoopC ((cs0.stream p).length + (cs1.stream p).length) (cs0.stream p) (cs1.stream p)
      false with
  | none =>
    have := mergeLoopC_fst ((cs0.stream p).length + (cs1.stream p).length) (cs0.stream p) (cs1.stream p)
      false
    rw [hl] at this
    rw [← this] at hm
    simp at hm
  | some x =>
    obtain ⟨fragments, t⟩ := x
    have hf := mergeLoopC_fst ((cs0.stream p).length + (cs1.stream p).length) (cs0.stream p)
      (cs1.stream p) false
    rw [hl] at hf
    have hf : mergeLoop ((cs0.stream p).length + (cs1.stream p).length) (cs0.stream p) (cs1.stream p)
      false = some fragments := hf.symm
    have hs := (mergeLoopC_spec Additive.length _ _ _ _ _ _ _ hl (Nat.le_refl _)).1
    rw [stream_eq, stream_eq, insW_toFrag, insW_toFrag, i0, i1] at hs
    obtain ⟨K, hK, hc⟩ := consolidateConflictsLim_eq fragments.length fragments
    refine ⟨cs0, cs1, fragments, K, hc0, hc1, by omega, ?_, hf, fun limit => ?_, fun limit => ?_, ?_⟩
    · simp only [mergeTokenSequence, hc0, hc1, hf]
    · simp only [mergeStartLim, findChangesetLim_eq hc0, findChangesetLim_eq hc1]
      by_cases a : cs0.depth ≤ limit
      · by_cases b : cs1.depth ≤ limit
        · rw [if_pos a, if_pos b, if_pos (by omega)]
          simp only [bind, Except.bind, hf]
        · rw [if_pos a, if_neg b, if_neg (by omega)]
          rfl
      · rw [if_neg a, if_neg (show ¬ max cs0.depth cs1.depth ≤ limit by omega)]
        rfl
    · simp only [consolidateLim, consolidate, hc]
      by_cases a : K ≤ limit
      · rw [if_pos a, if_pos a]
      · rw [if_neg a, if_neg a]
        rfl
    · rintro rfl n0 n1 hne cs hcs
      rw [stream_added n0 hc0, stream_added n1 hc1] at hf
      rw [show [Fragment.change b0 [] 0].length + [Fragment.change b1 [] 0].length = 1 + 1 from rfl,
        mergeLoop_added n0 n1 hne] at hf
      cases hf
      have hok : consolidate .tuple [.conflict (.seq b0) (.seq b1)] = .ok out := by
        rw [← hm', mergeTokenSequence]
        simp only [hc0, hc1, stream_added n0 hc0, stream_added n1 hc1, List.length_singleton,
          mergeLoop_added n0 n1 hne]
      have key : ∀ limit, K ≤ limit ↔ cs.depth ≤ limit := by
        intro limit
        have e := consolidateLim_single b0 b1 hcs limit
        simp only [consolidateLim, hc, hok] at e
        by_cases a : K ≤ limit
        · by_cases b : cs.depth ≤ limit
          · exact ⟨fun _ => b, fun _ => a⟩
          · rw [if_pos a, if_neg b] at e
            have := hok
            rw [consolidate] at this
            rw [this] at e
            simp at e
        · by_cases b : cs.depth ≤ limit
          · rw [if_neg a, if_pos b] at e
            simp [bind, Except.bind] at e
          · exact ⟨fun h => absurd h a, fun h => absurd h b⟩
      have k1 := (key K).1 (Nat.le_refl _)
      have k2 := (key cs.depth).2 (Nat.le_refl _)
      omega

end

theorem Changeset.depth_rename {α β : Type _} (f : α → β) (cs : Changeset α) :
    (cs.rename f).depth = cs.depth := by
  induction cs with
  | leaf => rfl
  | node _ _ p s ih1 ih2 => simp only [Changeset.rename, Changeset.depth, ih1, ih2]

/-- The tokens are nested as the pieces are. -/
theorem depth_pieces {α β : Type _} [DecidableEq α] [DecidableEq β] {g : α → β} {eo em : List α}
    (inj : KeepsApart g (eo ++ em)) {cs : Changeset α} {cs' : Changeset β}
    (h : findChangeset eo em = some cs) (h' : findChangeset (eo.map g) (em.map g) = some cs') :
    cs.depth = cs'.depth := by
  rw [findChangeset_renameOn inj, h] at h'
  cases h'
  rw [Changeset.depth_rename]

/-! ## Runs -/

/-- Nothing has been printed. -/
def Run.Fails (r : Run) : Prop := r.2 = ([], some .recursionError)

/-- The output stops somewhere. -/
def CutOff (r full : List PyStr × Option PyErr) : Prop :=
  r.2 = some .recursionError ∧ r.1 <+: full.1

theorem diffCliLim_eq (cls sp : Nat → Bool) (args : Args) (lim : Limits) (t : Tables) (on mn : PyStr)
    {o m : PyStr} {qo qm : List PyStr} (ho : CliPieces cls args o qo) (hm : CliPieces cls args m qm)
    {cs : Changeset PyStr} (h : findChangeset qo qm = some cs) :
    if cs.depth ≤ lim.diff then diffCliLim lim cls sp args t on mn o m = diffCli cls sp args t on mn o m
    else (diffCliLim lim cls sp args t on mn o m).Fails := by
  have key : ∀ {S : Type} (tk : Tokenizer (List Nat) S), ThreePieces tk o m m qo qm qm →
      tk.diffSeq = diffInts →
      if cs.depth ≤ lim.diff then
        diffRunLim tk sp args lim t on mn o m = diffRun tk sp args t on mn o m
      else (diffRunLim tk sp args lim t on mn o m).Fails := by
    rintro S tk ⟨ep, ec, eo, s1, s2, s3, g, Dom, t1, t2, t3, H, _, ⟨rfl, rfl, _⟩, inj⟩ hdiff
    obtain ⟨cs', h', _⟩ := findChangeset_spec ep ec
    have hd := depth_pieces (inj.sub fun x hx => by
      simp only [List.mem_append] at hx ⊢; exact .inl hx) h' h
    rw [← hd]
    have e : tokDiff tk tk.init (.str o) (.str m) =
        (s2, .ok (decodeChanges tk s2 ((cs'.asDiffStream ep).map (DiffItem.toItem id)))) := by
      simp only [tokDiff, t1, t2, hdiff, diffInts, diffTokenSequences, h', Option.map_some]
    simp only [diffRunLim, diffRun, t1, t2, e, displayDiffLim, findChangesetLim_eq h' lim.diff]
    by_cases a : cs'.depth ≤ lim.diff
    · simp only [if_pos a]
    · simp only [if_neg a, Run.Fails, displayFailing, display, markupChanges, basename_nil,
        List.isEmpty_nil, if_true, List.nil_append, markupStream]
  unfold CliPieces at ho hm
  unfold diffCliLim diffCli
  by_cases hw : args.words = true
  · simp only [if_pos hw] at ho hm ⊢
    exact key _ ((symbolLike cls).threePieces rfl rfl rfl trivial trivial trivial
      (symbolTokens_of ho) (symbolTokens_of hm) (symbolTokens_of hm)) rfl
  · simp only [if_neg hw] at ho hm ⊢
    by_cases hl : args.lines = true
    · simp only [if_pos hl] at ho hm ⊢
      exact key _ (lineLike.threePieces rfl rfl rfl trivial trivial trivial
        (lineTokens_of ho) (lineTokens_of hm) (lineTokens_of hm)) rfl
    · simp only [if_neg hl] at ho hm ⊢
      obtain ⟨rfl, ho⟩ := ho
      obtain ⟨rfl, hm⟩ := hm
      exact key _ (charThreePieces ho hm hm) rfl

theorem displayChanges_shown (sp : Nat → Bool) (style : Style × Style) (args : Args)
    (items : List (Item Text)) (b0 b1 header : PyStr) :
    ∃ stream, displayChanges sp style args (items, none) b0 b1 header =
      display style args stream b0 b1 header := by
  simp only [displayChanges, toDisplay]
  obtain ⟨d, h, _⟩ := C46_consolidated sp (items.filterMap strItem)
  by_cases a : (args.showLines || args.gitCompatible) = true
  · simp only [if_pos a, h]
    exact ⟨_, rfl⟩
  · simp only [if_neg a]
    exact ⟨_, rfl⟩

/-- What has been printed when a stream fails at its first item is printed anyway. -/
theorem displayFailing_cutOff (sp : Nat → Bool) (style : Style × Style) (args : Args)
    (items : List (Item Text)) (b0 b1 header : PyStr) :
    CutOff (displayFailing style args b0 b1 header .recursionError)
      (displayChanges sp style args (items, none) b0 b1 header) := by
  obtain ⟨stream, h⟩ := displayChanges_shown sp style args items b0 b1 header
  rw [h]
  refine ⟨rfl, ?_⟩
  simp only [displayFailing, display, markupChanges, markupStream, List.append_nil]
  exact List.prefix_append _ _

theorem CutOff.andThen {r full next next' : List PyStr × Option PyErr} (h : CutOff r full) :
    CutOff (Gaspra.andThen r next) (Gaspra.andThen full next') := by
  obtain ⟨out, e⟩ := r
  obtain ⟨out', e'⟩ := full
  obtain ⟨rfl, h⟩ := h
  refine ⟨rfl, ?_⟩
  cases e' with
  | none => exact h.trans (List.prefix_append _ _)
  | some e' => exact h

theorem CutOff.after {r full : List PyStr × Option PyErr} (h : CutOff r full) (out : List PyStr) :
    CutOff (Gaspra.andThen (out, none) r) (Gaspra.andThen (out, none) full) :=
  ⟨h.1, (List.prefix_append_right_inj out).2 h.2⟩

/-- The diffs and then the merge (as in `mergeRun`). -/
def diffsThen (t : Tables) (x : List PyStr × Option PyErr) (m : Run) : Run :=
  match x with
  | (out, some e) => (t, out, some e)
  | (out, none) => (m.1, Gaspra.andThen (out, none) m.2)

theorem diffsThen_cutOff (t : Tables) {x' x : List PyStr × Option PyErr} {m' m : Run}
    (hx : x' = x ∨ CutOff x' x) (hm : m' = m ∨ CutOff m'.2 m.2) :
    (diffsThen t x' m').2 = (diffsThen t x m).2 ∨ CutOff (diffsThen t x' m').2 (diffsThen t x m).2 := by
  rcases hx with rfl | hx
  · obtain ⟨out, e⟩ := x'
    cases e with
    | some e => exact .inl rfl
    | none =>
      rcases hm with rfl | hm
      · exact .inl rfl
      · exact .inr (hm.after out)
  · right
    obtain ⟨out', e'⟩ := x'
    obtain ⟨out, e⟩ := x
    obtain ⟨h1, h2⟩ := hx
    dsimp only at h1 h2
    subst h1
    cases e with
    | some e => exact ⟨rfl, h2⟩
    | none => exact ⟨rfl, h2.trans (List.prefix_append _ _)⟩

theorem andThen_cutOff {x' x y' y : List PyStr × Option PyErr} (hx : x' = x ∨ CutOff x' x)
    (hy : y' = y ∨ CutOff y' y) : Gaspra.andThen x' y' = Gaspra.andThen x y ∨
      CutOff (Gaspra.andThen x' y') (Gaspra.andThen x y) := by
  rcases hx with rfl | hx
  · rcases hy with rfl | hy
    · exact .inl rfl
    · obtain ⟨out, e⟩ := x'
      cases e with
      | some e => exact .inl rfl
      | none => exact .inr (hy.after out)
  · exact .inr hx.andThen

/-- The line that `show_header` prints (markup.py:49-54). -/
def headerLine (style : Style × Style) (name : PyStr) : List PyStr :=
  if (basename name).isEmpty then [] else [showHeader style.1 (basename name)]

theorem displayFailing_eq (style : Style × Style) (args : Args) (b0 b1 header : PyStr) (e : PyErr) :
    displayFailing style args b0 b1 header e = (headerLine style header, some e) := by
  simp [displayFailing, display, markupChanges, markupStream, headerLine]

/-- Where the output of `--diff` stops. `a`, `b` and `m` are the outputs of the three parts, and `ha`,
`hb` and `hm` their headers. -/
def stoppedOutput (lim : Limits) (d0 d1 k : Nat) (ha a hb b hm m : List PyStr) :
    List PyStr × Option PyErr :=
  if lim.diff < d0 then (ha, some .recursionError)
  else if lim.diff < d1 then (a ++ hb, some .recursionError)
  else if lim.merge < max d0 d1 then (a ++ b, some .recursionError)
  else if lim.conflict < k then (a ++ b ++ hm, some .recursionError)
  else (a ++ b ++ m, none)

theorem stopped_eq {lim : Limits} {d0 d1 k : Nat} {ha hb hm : List PyStr}
    {A B A' B' : List PyStr × Option PyErr} {M M' : Run} {t : Tables}
    (a1 : d0 ≤ lim.diff → A' = A) (a2 : ¬ d0 ≤ lim.diff → A' = (ha, some .recursionError))
    (b1 : d1 ≤ lim.diff → B' = B) (b2 : ¬ d1 ≤ lim.diff → B' = (hb, some .recursionError))
    (m1 : max d0 d1 ≤ lim.merge ∧ k ≤ lim.conflict → M' = M)
    (m2 : ¬ max d0 d1 ≤ lim.merge → M'.2 = ([], some .recursionError))
    (m3 : max d0 d1 ≤ lim.merge → ¬ k ≤ lim.conflict → M'.2 = (hm, some .recursionError))
    (h : (diffsThen t (Gaspra.andThen A B) M).2.2 = none) :
    (diffsThen t (Gaspra.andThen A B) M).2.1 = A.1 ++ B.1 ++ M.2.1 ∧
    (diffsThen t (Gaspra.andThen A' B') M').2 = stoppedOutput lim d0 d1 k ha A.1 hb B.1 hm M.2.1 := by
  obtain ⟨oa, ea⟩ := A
  obtain ⟨ob, eb⟩ := B
  obtain ⟨tm, om, em⟩ := M
  obtain ⟨tm', M'⟩ := M'
  cases ea with
  | some e => simp [Gaspra.andThen, diffsThen] at h
  | none =>
    cases eb with
    | some e => simp [Gaspra.andThen, diffsThen] at h
    | none =>
      simp only [Gaspra.andThen, diffsThen] at h
      subst h
      refine ⟨rfl, ?_⟩
      unfold stoppedOutput
      by_cases l0 : d0 ≤ lim.diff
      · rw [a1 l0, if_neg (by omega)]
        by_cases l1 : d1 ≤ lim.diff
        · rw [b1 l1, if_neg (by omega)]
          by_cases l2 : max d0 d1 ≤ lim.merge
          · rw [if_neg (by omega)]
            by_cases l3 : k ≤ lim.conflict
            · rw [if_neg (by omega), m1 ⟨l2, l3⟩]
              rfl
            · have := m3 l2 l3
              dsimp only at this
              subst this
              rw [if_pos (by omega)]
              rfl
          · have := m2 l2
            dsimp only at this
            subst this
            rw [if_pos (by omega)]
            simp [Gaspra.andThen, diffsThen]
        · rw [b2 l1, if_pos (by omega)]
          rfl
      · rw [a2 l0, if_pos (by omega)]
        rfl

/-- All limits are large enough. -/
def Limits.Enough (lim : Limits) (d0 d1 k : Nat) : Prop :=
  max d0 d1 ≤ lim.diff ∧ max d0 d1 ≤ lim.merge ∧ k ≤ lim.conflict

theorem mergeCliLim_eq (cls sp : Nat → Bool) (args : Args) (t : Tables) (pn cn on : PyStr)
    {p c o : PyStr} {qp qc qo : List PyStr} (hp : CliPieces cls args p qp) (hc : CliPieces cls args c qc)
    (ho : CliPieces cls args o qo) {cs0 cs1 : Changeset PyStr} (h0 : findChangeset qp qc = some cs0)
    (h1 : findChangeset qp qo = some cs1) :
    ∃ K, 2 * K ≤ qc.length + qo.length + 2 ∧
      (qp = [] → qc ≠ [] → qo ≠ [] → qc ≠ qo → ∀ cs, findChangeset qo qc = some cs → K = cs.depth) ∧
      ∃ a b m, headerLine (getMarkupStyle args true t).2 cn <+: a ∧
        headerLine (getMarkupStyle args true t).2 on <+: b ∧
        headerLine (getMarkupStyle args false (getMarkupStyle args true t).1).2 (lit "Merged") <+: m ∧
        ∀ lim : Limits,
      (args.diff = true → (mergeCli cls sp args t pn cn on p c o).2.2 = none →
        (mergeCli cls sp args t pn cn on p c o).2.1 = a ++ b ++ m ∧
        (mergeCliLim lim cls sp args t pn cn on p c o).2 =
          stoppedOutput lim cs0.depth cs1.depth K (headerLine (getMarkupStyle args true t).2 cn) a
            (headerLine (getMarkupStyle args true t).2 on) b
            (headerLine (getMarkupStyle args false (getMarkupStyle args true t).1).2 (lit "Merged")) m) ∧
      (args.diff = false →
        if max cs0.depth cs1.depth ≤ lim.merge ∧ K ≤ lim.conflict then
          mergeCliLim lim cls sp args t pn cn on p c o = mergeCli cls sp args t pn cn on p c o
        else (mergeCliLim lim cls sp args t pn cn on p c o).Fails) ∧
      (lim.Enough cs0.depth cs1.depth K →
        mergeCliLim lim cls sp args t pn cn on p c o = mergeCli cls sp args t pn cn on p c o) ∧
      ((mergeCliLim lim cls sp args t pn cn on p c o).2 = (mergeCli cls sp args t pn cn on p c o).2 ∨
        CutOff (mergeCliLim lim cls sp args t pn cn on p c o).2 (mergeCli cls sp args t pn cn on p c o).2) := by
  have key : ∀ {S : Type} (tk : Tokenizer (List Nat) S), ThreePieces tk p c o qp qc qo →
      tk.diffSeq = diffInts →
      ∃ K, 2 * K ≤ qc.length + qo.length + 2 ∧
      (qp = [] → qc ≠ [] → qo ≠ [] → qc ≠ qo → ∀ cs, findChangeset qo qc = some cs → K = cs.depth) ∧
      ∃ a b m, headerLine (getMarkupStyle args true t).2 cn <+: a ∧
        headerLine (getMarkupStyle args true t).2 on <+: b ∧
        headerLine (getMarkupStyle args false (getMarkupStyle args true t).1).2 (lit "Merged") <+: m ∧
        ∀ lim : Limits,
      (args.diff = true → (mergeRun tk sp args t pn cn on p c o).2.2 = none →
        (mergeRun tk sp args t pn cn on p c o).2.1 = a ++ b ++ m ∧
        (mergeRunLim tk sp args lim t pn cn on p c o).2 =
          stoppedOutput lim cs0.depth cs1.depth K (headerLine (getMarkupStyle args true t).2 cn) a
            (headerLine (getMarkupStyle args true t).2 on) b
            (headerLine (getMarkupStyle args false (getMarkupStyle args true t).1).2 (lit "Merged")) m) ∧
      (args.diff = false →
        if max cs0.depth cs1.depth ≤ lim.merge ∧ K ≤ lim.conflict then
          mergeRunLim tk sp args lim t pn cn on p c o = mergeRun tk sp args t pn cn on p c o
        else (mergeRunLim tk sp args lim t pn cn on p c o).Fails) ∧
      (lim.Enough cs0.depth cs1.depth K →
        mergeRunLim tk sp args lim t pn cn on p c o = mergeRun tk sp args t pn cn on p c o) ∧
      ((mergeRunLim tk sp args lim t pn cn on p c o).2 = (mergeRun tk sp args t pn cn on p c o).2 ∨
        CutOff (mergeRunLim tk sp args lim t pn cn on p c o).2
          (mergeRun tk sp args t pn cn on p c o).2) := by
    rintro S tk ⟨ep, ec, eo, s1, s2, s3, g, Dom, t1, t2, t3, H, ⟨e1, e2, e3⟩, ⟨rfl, rfl, rfl⟩, inj⟩ hdiff
    have inj0 : KeepsApart g (ep ++ ec) := inj.sub fun x hx => by
      simp only [List.mem_append] at hx ⊢; exact .inl hx
    have inj1 : KeepsApart g (ep ++ eo) := inj.sub fun x hx => by
      simp only [List.mem_append] at hx ⊢
      rcases hx with h | h
      · exact .inl (.inl h)
      · exact .inr h
    obtain ⟨c0, c1, fragments, K, f0, f1, hK, hm, _, hstart, hcon, hadd⟩ := mergeLim_eq ep ec eo
    have hd0 := depth_pieces inj0 f0 h0
    have hd1 := depth_pieces inj1 f1 h1
    obtain ⟨d0, w0, a1, _, a3⟩ := diff_decoded H e1 e2 inj0
    obtain ⟨d1, w1, b1, _, b3⟩ := diff_decoded H e1 e3 inj1
    have a1' : d0 = c0.asDiffStream ep := by
      simp only [diffTokenSequences, f0, Option.some.injEq] at a1; exact a1.symm
    have b1' : d1 = c1.asDiffStream ep := by
      simp only [diffTokenSequences, f1, Option.some.injEq] at b1; exact b1.symm
    subst a1' b1'
    obtain ⟨d, _, m1, _⟩ := C22_no_exception ep ec eo
    have ht := (C19_tokens m1 a1 b1).1
    have hdom : ∀ x ∈ d, ∀ t ∈ x.tokens, Dom t := by
      intro x hx t htx
      rcases ht t ⟨x, hx, htx⟩ with h | h
      · exact e2 t h
      · exact e3 t h
    have hdec := decodeChanges_spell H hdom
    rw [m1] at hm
    have k1 : tk.diffSeq ep ec = some ((c0.asDiffStream ep).map (DiffItem.toItem id)) := by
      rw [hdiff, diffInts, a1]; rfl
    have k2 : tk.diffSeq ep eo = some ((c1.asDiffStream ep).map (DiffItem.toItem id)) := by
      rw [hdiff, diffInts, b1]; rfl
    have prefixes : ∀ style items b0 b1 h, headerLine style h <+:
        (displayChanges sp style args (items, none) b0 b1 h).1 := by
      intro style items b0 b1 h
      have := (displayFailing_cutOff sp style args items b0 b1 h).2
      rwa [displayFailing_eq] at this
    refine ⟨K, by simpa using hK, ?_,
      (displayChanges sp (getMarkupStyle args true t).2 args
        ((w0.map DiffItem.joined).map (DiffItem.toItem Text.str), none) cn pn cn).1,
      (displayChanges sp (getMarkupStyle args true t).2 args
        ((w1.map DiffItem.joined).map (DiffItem.toItem Text.str), none) on pn on).1,
      (displayChanges sp (getMarkupStyle args false (getMarkupStyle args true t).1).2 args
        ((d.map (DiffItem.spell g)).map (DiffItem.toItem Text.str), none) cn on (lit "Merged")).1,
      prefixes _ _ _ _ _, prefixes _ _ _ _ _, prefixes _ _ _ _ _, fun lim => ?_⟩
    · intro z0 z1 z2 z3 cs hcs
      obtain ⟨cs', hcs', _⟩ := findChangeset_spec eo ec
      rw [hadd (by simpa using z0) (by simpa using z1) (by simpa using z2)
        (fun e => z3 (by rw [e])) cs' hcs']
      exact depth_pieces (inj.sub fun x hx => by
        simp only [List.mem_append] at hx ⊢
        rcases hx with h | h
        · exact .inr h
        · exact .inl (.inr h)) hcs' hcs
    -- the merge itself
    have part : ∀ t, ∃ u : Run,
        (match mergeItems ep ec eo with
          | .error e => (t, [], some e)
          | .ok merged =>
            let (t, style) := getMarkupStyle args false t
            (t, displayChanges sp style args (decodeChanges tk s3 merged) cn on
              (if args.diff then lit "Merged" else [])) : Run) = u ∧
        (max c0.depth c1.depth ≤ lim.merge ∧ K ≤ lim.conflict →
          mergePartLim tk sp args lim t s3 ep ec eo cn on = u) ∧
        (¬ (max c0.depth c1.depth ≤ lim.merge ∧ K ≤ lim.conflict) →
          CutOff (mergePartLim tk sp args lim t s3 ep ec eo cn on).2 u.2 ∧
          (args.diff = false → (mergePartLim tk sp args lim t s3 ep ec eo cn on).Fails)) ∧
        (¬ max c0.depth c1.depth ≤ lim.merge →
          (mergePartLim tk sp args lim t s3 ep ec eo cn on).2 = ([], some .recursionError)) ∧
        (args.diff = true → max c0.depth c1.depth ≤ lim.merge → ¬ K ≤ lim.conflict →
          (mergePartLim tk sp args lim t s3 ep ec eo cn on).2 =
            (headerLine (getMarkupStyle args false t).2 (lit "Merged"), some .recursionError)) ∧
        (args.diff = true → u.2 = displayChanges sp (getMarkupStyle args false t).2 args
          ((d.map (DiffItem.spell g)).map (DiffItem.toItem Text.str), none) cn on (lit "Merged")) := by
      intro t
      refine ⟨_, rfl, ?_, ?_, ?_, ?_, ?_⟩
      · rintro ⟨a, b⟩
        simp only [mergePartLim, hstart, if_pos a, hcon, if_pos b, ← hm, mergeItems, m1]
      · intro hn
        simp only [mergePartLim, hstart, mergeItems, m1, hdec]
        by_cases a : max c0.depth c1.depth ≤ lim.merge
        · have b : ¬ K ≤ lim.conflict := fun b => hn ⟨a, b⟩
          simp only [if_pos a, hcon, if_neg b]
          refine ⟨displayFailing_cutOff _ _ _ _ _ _ _, fun hd => ?_⟩
          simp [Run.Fails, hd, displayFailing, display, markupChanges, basename_nil, markupStream]
        · simp only [if_neg a]
          exact ⟨⟨rfl, List.nil_prefix⟩, fun _ => rfl⟩
      · intro a
        simp only [mergePartLim, hstart, if_neg a]
      · intro hd a b
        simp only [mergePartLim, hstart, if_pos a, hcon, if_neg b, hd, if_true, displayFailing_eq]
      · intro hd
        simp only [mergeItems, m1, hdec, hd, if_true]
    by_cases hd : args.diff = true
    · have first : ∀ style e (q : Changeset Nat), findChangeset ep e = some q →
          ∀ items, decodeChanges tk s3 ((q.asDiffStream ep).map (DiffItem.toItem id)) = (items, none) →
          ∀ b0 b1 h, (q.depth ≤ lim.diff →
            displayDiffLim tk sp args lim s3 style ep e b0 b1 h =
              displayChanges sp style args (items, none) b0 b1 h) ∧
            (¬ q.depth ≤ lim.diff → CutOff (displayDiffLim tk sp args lim s3 style ep e b0 b1 h)
              (displayChanges sp style args (items, none) b0 b1 h)) ∧
            (¬ q.depth ≤ lim.diff → displayDiffLim tk sp args lim s3 style ep e b0 b1 h =
              (headerLine style h, some .recursionError)) := by
        intro style e q hq items hi b0 b1 h
        simp only [displayDiffLim, findChangesetLim_eq hq, ← hi]
        refine ⟨fun a => by simp only [if_pos a], fun a => ?_,
          fun a => by simp only [if_neg a, displayFailing_eq]⟩
        simp only [if_neg a, hi]
        exact displayFailing_cutOff _ _ _ _ _ _ _
      obtain ⟨u, hu, p1, p2, p3, p4, p5⟩ := part (getMarkupStyle args true t).1
      have q0 := first (getMarkupStyle args true t).2 _ _ f0 _ a3 cn pn cn
      have q1 := first (getMarkupStyle args true t).2 _ _ f1 _ b3 on pn on
      have eFull : mergeRun tk sp args t pn cn on p c o = diffsThen (getMarkupStyle args true t).1
          (Gaspra.andThen
            (displayChanges sp (getMarkupStyle args true t).2 args
              ((w0.map DiffItem.joined).map (DiffItem.toItem Text.str), none) cn pn cn)
            (displayChanges sp (getMarkupStyle args true t).2 args
              ((w1.map DiffItem.joined).map (DiffItem.toItem Text.str), none) on pn on)) u := by
        rw [← a3, ← b3, ← hu]
        simp only [mergeRun, t1, t2, t3, hd, if_true, k1, k2]
        rfl
      have eLim : mergeRunLim tk sp args lim t pn cn on p c o = diffsThen (getMarkupStyle args true t).1
          (Gaspra.andThen
            (displayDiffLim tk sp args lim s3 (getMarkupStyle args true t).2 ep ec cn pn cn)
            (displayDiffLim tk sp args lim s3 (getMarkupStyle args true t).2 ep eo on pn on))
          (mergePartLim tk sp args lim (getMarkupStyle args true t).1 s3 ep ec eo cn on) := by
        simp only [mergeRunLim, t1, t2, t3, hd, if_true]
        rfl
      rw [eFull, eLim]
      refine ⟨fun _ hn => ?_, fun h => by simp [hd] at h, ?_, ?_⟩
      · rw [← p5 hd, ← hd0, ← hd1]
        exact stopped_eq q0.1 q0.2.2 q1.1 q1.2.2 p1 p3 (p4 hd) hn
      · rintro ⟨l1, l2, l3⟩
        rw [q0.1 (by omega), q1.1 (by omega), p1 ⟨by omega, l3⟩]
      · refine diffsThen_cutOff _ (andThen_cutOff ?_ ?_) ?_
        · by_cases a : c0.depth ≤ lim.diff
          · exact .inl (q0.1 a)
          · exact .inr (q0.2.1 a)
        · by_cases a : c1.depth ≤ lim.diff
          · exact .inl (q1.1 a)
          · exact .inr (q1.2.1 a)
        · by_cases a : max c0.depth c1.depth ≤ lim.merge ∧ K ≤ lim.conflict
          · exact .inl (p1 a)
          · exact .inr (p2 a).1
    · obtain ⟨u, hu, p1, p2, _⟩ := part t
      have hd' : args.diff = false := by simpa using hd
      have eFull : mergeRun tk sp args t pn cn on p c o = u := by
        rw [← hu]
        simp only [mergeRun, t1, t2, t3, hd', Bool.false_eq_true, if_false]
        rfl
      have eLim : mergeRunLim tk sp args lim t pn cn on p c o =
          mergePartLim tk sp args lim t s3 ep ec eo cn on := by
        simp only [mergeRunLim, t1, t2, t3, hd', Bool.false_eq_true, if_false]
      rw [eFull, eLim, ← hd0, ← hd1]
      refine ⟨fun h => absurd h hd, fun _ => ?_, fun l => p1 ⟨l.2.1, l.2.2⟩, ?_⟩
      · split
        · next a => exact p1 a
        · next a => exact (p2 a).2 hd'
      · by_cases a : max c0.depth c1.depth ≤ lim.merge ∧ K ≤ lim.conflict
        · exact .inl (by rw [p1 a])
        · exact .inr (p2 a).1
  unfold CliPieces at hp hc ho
  unfold mergeCliLim mergeCli
  by_cases hw : args.words = true
  · simp only [if_pos hw] at hp hc ho ⊢
    exact key _ ((symbolLike cls).threePieces rfl rfl rfl trivial trivial trivial
      (symbolTokens_of hp) (symbolTokens_of hc) (symbolTokens_of ho)) rfl
  · simp only [if_neg hw] at hp hc ho ⊢
    by_cases hl : args.lines = true
    · simp only [if_pos hl] at hp hc ho ⊢
      exact key _ (lineLike.threePieces rfl rfl rfl trivial trivial trivial
        (lineTokens_of hp) (lineTokens_of hc) (lineTokens_of ho)) rfl
    · simp only [if_neg hl] at hp hc ho ⊢
      obtain ⟨rfl, hp⟩ := hp
      obtain ⟨rfl, hc⟩ := hc
      obtain ⟨rfl, ho⟩ := ho
      exact key _ (charThreePieces hp hc ho) rfl

end Gaspra
