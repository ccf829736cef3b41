import Verif.Model.BuildOptions
import Verif.Proofs.SAQueries

/-!
# The queries do not look at what the options of `build` leave out
-/

set_option linter.unusedSectionVars false
set_option linter.unusedSimpArgs false
set_option linter.unusedVariables false

namespace Gaspra

variable {α : Type _} [DecidableEq α]

theorem SameCore.get_none {h h' : Heap α} (e : SameCore h h') {i : Nat} (hi : h[i]? = none) :
    h'[i]? = none := by
  rw [List.getElem?_eq_none_iff] at hi ⊢
  rw [e.length_eq]; exact hi

theorem SameCore.get {h h' : Heap α} (e : SameCore h h') {i : Nat} {nd : Node α}
    (hi : h[i]? = some nd) : ∃ nd', h'[i]? = some nd' ∧ nd'.transitions = nd.transitions ∧
      nd'.link = nd.link ∧ nd'.length = nd.length ∧ nd'.firstEndpos = nd.firstEndpos := by
  have hlt := (List.getElem?_eq_some_iff.1 hi).1
  obtain ⟨nd', h'⟩ := heap_get (h := h') (i := i) (by rw [e.length_eq]; exact hlt)
  have h1 := e.trans i
  have h2 := e.lk i
  have h3 := e.len i
  have h4 := e.fe i
  simp only [transOf, lkOf, lenOf, endposOf, hi, h'] at h1 h2 h3 h4
  exact ⟨nd', h', h1, h2, h3, h4⟩

theorem SameCore.matchNode {h h' : Heap α} (e : SameCore h h') : ∀ (s : List α) (cur : Nat),
    matchNode h' cur s = matchNode h cur s
  | [], cur => by simp only [Gaspra.matchNode]
  | t :: ts, cur => by
    cases hc : h[cur]? with
    | none => simp only [Gaspra.matchNode, hc, e.get_none hc]
    | some nd =>
      obtain ⟨nd', h', h1, _⟩ := e.get hc
      simp only [Gaspra.matchNode, hc, h', h1]
      cases dget nd.transitions t with
      | none => rfl
      | some nxt => exact SameCore.matchNode e ts nxt

theorem SameCore.lcsClimb {h h' : Heap α} (e : SameCore h h') (tok : α) : ∀ (f cur len : Nat),
    lcsClimb h' tok f cur len = lcsClimb h tok f cur len
  | 0, _, _ => rfl
  | f + 1, cur, len => by
    cases hc : h[cur]? with
    | none => simp only [Gaspra.lcsClimb, hc, e.get_none hc]
    | some nd =>
      obtain ⟨nd', h', h1, h2, _⟩ := e.get hc
      simp only [Gaspra.lcsClimb, hc, h', h1, h2]
      cases dget nd.transitions tok with
      | some nxt => rfl
      | none =>
        cases nd.link with
        | none => rfl
        | some l =>
          cases hl : h[l]? with
          | none => simp only [hl, e.get_none hl]
          | some ln =>
            obtain ⟨ln', hl', _, _, h3, _⟩ := e.get hl
            simp only [hl, hl', h3]
            exact SameCore.lcsClimb e tok f l _

theorem SameCore.lcsStep {h h' : Heap α} (e : SameCore h h') (st : LcsState) (pos : Nat) (tok : α) :
    lcsStep h' st pos tok = lcsStep h st pos tok := by
  simp only [Gaspra.lcsStep, e.length_eq, e.lcsClimb, e.fe]

theorem SameCore.lcsLoop {h h' : Heap α} (e : SameCore h h') : ∀ (s : List α) (st : LcsState)
    (pos : Nat), lcsLoop h' st pos s = lcsLoop h st pos s
  | [], _, _ => rfl
  | t :: ts, st, pos => by
    simp only [Gaspra.lcsLoop, e.lcsStep]
    cases Gaspra.lcsStep h st pos t with
    | none => rfl
    | some st' => exact SameCore.lcsLoop e ts st' _

theorem SameCore.findLcs {h h' : Heap α} (e : SameCore h h') (s : List α) :
    saFindLcs h' s = saFindLcs h s := by
  simp only [saFindLcs, e.lcsLoop]

theorem SameCore.findSubstring {h h' : Heap α} (e : SameCore h h') (s : List α) :
    saFindSubstring h' s = saFindSubstring h s := by
  simp only [saFindSubstring, e.matchNode, e.fe]

theorem SameCore.followReverse {h h' : Heap α} (e : SameCore h h')
    (hr : ∀ i, revOf h' i = revOf h i) : ∀ (f : Nat) (stack all : List Nat),
    followReverse h' f stack all = followReverse h f stack all
  | _, [], _ => by simp only [Gaspra.followReverse]
  | 0, _ :: _, _ => by simp only [Gaspra.followReverse]
  | f + 1, cur :: stack, all => by
    cases hc : h[cur]? with
    | none => simp only [Gaspra.followReverse, hc, e.get_none hc]
    | some nd =>
      obtain ⟨nd', h', h1, _⟩ := e.get hc
      have := hr cur
      simp only [revOf, hc, h'] at this
      simp only [Gaspra.followReverse, hc, h', this]
      exact SameCore.followReverse e hr f _ _

theorem SameCore.findSubstringAll {h h' : Heap α} (e : SameCore h h')
    (hr : ∀ i, revOf h' i = revOf h i) (s : List α) :
    saFindSubstringAll h' s = saFindSubstringAll h s := by
  have h1 : endposOf h' = endposOf h := funext e.fe
  simp only [saFindSubstringAll, e.matchNode, allStartPositions, e.followReverse hr, e.length_eq, h1]

/-- Without reverse links only the node itself is visited. -/
theorem findSubstringAll_of_rev_nil {h : Heap α} (hr : ∀ i, revOf h i = [])
    (hm : ∀ s cur, matchNode h 0 s = some cur → cur < h.length) (s : List α) :
    saFindSubstringAll h s = some (saFindSubstring h s).toList := by
  unfold saFindSubstringAll saFindSubstring
  cases hc : matchNode h 0 s with
  | none => rfl
  | some cur =>
    obtain ⟨nd, hnd⟩ := heap_get (hm s cur hc)
    have hrn : nd.reverseLinks = [] := by
      have := hr cur
      simpa only [revOf, hnd] using this
    have : followReverse h (h.length + 1) [cur] [] = some [cur] := by
      simp only [followReverse, hnd, hrn, List.reverse_nil, List.nil_append]
    simp only [allStartPositions, this, List.map_cons, List.map_nil, Option.toList]
    rfl

theorem SameCore.allSuffixesFrom {h h' : Heap α} (e : SameCore h h')
    (ht : ∀ i, termOf h' i = termOf h i) : ∀ (f cur : Nat),
    allSuffixesFrom h' f cur = allSuffixesFrom h f cur
  | 0, _ => rfl
  | f + 1, cur => by
    cases hc : h[cur]? with
    | none => simp only [Gaspra.allSuffixesFrom, hc, e.get_none hc]
    | some nd =>
      obtain ⟨nd', h', h1, _⟩ := e.get hc
      have := ht cur
      simp only [termOf, hc, h'] at this
      simp only [Gaspra.allSuffixesFrom, hc, h', h1, this, SameCore.allSuffixesFrom e ht f]

theorem SameCore.allSuffixes {h h' : Heap α} (e : SameCore h h')
    (ht : ∀ i, termOf h' i = termOf h i) : allSuffixes h' = allSuffixes h := by
  simp only [Gaspra.allSuffixes, e.length_eq, e.allSuffixesFrom ht]

theorem foldl_none {β γ : Type _} (F : Option γ → β → Option γ) (h : ∀ x, F none x = none) :
    ∀ l : List β, l.foldl F none = none
  | [] => rfl
  | x :: l => by rw [List.foldl_cons, h]; exact foldl_none F h l

/-- Without terminal flags nothing is listed. -/
theorem allSuffixesFrom_nil {h h' : Heap α} (e : SameCore h h') (ht : ∀ i, termOf h' i = false) :
    ∀ (f cur : Nat) (out : List (List α)), allSuffixesFrom h f cur = some out →
      allSuffixesFrom h' f cur = some []
  | 0, _, _, ho => by simp [allSuffixesFrom] at ho
  | f + 1, cur, out, ho => by
    cases hc : h[cur]? with
    | none => simp [allSuffixesFrom, hc] at ho
    | some nd =>
      obtain ⟨nd', h', h1, _⟩ := e.get hc
      have := ht cur
      simp only [termOf, h'] at this
      simp only [allSuffixesFrom, hc] at ho
      simp only [allSuffixesFrom, h', h1, this, Bool.false_eq_true, if_false]
      revert ho
      generalize (if nd.isTerminal = true then [[]] else [] : List (List α)) = acc
      revert acc
      induction nd.transitions with
      | nil => intro acc _; rfl
      | cons tr ts ih =>
        intro acc ho
        simp only [List.foldl_cons] at ho ⊢
        cases hs : allSuffixesFrom h f tr.2 with
        | none =>
          rw [hs] at ho
          rw [foldl_none _ (fun _ => rfl)] at ho
          cases ho
        | some subs =>
          rw [hs] at ho
          rw [allSuffixesFrom_nil e ht f tr.2 subs hs]
          exact ih _ ho

/-- The automata for all options are the same but for the parts that the options leave out. -/
theorem buildWith_spec (rl mt : Bool) (s : List α) : ∃ h h', build s = some h ∧
    buildWith rl mt s = some h' ∧ SameCore h h' ∧
    (∀ i, revOf h' i = if rl then revOf h i else []) ∧
    (∀ i, termOf h' i = if mt then termOf h i else false) := by
  obtain ⟨h, last, L, he, H, F, _⟩ := extendAll_spec s (hInv_init (α := α))
    (by intro nd hnd; simp at hnd; subst hnd; exact ⟨rfl, rfl, List.nodup_nil⟩)
  rw [List.nil_append] at H
  have I := H.inv
  obtain ⟨ln, hln⟩ := heap_get I.last_lt
  have hlnlen : ln.length = s.length := by rw [← lenOf_some hln, H.len _ I.last_lt, I.lastL]
  have fresh : ∀ i, termOf h i = false ∧ revOf h i = [] := by
    intro i
    unfold termOf revOf
    cases hi : h[i]? with
    | none => exact ⟨rfl, rfl⟩
    | some nd => exact ⟨(F.get hi).2.1, (F.get hi).1⟩
  obtain ⟨h1, hm, e1, hr1, ht1⟩ := markTerminals_spec H (ln.length + 1) h (some last)
    (SameCore.refl h) (fun _ => rfl)
    (by intro u hu; cases hu; rw [I.lastL]; exact ⟨I.last_lt, List.suffix_refl _, by omega⟩)
    (by
      intro i hi
      rw [(fresh i).1]
      simp only [Bool.false_eq_true, Option.some.injEq, forall_eq', I.lastL, false_iff, not_and]
      intro h2; have := h2.length_le; omega)
  have hlk : ∀ (k : Heap α), SameCore h k → ∀ j l, lkOf k j = some l → l < k.length := by
    intro k e j l hj
    rw [e.lk] at hj
    rw [e.length_eq]
    by_cases hjl : j < h.length
    · exact (I.lk_some j hjl l hj).1
    · simp only [lkOf] at hj
      rw [List.getElem?_eq_none (by omega)] at hj; cases hj
  have add : ∀ (k : Heap α), SameCore h k → SameCore h (addReverseLinks k) ∧
      (∀ i, termOf (addReverseLinks k) i = termOf k i) ∧
      (∀ i, revOf (addReverseLinks k) i = revOf k i ++ (List.range h.length).filter (fun j => lkOf h j = some i)) := by
    intro k e
    obtain ⟨e2, ht2, hr2⟩ := foldl_addReverseLink_spec k (hlk k e) (List.range k.length) k (SameCore.refl _)
    refine ⟨e.trans' e2, ht2, fun i => ?_⟩
    have : addReverseLinks k = (List.range k.length).foldl addReverseLink k := rfl
    rw [this, hr2, e.length_eq]
    simp only [e.lk]
  have hb : build s = some (addReverseLinks h1) := by simp only [build, he, hln, hm]
  obtain ⟨a1, a2, a3⟩ := add h1 e1
  have a2' : ∀ i, termOf (addReverseLinks h1) i = termOf h1 i := a2
  obtain ⟨b1, b2, b3⟩ := add h (SameCore.refl h)
  have sym : ∀ {x y : Heap α}, SameCore x y → SameCore y x := fun e =>
    ⟨e.length_eq.symm, fun i => (e.trans i).symm, fun i => (e.lk i).symm, fun i => (e.len i).symm,
      fun i => (e.fe i).symm⟩
  cases rl <;> cases mt
  · refine ⟨_, h, hb, by simp [buildWith, he, hln], sym a1, fun i => by simp [(fresh i).2],
      fun i => by simp [(fresh i).1]⟩
  · refine ⟨_, h1, hb, by simp [buildWith, he, hln, hm], (sym a1).trans' e1, fun i => ?_, fun i => ?_⟩
    · rw [hr1, (fresh i).2]; rfl
    · rw [a2]; rfl
  · refine ⟨_, addReverseLinks h, hb, by simp [buildWith, he, hln], (sym a1).trans' b1, fun i => ?_,
      fun i => ?_⟩
    · rw [b3, a3, hr1]; rfl
    · rw [b2, (fresh i).1]; rfl
  · exact ⟨_, addReverseLinks h1, hb, by simp [buildWith, he, hln, hm], SameCore.refl _, fun i => by simp,
      fun i => by simp⟩

end Gaspra
