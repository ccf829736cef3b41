import Verif.Model.VersionsCost
import Verif.Proofs.MergeCost
import Verif.Proofs.DeltaSize

set_option linter.unusedSectionVars false
set_option linter.unusedSimpArgs false
set_option linter.unusedVariables false

/-! # The steps of a version store -/

namespace Gaspra

/-! ## The same results -/

theorem makeChangesetC_fst (a b : Bytes) :
    (makeChangesetC a b).map Prod.fst = makeChangeset nullTok a b := by
  have h := findChangesetAuxC_fst a b (a.length + 1) ⟨0, none⟩ ⟨0, none⟩
  have e : makeChangeset nullTok a b = match findChangeset a b with
      | none => .error .diverges
      | some cs => decodeItems nullTok () (stripForward cs.asChangeStream) := by
    simp only [makeChangeset, nullTok, bind, Except.bind]
    cases findChangeset a b <;> rfl
  have h' : findChangeset a b = (findChangesetC a b).map Prod.fst := h.symm
  rw [e, h']
  unfold makeChangesetC
  cases findChangesetC a b with
  | none => rfl
  | some r => simp only [Option.map_some, decodeItems_null]; rfl

theorem serializeLoopC_fst : ∀ (cs : List (PatchItem UInt8)) (nb : Bool) (acc : List UInt8),
    (serializeLoopC nb acc cs).map Prod.fst = serializeLoop nb acc cs
  | [], _, _ => rfl
  | .piece b :: rest, nb, acc => by
    have ih := serializeLoopC_fst rest false
    cases nb with
    | true =>
      simp only [serializeLoopC, serializeLoop, if_true, pure, Except.pure, bind, Except.bind]
      cases vserializeInt b.length with
      | error e => rfl
      | ok x =>
        simp only
        rw [← ih]
        cases serializeLoopC false (acc ++ x ++ b) rest <;> rfl
    | false =>
      simp only [serializeLoopC, serializeLoop, Bool.false_eq_true, if_false, pure, Except.pure, bind,
        Except.bind]
      cases vserializeInt 0 with
      | error e => rfl
      | ok z =>
        simp only
        cases vserializeInt b.length with
        | error e => rfl
        | ok x =>
          simp only
          rw [← ih]
          cases serializeLoopC false (acc ++ z ++ z ++ x ++ b) rest <;> rfl
  | .slice sl :: rest, nb, acc => by
    have ih := serializeLoopC_fst rest true
    cases nb with
    | false =>
      simp only [serializeLoopC, serializeLoop, Bool.false_eq_true, if_false, pure, Except.pure, bind,
        Except.bind]
      cases vserializeInt sl.start with
      | error e => rfl
      | ok x =>
        simp only
        cases vserializeStop sl.stop with
        | error e => rfl
        | ok y =>
          simp only
          rw [← ih]
          cases serializeLoopC true (acc ++ x ++ y) rest <;> rfl
    | true =>
      simp only [serializeLoopC, serializeLoop, if_true, pure, Except.pure, bind, Except.bind]
      cases vserializeInt 0 with
      | error e => rfl
      | ok z =>
        simp only
        cases vserializeInt sl.start with
        | error e => rfl
        | ok x =>
          simp only
          cases vserializeStop sl.stop with
          | error e => rfl
          | ok y =>
            simp only
            rw [← ih]
            cases serializeLoopC true (acc ++ z ++ x ++ y) rest <;> rfl

theorem deserializeLoopC_fst : ∀ (f : Nat) (nb : Bool) (s : List UInt8),
    (deserializeLoopC f nb s).1 = deserializeLoop f nb s
  | 0, nb, s => by
    simp only [deserializeLoopC, deserializeLoop]
    split <;> rfl
  | f + 1, nb, s => by
    have ih := deserializeLoopC_fst f
    simp only [deserializeLoopC, deserializeLoop]
    by_cases h0 : s.length = 0
    · rw [if_pos h0, if_pos h0]
    · rw [if_neg h0, if_neg h0]
      cases nb with
      | true =>
        simp only [if_true]
        cases vdeserializeInt s with
        | error e => rfl
        | ok r =>
          obtain ⟨n, s'⟩ := r
          simp only
          by_cases hn : n ≠ 0
          · rw [if_pos hn, if_pos hn]
            by_cases hl : s'.length < n
            · rw [if_pos hl, if_pos hl]
            · rw [if_neg hl, if_neg hl]
              simp only [ih]
          · rw [if_neg hn, if_neg hn]
            simp only [ih]
      | false =>
        simp only [Bool.false_eq_true, if_false]
        cases vdeserializeInt s with
        | error e => rfl
        | ok r =>
          obtain ⟨n, s'⟩ := r
          simp only
          cases vdeserializeInt s' with
          | error e => rfl
          | ok r =>
            obtain ⟨k, s''⟩ := r
            simp only
            by_cases hn : n ≠ k
            · rw [if_pos hn, if_pos hn]
              simp only [ih]
            · rw [if_neg hn, if_neg hn]
              simp only [ih]

theorem deserializeChangesetC_fst (s : List UInt8) :
    (deserializeChangesetC s).1 = deserializeChangeset s := deserializeLoopC_fst _ _ _

theorem encodeItems_null (st : Unit) : ∀ items : List (PatchItem UInt8),
    encodeItems nullTok st items = .ok (items, ())
  | [] => rfl
  | .slice sl :: rest => by
    simp only [encodeItems, encodeItems_null st rest, bind, Except.bind, pure, Except.pure]
  | .piece p :: rest => by
    simp only [encodeItems, show nullTok.encode st p = .ok (p, ()) from rfl, encodeItems_null () rest,
      bind, Except.bind, pure, Except.pure]

variable {τ : Type _} [DecidableEq τ]

theorem retrieveLoopC_fst (diffs : List (τ × Bytes)) : ∀ (path : List τ) (b : Bytes),
    retrieveLoop nullTok diffs () b path = (retrieveLoopC diffs b path).map fun r => (r.1, ())
  | [], b => rfl
  | x :: path, b => by
    have ih := retrieveLoopC_fst diffs path
    simp only [retrieveLoop, retrieveLoopC]
    cases dget diffs x with
    | none => rfl
    | some d =>
      simp only [← deserializeChangesetC_fst]
      cases (deserializeChangesetC d).1.2 with
      | some e =>
        simp only [encodeItems_null, bind, Except.bind]
        rfl
      | none =>
        simp only [encodeItems_null, bind, Except.bind, ih]
        cases retrieveLoopC diffs (applyPatch (deserializeChangesetC d).1.1 b) path <;> rfl

theorem retrieveUsingPathC_fst (v : Versions τ (MTree τ)) (path : List τ) :
    (retrieveUsingPathC v path).map Prod.fst = retrieveUsingPath nullTok v path := by
  cases path with
  | nil => rfl
  | cons r path =>
    simp only [retrieveUsingPathC, retrieveUsingPath]
    cases dget v.headVersion r with
    | none => rfl
    | some b =>
      simp only [show nullTok.encode nullTok.init b = .ok (b, ()) from rfl, bind, Except.bind,
        retrieveLoopC_fst]
      cases retrieveLoopC v.diffs b path <;> rfl

theorem mtPathLoopC_fst (t : MTree τ) : ∀ (f : Nat) (x : Option τ) (p : List τ),
    (mtPathLoopC t f x p).map Prod.fst = mtPathLoop t f x p
  | 0, none, p => rfl
  | f + 1, none, p => rfl
  | 0, some x, p => rfl
  | f + 1, some x, p => by
    simp only [mtPathLoopC, mtPathLoop]
    cases dget t x with
    | none => rfl
    | some nd =>
      simp only [← mtPathLoopC_fst t f]
      cases mtPathLoopC t f nd.parent (p ++ [x]) <;> rfl

theorem mtPathToC_fst (t : MTree τ) (x : τ) : (mtPathToC t x).map Prod.fst = mtPathTo t x := by
  simp only [mtPathToC, mtPathTo, ← mtPathLoopC_fst]
  cases mtPathLoopC t (t.length + 1) (some x) [] with
  | error e => rfl
  | ok r =>
    obtain ⟨o, n⟩ := r
    cases o <;> rfl

theorem versionsGetC_fst (v : Versions τ (MTree τ)) (x : τ) :
    (versionsGetC v x).map Prod.fst = versionsGet (memoryTree τ) nullTok v x := by
  simp only [versionsGetC, versionsGet, memoryTree, ← mtPathToC_fst]
  cases mtPathToC v.tree x with
  | error e => rfl
  | ok r =>
    obtain ⟨o, n⟩ := r
    match o with
    | none => rfl
    | some [] => rfl
    | some (y :: l) =>
      simp only [Except.map, ← retrieveUsingPathC_fst]
      cases retrieveUsingPathC v (y :: l) <;> rfl

theorem mtUpdateMetricsC_fst : ∀ (f : Nat) (t : MTree τ) (x : Option τ),
    (mtUpdateMetricsC f t x).1 = mtUpdateMetrics f t x
  | 0, t, none => rfl
  | f + 1, t, none => rfl
  | 0, t, some x => rfl
  | f + 1, t, some x => by
    simp only [mtUpdateMetricsC, mtUpdateMetrics]
    cases dget t x with
    | none => rfl
    | some nd =>
      simp only
      cases mtChildAttrs t TNode.height nd.children <;> cases mtChildAttrs t TNode.size nd.children <;>
        simp only [mtUpdateMetricsC_fst f]

theorem mtAttachC_fst (t : MTree τ) (x : τ) (p : Option τ) : (mtAttachC t x p).1 = mtAttach t x p := by
  cases p with
  | none => rfl
  | some p =>
    simp only [mtAttachC, mtAttach]
    cases dget t p with
    | none => rfl
    | some pn => exact mtUpdateMetricsC_fst _ _ _

theorem mtChangeParentC_fst (t : MTree τ) (x : τ) (p : Option τ) :
    (mtChangeParentC t x p).1 = mtChangeParent t x p := by
  simp only [mtChangeParentC, mtChangeParent]
  cases dget t x with
  | none => rfl
  | some nd =>
    simp only
    cases mtDetach t x nd.parent with
    | none => rfl
    | some t' =>
      simp only [← mtAttachC_fst]
      generalize mtAttachC _ x p = r
      obtain ⟨⟨t2, e⟩, n⟩ := r
      cases e with
      | some e => rfl
      | none => exact mtUpdateMetricsC_fst _ _ _

theorem mtSplitLoopC_fst (t : MTree τ) : ∀ (f d : Nat) (x : τ) (nd : TNode τ) (p : List τ),
    (mtSplitLoopC t f d x nd p).map Prod.fst = mtSplitLoop t f d x nd p
  | 0, d, x, nd, p => by
    simp only [mtSplitLoopC, mtSplitLoop]
    split <;> rfl
  | f + 1, d, x, nd, p => by
    simp only [mtSplitLoopC, mtSplitLoop]
    by_cases h : d < nd.height
    · rw [if_pos h, if_pos h]
      cases mtChildKeys t nd.children with
      | none => rfl
      | some keys =>
        simp only
        cases maxTriple keys with
        | none => rfl
        | some k =>
          obtain ⟨a, b, i⟩ := k
          simp only
          cases nd.children[i]? with
          | none => rfl
          | some y =>
            simp only
            cases dget t y with
            | none => rfl
            | some nd' =>
              simp only [← mtSplitLoopC_fst t f]
              cases mtSplitLoopC t f (d + 1) y nd' (p ++ [y]) <;> rfl
    · rw [if_neg h, if_neg h]; rfl

theorem mtGetSplitC_fst (t : MTree τ) (x : τ) : (mtGetSplitC t x).map Prod.fst = mtGetSplit t x := by
  simp only [mtGetSplitC, mtGetSplit]
  cases dget t x with
  | none => rfl
  | some nd => exact mtSplitLoopC_fst _ _ _ _ _ _

theorem addEdgeC_fst (v : Versions τ (MTree τ)) (p c : τ) (cs : List (PatchItem UInt8)) :
    (addEdgeC v p c cs).1 = addEdge (memoryTree τ) v p c cs := by
  have h : serializeChangeset cs = (serializeChangesetC cs).map Prod.fst :=
    (serializeLoopC_fst _ _ _).symm
  simp only [addEdgeC, addEdge, h]
  cases serializeChangesetC cs with
  | error e => rfl
  | ok r =>
    obtain ⟨d, n⟩ := r
    simp only [Except.map, memoryTree, ← mtChangeParentC_fst]
    generalize mtChangeParentC v.tree c (some p) = r
    obtain ⟨⟨t2, e⟩, m⟩ := r
    cases e with
    | some e => rfl
    | none =>
      simp only
      cases dmem v.headVersion c <;> rfl

theorem addSplitC_fst (v : Versions τ (MTree τ)) (x : τ) (c : Bytes) (s : τ) (p : List τ) :
    (addSplitC v x c s p).1 = addSplit (memoryTree τ) nullTok v x c s p := by
  simp only [addSplitC, addSplit, ← retrieveUsingPathC_fst]
  cases retrieveUsingPathC v p with
  | error e => rfl
  | ok r =>
    obtain ⟨b, n⟩ := r
    simp only [Except.map, ← makeChangesetC_fst]
    cases makeChangesetC c b with
    | error e => rfl
    | ok r =>
      obtain ⟨cs, m⟩ := r
      simp only [← addEdgeC_fst]
      generalize addEdgeC v x s cs = r
      obtain ⟨⟨v2, e⟩, k⟩ := r
      cases e with
      | some e => rfl
      | none => simp only [memoryTree, mtChangeParentC_fst]

theorem addOldHeadC_fst (v : Versions τ (MTree τ)) (x : τ) (c : Bytes) (b : τ) :
    (addOldHeadC v x c b).1 = addOldHead (memoryTree τ) nullTok v x c b := by
  simp only [addOldHeadC, addOldHead]
  cases dget v.headVersion b with
  | none => rfl
  | some hv =>
    simp only [← makeChangesetC_fst]
    cases makeChangesetC c hv with
    | error e => rfl
    | ok r => exact addEdgeC_fst _ _ _ _

theorem addToHeadC_fst (v : Versions τ (MTree τ)) (x : τ) (c : Bytes) (b : τ) :
    (addToHeadC v x c b).1 = addToHead (memoryTree τ) nullTok v x c b := by
  simp only [addToHeadC, addToHead]
  rw [show (memoryTree τ).getSplit v.tree b = (mtGetSplitC v.tree b).map Prod.fst from
    (mtGetSplitC_fst _ _).symm]
  cases mtGetSplitC v.tree b with
  | error e => rfl
  | ok r =>
    obtain ⟨⟨s, p⟩, n⟩ := r
    simp only [Except.map]
    by_cases h : s ≠ b
    · rw [if_pos h, if_pos h, ← addSplitC_fst]
      generalize addSplitC v x c s p = r
      obtain ⟨⟨v2, e⟩, k⟩ := r
      cases e with
      | some e => rfl
      | none => exact addOldHeadC_fst _ _ _ _
    · rw [if_neg h, if_neg h]
      exact addOldHeadC_fst _ _ _ _

theorem versionsAddC_fst (v : Versions τ (MTree τ)) (x : τ) (c : Bytes) (b : Option τ) :
    (versionsAddC v x c b).1 = versionsAdd (memoryTree τ) nullTok v x c b := by
  cases b with
  | none => rfl
  | some b => exact addToHeadC_fst _ _ _ _

/-! ## Writing and reading a delta -/

theorem vdeser_shorter {s : List UInt8} {r : Nat × List UInt8} (h : vdeserializeInt s = .ok r) :
    r.2.length < s.length := by
  rcases vdeser_total s with e | ⟨v, s', e, hl⟩
  · rw [e] at h; cases h
  · rw [e] at h; cases h; exact hl

theorem square_step {k r c : Nat} (hr : r ≤ k) (hc : c ≤ 2 * (k + 1)) :
    c + r * (r + 1) ≤ (k + 1) * (k + 1 + 1) := by
  have e1 : r * (r + 1) ≤ k * (k + 1) := Nat.mul_le_mul hr (by omega)
  have e2 : (k + 1) * (k + 1 + 1) = k * (k + 1) + 2 * (k + 1) := by
    rw [Nat.add_mul, Nat.mul_add k (k + 1) 1, Nat.one_mul]; omega
  omega

/-- Reading a stream takes at most quadratically many steps. -/
theorem deserializeLoopC_le : ∀ (f : Nat) (nb : Bool) (s : List UInt8),
    (deserializeLoopC f nb s).2 ≤ s.length * (s.length + 1)
  | 0, nb, s => by
    simp only [deserializeLoopC]
    split <;> simp
  | f + 1, nb, s => by
    have ih := deserializeLoopC_le f
    simp only [deserializeLoopC]
    by_cases h0 : s.length = 0
    · rw [if_pos h0]; simp
    rw [if_neg h0]
    obtain ⟨k, hk⟩ : ∃ k, s.length = k + 1 := ⟨s.length - 1, by omega⟩
    rw [hk]
    have small : ∀ c, c ≤ 2 * (k + 1) → c ≤ (k + 1) * (k + 1 + 1) := fun c hc => by
      have := square_step (r := 0) (Nat.zero_le k) hc
      simpa using this
    cases nb with
    | true =>
      simp only [if_true]
      cases h1 : vdeserializeInt s with
      | error e => exact small _ (by simp only; omega)
      | ok r =>
        obtain ⟨n, s'⟩ := r
        have l1 := vdeser_shorter h1
        simp only at l1 ⊢
        by_cases hn : n ≠ 0
        · rw [if_pos hn]
          by_cases hl : s'.length < n
          · rw [if_pos hl]; exact small _ (by simp only; omega)
          · rw [if_neg hl]
            have := ih false (s'.drop n)
            have hd : (s'.drop n).length = s'.length - n := by simp
            have q := square_step (k := k) (r := (s'.drop n).length)
              (c := 1 + s'.length + n + (s'.drop n).length) (by omega) (by omega)
            simp only
            omega
        · rw [if_neg hn]
          have := ih false (s'.drop n)
          have hd : (s'.drop n).length = s'.length - n := by simp
          have q := square_step (k := k) (r := (s'.drop n).length) (c := 1 + s'.length) (by omega) (by omega)
          simp only
          omega
    | false =>
      simp only [Bool.false_eq_true, if_false]
      cases h1 : vdeserializeInt s with
      | error e => exact small _ (by simp only; omega)
      | ok r =>
        obtain ⟨n, s'⟩ := r
        have l1 := vdeser_shorter h1
        simp only at l1 ⊢
        cases h2 : vdeserializeInt s' with
        | error e => exact small _ (by simp only; omega)
        | ok r =>
          obtain ⟨m, s''⟩ := r
          have l2 := vdeser_shorter h2
          simp only at l2 ⊢
          have := ih true s''
          have q := square_step (k := k) (r := s''.length) (c := 1 + s'.length + s''.length) (by omega)
            (by omega)
          by_cases hn : n ≠ m
          · rw [if_pos hn]; simp only; omega
          · rw [if_neg hn]; simp only; omega

/-- Reading `k` items takes at least about half of `k * k` steps. -/
theorem deserializeLoopC_ge : ∀ (f : Nat) (nb : Bool) (s : List UInt8),
    (deserializeLoopC f nb s).1.1.length ≤ s.length ∧
    (deserializeLoopC f nb s).1.1.length * ((deserializeLoopC f nb s).1.1.length + 1) ≤
      2 * (deserializeLoopC f nb s).2
  | 0, nb, s => by
    simp only [deserializeLoopC]
    split <;> simp
  | f + 1, nb, s => by
    have ih := deserializeLoopC_ge f
    simp only [deserializeLoopC]
    by_cases h0 : s.length = 0
    · rw [if_pos h0]; simp
    rw [if_neg h0]
    have step : ∀ {k c r : Nat}, k * (k + 1) ≤ 2 * c → k ≤ r →
        (k + 1) * (k + 1 + 1) ≤ 2 * (1 + r + c) := by
      intro k c r h1 h2
      have e2 : (k + 1) * (k + 1 + 1) = k * (k + 1) + 2 * (k + 1) := by
        rw [Nat.add_mul, Nat.mul_add k (k + 1) 1, Nat.one_mul]; omega
      omega
    cases nb with
    | true =>
      simp only [if_true]
      cases h1 : vdeserializeInt s with
      | error e => simp
      | ok r =>
        obtain ⟨n, s'⟩ := r
        have l1 := vdeser_shorter h1
        simp only at l1 ⊢
        have hd : (s'.drop n).length = s'.length - n := by simp
        obtain ⟨i1, i2⟩ := ih false (s'.drop n)
        by_cases hn : n ≠ 0
        · rw [if_pos hn]
          by_cases hl : s'.length < n
          · rw [if_pos hl]; simp
          · rw [if_neg hl]
            have := step i2 i1
            simp only [List.length_cons]
            constructor
            · omega
            · omega
        · rw [if_neg hn]
          simp only
          constructor
          · omega
          · omega
    | false =>
      simp only [Bool.false_eq_true, if_false]
      cases h1 : vdeserializeInt s with
      | error e => simp
      | ok r =>
        obtain ⟨n, s'⟩ := r
        have l1 := vdeser_shorter h1
        simp only at l1 ⊢
        cases h2 : vdeserializeInt s' with
        | error e => simp
        | ok r =>
          obtain ⟨m, s''⟩ := r
          have l2 := vdeser_shorter h2
          simp only at l2 ⊢
          obtain ⟨i1, i2⟩ := ih true s''
          have := step i2 i1
          by_cases hn : n ≠ m
          · rw [if_pos hn]
            simp only [List.length_cons]
            constructor
            · omega
            · omega
          · rw [if_neg hn]
            simp only
            constructor
            · omega
            · omega

theorem appendSteps_le {a b d : List UInt8} (h : (a ++ b).length ≤ d.length) :
    appendSteps a b ≤ 1 + d.length := by
  simp only [List.length_append] at h
  unfold appendSteps
  omega

/-- Writing takes at most four copies of the result for every item. -/
theorem serializeLoopC_le : ∀ (cs : List (PatchItem UInt8)) (nb : Bool) (acc d : List UInt8) (n : Nat),
    serializeLoopC nb acc cs = .ok (d, n) → acc.length ≤ d.length ∧ n ≤ cs.length * (5 + 4 * d.length)
  | [], nb, acc, d, n, h => by
    simp only [serializeLoopC, Except.ok.injEq, Prod.mk.injEq] at h
    obtain ⟨rfl, rfl⟩ := h
    simp
  | .piece b :: rest, nb, acc, d, n, h => by
    have key : ∀ (s0 x : List UInt8) (n0 k : Nat), acc.length ≤ s0.length →
        serializeLoopC false (s0 ++ x ++ b) rest = .ok (d, k) →
        (s0.length ≤ d.length → n0 ≤ 2 * (1 + d.length)) →
        n = 1 + n0 + appendSteps s0 x + appendSteps (s0 ++ x) b + k →
        acc.length ≤ d.length ∧ n ≤ (PatchItem.piece b :: rest).length * (5 + 4 * d.length) := by
      intro s0 x n0 k ha hr h0 hn
      obtain ⟨i1, i2⟩ := serializeLoopC_le rest _ _ _ _ hr
      have i1' := i1
      simp only [List.length_append] at i1'
      have a1 := appendSteps_le (a := s0) (b := x) (d := d) (by simp; omega)
      have a2 := appendSteps_le i1
      have := h0 (by omega)
      refine ⟨by omega, ?_⟩
      rw [List.length_cons, Nat.add_mul, Nat.one_mul]
      omega
    cases nb with
    | true =>
      simp only [serializeLoopC, if_true, pure, Except.pure, bind, Except.bind] at h
      cases hx : vserializeInt b.length with
      | error e => rw [hx] at h; simp at h
      | ok x =>
        rw [hx] at h
        simp only at h
        cases hr : serializeLoopC false (acc ++ x ++ b) rest with
        | error e => rw [hr] at h; simp at h
        | ok r =>
          rw [hr] at h
          simp only [Except.ok.injEq, Prod.mk.injEq] at h
          obtain ⟨rfl, rfl⟩ := h
          exact key acc x 0 r.2 (Nat.le_refl _) hr (fun _ => by omega) rfl
    | false =>
      simp only [serializeLoopC, Bool.false_eq_true, if_false, pure, Except.pure, bind, Except.bind] at h
      cases hz : vserializeInt 0 with
      | error e => rw [hz] at h; simp at h
      | ok z =>
        rw [hz] at h
        simp only at h
        cases hx : vserializeInt b.length with
        | error e => rw [hx] at h; simp at h
        | ok x =>
          rw [hx] at h
          simp only at h
          cases hr : serializeLoopC false (acc ++ z ++ z ++ x ++ b) rest with
          | error e => rw [hr] at h; simp at h
          | ok r =>
            rw [hr] at h
            simp only [Except.ok.injEq, Prod.mk.injEq] at h
            obtain ⟨rfl, rfl⟩ := h
            refine key (acc ++ z ++ z) x _ r.2 (by simp) hr (fun hl => ?_) rfl
            have a1 := appendSteps_le hl
            have a2 := appendSteps_le (a := acc) (b := z) (d := r.1) (by simp at hl ⊢; omega)
            omega
  | .slice sl :: rest, nb, acc, d, n, h => by
    have key : ∀ (s0 x y : List UInt8) (n0 k : Nat), acc.length ≤ s0.length →
        serializeLoopC true (s0 ++ x ++ y) rest = .ok (d, k) →
        (s0.length ≤ d.length → n0 ≤ 2 * (1 + d.length)) →
        n = 1 + n0 + appendSteps s0 x + appendSteps (s0 ++ x) y + k →
        acc.length ≤ d.length ∧ n ≤ (PatchItem.slice sl :: rest).length * (5 + 4 * d.length) := by
      intro s0 x y n0 k ha hr h0 hn
      obtain ⟨i1, i2⟩ := serializeLoopC_le rest _ _ _ _ hr
      have i1' := i1
      simp only [List.length_append] at i1'
      have a1 := appendSteps_le (a := s0) (b := x) (d := d) (by simp; omega)
      have a2 := appendSteps_le i1
      have := h0 (by omega)
      refine ⟨by omega, ?_⟩
      rw [List.length_cons, Nat.add_mul, Nat.one_mul]
      omega
    cases nb with
    | false =>
      simp only [serializeLoopC, Bool.false_eq_true, if_false, pure, Except.pure, bind, Except.bind] at h
      cases hx : vserializeInt sl.start with
      | error e => rw [hx] at h; simp at h
      | ok x =>
        rw [hx] at h
        simp only at h
        cases hy : vserializeStop sl.stop with
        | error e => rw [hy] at h; simp at h
        | ok y =>
          rw [hy] at h
          simp only at h
          cases hr : serializeLoopC true (acc ++ x ++ y) rest with
          | error e => rw [hr] at h; simp at h
          | ok r =>
            rw [hr] at h
            simp only [Except.ok.injEq, Prod.mk.injEq] at h
            obtain ⟨rfl, rfl⟩ := h
            exact key acc x y 0 r.2 (Nat.le_refl _) hr (fun _ => by omega) rfl
    | true =>
      simp only [serializeLoopC, if_true, pure, Except.pure, bind, Except.bind] at h
      cases hz : vserializeInt 0 with
      | error e => rw [hz] at h; simp at h
      | ok z =>
        rw [hz] at h
        simp only at h
        cases hx : vserializeInt sl.start with
        | error e => rw [hx] at h; simp at h
        | ok x =>
          rw [hx] at h
          simp only at h
          cases hy : vserializeStop sl.stop with
          | error e => rw [hy] at h; simp at h
          | ok y =>
            rw [hy] at h
            simp only at h
            cases hr : serializeLoopC true (acc ++ z ++ x ++ y) rest with
            | error e => rw [hr] at h; simp at h
            | ok r =>
              rw [hr] at h
              simp only [Except.ok.injEq, Prod.mk.injEq] at h
              obtain ⟨rfl, rfl⟩ := h
              refine key (acc ++ z) x y _ r.2 (by simp) hr (fun hl => ?_) rfl
              have a1 := appendSteps_le hl
              omega

theorem applySteps_le (items : List (PatchItem UInt8)) (b : Bytes) :
    applySteps items b ≤ items.length + 2 * (applyPatch items b).length := by
  have : (items.map (sliceSteps b)).sum ≤ (applyPatch items b).length := by
    unfold applyPatch joinChanges
    induction items with
    | nil => simp
    | cons c l ih =>
      cases c with
      | slice s => simp only [List.map_cons, List.sum_cons, List.flatten_cons, List.length_append, sliceSteps]; omega
      | piece p => simp only [List.map_cons, List.sum_cons, List.flatten_cons, List.length_append, sliceSteps]; omega
  unfold applySteps
  omega

/-! ## The diff -/

theorem changeStream_length_le {α : Type _} : ∀ (cs : Changeset α), cs.asChangeStream.length ≤ cs.calls
  | .leaf a b _ _ => by
    simp only [Changeset.asChangeStream, Changeset.calls]
    split <;> simp
  | .node co cm p s => by
    have h1 := changeStream_length_le p
    have h2 := changeStream_length_le s
    simp only [Changeset.asChangeStream, Changeset.calls, List.length_append, List.length_singleton]
    omega

theorem changeSteps_le {α : Type _} : ∀ (cs : Changeset α), cs.changeSteps ≤ 3 * (cs.calls * cs.depth)
  | .leaf a b os ms => by
    have := changeStream_length_le (.leaf a b os ms)
    simp only [Changeset.changeSteps, Changeset.calls, Changeset.depth] at this ⊢
    omega
  | .node co cm p s => by
    have h1 := changeSteps_le p
    have h2 := changeSteps_le s
    have l1 := changeStream_length_le p
    have l2 := changeStream_length_le s
    simp only [Changeset.changeSteps, Changeset.calls, Changeset.depth]
    have e1 : p.calls * p.depth ≤ p.calls * max p.depth s.depth :=
      Nat.mul_le_mul_left _ (Nat.le_max_left _ _)
    have e2 : s.calls * s.depth ≤ s.calls * max p.depth s.depth :=
      Nat.mul_le_mul_left _ (Nat.le_max_right _ _)
    generalize max p.depth s.depth = d at e1 e2 ⊢
    have e3 : (1 + p.calls + s.calls) * (1 + d) =
        1 + d + (p.calls + p.calls * d) + (s.calls + s.calls * d) := by
      simp only [Nat.add_mul, Nat.mul_add, Nat.one_mul, Nat.mul_one]
      omega
    rw [e3]
    omega

theorem stripForward_length_le {α : Type _} (l : List (ChangeItem α)) :
    (stripForward l).length ≤ l.length := List.length_filterMap_le _ _

/-- The steps of `_make_changeset`. -/
theorem makeChangesetC_cost (a b : Bytes) : ∃ items t, makeChangesetC a b = .ok (items, t) ∧
    items.length ≤ a.length + b.length + 1 ∧
    t ≤ (a.length + b.length + 1) * (13 * (a.length + b.length) + 9) := by
  obtain ⟨cs, t, h, _, V, h1, _⟩ := findChangesetC_cost a b
  obtain ⟨hd, hc⟩ := V.depth_le
  have hs := changeSteps_le cs
  have hl := changeStream_length_le cs
  have hf := stripForward_length_le cs.asChangeStream
  refine ⟨stripForward cs.asChangeStream, t + cs.changeSteps + cs.asChangeStream.length +
    2 * (stripForward cs.asChangeStream).length, by simp only [makeChangesetC, h], by omega, ?_⟩
  generalize hS : a.length + b.length = s
  have e1 : cs.depth * (10 * a.length + 2 * b.length) ≤ (s + 1) * (10 * s) :=
    Nat.mul_le_mul (by omega) (by omega)
  have e2 : cs.calls * cs.depth ≤ (s + 1) * (s + 1) := Nat.mul_le_mul (by omega) (by omega)
  have e3 : (s + 1) * (13 * s + 9) = (s + 1) * (10 * s) + 3 * ((s + 1) * (s + 1)) + 6 * (s + 1) := by
    have : 13 * s + 9 = 10 * s + (3 * (s + 1) + 6) := by omega
    rw [this, Nat.mul_add, Nat.mul_add, Nat.mul_left_comm (s + 1) 3 (s + 1)]
    omega
  omega

end Gaspra
