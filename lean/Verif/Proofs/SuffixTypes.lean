import Verif.Spec.SuffixTypes
import Verif.Proofs.BuildOptions

/-!
# `all_suffixes` with its types is `all_suffixes` followed by joining
-/

namespace Gaspra

/-- Joining the tokens of one suffix from the right. -/
def renderSuffix (empty : PySeq) : List PyTok → Except PyErr PySeq
  | [] => .ok empty
  | t :: w =>
    match renderSuffix empty w with
    | .error e => .error e
    | .ok s => joinToken t s

theorem mapUntil_append {β γ : Type _} (f : β → Except PyErr γ) : ∀ (a b : List β),
    mapUntil f (a ++ b) =
      match (mapUntil f a).2 with
      | some e => ((mapUntil f a).1, some e)
      | none => ((mapUntil f a).1 ++ (mapUntil f b).1, (mapUntil f b).2)
  | [], b => by simp [mapUntil]
  | x :: a, b => by
    simp only [List.cons_append, mapUntil]
    cases f x with
    | error e => rfl
    | ok y =>
      simp only [mapUntil_append f a b]
      cases (mapUntil f a).2 <;> rfl

theorem mapUntil_join (empty : PySeq) (tok : PyTok) : ∀ (subs : List (List PyTok)),
    mapUntil (renderSuffix empty) (subs.map (tok :: ·)) =
      ((mapUntil (joinToken tok) (mapUntil (renderSuffix empty) subs).1).1,
        match (mapUntil (joinToken tok) (mapUntil (renderSuffix empty) subs).1).2 with
        | some e => some e
        | none => (mapUntil (renderSuffix empty) subs).2)
  | [] => rfl
  | w :: subs => by
    simp only [List.map_cons, mapUntil, renderSuffix]
    cases hw : renderSuffix empty w with
    | error e => rfl
    | ok s =>
      simp only [mapUntil, mapUntil_join empty tok subs]
      cases joinToken tok s with
      | error e => rfl
      | ok y => rfl

theorem joinAll_eq (empty : PySeq) (tok : PyTok) (out subs : List (List PyTok)) :
    joinAll tok (mapUntil (renderSuffix empty) out) (mapUntil (renderSuffix empty) subs) =
      mapUntil (renderSuffix empty) (out ++ subs.map (tok :: ·)) := by
  rw [mapUntil_append, mapUntil_join]
  unfold joinAll
  cases (mapUntil (renderSuffix empty) out).2 <;> rfl

theorem typedSuffixesFrom_eq (h : Heap PyTok) (empty : PySeq) : ∀ (f cur : Nat),
    typedSuffixesFrom h empty f cur =
      (allSuffixesFrom h f cur).map (mapUntil (renderSuffix empty))
  | 0, _ => rfl
  | f + 1, cur => by
    simp only [typedSuffixesFrom, allSuffixesFrom]
    cases h[cur]? with
    | none => rfl
    | some nd =>
      have e0 : (some (if nd.isTerminal then [empty] else [], none) : Option (Yields PySeq)) =
          (some (if nd.isTerminal then [[]] else [])).map (mapUntil (renderSuffix empty)) := by
        cases nd.isTerminal <;> rfl
      dsimp only
      rw [e0]
      generalize (some (if nd.isTerminal = true then [[]] else []) : Option (List (List PyTok))) = acc
      induction nd.transitions generalizing acc with
      | nil => rfl
      | cons tr l ih =>
        simp only [List.foldl_cons]
        rw [← ih]
        congr 1
        rw [typedSuffixesFrom_eq h empty f tr.2]
        cases acc with
        | none => rfl
        | some out =>
          cases allSuffixesFrom h f tr.2 with
          | none => rfl
          | some subs => simp only [Option.map_some, joinAll_eq]

/-- Joining gives the value of the specification, and otherwise raises ValueError. -/
theorem renderSuffix_eq (empty : PySeq) : ∀ (w : List PyTok),
    renderSuffix empty w = match joined empty w with
      | some x => .ok x
      | none => .error .valueError
  | [] => by cases empty <;> simp [renderSuffix, joined]
  | t :: w => by
    rw [renderSuffix, renderSuffix_eq empty w]
    cases empty with
    | tuple l => cases t <;> simp [joined, joinToken]
    | other => cases w <;> cases t <;> simp [joined, joinToken]
    | str s =>
      simp only [joined, List.mapM_cons]
      cases hm : w.mapM tokStr with
      | none => cases t <;> simp [tokStr]
      | some ps => cases t <;> simp [tokStr, joinToken]
    | bytes b =>
      simp only [joined, List.mapM_cons]
      cases hm : w.mapM tokByte with
      | none =>
        cases t <;> simp [tokByte]
      | some ps =>
        cases t with
        | int n => by_cases hn : 0 ≤ n ∧ n < 256 <;> simp [tokByte, joinToken, hn]
        | str s => simp [tokByte, joinToken]
        | other n => simp [tokByte, joinToken]

theorem mapM_isSome_iff {β γ : Type _} (f : β → Option γ) : ∀ (w : List β),
    (w.mapM f).isSome ↔ ∀ t ∈ w, (f t).isSome
  | [] => by simp
  | t :: w => by
    have ih := mapM_isSome_iff f w
    simp only [List.mapM_cons, List.mem_cons, forall_eq_or_imp, ← ih]
    cases f t <;> cases w.mapM f <;> simp

theorem joined_isSome_iff (empty : PySeq) (w : List PyTok) :
    (joined empty w).isSome ↔ ∀ t ∈ w, Fits empty t := by
  cases empty with
  | tuple l => simp [joined, Fits]
  | other =>
    cases w with
    | nil => simp [joined]
    | cons t w =>
      simp only [joined, Option.isSome_none, Bool.false_eq_true, Fits, false_iff]
      exact fun h => h t (by simp)
  | str s =>
    simp only [joined, Option.isSome_map, mapM_isSome_iff, Fits]
    refine forall_congr' fun t => forall_congr' fun _ => ?_
    cases t <;> simp [tokStr]
  | bytes b =>
    simp only [joined, Option.isSome_map, mapM_isSome_iff, Fits]
    refine forall_congr' fun t => forall_congr' fun _ => ?_
    cases t with
    | int n => by_cases hn : 0 ≤ n ∧ n < 256 <;> simp [tokByte, hn]
    | str s => simp [tokByte]
    | other n => simp [tokByte]

/-- What is yielded: the values of the first suffixes, up to one without a value. -/
theorem mapUntil_render (empty : PySeq) : ∀ (ws : List (List PyTok)),
    ∃ k, (mapUntil (renderSuffix empty) ws).1.map some = (ws.take k).map (joined empty) ∧
      (((mapUntil (renderSuffix empty) ws).2 = none ∧ k = ws.length) ∨
        ((mapUntil (renderSuffix empty) ws).2 = some .valueError ∧
          ∃ w, ws[k]? = some w ∧ joined empty w = none))
  | [] => ⟨0, rfl, .inl ⟨rfl, rfl⟩⟩
  | w :: ws => by
    simp only [mapUntil, renderSuffix_eq empty w]
    cases hj : joined empty w with
    | none => exact ⟨0, rfl, .inr ⟨rfl, w, rfl, hj⟩⟩
    | some x =>
      obtain ⟨k, h1, h2⟩ := mapUntil_render empty ws
      refine ⟨k + 1, by simp [h1, hj], ?_⟩
      rcases h2 with ⟨h2, rfl⟩ | ⟨h2, h3⟩
      · exact .inl ⟨h2, rfl⟩
      · exact .inr ⟨h2, by simpa using h3⟩

/-- The empty suffix comes first. -/
theorem allSuffixes_head {α : Type _} [DecidableEq α] {h : Heap α} {f cur : Nat}
    {out : List (List α)} (ho : allSuffixesFrom h f cur = some out) (hn : [] ∈ out) :
    ∃ rest, out = [] :: rest := by
  cases f with
  | zero => simp [allSuffixesFrom] at ho
  | succ f =>
    simp only [allSuffixesFrom] at ho
    cases hc : h[cur]? with
    | none => simp [hc] at ho
    | some nd =>
      simp only [hc] at ho
      have key : ∀ (l : List (α × Nat)) (a : Option (List (List α))) (out : List (List α)),
          l.foldl (fun acc tr =>
            match acc, allSuffixesFrom h f tr.2 with
            | some out, some subs => some (out ++ subs.map (tr.1 :: ·))
            | _, _ => none) a = some out →
          ∃ x more, a = some x ∧ out = x ++ more ∧ [] ∉ more := by
        intro l
        induction l with
        | nil => intro a out hh; exact ⟨out, [], hh, by simp, by simp⟩
        | cons tr l ih =>
          intro a out hh
          rw [List.foldl_cons] at hh
          obtain ⟨x, more, h1, h2, h3⟩ := ih _ _ hh
          cases a with
          | none => simp at h1
          | some a =>
            cases hs : allSuffixesFrom h f tr.2 with
            | none => simp [hs] at h1
            | some subs =>
              simp only [hs, Option.some.injEq] at h1
              subst h1
              exact ⟨a, subs.map (tr.1 :: ·) ++ more, rfl, by simp [h2], by simp [h3]⟩
      obtain ⟨x, more, h1, h2, h3⟩ := key _ _ _ ho
      cases ht : nd.isTerminal with
      | true =>
        simp only [ht, if_true, Option.some.injEq] at h1
        subst h1
        exact ⟨more, h2⟩
      | false =>
        simp only [ht, Bool.false_eq_true, if_false, Option.some.injEq] at h1
        subst h1
        simp only [List.nil_append] at h2
        subst h2
        exact absurd hn h3

end Gaspra
