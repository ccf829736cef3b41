import Verif.Proofs.Merge
import Verif.Spec.Rename

/-!
# Diff and merge depend only on which tokens are equal
-/

set_option linter.unusedSectionVars false
set_option linter.unusedSimpArgs false
set_option linter.unusedVariables false

namespace Gaspra

variable {α β : Type _} [DecidableEq α] [DecidableEq β]

/-! ## Longest common substrings -/

theorem OccursAt.rename {s w : List α} {i : Nat} (f : α → β) (h : OccursAt s w i) :
    OccursAt (s.map f) (w.map f) i := by
  obtain ⟨p, q, rfl, rfl⟩ := h
  exact ⟨p.map f, q.map f, by simp, by simp⟩

theorem OccursAt.unrename {f : α → β} {s : List α} {w : List β} {i : Nat}
    (h : OccursAt (s.map f) w i) : ∃ w', w = w'.map f ∧ OccursAt s w' i := by
  obtain ⟨p, q, hs, rfl⟩ := h
  obtain ⟨pw, q', rfl, hpw, hq⟩ := List.map_eq_append_iff.1 hs
  obtain ⟨p', w', rfl, hp, hw⟩ := List.map_eq_append_iff.1 hpw
  exact ⟨w', hw.symm, p', q', rfl, by rw [← hp]; simp⟩

theorem map_inj {f : α → β} (hf : ∀ x y, f x = f y → x = y) {a b : List α}
    (h : a.map f = b.map f) : a = b := by
  induction a generalizing b with
  | nil => cases b with
    | nil => rfl
    | cons y b => simp at h
  | cons x a ih =>
    cases b with
    | nil => simp at h
    | cons y b =>
      simp only [List.map_cons, List.cons.injEq] at h
      rw [hf _ _ h.1, ih h.2]

theorem CommonSubstring.unrename {f : α → β} (hf : ∀ x y, f x = f y → x = y) {a b : List α}
    {w : List β} (h : CommonSubstring (a.map f) (b.map f) w) :
    ∃ w', w = w'.map f ∧ CommonSubstring a b w' := by
  obtain ⟨⟨i, hi⟩, ⟨j, hj⟩⟩ := h
  obtain ⟨w1, e1, h1⟩ := hi.unrename
  obtain ⟨w2, e2, h2⟩ := hj.unrename
  have := map_inj hf (e1.symm.trans e2)
  subst this
  exact ⟨w1, e1, ⟨i, h1⟩, ⟨j, h2⟩⟩

theorem findLcs_rename {f : α → β} (hf : ∀ x y, f x = f y → x = y) (a b : List α) :
    findLcs (a.map f) (b.map f) = findLcs a b := by
  obtain ⟨i, j, n, w, h1, h2, h3, h4, h5, h6, h7⟩ := findLcs_spec a b
  obtain ⟨i', j', n', w', k1, k2, k3, k4, k5, k6, k7⟩ := findLcs_spec (a.map f) (b.map f)
  rw [h1, k1]
  have c : CommonSubstring (a.map f) (b.map f) (w.map f) := ⟨⟨i, h3.rename f⟩, ⟨j, h4.rename f⟩⟩
  obtain ⟨v, rfl, hv⟩ := CommonSubstring.unrename hf ⟨⟨i', k3⟩, ⟨j', k4⟩⟩
  have l1 := k5 _ c
  have l2 := h5 _ hv
  simp only [List.length_map] at l1 k2
  have hn : n = n' := by omega
  subst hn
  have o4 : OccursAt b v j' := by
    obtain ⟨u, e, hu⟩ := k4.unrename
    rw [map_inj hf e]; exact hu
  have o3 : OccursAt a v i' := by
    obtain ⟨u, e, hu⟩ := k3.unrename
    rw [map_inj hf e]; exact hu
  have j1 := h7 v j' hv k2 o4
  have j2 := k7 (w.map f) j c (by simpa using h2) (h4.rename f)
  have hj : j = j' := by omega
  subst hj
  have hvw : v = w := by
    obtain ⟨p, q, e1, e2⟩ := o4
    obtain ⟨p', q', e3, e4⟩ := h4
    rw [e1] at e3
    rw [List.append_assoc, List.append_assoc] at e3
    have e5 := List.append_inj_right e3 (by omega)
    exact List.append_inj_left e5 (by omega)
  subst hvw
  have i1 := h6 i' o3
  have i2 := k6 i (h3.rename f)
  have hi : i = i' := by omega
  rw [hi]

/-! ## Changesets -/

def Changeset.rename (f : α → β) : Changeset α → Changeset β
  | .leaf o m a b => .leaf (o.map f) (m.map f) a b
  | .node a b p s => .node a b (p.rename f) (s.rename f)

theorem Slice.get_rename (f : α → β) (s : Slice) (l : List α) :
    s.get (l.map f) = (s.get l).map f := by
  unfold Slice.get
  cases s.stop <;> simp [List.map_drop, List.map_take]

theorem findChangesetAux_rename {f : α → β} (hf : ∀ x y, f x = f y → x = y) (o m : List α) :
    ∀ (fuel : Nat) (os ms : Slice), findChangesetAux (o.map f) (m.map f) fuel os ms =
      (findChangesetAux o m fuel os ms).map (Changeset.rename f)
  | 0, _, _ => rfl
  | n + 1, os, ms => by
    simp only [findChangesetAux, Slice.get_rename, findLcs_rename hf]
    cases findLcs (os.get o) (ms.get m) with
    | none => rfl
    | some x =>
      obtain ⟨a, b, k⟩ := x
      dsimp only
      by_cases hk : k = 0
      · simp [hk, Changeset.rename]
      · simp only [if_neg hk, findChangesetAux_rename hf o m n]
        cases findChangesetAux o m n ⟨os.start, some (os.start + a)⟩ ⟨ms.start, some (ms.start + b)⟩ with
        | none => rfl
        | some p =>
          simp only [Option.map_some]
          cases findChangesetAux o m n ⟨os.start + a + k, os.stop⟩ ⟨ms.start + b + k, ms.stop⟩ <;> rfl

theorem findChangeset_rename {f : α → β} (hf : ∀ x y, f x = f y → x = y) (o m : List α) :
    findChangeset (o.map f) (m.map f) = (findChangeset o m).map (Changeset.rename f) := by
  unfold findChangeset
  rw [findChangesetAux_rename hf, List.length_map]

theorem bothEmpty_rename (f : α → β) (a b : List α) :
    bothEmpty (a.map f) (b.map f) = bothEmpty a b := by
  cases a <;> cases b <;> rfl

theorem Changeset.asDiffStream_rename (f : α → β) (o : List α) : ∀ cs : Changeset α,
    (cs.rename f).asDiffStream (o.map f) = (cs.asDiffStream o).map (DiffItem.rename f)
  | .leaf x y a b => by
    simp only [Changeset.rename, Changeset.asDiffStream, bothEmpty_rename]
    cases bothEmpty y x <;> simp [DiffItem.rename]
  | .node a b p s => by
    simp only [Changeset.rename, Changeset.asDiffStream, Slice.get_rename,
      Changeset.asDiffStream_rename f o p, Changeset.asDiffStream_rename f o s,
      List.map_append, List.map_cons, List.map_nil, DiffItem.rename]

theorem Changeset.asChangeStream_rename (f : α → β) : ∀ cs : Changeset α,
    (cs.rename f).asChangeStream = cs.asChangeStream.map (ChangeItem.rename f)
  | .leaf x y a b => by
    simp only [Changeset.rename, Changeset.asChangeStream, bothEmpty_rename]
    cases bothEmpty y x <;> simp [ChangeItem.rename]
  | .node a b p s => by
    simp only [Changeset.rename, Changeset.asChangeStream,
      Changeset.asChangeStream_rename f p, Changeset.asChangeStream_rename f s,
      List.map_append, List.map_cons, List.map_nil, ChangeItem.rename]

theorem diff_rename {f : α → β} (hf : ∀ x y, f x = f y → x = y) (o m : List α) :
    diffTokenSequences (o.map f) (m.map f) =
      (diffTokenSequences o m).map (List.map (DiffItem.rename f)) := by
  unfold diffTokenSequences
  rw [findChangeset_rename hf]
  cases findChangeset o m with
  | none => rfl
  | some cs => simp only [Option.map_some, Changeset.asDiffStream_rename]

/-! ## Merging -/

def Fragment.rename (f : α → β) : Fragment α → Fragment β
  | .copy i n => .copy (i.map f) n
  | .change i d n => .change (i.map f) (d.map f) n

def Side.rename (f : α → β) : Side α → Side β
  | .seq l => .seq (l.map f)
  | .strLit => .strLit

def MFragment.rename (f : α → β) : MFragment α → MFragment β
  | .input x => .input (x.rename f)
  | .conflict a b => .conflict (a.rename f) (b.rename f)

/-- The result of handling two fragments, renamed. -/
def rename3 (f : α → β) (r : Option (MFragment α) × Option (Fragment α) × Option (Fragment α)) :
    Option (MFragment β) × Option (Fragment β) × Option (Fragment β) :=
  (r.1.map (.rename f), r.2.1.map (.rename f), r.2.2.map (.rename f))

theorem Changeset.stream_rename (f : α → β) (o : List α) : ∀ cs : Changeset α,
    (cs.rename f).stream (o.map f) = (cs.stream o).map (Fragment.rename f)
  | .leaf x y a b => by
    simp only [Changeset.rename, Changeset.stream, bothEmpty_rename, List.length_map]
    cases bothEmpty y x <;> simp [Fragment.rename]
  | .node a b p s => by
    simp only [Changeset.rename, Changeset.stream, Slice.get_rename,
      Changeset.stream_rename f o p, Changeset.stream_rename f o s, List.length_map,
      List.map_append, List.map_cons, List.map_nil, Fragment.rename]

theorem splitCopy_rename (f : α → β) (i : List α) (n k : Nat) : splitCopy (i.map f) n k =
    ((splitCopy i n k).1.map (Fragment.rename f), (splitCopy i n k).2.map (Fragment.rename f)) := by
  unfold splitCopy
  by_cases h1 : k > 0 <;> by_cases h2 : k < n <;>
    simp [h1, h2, Fragment.rename, List.map_take, List.map_drop]

theorem splitChange_rename (f : α → β) (i d : List α) (n il k : Nat) :
    splitChange (i.map f) (d.map f) n il k =
      ((splitChange i d n il k).1.map (Fragment.rename f),
        (splitChange i d n il k).2.map (Fragment.rename f)) := by
  unfold splitChange
  simp only [List.length_map]
  by_cases h1 : k > 0 ∨ il > 0 <;> by_cases h2 : k < n ∨ il < i.length <;>
    simp [h1, h2, Fragment.rename, List.map_take, List.map_drop]

theorem splitFragment_rename (f : α → β) (x : Fragment α) (k : Nat) : splitFragment (x.rename f) k =
    ((splitFragment x k).1.map (Fragment.rename f), (splitFragment x k).2.map (Fragment.rename f)) := by
  cases x with
  | copy i n => exact splitCopy_rename f i n k
  | change i d n =>
    simp only [splitFragment, Fragment.rename, List.length_map]
    exact splitChange_rename f i d n _ k

theorem Fragment.length_rename (f : α → β) (x : Fragment α) : (x.rename f).length = x.length := by
  cases x <;> rfl

theorem Fragment.insert_rename (f : α → β) (x : Fragment α) :
    (x.rename f).insert = x.insert.map f := by
  cases x <;> rfl

theorem insertOrLit_rename (f : α → β) (x : Option (Fragment α)) :
    insertOrLit (x.map (Fragment.rename f)) = (insertOrLit x).rename f := by
  cases x with
  | none => rfl
  | some x => simp only [insertOrLit, Option.map_some, Fragment.insert_rename, Side.rename]

theorem pendingConflict_rename (f : α → β) (x y : Fragment α) :
    pendingConflict (x.rename f) (y.rename f) = rename3 f (pendingConflict x y) := by
  simp only [pendingConflict, Fragment.length_rename, splitFragment_rename, insertOrLit_rename, rename3,
    Option.map_some, MFragment.rename]

theorem copyCopy_rename (f : α → β) (i0 : List α) (n0 : Nat) (i1 : List α) (n1 : Nat) :
    copyCopy (i0.map f) n0 (i1.map f) n1 = rename3 f (copyCopy i0 n0 i1 n1) := by
  unfold copyCopy
  by_cases h : n0 < n1
  · simp [h, rename3, splitCopy_rename, MFragment.rename, Fragment.rename]
  · by_cases h2 : n1 = n0
    · simp [h, h2, rename3, MFragment.rename, Fragment.rename]
    · simp [h, h2, rename3, splitCopy_rename, MFragment.rename, Fragment.rename]

theorem copyChange_rename (f : α → β) (ci : List α) (cn : Nat) (i d : List α) (n : Nat) :
    copyChange (ci.map f) cn (i.map f) (d.map f) n = rename3 f (copyChange ci cn i d n) := by
  simp only [copyChange, List.length_map, splitChange_rename, splitCopy_rename]
  by_cases h : n = min cn n
  · rw [if_pos h, if_pos h]
    simp only [rename3, Option.map_some, MFragment.rename, Fragment.rename, Option.map_none]
    split <;> rfl
  · rw [if_neg h, if_neg h]
    cases (splitChange i d n i.length (min cn n)).1 with
    | none => rfl
    | some x =>
      simp only [Option.map_some, Fragment.insert_rename, rename3, MFragment.rename, Side.rename,
        Option.map_none]

theorem ordinaryConflict_rename (f : α → β) (i0 d0 : List α) (n0 : Nat) (i1 d1 : List α) (n1 : Nat) :
    ordinaryConflict (i0.map f) (d0.map f) n0 (i1.map f) (d1.map f) n1 =
      rename3 f (ordinaryConflict i0 d0 n0 i1 d1 n1) := by
  simp only [ordinaryConflict, List.length_map, splitChange_rename]
  cases (splitChange i0 d0 n0 i0.length (min n0 n1)).1 <;>
    cases (splitChange i1 d1 n1 i1.length (min n0 n1)).1 <;>
    simp only [Option.map_some, Option.map_none, Fragment.insert_rename, rename3, MFragment.rename,
      Side.rename]

theorem commonPrefixLoop_rename {f : α → β} (hf : ∀ x y, f x = f y → x = y) :
    ∀ (n : Nat) (a b : List α), commonPrefixLoop n ((a.map f).zip (b.map f)) =
      commonPrefixLoop n (a.zip b)
  | n, [], b => by simp [commonPrefixLoop]
  | n, x :: a, [] => by simp [commonPrefixLoop]
  | n, x :: a, y :: b => by
    simp only [List.map_cons, List.zip_cons_cons, commonPrefixLoop, commonPrefixLoop_rename hf (n + 1) a b]
    by_cases h : x = y
    · simp [h]
    · rw [if_pos h, if_pos (fun e => h (hf _ _ e))]

theorem commonPrefixLength_rename {f : α → β} (hf : ∀ x y, f x = f y → x = y) (a b : List α) :
    commonPrefixLength (a.map f) (b.map f) = commonPrefixLength a b := by
  simp only [commonPrefixLength, commonPrefixLoop_rename hf, List.length_map]

theorem changeChange_rename {f : α → β} (hf : ∀ x y, f x = f y → x = y) (i0 d0 : List α) (n0 : Nat)
    (i1 d1 : List α) (n1 : Nat) :
    changeChange (i0.map f) (d0.map f) n0 (i1.map f) (d1.map f) n1 =
      let r := changeChange i0 d0 n0 i1 d1 n1
      (r.1.map (.rename f), r.2.1.map (.rename f), r.2.2.1.map (.rename f), r.2.2.2) := by
  have hA : areIdentical (i0.map f) (d0.map f) n0 (i1.map f) (d1.map f) n1 =
      areIdentical i0 d0 n0 i1 d1 n1 := by
    simp only [areIdentical, List.length_map, commonPrefixLength_rename hf]
  have hC : hasComposable (i0.map f) n0 (i1.map f) n1 = hasComposable i0 n0 i1 n1 := by
    simp only [hasComposable, List.length_map]
  simp only [changeChange, hA, hC, List.length_map, ordinaryConflict_rename]
  cases hasComposable i0 n0 i1 n1 with
  | true =>
    simp only [if_true]
    by_cases h : n0 = 0 ∧ i1.length = 0
    · rw [if_pos h, if_pos h]; rfl
    · rw [if_neg h, if_neg h]; rfl
  | false => cases areIdentical i0 d0 n0 i1 d1 n1 <;> rfl

theorem processFragments_rename {f : α → β} (hf : ∀ x y, f x = f y → x = y) (x y : Fragment α)
    (w : Bool) :
    processFragments (x.rename f) (y.rename f) w =
      let r := processFragments x y w
      (r.1.map (.rename f), r.2.1.map (.rename f), r.2.2.1.map (.rename f), r.2.2.2) := by
  have hp := pendingConflict_rename f x y
  cases x <;> cases y <;> cases w <;>
    simp only [Fragment.rename] at hp <;>
    simp only [processFragments, Fragment.rename, copyCopy_rename, copyChange_rename,
      changeChange_rename hf, if_true, Bool.false_eq_true, if_false, rename3, hp]

theorem flushRemaining_rename (f : α → β) (a b : List (Fragment α)) (w : Bool) :
    flushRemaining (a.map (.rename f)) (b.map (.rename f)) w =
      (flushRemaining a b w).map (.rename f) := by
  unfold flushRemaining
  cases a with
  | nil =>
    cases w <;> simp [MFragment.rename, Side.rename, Fragment.insert_rename]
  | cons x a =>
    cases w <;> simp [MFragment.rename, Side.rename, Fragment.insert_rename]

theorem mergeLoop_rename {f : α → β} (hf : ∀ x y, f x = f y → x = y) :
    ∀ (n : Nat) (a b : List (Fragment α)) (w : Bool),
      mergeLoop n (a.map (.rename f)) (b.map (.rename f)) w =
        (mergeLoop n a b w).map (List.map (.rename f))
  | 0, [], [], _ => rfl
  | _ + 1, [], [], _ => rfl
  | 0, [], y :: b, w => by
    simp only [List.map_nil, List.map_cons, mergeLoop, Option.map_some]
    rw [← flushRemaining_rename]; rfl
  | _ + 1, [], y :: b, w => by
    simp only [List.map_nil, List.map_cons, mergeLoop, Option.map_some]
    rw [← flushRemaining_rename]; rfl
  | 0, x :: a, [], w => by
    simp only [List.map_nil, List.map_cons, mergeLoop, Option.map_some]
    rw [← flushRemaining_rename]; rfl
  | _ + 1, x :: a, [], w => by
    simp only [List.map_nil, List.map_cons, mergeLoop, Option.map_some]
    rw [← flushRemaining_rename]; rfl
  | 0, x :: a, y :: b, w => rfl
  | n + 1, x :: a, y :: b, w => by
    simp only [List.map_cons, mergeLoop, processFragments_rename hf]
    have e : ∀ (o : Option (Fragment α)) (l : List (Fragment α)),
        (o.map (Fragment.rename f)).toList ++ l.map (Fragment.rename f) =
          (o.toList ++ l).map (Fragment.rename f) := by
      intro o l; cases o <;> simp
    rw [e, e, mergeLoop_rename hf n]
    generalize mergeLoop n ((processFragments x y w).2.1.toList ++ a) _ _ = res
    cases res with
    | none => rfl
    | some out =>
      simp only [Option.map_some, List.map_append]
      cases (processFragments x y w).1 <;> simp

theorem joinSides_rename (f : α → β) (k : Kind) (l : List (Side α)) :
    joinSides k (l.map (.rename f)) = (joinSides k l).map (List.map f) := by
  unfold joinSides
  have h1 : (Side.strLit ∈ l.map (Side.rename f)) ↔ (Side.strLit ∈ l) := by
    constructor
    · intro h
      obtain ⟨s, hs, e⟩ := List.mem_map.1 h
      cases s with
      | seq _ => simp [Side.rename] at e
      | strLit => exact hs
    · intro h; exact List.mem_map.2 ⟨_, h, rfl⟩
  have h2 : (l.map (Side.rename f)).flatMap (fun
      | .seq l => l
      | .strLit => []) = (l.flatMap fun
      | .seq l => l
      | .strLit => []).map f := by
    induction l with
    | nil => rfl
    | cons s l ih =>
      have ih := ih (by
        constructor
        · intro h
          obtain ⟨s, hs, e⟩ := List.mem_map.1 h
          cases s with
          | seq _ => simp [Side.rename] at e
          | strLit => exact hs
        · intro h; exact List.mem_map.2 ⟨_, h, rfl⟩)
      rw [List.map_cons, List.flatMap_cons, List.flatMap_cons, List.map_append, ih]
      cases s <;> rfl
  by_cases h : k = .bytes ∧ Side.strLit ∈ l
  · rw [if_pos h, if_pos ⟨h.1, h1.2 h.2⟩]; rfl
  · rw [if_neg h, if_neg (fun e => h ⟨e.1, h1.1 e.2⟩)]
    exact congrArg Except.ok h2

theorem reSplit_rename {f : α → β} (hf : ∀ x y, f x = f y → x = y) (a b : List α) :
    reSplit (a.map f) (b.map f) = (reSplit a b).map (List.map (.rename f)) := by
  unfold reSplit
  rw [findChangeset_rename hf]
  cases findChangeset b a with
  | none => rfl
  | some cs =>
    simp only [Option.map_some, Changeset.stream_rename, List.map_map, Except.map]
    congr 1
    apply List.map_congr_left
    intro x _
    cases x <;> rfl

theorem isConflict_rename (f : α → β) (x : MFragment α) : (x.rename f).isConflict = x.isConflict := by
  cases x <;> rfl

theorem version1_rename (f : α → β) (x : MFragment α) : (x.rename f).version1 = x.version1.rename f := by
  cases x <;> rfl

theorem version2_rename (f : α → β) (x : MFragment α) : (x.rename f).version2 = x.version2.rename f := by
  cases x <;> rfl

theorem minsert_rename (f : α → β) (x : MFragment α) : (x.rename f).insert = x.insert.rename f := by
  cases x with
  | input x => simp only [MFragment.rename, MFragment.insert, Fragment.insert_rename, Side.rename]
  | conflict => rfl

theorem takeWhile_rename (f : α → β) (p : MFragment α → Bool) (q : MFragment β → Bool)
    (h : ∀ x, q (x.rename f) = p x) : ∀ l : List (MFragment α),
    (l.map (MFragment.rename f)).takeWhile q = (l.takeWhile p).map (MFragment.rename f) ∧
    (l.map (MFragment.rename f)).dropWhile q = (l.dropWhile p).map (MFragment.rename f)
  | [] => ⟨rfl, rfl⟩
  | x :: l => by
    obtain ⟨h1, h2⟩ := takeWhile_rename f p q h l
    simp only [List.map_cons, List.takeWhile_cons, List.dropWhile_cons, h]
    cases p x <;> simp [h1, h2]

theorem except_bind_map {ε α' β' γ δ : Type _} (x : Except ε α') (g : α' → β') (k : β' → Except ε γ)
    (k' : α' → Except ε δ) (m : δ → γ) (h : ∀ a, k (g a) = (k' a).map m) :
    (x.map g >>= k) = (x >>= k').map m := by
  cases x with
  | error e => rfl
  | ok a => exact h a

theorem consolidateConflicts_rename {f : α → β} (hf : ∀ x y, f x = f y → x = y) (k : Kind) :
    ∀ (n : Nat) (l : List (MFragment α)), consolidateConflicts k n (l.map (.rename f)) =
      (consolidateConflicts k n l).map (List.map (.rename f))
  | 0, [] => rfl
  | _ + 1, [] => rfl
  | 0, _ :: _ => rfl
  | n + 1, x :: l => by
    rw [List.map_cons]
    unfold consolidateConflicts
    rw [← List.map_cons]
    generalize hl : x :: l = l'
    obtain ⟨t1, t2⟩ := takeWhile_rename f (·.isConflict) (·.isConflict) (isConflict_rename f) l'
    obtain ⟨t3, t4⟩ := takeWhile_rename f (fun x => !x.isConflict) (fun x => !x.isConflict)
      (by intro x; rw [isConflict_rename]) (l'.dropWhile (·.isConflict))
    simp only [t1, t2, t3, t4, List.map_map]
    have v1 : (fun x => x.version1) ∘ MFragment.rename f = Side.rename f ∘ (fun x => x.version1) :=
      funext (version1_rename f)
    have v2 : (fun x => x.version2) ∘ MFragment.rename f = Side.rename f ∘ (fun x => x.version2) :=
      funext (version2_rename f)
    rw [v1, v2, ← List.map_map, ← List.map_map, joinSides_rename, joinSides_rename,
      consolidateConflicts_rename hf k n]
    apply except_bind_map
    intro a
    apply except_bind_map
    intro b
    rw [reSplit_rename hf]
    apply except_bind_map
    intro c
    apply except_bind_map
    intro d
    simp [pure, Except.pure, Except.map]

theorem consolidateAllLoop_rename (f : α → β) (k : Kind) :
    ∀ (n : Nat) (l : List (MFragment α)), consolidateAllLoop k n (l.map (.rename f)) =
      (consolidateAllLoop k n l).map (List.map (.rename f))
  | 0, [] => rfl
  | _ + 1, [] => rfl
  | 0, _ :: _ => rfl
  | n + 1, x :: l => by
    rw [List.map_cons]
    unfold consolidateAllLoop
    rw [← List.map_cons]
    generalize hl : x :: l = l'
    obtain ⟨t1, t2⟩ := takeWhile_rename f (·.isConflict) (·.isConflict) (isConflict_rename f) l'
    obtain ⟨t3, t4⟩ := takeWhile_rename f (fun x => !x.isConflict) (fun x => !x.isConflict)
      (by intro x; rw [isConflict_rename]) (l'.dropWhile (·.isConflict))
    simp only [t1, t2, t3, t4, List.map_map]
    have v1 : (fun x => x.version1) ∘ MFragment.rename f = Side.rename f ∘ (fun x => x.version1) :=
      funext (version1_rename f)
    have v2 : (fun x => x.version2) ∘ MFragment.rename f = Side.rename f ∘ (fun x => x.version2) :=
      funext (version2_rename f)
    have v3 : (fun x => x.insert) ∘ MFragment.rename f = Side.rename f ∘ (fun x => x.insert) :=
      funext (minsert_rename f)
    rw [v1, v2, v3, ← List.map_map, ← List.map_map, ← List.map_map, joinSides_rename, joinSides_rename,
      joinSides_rename, consolidateAllLoop_rename f k n]
    apply except_bind_map
    intro a
    apply except_bind_map
    intro b
    apply except_bind_map
    intro c
    apply except_bind_map
    intro d
    rw [bothEmpty_rename]
    cases bothEmpty a b <;> cases c <;> simp [pure, Except.pure, Except.map, DiffItem.rename]

theorem consolidate_rename {f : α → β} (hf : ∀ x y, f x = f y → x = y) (k : Kind)
    (l : List (MFragment α)) : consolidate k (l.map (.rename f)) =
      (consolidate k l).map (List.map (.rename f)) := by
  unfold consolidate
  rw [consolidateConflicts_rename hf, List.length_map]
  apply except_bind_map
  intro a
  unfold consolidateAll
  rw [consolidateAllLoop_rename, List.length_map]
  apply except_bind_map
  intro b
  cases b <;> rfl

theorem merge_rename {f : α → β} (hf : ∀ x y, f x = f y → x = y) (k : Kind) (p b0 b1 : List α) :
    mergeTokenSequence k (p.map f) (b0.map f) (b1.map f) =
      (mergeTokenSequence k p b0 b1).map (List.map (.rename f)) := by
  unfold mergeTokenSequence
  rw [findChangeset_rename hf, findChangeset_rename hf]
  cases findChangeset p b0 with
  | none => rfl
  | some cs0 =>
    cases findChangeset p b1 with
    | none => rfl
    | some cs1 =>
      simp only [Option.map_some, Changeset.stream_rename, List.length_map, mergeLoop_rename hf]
      generalize mergeLoop _ (cs0.stream p) _ _ = res
      cases res with
      | none => rfl
      | some out => simp only [Option.map_some, consolidate_rename hf]

/-! ## Functions that are injective on the tokens that occur -/

/-- The tokens as elements of a subtype. -/
theorem exists_lift (P : α → Prop) : ∀ (l : List α), (∀ x ∈ l, P x) →
    ∃ l' : List {x // P x}, l'.map Subtype.val = l
  | [], _ => ⟨[], rfl⟩
  | x :: l, h => by
    obtain ⟨l', hl⟩ := exists_lift P l fun y hy => h y (by simp [hy])
    exact ⟨⟨x, h x (by simp)⟩ :: l', by simp [hl]⟩

theorem DiffItem.rename_rename {γ : Type _} (f : α → β) (g : β → γ) (x : DiffItem α) :
    (x.rename f).rename g = x.rename (g ∘ f) := by
  cases x <;> simp [DiffItem.rename]

theorem ChangeItem.rename_rename {γ : Type _} (f : α → β) (g : β → γ) (x : ChangeItem α) :
    (x.rename f).rename g = x.rename (g ∘ f) := by
  cases x <;> simp [ChangeItem.rename]

theorem Changeset.rename_rename {γ : Type _} (f : α → β) (g : β → γ) : ∀ (x : Changeset α),
    (x.rename f).rename g = x.rename (g ∘ f)
  | .leaf .. => by simp [Changeset.rename]
  | .node a b p s => by
    simp only [Changeset.rename, Changeset.rename_rename f g p, Changeset.rename_rename f g s]

theorem val_inj (P : α → Prop) : ∀ x y : {x // P x}, x.val = y.val → x = y := fun _ _ => Subtype.ext

theorem comp_inj {f : α → β} {l : List α} (h : KeepsApart f l) :
    ∀ x y : {x // x ∈ l}, (f ∘ Subtype.val) x = (f ∘ Subtype.val) y → x = y :=
  fun x y e => Subtype.ext (h _ x.2 _ y.2 e)

theorem findChangeset_renameOn {f : α → β} {o m : List α} (h : KeepsApart f (o ++ m)) :
    findChangeset (o.map f) (m.map f) = (findChangeset o m).map (Changeset.rename f) := by
  obtain ⟨o', ho⟩ := exists_lift (· ∈ o ++ m) o (by intro x hx; simp [hx])
  obtain ⟨m', hm⟩ := exists_lift (· ∈ o ++ m) m (by intro x hx; simp [hx])
  have e1 := findChangeset_rename (val_inj (· ∈ o ++ m)) o' m'
  have e2 := findChangeset_rename (comp_inj h) o' m'
  rw [ho, hm] at e1
  rw [← List.map_map, ← List.map_map, ho, hm] at e2
  rw [e1, e2, Option.map_map]
  cases findChangeset o' m' with
  | none => rfl
  | some cs => simp [Changeset.rename_rename]

theorem diff_renameOn {f : α → β} {o m : List α} (h : KeepsApart f (o ++ m)) :
    diffTokenSequences (o.map f) (m.map f) =
      (diffTokenSequences o m).map (List.map (DiffItem.rename f)) := by
  unfold diffTokenSequences
  rw [findChangeset_renameOn h]
  cases findChangeset o m with
  | none => rfl
  | some cs => simp only [Option.map_some, Changeset.asDiffStream_rename]

theorem merge_renameOn {f : α → β} (k : Kind) {p b0 b1 : List α} (h : KeepsApart f (p ++ b0 ++ b1)) :
    mergeTokenSequence k (p.map f) (b0.map f) (b1.map f) =
      (mergeTokenSequence k p b0 b1).map (List.map (.rename f)) := by
  obtain ⟨p', hp⟩ := exists_lift (· ∈ p ++ b0 ++ b1) p (by intro x hx; simp [hx])
  obtain ⟨b', hb⟩ := exists_lift (· ∈ p ++ b0 ++ b1) b0 (by intro x hx; simp [hx])
  obtain ⟨c', hc⟩ := exists_lift (· ∈ p ++ b0 ++ b1) b1 (by intro x hx; simp [hx])
  have e1 := merge_rename (val_inj (· ∈ p ++ b0 ++ b1)) k p' b' c'
  have e2 := merge_rename (comp_inj h) k p' b' c'
  rw [hp, hb, hc] at e1
  rw [← List.map_map, ← List.map_map, ← List.map_map, hp, hb, hc] at e2
  rw [e1, e2]
  cases mergeTokenSequence k p' b' c' with
  | error e => rfl
  | ok d => simp [Except.map, DiffItem.rename_rename]

end Gaspra
