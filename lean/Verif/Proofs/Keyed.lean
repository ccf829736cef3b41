import Verif.Model.Keyed
import Verif.Spec.Keyed
import Verif.Proofs.Rename
import Verif.Proofs.Changesets

set_option linter.unusedSectionVars false

/-!
# Diffs of tokens whose `==` is coarser than identity
-/

namespace Gaspra

variable {α β : Type _} {key : β → α}

/-- A changeset of `x`, at position `i` of the old text, and `y`, at position `j` of the new one,
whose common parts are equal. -/
inductive KeyedValid (key : β → α) : Nat → List β → Nat → List β → Changeset β → Prop
  | leaf {i j : Nat} {x y : List β} {os ms : Slice} : KeyedValid key i x j y (.leaf x y os ms)
  | node {i j : Nat} {x1 w x2 y1 v y2 : List β} {p s : Changeset β} (hw : w.map key = v.map key)
      (hp : KeyedValid key i x1 j y1 p)
      (hs : KeyedValid key (i + x1.length + w.length) x2 (j + y1.length + v.length) y2 s) :
      KeyedValid key i (x1 ++ w ++ x2) j (y1 ++ v ++ y2)
        (.node ⟨i + x1.length, some (i + x1.length + w.length)⟩
          ⟨j + y1.length, some (j + y1.length + v.length)⟩ p s)

theorem isEmpty_both {a b : List β} (h : bothEmpty a b = true) : a = [] ∧ b = [] := by
  simpa [bothEmpty] using h

theorem DiffUpTo.append {d d' : List (DiffItem β)} {o m o' m' : List β} (h : DiffUpTo key d o m)
    (h' : DiffUpTo key d' o' m') : DiffUpTo key (d ++ d') (o ++ o') (m ++ m') := by
  induction h with
  | nil => simpa using h'
  | common p q e _ ih => simpa [List.append_assoc] using DiffUpTo.common p q e ih
  | change a b _ ih => simpa [List.append_assoc] using DiffUpTo.change a b ih

theorem KeyedValid.diff {o : List β} {i j : Nat} {x y : List β} {cs : Changeset β}
    (V : KeyedValid key i x j y cs) (ho : OccursAt o x i) :
    DiffUpTo key (cs.asDiffStream o) x y := by
  induction V with
  | @leaf i j x y os ms =>
    simp only [Changeset.asDiffStream]
    split
    · next he => obtain ⟨rfl, rfl⟩ := isEmpty_both he; exact .nil
    · simpa using DiffUpTo.change y x (DiffUpTo.nil (key := key))
  | @node i j x1 w x2 y1 v y2 p s hw hp hs ihp ihs =>
    have hc := ho.mid.slice rfl
    simp only [Changeset.asDiffStream, hc]
    refine ((ihp ho.left).append ?_).append (ihs ho.right)
    simpa using DiffUpTo.common w v hw (DiffUpTo.nil (key := key))

theorem KeyedValid.applyF {o : List β} {i j : Nat} {x y : List β} {cs : Changeset β}
    (V : KeyedValid key i x j y cs) (ho : OccursAt o x i) :
    applyForward cs.asChangeStream o = intoText (cs.asDiffStream o) ∧
      (applyForward cs.asChangeStream o).map key = y.map key := by
  induction V with
  | leaf =>
    simp only [Changeset.asChangeStream, Changeset.asDiffStream]
    split
    · next he =>
      obtain ⟨rfl, rfl⟩ := isEmpty_both he
      simp [applyForward, stripForward, applyPatch, joinChanges, intoText]
    · simp only [applyForward, stripForward, applyPatch, joinChanges, List.filterMap_cons,
        List.filterMap_nil, intoText]
      split
      · next hx => split at hx <;> simp_all
      · next hx => split at hx <;> simp_all
                   subst hx; simp
  | @node i j x1 w x2 y1 v y2 p s hw hp hs ihp ihs =>
    obtain ⟨p1, p2⟩ := ihp ho.left
    obtain ⟨s1, s2⟩ := ihs ho.right
    have hc := ho.mid.slice rfl
    simp only [applyForward, stripForward, applyPatch, joinChanges, intoText] at *
    simp only [Changeset.asChangeStream, Changeset.asDiffStream, List.filterMap_append,
      List.map_append, List.flatten_append, List.flatMap_append, p1, s1] at *
    rw [← hw, ← p2, ← s2]
    simp [hc]

theorem KeyedValid.applyR {m : List β} {i j : Nat} {x y : List β} {cs : Changeset β}
    (V : KeyedValid key i x j y cs) (hm : OccursAt m y j) :
    (applyReverse cs.asChangeStream m).map key = x.map key := by
  induction V with
  | leaf =>
    simp only [Changeset.asChangeStream]
    split
    · next he =>
      obtain ⟨rfl, rfl⟩ := isEmpty_both he
      simp [applyReverse, stripReverse, applyPatch, joinChanges]
    · simp only [applyReverse, stripReverse, applyPatch, joinChanges, List.filterMap_cons,
        List.filterMap_nil]
      split
      · next hx => split at hx <;> simp_all
      · next hx => split at hx <;> simp_all
                   subst hx; simp
  | @node i j x1 w x2 y1 v y2 p s hw hp hs ihp ihs =>
    have p1 := ihp hm.left
    have s1 := ihs hm.right
    have hc := hm.mid.slice rfl
    simp only [applyReverse, stripReverse, applyPatch, joinChanges] at *
    simp only [Changeset.asChangeStream, List.filterMap_append, List.map_append,
      List.flatten_append] at *
    rw [p1, s1, hw]
    simp [hc]

theorem keys_into (d : List (DiffItem β)) :
    (intoText d).map key = intoText (d.map (DiffItem.rename key)) ∧
    (fromText d).map key = fromText (d.map (DiffItem.rename key)) := by
  induction d with
  | nil => simp [intoText, fromText]
  | cons x d ih =>
    simp only [intoText, fromText, List.flatMap_cons, List.map_append, List.map_cons] at *
    rw [ih.1, ih.2]
    cases x <;> simp [DiffItem.rename]

theorem DiffUpTo.texts {d : List (DiffItem β)} {o m : List β} (h : DiffUpTo key d o m) :
    fromText d = o ∧ (intoText d).map key = m.map key := by
  induction h with
  | nil => simp [fromText, intoText]
  | common p q e _ ih =>
    simp only [fromText, intoText, List.flatMap_cons, List.map_append] at *
    rw [ih.1, ih.2, e]; simp
  | change a b _ ih =>
    simp only [fromText, intoText, List.flatMap_cons, List.map_append] at *
    rw [ih.1, ih.2]; simp

variable [DecidableEq α]

theorem findChangesetKeyedAux_spec (o m : List β) : ∀ (fuel : Nat) (os ms : Slice) (i j : Nat)
    (x y : List β), Selects o os i x → Selects m ms j y → x.length < fuel →
    ∃ cs, findChangesetKeyedAux key o m fuel os ms = some cs ∧ KeyedValid key i x j y cs := by
  intro fuel
  induction fuel with
  | zero => intro os ms i j x y _ _ hf; omega
  | succ f ih =>
    intro os ms i j x y ho hm hf
    obtain ⟨a, b, n, w, hl, hwn, hoa, hob, _⟩ := findLcs_spec (x.map key) (y.map key)
    simp only [findChangesetKeyedAux, ho.get, hm.get, hl, ho.start, hm.start]
    by_cases hn : n = 0
    · exact ⟨_, by rw [if_pos hn], .leaf⟩
    · rw [if_neg hn]
      obtain ⟨p1, p2, hx, hx1⟩ := hoa
      obtain ⟨q1, q2, hy, hy1⟩ := hob
      obtain ⟨x12, x2, rfl, hx12, rfl⟩ := List.map_eq_append_iff.1 hx
      obtain ⟨x1, u, rfl, rfl, hu⟩ := List.map_eq_append_iff.1 hx12
      obtain ⟨y12, y2, rfl, hy12, rfl⟩ := List.map_eq_append_iff.1 hy
      obtain ⟨y1, v, rfl, rfl, hv⟩ := List.map_eq_append_iff.1 hy12
      have lu : u.length = n := by rw [← hwn, ← hu]; simp
      have lv : v.length = n := by rw [← hwn, ← hv]; simp
      simp only [List.length_map] at hx1 hy1
      have hso := ho.occ
      have hsm := hm.occ
      have hxlen : (x1 ++ u ++ x2).length = x1.length + u.length + x2.length := by simp; omega
      have hylen : (y1 ++ v ++ y2).length = y1.length + v.length + y2.length := by simp; omega
      obtain ⟨p, hp1, hp2⟩ := ih ⟨i, some (i + a)⟩ ⟨j, some (j + b)⟩ i j x1 y1
        ⟨rfl, hso.left, by intro e he; cases he; omega, by simp⟩
        ⟨rfl, hsm.left, by intro e he; cases he; omega, by simp⟩ (by omega)
      obtain ⟨s, hs1, hs2⟩ := ih ⟨i + a + n, os.stop⟩ ⟨j + b + n, ms.stop⟩
        (i + x1.length + u.length) (j + y1.length + v.length) x2 y2
        ⟨by simp only; omega, hso.right, fun e he => by have := ho.stop_some e he; omega,
          fun he => by have := ho.stop_none he; omega⟩
        ⟨by simp only; omega, hsm.right, fun e he => by have := hm.stop_some e he; omega,
          fun he => by have := hm.stop_none he; omega⟩ (by omega)
      rw [hp1, hs1]
      refine ⟨_, rfl, ?_⟩
      have := KeyedValid.node (key := key) (hu.trans hv.symm) hp2 hs2
      rw [lu, lv, hx1, hy1] at this
      exact this

theorem findChangesetKeyed_spec (o m : List β) :
    ∃ cs, findChangesetKeyed key o m = some cs ∧ KeyedValid key 0 o 0 m cs := by
  refine findChangesetKeyedAux_spec o m _ _ _ 0 0 o m ?_ ?_ (by omega)
  · exact ⟨rfl, OccursAt.whole o, by simp, by simp⟩
  · exact ⟨rfl, OccursAt.whole m, by simp, by simp⟩

/-! ## Replacing tokens -/

section
variable {γ : Type _} [DecidableEq β] [DecidableEq γ] (key : β → α) (f : γ → β)

theorem findChangesetKeyedAux_rename (o m : List γ) : ∀ (fuel : Nat) (os ms : Slice),
    findChangesetKeyedAux key (o.map f) (m.map f) fuel os ms =
      (findChangesetKeyedAux (key ∘ f) o m fuel os ms).map (Changeset.rename f)
  | 0, _, _ => rfl
  | n + 1, os, ms => by
    simp only [findChangesetKeyedAux, Slice.get_rename, List.map_map]
    cases findLcs ((os.get o).map (key ∘ f)) ((ms.get m).map (key ∘ f)) with
    | none => rfl
    | some x =>
      obtain ⟨a, b, k⟩ := x
      dsimp only
      by_cases hk : k = 0
      · simp [hk, Changeset.rename]
      · simp only [if_neg hk, findChangesetKeyedAux_rename o m n]
        cases findChangesetKeyedAux (key ∘ f) o m n ⟨os.start, some (os.start + a)⟩
            ⟨ms.start, some (ms.start + b)⟩ with
        | none => rfl
        | some p =>
          simp only [Option.map_some]
          cases findChangesetKeyedAux (key ∘ f) o m n ⟨os.start + a + k, os.stop⟩
            ⟨ms.start + b + k, ms.stop⟩ <;> rfl

theorem findChangesetKeyed_rename (o m : List γ) :
    findChangesetKeyed key (o.map f) (m.map f) =
      (findChangesetKeyed (key ∘ f) o m).map (Changeset.rename f) := by
  unfold findChangesetKeyed
  rw [findChangesetKeyedAux_rename, List.length_map]

theorem changeChangeKeyed_rename (i0 d0 : List γ) (n0 : Nat) (i1 d1 : List γ) (n1 : Nat) :
    changeChangeKeyed key (i0.map f) (d0.map f) n0 (i1.map f) (d1.map f) n1 =
      let r := changeChangeKeyed (key ∘ f) i0 d0 n0 i1 d1 n1
      (r.1.map (.rename f), r.2.1.map (.rename f), r.2.2.1.map (.rename f), r.2.2.2) := by
  have hC : hasComposable (i0.map f) n0 (i1.map f) n1 = hasComposable i0 n0 i1 n1 := by
    simp only [hasComposable, List.length_map]
  simp only [changeChangeKeyed, hC, List.length_map, ordinaryConflict_rename, List.map_map]
  cases hasComposable i0 n0 i1 n1 with
  | true =>
    simp only [if_true]
    by_cases h : n0 = 0 ∧ i1.length = 0
    · rw [if_pos h, if_pos h]; rfl
    · rw [if_neg h, if_neg h]; rfl
  | false =>
    cases areIdentical (i0.map (key ∘ f)) (d0.map (key ∘ f)) n0 (i1.map (key ∘ f))
      (d1.map (key ∘ f)) n1 <;> rfl

theorem processFragmentsKeyed_rename (x y : Fragment γ) (w : Bool) :
    processFragmentsKeyed key (x.rename f) (y.rename f) w =
      let r := processFragmentsKeyed (key ∘ f) x y w
      (r.1.map (.rename f), r.2.1.map (.rename f), r.2.2.1.map (.rename f), r.2.2.2) := by
  have hp := pendingConflict_rename f x y
  cases x <;> cases y <;> cases w <;>
    simp only [Fragment.rename] at hp <;>
    simp only [processFragmentsKeyed, Fragment.rename, copyCopy_rename, copyChange_rename,
      changeChangeKeyed_rename, if_true, Bool.false_eq_true, if_false, rename3, hp]

theorem mergeLoopKeyed_rename :
    ∀ (n : Nat) (a b : List (Fragment γ)) (w : Bool),
      mergeLoopKeyed key n (a.map (.rename f)) (b.map (.rename f)) w =
        (mergeLoopKeyed (key ∘ f) n a b w).map (List.map (.rename f))
  | 0, [], [], _ => rfl
  | _ + 1, [], [], _ => rfl
  | 0, [], y :: b, w => by
    simp only [List.map_nil, List.map_cons, mergeLoopKeyed, Option.map_some]
    rw [← flushRemaining_rename]; rfl
  | _ + 1, [], y :: b, w => by
    simp only [List.map_nil, List.map_cons, mergeLoopKeyed, Option.map_some]
    rw [← flushRemaining_rename]; rfl
  | 0, x :: a, [], w => by
    simp only [List.map_nil, List.map_cons, mergeLoopKeyed, Option.map_some]
    rw [← flushRemaining_rename]; rfl
  | _ + 1, x :: a, [], w => by
    simp only [List.map_nil, List.map_cons, mergeLoopKeyed, Option.map_some]
    rw [← flushRemaining_rename]; rfl
  | 0, x :: a, y :: b, w => rfl
  | n + 1, x :: a, y :: b, w => by
    simp only [List.map_cons, mergeLoopKeyed, processFragmentsKeyed_rename]
    have e : ∀ (o : Option (Fragment γ)) (l : List (Fragment γ)),
        (o.map (Fragment.rename f)).toList ++ l.map (Fragment.rename f) =
          (o.toList ++ l).map (Fragment.rename f) := by
      intro o l; cases o <;> simp
    rw [e, e, mergeLoopKeyed_rename n]
    generalize mergeLoopKeyed (key ∘ f) n ((processFragmentsKeyed (key ∘ f) x y w).2.1.toList ++ a) _ _ = res
    cases res with
    | none => rfl
    | some out =>
      simp only [Option.map_some, List.map_append]
      cases (processFragmentsKeyed (key ∘ f) x y w).1 <;> simp

theorem reSplitKeyed_rename (a b : List γ) :
    reSplitKeyed key (a.map f) (b.map f) = (reSplitKeyed (key ∘ f) a b).map (List.map (.rename f)) := by
  unfold reSplitKeyed
  rw [findChangesetKeyed_rename]
  cases findChangesetKeyed (key ∘ f) b a with
  | none => rfl
  | some cs =>
    simp only [Option.map_some, Changeset.stream_rename, List.map_map, Except.map]
    congr 1
    apply List.map_congr_left
    intro x _
    cases x <;> rfl

theorem consolidateConflictsKeyed_rename (k : Kind) :
    ∀ (n : Nat) (l : List (MFragment γ)), consolidateConflictsKeyed key k n (l.map (.rename f)) =
      (consolidateConflictsKeyed (key ∘ f) k n l).map (List.map (.rename f))
  | 0, [] => rfl
  | _ + 1, [] => rfl
  | 0, _ :: _ => rfl
  | n + 1, x :: l => by
    rw [List.map_cons]
    unfold consolidateConflictsKeyed
    rw [← List.map_cons]
    generalize hl : x :: l = l'
    obtain ⟨t1, t2⟩ := takeWhile_rename f (·.isConflict) (·.isConflict) (isConflict_rename f) l'
    obtain ⟨t3, t4⟩ := takeWhile_rename f (fun x => !x.isConflict) (fun x => !x.isConflict)
      (by intro x; rw [isConflict_rename]) (l'.dropWhile (·.isConflict))
    simp only [t1, t2, t3, t4, List.map_map]
    have v1 : (fun x => x.version1) ∘ MFragment.rename f = Side.rename f ∘ (fun x => x.version1) :=
      funext (version1_rename f)
    have v2 : (fun x => x.version2) ∘ MFragment.rename f = Side.rename f ∘ (fun x => x.version2) :=
      funext (version2_rename f)
    rw [v1, v2, ← List.map_map, ← List.map_map, joinSides_rename, joinSides_rename,
      consolidateConflictsKeyed_rename k n]
    apply except_bind_map
    intro a
    apply except_bind_map
    intro b
    rw [reSplitKeyed_rename]
    apply except_bind_map
    intro c
    apply except_bind_map
    intro d
    simp [pure, Except.pure, Except.map]

theorem mergeKeyed_rename (k : Kind) (p b0 b1 : List γ) :
    mergeKeyed key k (p.map f) (b0.map f) (b1.map f) =
      (mergeKeyed (key ∘ f) k p b0 b1).map (List.map (.rename f)) := by
  unfold mergeKeyed
  rw [findChangesetKeyed_rename, findChangesetKeyed_rename]
  cases findChangesetKeyed (key ∘ f) p b0 with
  | none => rfl
  | some cs0 =>
    cases findChangesetKeyed (key ∘ f) p b1 with
    | none => rfl
    | some cs1 =>
      simp only [Option.map_some, Changeset.stream_rename, List.length_map, mergeLoopKeyed_rename]
      generalize mergeLoopKeyed (key ∘ f) _ (cs0.stream p) _ _ = res
      cases res with
      | none => rfl
      | some out =>
        simp only [Option.map_some, consolidateConflictsKeyed_rename, List.length_map]
        apply except_bind_map
        intro a
        unfold consolidateAll
        rw [consolidateAllLoop_rename, List.length_map]
        apply except_bind_map
        intro b
        cases b <;> rfl

theorem diffKeyed_rename (o m : List γ) :
    diffKeyed key (o.map f) (m.map f) =
      (diffKeyed (key ∘ f) o m).map (List.map (DiffItem.rename f)) := by
  unfold diffKeyed
  rw [findChangesetKeyed_rename]
  cases findChangesetKeyed (key ∘ f) o m with
  | none => rfl
  | some cs => simp only [Option.map_some, Changeset.asDiffStream_rename]

end

/-! ## Tokens that are their own keys -/

theorem findChangesetKeyedAux_id (o m : List α) : ∀ (fuel : Nat) (os ms : Slice),
    findChangesetKeyedAux id o m fuel os ms = findChangesetAux o m fuel os ms
  | 0, _, _ => rfl
  | n + 1, os, ms => by
    simp only [findChangesetKeyedAux, findChangesetAux, List.map_id, findChangesetKeyedAux_id o m n]
    cases findLcs (os.get o) (ms.get m) with
    | none => rfl
    | some x =>
      simp only
      split
      · rfl
      · cases findChangesetAux o m n ⟨os.start, some (os.start + x.1)⟩
          ⟨ms.start, some (ms.start + x.2.1)⟩ with
        | none => rfl
        | some p =>
          simp only
          cases findChangesetAux o m n ⟨os.start + x.1 + x.2.2, os.stop⟩
            ⟨ms.start + x.2.1 + x.2.2, ms.stop⟩ <;> rfl

theorem findChangesetKeyed_id (o m : List α) :
    findChangesetKeyed id o m = findChangeset o m := by
  simp only [findChangesetKeyed, findChangeset, findChangesetKeyedAux_id]

theorem diffKeyed_id (o m : List α) : diffKeyed id o m = diffTokenSequences o m := by
  simp only [diffKeyed, diffTokenSequences, findChangesetKeyed_id]
  cases findChangeset o m <;> rfl

theorem changeChangeKeyed_id (i0 d0 : List α) (n0 : Nat) (i1 d1 : List α) (n1 : Nat) :
    changeChangeKeyed id i0 d0 n0 i1 d1 n1 = changeChange i0 d0 n0 i1 d1 n1 := by
  simp only [changeChangeKeyed, changeChange, List.map_id]

theorem processFragmentsKeyed_id (x y : Fragment α) (w : Bool) :
    processFragmentsKeyed id x y w = processFragments x y w := by
  cases x <;> cases y <;> cases w <;>
    simp [processFragmentsKeyed, processFragments, changeChangeKeyed_id]

theorem mergeLoopKeyed_id : ∀ (n : Nat) (a b : List (Fragment α)) (w : Bool),
    mergeLoopKeyed id n a b w = mergeLoop n a b w
  | 0, [], [], _ => rfl
  | _ + 1, [], [], _ => rfl
  | 0, [], y :: b, w => rfl
  | _ + 1, [], y :: b, w => rfl
  | 0, x :: a, [], w => rfl
  | _ + 1, x :: a, [], w => rfl
  | 0, x :: a, y :: b, w => rfl
  | n + 1, x :: a, y :: b, w => by
    simp only [mergeLoopKeyed, mergeLoop, processFragmentsKeyed_id, mergeLoopKeyed_id n]
    cases mergeLoop n ((processFragments x y w).2.1.toList ++ a)
      ((processFragments x y w).2.2.1.toList ++ b) (processFragments x y w).2.2.2 <;> rfl

theorem reSplitKeyed_id (a b : List α) : reSplitKeyed id a b = reSplit a b := by
  simp only [reSplitKeyed, reSplit, findChangesetKeyed_id]
  cases findChangeset b a with
  | none => rfl
  | some cs => rfl

theorem consolidateConflictsKeyed_id (k : Kind) : ∀ (n : Nat) (l : List (MFragment α)),
    consolidateConflictsKeyed id k n l = consolidateConflicts k n l
  | 0, [] => rfl
  | _ + 1, [] => rfl
  | 0, _ :: _ => rfl
  | n + 1, x :: l => by
    simp only [consolidateConflictsKeyed, consolidateConflicts, reSplitKeyed_id,
      consolidateConflictsKeyed_id k n]

theorem mergeKeyed_id (k : Kind) (p b0 b1 : List α) :
    mergeKeyed id k p b0 b1 = mergeTokenSequence k p b0 b1 := by
  simp only [mergeKeyed, mergeTokenSequence, findChangesetKeyed_id, mergeLoopKeyed_id,
    consolidateConflictsKeyed_id, consolidate]
  cases findChangeset p b0 with
  | none => rfl
  | some cs0 =>
    cases findChangeset p b1 with
    | none => rfl
    | some cs1 =>
      simp only
      cases mergeLoop ((cs0.stream p).length + (cs1.stream p).length) (cs0.stream p) (cs1.stream p)
        false <;> rfl

end Gaspra
