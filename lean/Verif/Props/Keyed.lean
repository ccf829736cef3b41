import Verif.Proofs.Keyed
import Verif.Proofs.MergeSpec
import Verif.Props.Changesets
import Verif.Spec.Merge

set_option linter.unusedSectionVars false

/-!
# C109: tokens that are equal without being the same

`key` is what `==` and `hash` of a token look at.  Everything proved of the other models holds up to
`==`.  A diff starts from exactly the old text.  Of the new text it has the inserted tokens as they
are; for the common ones it has the old tokens.
-/

namespace Gaspra

variable {α β : Type _} [DecidableEq α] [DecidableEq β] {key : β → α}

/-- C109.  The diff exists, lies in both texts piece by piece, and its keys are the diff of the
keys. -/
theorem C109_diff (key : β → α) (original modified : List β) :
    ∃ d, diffKeyed key original modified = some d ∧ DiffUpTo key d original modified ∧
      diffTokenSequences (original.map key) (modified.map key) =
        some (d.map (DiffItem.rename key)) := by
  obtain ⟨cs, h, V⟩ := findChangesetKeyed_spec (key := key) original modified
  have hd : diffKeyed key original modified = some (cs.asDiffStream original) := by
    simp only [diffKeyed, h]
  refine ⟨_, hd, V.diff (OccursAt.whole _), ?_⟩
  rw [← diffKeyed_id, diffKeyed, findChangesetKeyed]
  have e : ∀ fuel os ms, findChangesetKeyedAux id (original.map key) (modified.map key) fuel os ms =
      (findChangesetKeyedAux key original modified fuel os ms).map (Changeset.rename key) :=
    findChangesetKeyedAux_rename id key original modified
  rw [e, List.length_map]
  rw [findChangesetKeyed] at h
  rw [h]
  simp only [Option.map_some, Changeset.asDiffStream_rename]

/-- C109.  The old text of the diff is the original; the new text equals the modified one up to
`==`. -/
theorem C109_texts {original modified : List β} {d : List (DiffItem β)}
    (h : diffKeyed key original modified = some d) :
    fromText d = original ∧ (intoText d).map key = modified.map key := by
  obtain ⟨d', h1, h2, _⟩ := C109_diff key original modified
  rw [h] at h1; cases h1
  exact h2.texts

/-- C109.  `apply_forward` gives the new text of the diff, which equals the modified text up to `==`,
and `apply_reverse` the original up to `==`. -/
theorem C109_apply (key : β → α) (original modified : List β) :
    ∃ cs d, findChangesetKeyed key original modified = some cs ∧
      diffKeyed key original modified = some d ∧
      applyForward cs.asChangeStream original = intoText d ∧
      (applyForward cs.asChangeStream original).map key = modified.map key ∧
      (applyReverse cs.asChangeStream modified).map key = original.map key := by
  obtain ⟨cs, h, V⟩ := findChangesetKeyed_spec (key := key) original modified
  obtain ⟨k1, k2⟩ := V.applyF (OccursAt.whole _)
  exact ⟨cs, _, h, by simp only [diffKeyed, h], k1, k2, V.applyR (OccursAt.whole _)⟩

/-- C109.  Texts that are equal up to `==` have a diff without changes, of the old tokens only. -/
theorem C109_equal {original modified : List β} (h : original.map key = modified.map key) :
    diffKeyed key original modified =
      some (if original = [] then [] else [.common original]) := by
  obtain ⟨d, h1, h2, h3⟩ := C109_diff key original modified
  rw [h1]
  rw [← h, C13_diff_self] at h3
  have hf := h2.texts.1
  cases original with
  | nil =>
    simp only [List.map_nil, if_true, Option.some.injEq] at h3
    have : d = [] := by
      cases d with
      | nil => rfl
      | cons x d => simp at h3
    simp [this]
  | cons t o =>
    simp only [List.map_cons, reduceCtorEq, if_false, Option.some.injEq] at h3
    match d, h3 with
    | [.common p], h3 =>
      simp only [fromText, List.flatMap_cons, List.flatMap_nil, List.append_nil] at hf
      simp [hf]
    | [.change a b], h3 => simp [DiffItem.rename] at h3
    | [], h3 => simp at h3
    | x :: y :: d, h3 => simp at h3

/-- C109.  Only such texts: a diff has a change exactly if the texts differ by more than `==`. -/
theorem C109_changes {original modified : List β} {d : List (DiffItem β)}
    (h : diffKeyed key original modified = some d) :
    (∀ x ∈ d, x.isChange = false) ↔ original.map key = modified.map key := by
  obtain ⟨d', h1, h2, h3⟩ := C109_diff key original modified
  rw [h] at h1; cases h1
  constructor
  · intro hn
    refine C13_no_change_eq _ _ _ h3 ?_
    intro x hx
    obtain ⟨y, hy, rfl⟩ := List.mem_map.1 hx
    have := hn y hy
    cases y <;> simp_all [DiffItem.rename, DiffItem.isChange]
  · intro he
    rw [C109_equal he] at h
    cases h
    intro x hx
    split at hx
    · simp at hx
    · simp only [List.mem_singleton] at hx
      subst hx; rfl

/-- C109.  So a changeset can lose the difference: the text that `apply_forward` returns is then the
original and not the modified one. -/
theorem C109_lost {original modified : List β} (h : original.map key = modified.map key)
    (hne : original ≠ modified) :
    ∃ cs, findChangesetKeyed key original modified = some cs ∧
      applyForward cs.asChangeStream original = original ∧
      applyForward cs.asChangeStream original ≠ modified := by
  obtain ⟨cs, d, h1, h2, h3, _⟩ := C109_apply key original modified
  rw [C109_equal h] at h2
  cases h2
  have e : intoText (if original = [] then [] else [.common original]) = original := by
    split <;> simp_all [intoText]
  rw [e] at h3
  exact ⟨cs, h1, h3, by rw [h3]; exact hne⟩

/-- C109.  The keys of a merge are the merge of the keys, exceptions included. -/
theorem C109_merge (key : β → α) (kind : Kind) (parent branch0 branch1 : List β) :
    (mergeKeyed key kind parent branch0 branch1).map (List.map (DiffItem.rename key)) =
      mergeTokenSequence kind (parent.map key) (branch0.map key) (branch1.map key) := by
  rw [← mergeKeyed_id]
  exact (mergeKeyed_rename id key kind parent branch0 branch1).symm

/-- C109.  The tokens of a merge are tokens of its inputs, not only equal to some. -/
theorem C109_merge_tokens {kind : Kind} {parent branch0 branch1 : List β} {out : List (DiffItem β)}
    (h : mergeKeyed key kind parent branch0 branch1 = .ok out) :
    ∀ t ∈ out.flatMap (·.tokens), t ∈ parent ∨ t ∈ branch0 ∨ t ∈ branch1 := by
  obtain ⟨p, hp⟩ := exists_lift (fun t => t ∈ parent ∨ t ∈ branch0 ∨ t ∈ branch1) parent
    (by intro x hx; simp [hx])
  obtain ⟨b, hb⟩ := exists_lift (fun t => t ∈ parent ∨ t ∈ branch0 ∨ t ∈ branch1) branch0
    (by intro x hx; simp [hx])
  obtain ⟨c, hc⟩ := exists_lift (fun t => t ∈ parent ∨ t ∈ branch0 ∨ t ∈ branch1) branch1
    (by intro x hx; simp [hx])
  have e := mergeKeyed_rename key Subtype.val kind p b c
  rw [hp, hb, hc, h] at e
  intro t ht
  cases hm : mergeKeyed (key ∘ Subtype.val) kind p b c with
  | error x => rw [hm] at e; simp [Except.map] at e
  | ok out' =>
    rw [hm] at e
    simp only [Except.map, Except.ok.injEq] at e
    subst e
    obtain ⟨x, hx, ht⟩ := List.mem_flatMap.1 ht
    obtain ⟨y, _, rfl⟩ := List.mem_map.1 hx
    cases y with
    | common q =>
      simp only [DiffItem.rename, DiffItem.tokens] at ht
      obtain ⟨z, _, rfl⟩ := List.mem_map.1 ht
      exact z.2
    | change q r =>
      simp only [DiffItem.rename, DiffItem.tokens, List.mem_append] at ht
      rcases ht with ht | ht
      · obtain ⟨z, _, rfl⟩ := List.mem_map.1 ht; exact z.2
      · obtain ⟨z, _, rfl⟩ := List.mem_map.1 ht; exact z.2

/-- C109.  Branches that only replace tokens by equal ones are ignored: the merge is the parent. -/
theorem C109_merge_parent (kind : Kind) {parent branch0 branch1 : List β} (hp : parent ≠ [])
    (h0 : branch0.map key = parent.map key) (h1 : branch1.map key = parent.map key) :
    mergeKeyed key kind parent branch0 branch1 = .ok [.common parent] := by
  have st : ∀ {b : List β}, b.map key = parent.map key →
      ∃ cs, findChangesetKeyed key parent b = some cs ∧ cs.stream parent = [.copy parent parent.length] := by
    intro b hb
    obtain ⟨cs, _⟩ := findChangesetKeyed_spec (key := key) parent b
    next h =>
    have hd := C109_equal (key := key) hb.symm
    simp only [diffKeyed, h.1, if_neg hp, Option.some.injEq] at hd
    exact ⟨cs, h.1, by rw [stream_eq, hd]; rfl⟩
  obtain ⟨cs0, a1, a2⟩ := st h0
  obtain ⟨cs1, b1, b2⟩ := st h1
  have rs : reSplitKeyed key ([] : List β) [] = .ok [] := by
    have hd := C109_equal (key := key) (original := ([] : List β)) (modified := []) rfl
    obtain ⟨cs, h, _⟩ := findChangesetKeyed_spec (key := key) ([] : List β) []
    simp only [diffKeyed, h, if_true, Option.some.injEq] at hd
    simp only [reSplitKeyed, h, stream_eq, hd, List.map_nil]
  simp [mergeKeyed, a1, b1, a2, b2, mergeLoopKeyed, processFragmentsKeyed, copyCopy,
    consolidateConflictsKeyed, MFragment.isConflict, joinSides, rs, hp,
    consolidateAll, consolidateAllLoop, bothEmpty, MFragment.insert, Fragment.insert,
    bind, Except.bind, pure, Except.pure]

theorem rename_inj {f : β → α} (hf : ∀ x y, f x = f y → x = y) {d d' : List (DiffItem β)}
    (h : d.map (DiffItem.rename f) = d'.map (DiffItem.rename f)) : d = d' := by
  refine map_inj ?_ h
  intro x y e
  cases x <;> cases y <;> simp only [DiffItem.rename, DiffItem.common.injEq, DiffItem.change.injEq,
    reduceCtorEq] at e ⊢
  · exact map_inj hf e
  · exact ⟨map_inj hf e.1, map_inj hf e.2⟩

/-- C109.  Where equal tokens are the same, this is the diff of the other models. -/
theorem C109_exact_diff {original modified : List β} (h : KeepsApart key (original ++ modified)) :
    diffKeyed key original modified = diffTokenSequences original modified := by
  obtain ⟨o, ho⟩ := exists_lift (· ∈ original ++ modified) original (by intro x hx; simp [hx])
  obtain ⟨m, hm⟩ := exists_lift (· ∈ original ++ modified) modified (by intro x hx; simp [hx])
  have e1 := diffKeyed_rename key Subtype.val o m
  have e2 := diff_rename (val_inj (· ∈ original ++ modified)) o m
  rw [ho, hm] at e1 e2
  rw [e1, e2]
  congr 1
  have e3 := diffKeyed_rename id (key ∘ Subtype.val) o m
  have e4 := diff_rename (comp_inj h) o m
  rw [diffKeyed_id, e4] at e3
  change _ = (diffKeyed (key ∘ Subtype.val) o m).map _ at e3
  cases ha : diffKeyed (key ∘ Subtype.val) o m <;> cases hb : diffTokenSequences o m <;>
    rw [ha, hb] at e3 <;> simp only [Option.map_some, Option.map_none, Option.some.injEq,
      reduceCtorEq] at e3
  rw [rename_inj (comp_inj h) e3]

/-- C109.  And the merge. -/
theorem C109_exact_merge (kind : Kind) {parent branch0 branch1 : List β}
    (h : KeepsApart key (parent ++ branch0 ++ branch1)) :
    mergeKeyed key kind parent branch0 branch1 = mergeTokenSequence kind parent branch0 branch1 := by
  obtain ⟨p, hp⟩ := exists_lift (· ∈ parent ++ branch0 ++ branch1) parent (by intro x hx; simp [hx])
  obtain ⟨b, hb⟩ := exists_lift (· ∈ parent ++ branch0 ++ branch1) branch0 (by intro x hx; simp [hx])
  obtain ⟨c, hc⟩ := exists_lift (· ∈ parent ++ branch0 ++ branch1) branch1 (by intro x hx; simp [hx])
  have e1 := mergeKeyed_rename key Subtype.val kind p b c
  have e2 := merge_rename (val_inj (· ∈ parent ++ branch0 ++ branch1)) kind p b c
  rw [hp, hb, hc] at e1 e2
  rw [e1, e2]
  congr 1
  have e3 := mergeKeyed_rename id (key ∘ Subtype.val) kind p b c
  have e4 := merge_rename (comp_inj h) kind p b c
  rw [mergeKeyed_id, e4] at e3
  change _ = (mergeKeyed (key ∘ Subtype.val) kind p b c).map _ at e3
  cases ha : mergeKeyed (key ∘ Subtype.val) kind p b c <;>
    cases hb : mergeTokenSequence kind p b c <;>
    rw [ha, hb] at e3 <;> simp only [Except.map, Except.ok.injEq, Except.error.injEq,
      reduceCtorEq] at e3
  · rw [e3]
  · rw [rename_inj (comp_inj h) e3]

/-- Words that are equal up to case: the key is the lower case word. -/
def lowerCase (c : Char) : Char := if 'A' ≤ c ∧ c ≤ 'Z' then Char.ofNat (c.toNat + 32) else c

example : diffKeyed lowerCase "aBcd".toList "AbxD".toList =
    some [.common ['a', 'B'], .change ['x'] ['c'], .common ['d']] := by decide +kernel
example : diffTokenSequences "aBcd".toList "AbxD".toList =
    some [.change "AbxD".toList "aBcd".toList] := by decide +kernel
example : mergeKeyed lowerCase .tuple "abc".toList "aBcX".toList "Yabc".toList =
    .ok [.common "YabcX".toList] := by decide +kernel
/-- The same change in both branches: the tokens of the first branch are kept. -/
example : mergeKeyed lowerCase .tuple "abc".toList "axc".toList "aXc".toList =
    .ok [.common "axc".toList] := by decide +kernel

end Gaspra
