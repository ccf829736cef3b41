import Verif.Proofs.TagNames
import Verif.Props.Versions

/-!
# C122: only equality of tags matters
-/

set_option linter.unusedSectionVars false

namespace Gaspra

variable {τ σ : Type _} [DecidableEq τ] [DecidableEq σ] {f : τ → σ}
variable {Tok S : Type _} [DecidableEq Tok]

/-- C122, every call on every store over a `MemoryTree`, also one with reused tags. -/
theorem C122_memory (h : NamesApart f) (tk : TokOps Tok S) (v : Versions τ (MTree τ)) (x : τ) :
    (∀ c b, versionsAdd (memoryTree σ) tk (v.rename f (MTree.rename f)) (f x) c (b.map f) =
      ((versionsAdd (memoryTree τ) tk v x c b).1.rename f (MTree.rename f),
        (versionsAdd (memoryTree τ) tk v x c b).2)) ∧
    versionsGet (memoryTree σ) tk (v.rename f (MTree.rename f)) (f x) = versionsGet (memoryTree τ) tk v x ∧
    versionInfo (memoryTree σ) (v.rename f (MTree.rename f)) (f x) =
      (versionInfo (memoryTree τ) v x).map (Option.map (VersionInfo.rename f)) ∧
    versionsContains (memoryTree σ) (v.rename f (MTree.rename f)) (f x) =
      versionsContains (memoryTree τ) v x :=
  ⟨add_named tk h (memoryTree_renames h) v x, get_named tk h (memoryTree_renames h) v x,
    info_named h (memoryTree_renames h) v x, (memoryTree_renames h).contains v.tree x⟩

/-- C122, the same over a `DBTree`. -/
theorem C122_database (h : NamesApart f) (tk : TokOps Tok S) (v : Versions τ (Graph τ)) (x : τ) :
    (∀ c b, versionsAdd (dbTree σ) tk (v.rename f (Graph.rename f)) (f x) c (b.map f) =
      ((versionsAdd (dbTree τ) tk v x c b).1.rename f (Graph.rename f),
        (versionsAdd (dbTree τ) tk v x c b).2)) ∧
    versionsGet (dbTree σ) tk (v.rename f (Graph.rename f)) (f x) = versionsGet (dbTree τ) tk v x ∧
    versionInfo (dbTree σ) (v.rename f (Graph.rename f)) (f x) =
      (versionInfo (dbTree τ) v x).map (Option.map (VersionInfo.rename f)) ∧
    versionsContains (dbTree σ) (v.rename f (Graph.rename f)) (f x) = versionsContains (dbTree τ) v x :=
  ⟨add_named tk h (dbTree_renames h) v x, get_named tk h (dbTree_renames h) v x,
    info_named h (dbTree_renames h) v x, (dbTree_renames h).contains v.tree x⟩

/-- The tags that a call mentions. -/
def AddOp.mentions (a : AddOp τ) : List τ := a.tag :: a.base.toList

/-- A history seen as one of the tags it mentions. -/
theorem restrict_tags (l : List τ) : ∀ (h : List (AddOp τ)), (∀ a ∈ h, ∀ x ∈ a.mentions, x ∈ l) →
    ∃ h' : List (AddOp { x // x ∈ l }), h'.map (AddOp.rename Subtype.val) = h
  | [], _ => ⟨[], rfl⟩
  | a :: h, hl => by
    obtain ⟨h', e⟩ := restrict_tags l h fun b hb => hl b (List.mem_cons_of_mem _ hb)
    obtain ⟨tag, c, base⟩ := a
    have ht : tag ∈ l := hl _ List.mem_cons_self tag (by simp [AddOp.mentions])
    cases base with
    | none => exact ⟨⟨⟨tag, ht⟩, c, none⟩ :: h', by simp [AddOp.rename, e]⟩
    | some b =>
      have hb : b ∈ l := hl _ List.mem_cons_self b (by simp [AddOp.mentions])
      exact ⟨⟨⟨tag, ht⟩, c, some ⟨b, hb⟩⟩ :: h', by simp [AddOp.rename, e]⟩

/-- C122.  If no two of the tags in use get the same name, a history with the other names raises the same
exceptions, leaves the same bytes in the same order, renamed, and answers alike, whatever the tokenizer. -/
theorem C122_history (tk : TokOps Tok S) (h : List (AddOp τ)) (l : List τ)
    (hf : ∀ x ∈ l, ∀ y ∈ l, f x = f y → x = y) (hl : ∀ a ∈ h, ∀ x ∈ a.mentions, x ∈ l) :
    runErrors (memoryTree σ) tk (emptyVersions σ) (h.map (AddOp.rename f)) =
      runErrors (memoryTree τ) tk (emptyVersions τ) h ∧
    runHistory (memoryTree σ) tk (emptyVersions σ) (h.map (AddOp.rename f)) =
      (runHistory (memoryTree τ) tk (emptyVersions τ) h).rename f (MTree.rename f) ∧
    runErrors (dbTree σ) tk (emptyDBVersions σ) (h.map (AddOp.rename f)) =
      runErrors (dbTree τ) tk (emptyDBVersions τ) h ∧
    runHistory (dbTree σ) tk (emptyDBVersions σ) (h.map (AddOp.rename f)) =
      (runHistory (dbTree τ) tk (emptyDBVersions τ) h).rename f (Graph.rename f) ∧
    ∀ x ∈ l,
      versionsGet (memoryTree σ) tk (runHistory (memoryTree σ) tk (emptyVersions σ) (h.map (AddOp.rename f)))
          (f x) =
        versionsGet (memoryTree τ) tk (runHistory (memoryTree τ) tk (emptyVersions τ) h) x ∧
      versionsGet (dbTree σ) tk (runHistory (dbTree σ) tk (emptyDBVersions σ) (h.map (AddOp.rename f))) (f x) =
        versionsGet (dbTree τ) tk (runHistory (dbTree τ) tk (emptyDBVersions τ) h) x := by
  obtain ⟨h', rfl⟩ := restrict_tags l h hl
  have n1 : NamesApart (Subtype.val : { x // x ∈ l } → τ) := fun x y e => Subtype.ext e
  have n2 : NamesApart (fun x : { x // x ∈ l } => f x.val) :=
    fun x y e => Subtype.ext (hf _ x.2 _ y.2 e)
  have e : (h'.map (AddOp.rename Subtype.val)).map (AddOp.rename f) =
      h'.map (AddOp.rename fun x : { x // x ∈ l } => f x.val) := by
    rw [List.map_map]
    apply List.map_congr_left
    intro a _
    simp [AddOp.rename]
  rw [e]
  have m1 := run_named tk n1 (memoryTree_renames n1) h' (emptyVersions _)
  have m2 := run_named tk n2 (memoryTree_renames n2) h' (emptyVersions _)
  have d1 := run_named tk n1 (dbTree_renames n1) h' (emptyDBVersions _)
  have d2 := run_named tk n2 (dbTree_renames n2) h' (emptyDBVersions _)
  simp only [show ∀ (g : { x // x ∈ l } → τ), (emptyVersions { x // x ∈ l }).rename g (MTree.rename g) =
      emptyVersions τ from fun _ => rfl, show ∀ (g : { x // x ∈ l } → σ),
      (emptyVersions { x // x ∈ l }).rename g (MTree.rename g) = emptyVersions σ from fun _ => rfl] at m1 m2
  simp only [show ∀ (g : { x // x ∈ l } → τ), (emptyDBVersions { x // x ∈ l }).rename g (Graph.rename g) =
      emptyDBVersions τ from fun _ => rfl, show ∀ (g : { x // x ∈ l } → σ),
      (emptyDBVersions { x // x ∈ l }).rename g (Graph.rename g) = emptyDBVersions σ from fun _ => rfl] at d1 d2
  refine ⟨m2.2.trans m1.2.symm, ?_, d2.2.trans d1.2.symm, ?_, ?_⟩
  · rw [m1.1, m2.1]
    simp [Versions.rename, renameKeys, MTree.rename, TNode.rename, Function.comp_def]
  · rw [d1.1, d2.1]
    simp [Versions.rename, renameKeys, Graph.rename, GRow.rename, Function.comp_def]
  · intro x hx
    rw [m1.1, m2.1, d1.1, d2.1]
    exact ⟨(get_named tk n2 (memoryTree_renames n2) _ ⟨x, hx⟩).trans
        (get_named tk n1 (memoryTree_renames n1) _ ⟨x, hx⟩).symm,
      (get_named tk n2 (dbTree_renames n2) _ ⟨x, hx⟩).trans
        (get_named tk n1 (dbTree_renames n1) _ ⟨x, hx⟩).symm⟩

/-- C122.  Two tags with the same name do matter: then a version is lost without an exception. -/
theorem C122_same_name : let h : List (AddOp Nat) := [⟨0, [1], none⟩, ⟨1, [2], none⟩]
    runErrors (memoryTree Nat) nullTok (emptyVersions Nat) (h.map (AddOp.rename fun _ => 7)) = [none, none] ∧
    versionsGet (memoryTree Nat) nullTok (runHistory (memoryTree Nat) nullTok (emptyVersions Nat) h) 0 =
      .ok (some [1]) ∧
    versionsGet (memoryTree Nat) nullTok
      (runHistory (memoryTree Nat) nullTok (emptyVersions Nat) (h.map (AddOp.rename fun _ => 7))) 7 =
      .ok (some [2]) := by
  decide +kernel

/-- Numbers as tags and the same numbers as texts, with a branch and a call that fails. -/
example : ((runHistory (memoryTree String) nullTok (emptyVersions String)
    ([⟨0, [1, 2, 3], none⟩, ⟨1, [1, 2], some 0⟩, ⟨2, [2, 3], some 1⟩, ⟨3, [3], some 0⟩].map
      (AddOp.rename fun n : Nat => if n = 0 then "a" else if n = 1 then "b" else if n = 2 then "c" else "d"))).tree.map
        fun p => (p.1, p.2.parent, p.2.height)) =
    [("a", some "c", 1), ("b", some "c", 1), ("c", none, 2), ("d", none, 1)] := by
  decide +kernel

end Gaspra
