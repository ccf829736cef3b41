import Verif.Proofs.LineVersions
import Verif.Props.Tokenizers

set_option linter.unusedSectionVars false

/-!
# C43: how far a store with `LineTokenizer` can be trusted

`C43_line_versions_wrong` (`Props/Tokenizers.lean`) shows that such a store can return wrong bytes.
Here: that this does not need odd texts, and which versions are not affected.
-/

namespace Gaspra

variable {τ : Type _} [DecidableEq τ]

/-- C43, refuted for ordinary texts: four linear adds of texts that consist of whole lines. -/
theorem C43_whole_lines_wrong : ∃ h : List (AddOp Nat), GoodHistory h ∧ Utf8Contents h ∧
    (∀ a ∈ h, ∃ s, a.content = s ++ [10]) ∧
    runErrors (memoryTree Nat) lineTokenizer.bytesOps (emptyVersions Nat) h =
      h.map (fun _ => none) ∧
    ∃ a ∈ h, ∃ wrong, wrong ≠ a.content ∧
      versionsGet (memoryTree Nat) lineTokenizer.bytesOps
        (runHistory (memoryTree Nat) lineTokenizer.bytesOps (emptyVersions Nat) h) a.tag =
        .ok (some wrong) := by
  refine ⟨[⟨0, [97, 10], none⟩, ⟨1, [98, 10], some 0⟩, ⟨2, [97, 10, 98, 10], some 1⟩,
    ⟨3, [98, 10], some 2⟩], GoodHistory.four, ?_, ?_, by decide +kernel,
    ⟨0, [97, 10], none⟩, by simp, [97, 10, 98, 10], by decide, by decide +kernel⟩
  · intro a ha
    simp only [List.mem_cons, List.not_mem_nil, or_false] at ha
    rcases ha with rfl | rfl | rfl | rfl
    · exact ⟨⟨[97, 10], by decide +kernel⟩, by decide⟩
    · exact ⟨⟨[98, 10], by decide +kernel⟩, by decide⟩
    · exact ⟨⟨[97, 10, 98, 10], by decide +kernel⟩, by decide⟩
    · exact ⟨⟨[98, 10], by decide +kernel⟩, by decide⟩
  · intro a ha
    simp only [List.mem_cons, List.not_mem_nil, or_false] at ha
    rcases ha with rfl | rfl | rfl | rfl
    · exact ⟨[97], rfl⟩
    · exact ⟨[98], rfl⟩
    · exact ⟨[97, 10, 98], rfl⟩
    · exact ⟨[98], rfl⟩

/-- C43, what holds: after a documented history without an exception, the newest version of every
branch and the version it was based on are retrieved exactly. -/
theorem C43_newest_two {h : List (AddOp τ)} (G : GoodHistory h)
    (hc : ∀ a ∈ h, a.content.length + 1 < 2 ^ 64)
    (he : runErrors (memoryTree τ) lineTokenizer.bytesOps (emptyVersions τ) h =
      h.map fun _ => none)
    {a : AddOp τ} (ha : a ∈ h) (hh : IsHead h a.tag) :
    versionsGet (memoryTree τ) lineTokenizer.bytesOps
        (runHistory (memoryTree τ) lineTokenizer.bytesOps (emptyVersions τ) h) a.tag =
      .ok (some a.content) ∧
    ∀ o ∈ h, a.base = some o.tag →
      versionsGet (memoryTree τ) lineTokenizer.bytesOps
          (runHistory (memoryTree τ) lineTokenizer.bytesOps (emptyVersions τ) h) o.tag =
        .ok (some o.content) :=
  G.newest_two lineHom hc he ha hh

/-- In the history of the refutation the newest two versions are right, the oldest is not. -/
example :
    let h : List (AddOp Nat) := [⟨0, [97, 10], none⟩, ⟨1, [98, 10], some 0⟩,
      ⟨2, [97, 10, 98, 10], some 1⟩, ⟨3, [98, 10], some 2⟩]
    let w := runHistory (memoryTree Nat) lineTokenizer.bytesOps (emptyVersions Nat) h
    h.map (fun a => versionsGet (memoryTree Nat) lineTokenizer.bytesOps w a.tag) =
      [.ok (some [97, 10, 98, 10]), .ok (some [98, 10]), .ok (some [97, 10, 98, 10]),
        .ok (some [98, 10])] := by decide +kernel

end Gaspra
