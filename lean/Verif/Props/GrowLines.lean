import Verif.Proofs.GrowLines
import Verif.Props.LineVersions

set_option linter.unusedSectionVars false

/-!
# C98: a store with `LineTokenizer` returns every version of a text that only grows

`C43_whole_lines_wrong` (`Props/LineVersions.lean`) shows that a store with `LineTokenizer`
(`/repo/src/gaspra/tokenizers.py:129-165`) can return wrong bytes for versions older than the newest
two. Here: no version of a log (new lines at the end) or of a changelog (new lines at the front) is
ever wrong, and what is put in front has to be whole lines for that.
-/

namespace Gaspra

variable {τ : Type _} [DecidableEq τ]

/-- Every version contains the one it was made from, behind whole lines. -/
def GrowingHistory (h : List (AddOp τ)) : Prop :=
  ∀ a ∈ h, ∀ o ∈ h, a.base = some o.tag → GrowsTo o.content a.content

/-- C98: no call of `add` fails. -/
theorem C98_growing_add {h : List (AddOp τ)} (H : GoodHistory h)
    (hc : ∀ a ∈ h, a.content.length + 1 < 2 ^ 64) (hg : GrowingHistory h)
    {h₁ h₂ : List (AddOp τ)} {a : AddOp τ} (e : h = h₁ ++ a :: h₂) :
    (versionsAdd (memoryTree τ) lineTokenizer.bytesOps
      (runHistory (memoryTree τ) lineTokenizer.bytesOps (emptyVersions τ) h₁)
      a.tag a.content a.base).2 = none :=
  (H.grows lineDelta hc hg).2 e

/-- C98: every version is returned exactly. -/
theorem C98_growing_get {h : List (AddOp τ)} (H : GoodHistory h)
    (hc : ∀ a ∈ h, a.content.length + 1 < 2 ^ 64) (hg : GrowingHistory h) :
    ∀ a ∈ h, versionsGet (memoryTree τ) lineTokenizer.bytesOps
      (runHistory (memoryTree τ) lineTokenizer.bytesOps (emptyVersions τ) h) a.tag =
        .ok (some a.content) :=
  H.grows_get lineDelta hc hg

/-- C98: it is not enough that every version contains the one before. The four contents are
nothing, `a`, `\na\n` and `b\na\n`; the `b` that the last one has in front is not a whole line, and
the first version comes back as `a\n`. -/
theorem C98_front_must_be_lines : ∃ h : List (AddOp Nat), GoodHistory h ∧
    (∀ a ∈ h, ∀ o ∈ h, a.base = some o.tag →
      ∃ front back, a.content = front ++ o.content ++ back) ∧
    runErrors (memoryTree Nat) lineTokenizer.bytesOps (emptyVersions Nat) h =
      h.map (fun _ => none) ∧
    ∃ a ∈ h, ∃ wrong, wrong ≠ a.content ∧
      versionsGet (memoryTree Nat) lineTokenizer.bytesOps
        (runHistory (memoryTree Nat) lineTokenizer.bytesOps (emptyVersions Nat) h) a.tag =
        .ok (some wrong) := by
  refine ⟨[⟨0, [], none⟩, ⟨1, [97], some 0⟩, ⟨2, [10, 97, 10], some 1⟩,
    ⟨3, [98, 10, 97, 10], some 2⟩], GoodHistory.four, ?_, by decide +kernel,
    ⟨0, [], none⟩, by simp, [97, 10], by decide, by decide +kernel⟩
  intro a ha o ho e
  simp only [List.mem_cons, List.not_mem_nil, or_false] at ha ho
  rcases ha with rfl | rfl | rfl | rfl <;> rcases ho with rfl | rfl | rfl | rfl <;> simp at e
  · exact ⟨[], [97], rfl⟩
  · exact ⟨[10], [10], rfl⟩
  · exact ⟨[98], [], rfl⟩

/-! ### Two histories -/

/-- A log: the contents are `a\n`, `a\nb` (the last line unfinished), `a\nbb\n` and `a\nbb\na\n`. -/
def logHistory : List (AddOp Nat) := [⟨0, [97, 10], none⟩, ⟨1, [97, 10, 98], some 0⟩,
  ⟨2, [97, 10, 98, 98, 10], some 1⟩, ⟨3, [97, 10, 98, 98, 10, 97, 10], some 2⟩]

theorem logHistory_grows : GrowingHistory logHistory := by
  intro a ha o ho e
  simp only [logHistory, List.mem_cons, List.not_mem_nil, or_false] at ha ho
  rcases ha with rfl | rfl | rfl | rfl <;> rcases ho with rfl | rfl | rfl | rfl <;> simp at e
  · exact ⟨[], [98], Or.inl rfl, rfl⟩
  · exact ⟨[], [98, 10], Or.inl rfl, rfl⟩
  · exact ⟨[], [97, 10], Or.inl rfl, rfl⟩

example : ∀ a ∈ logHistory, versionsGet (memoryTree Nat) lineTokenizer.bytesOps
    (runHistory (memoryTree Nat) lineTokenizer.bytesOps (emptyVersions Nat) logHistory) a.tag =
      .ok (some a.content) :=
  C98_growing_get GoodHistory.four (by decide +kernel) logHistory_grows

/-- The same by evaluation. -/
example : logHistory.map (fun a => versionsGet (memoryTree Nat) lineTokenizer.bytesOps
    (runHistory (memoryTree Nat) lineTokenizer.bytesOps (emptyVersions Nat) logHistory) a.tag) =
    [.ok (some [97, 10]), .ok (some [97, 10, 98]), .ok (some [97, 10, 98, 98, 10]),
      .ok (some [97, 10, 98, 98, 10, 97, 10])] := by decide +kernel

/-- A changelog, with an entry `b\n` put in front and later `a\n` in front of that, and with a
note behind: `a\n`, `b\na\n`, `a\nb\na\n`, `a\nb\na\nc`. -/
def changelogHistory : List (AddOp Nat) := [⟨0, [97, 10], none⟩, ⟨1, [98, 10, 97, 10], some 0⟩,
  ⟨2, [97, 10, 98, 10, 97, 10], some 1⟩, ⟨3, [97, 10, 98, 10, 97, 10, 99], some 2⟩]

theorem changelogHistory_grows : GrowingHistory changelogHistory := by
  intro a ha o ho e
  simp only [changelogHistory, List.mem_cons, List.not_mem_nil, or_false] at ha ho
  rcases ha with rfl | rfl | rfl | rfl <;> rcases ho with rfl | rfl | rfl | rfl <;> simp at e
  · exact ⟨[98, 10], [], Or.inr ⟨[98], rfl⟩, rfl⟩
  · exact ⟨[97, 10], [], Or.inr ⟨[97], rfl⟩, rfl⟩
  · exact ⟨[], [99], Or.inl rfl, rfl⟩

example : ∀ a ∈ changelogHistory, versionsGet (memoryTree Nat) lineTokenizer.bytesOps
    (runHistory (memoryTree Nat) lineTokenizer.bytesOps (emptyVersions Nat) changelogHistory)
      a.tag = .ok (some a.content) :=
  C98_growing_get GoodHistory.four (by decide +kernel) changelogHistory_grows

/-- The history of `C43_whole_lines_wrong` does not grow: its second text does not contain its
first. -/
example : ¬ GrowsTo [97, 10] [98, 10] := by
  rintro ⟨front, back, _, e⟩
  have h := congrArg List.length e
  simp only [List.length_append, List.length_cons, List.length_nil] at h
  have h1 : front = [] := List.length_eq_zero_iff.1 (by omega)
  have h2 : back = [] := List.length_eq_zero_iff.1 (by omega)
  subst h1; subst h2
  simp at e

end Gaspra
