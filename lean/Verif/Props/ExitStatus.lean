import Verif.Props.Commands

set_option linter.unusedSectionVars false
set_option linter.unusedVariables false

/-!
# C120: what the exit status tells
-/

namespace Gaspra

/-- The exit status (pyproject.toml:23-26, merge_tool.py:172-188): the functions named there return `None`, which `sys.exit` turns into 0;
an exception that is not caught gives 1. -/
def Outcome.status (r : Outcome) : Nat := if r.error.isNone then 0 else 1

/-- All these files can be read. -/
def FileSystem.Readable (fs : FileSystem) (names : List PyStr) : Prop := ∀ n ∈ names, ∃ data, fs.Holds n data

theorem firstUnreadable_of {fs : FileSystem} : ∀ {names : List PyStr}, ¬ fs.Readable names →
    ∃ name, FirstUnreadable fs names name
  | [], h => absurd (fun n hn => by simp at hn) h
  | n :: names, h => by
    by_cases hn : ∃ data, fs.Holds n data
    · have : ¬ fs.Readable names := fun h' => h fun x hx => by
        rcases List.mem_cons.1 hx with rfl | hx
        · exact hn
        · exact h' x hx
      obtain ⟨name, b, a, e, h1, h2⟩ := firstUnreadable_of this
      refine ⟨name, n :: b, a, by rw [e]; rfl, h1, fun x hx => ?_⟩
      rcases List.mem_cons.1 hx with rfl | hx
      · exact hn
      · exact h2 x hx
    · refine ⟨n, [], names, rfl, ?_, by simp⟩
      cases hd : fs.data (fs.place n) with
      | none => exact .inl rfl
      | some d =>
        refine .inr ?_
        cases hu : fs.unreadable (fs.place n) with
        | true => rfl
        | false => exact absurd ⟨d, hd, hu⟩ hn

section
variable {cls sp : Nat → Bool} {args : Args} {fs : FileSystem}

/-- C120, `gaspra-merge` with git-compatible markers into a file: the exit status is 0 exactly if the three
files can be read and the output can be opened, whatever the conflicts are. -/
theorem C120_merge_status (h : args.GitFile) (hd : args.diff = false) {out p frm into : PyStr}
    (ho : args.output = some out) (hi : ∀ c ∈ basename into, isScalar c = true)
    (hf : ∀ c ∈ basename frm, isScalar c = true) :
    (mergeCommand cls sp args fs p frm into).status = 0 ↔
      fs.Readable [p, frm, into] ∧ fs.unwritable (fs.place out) = false := by
  have hset : ∀ {names names' : List PyStr}, (∀ x, x ∈ names ↔ x ∈ names') → (fs.Readable names ↔ fs.Readable names') :=
    fun e => ⟨fun r x hx => r x ((e x).2 hx), fun r x hx => r x ((e x).1 hx)⟩
  by_cases hr : fs.Readable [p, frm, into]
  · obtain ⟨x, hx⟩ := hr p (by simp)
    obtain ⟨y, hy⟩ := hr frm (by simp)
    obtain ⟨z, hz⟩ := hr into (by simp)
    cases hw : fs.unwritable (fs.place out) with
    | true =>
      rw [(C100_unwritable (cls := cls) (sp := sp) hx hy hz ho hw).2]
      simp [Outcome.status]
    | false =>
      have k2 := (C100_merge (cls := cls) (sp := sp) hx hy hz ho hw).2.1
      obtain ⟨qp, hqp, _⟩ := C73_pieces cls args x
      obtain ⟨qc, hqc, _⟩ := C73_pieces cls args z
      obtain ⟨qo, hqo, _⟩ := C73_pieces cls args y
      obtain ⟨_, w, _, _, _, e, _⟩ := C73_merge_files cls sp h hd p hi hf hqp hqc hqo
      rw [Outcome.status, k2, e]
      simp [hr]
  · have hr' : ¬ fs.Readable [p, into, frm] := fun r => hr ((hset (by simp; grind)).1 r)
    obtain ⟨name, hn⟩ := firstUnreadable_of hr'
    rw [(C100_unreadable cls sp args fs p frm into name).2 hn]
    simp [Outcome.status, hr]

/-- C120, `gaspra-diff`: the exit status is 0 exactly if the files can be read and the output can be opened,
whether or not there are differences. -/
theorem C120_diff_status (h : args.GitFile) {out a b : PyStr} (ho : args.output = some out)
    (ha : ∀ c ∈ basename a, isScalar c = true) (hb : ∀ c ∈ basename b, isScalar c = true) :
    (diffCommand cls sp args fs a b).status = 0 ↔
      fs.Readable [a, b] ∧ fs.unwritable (fs.place out) = false := by
  by_cases hr : fs.Readable [a, b]
  · obtain ⟨x, hx⟩ := hr a (by simp)
    obtain ⟨y, hy⟩ := hr b (by simp)
    cases hw : fs.unwritable (fs.place out) with
    | true =>
      rw [(C100_unwritable (cls := cls) (sp := sp) hx hy hx ho hw).1]
      simp [Outcome.status]
    | false =>
      have k2 := (C100_diff (cls := cls) (sp := sp) hx hy ho hw).2.1
      obtain ⟨w, _, _, e, _⟩ := C73_diff_files cls sp h ha hb x y
      rw [Outcome.status, k2, e]
      simp [hr]
  · obtain ⟨name, hn⟩ := firstUnreadable_of hr
    rw [(C100_unreadable cls sp args fs a b b name).1 hn]
    simp [Outcome.status, hr]

/-- C120.  The output does not tell either: whatever a merge writes, conflicts or not, the merge of three
files that all contain exactly this writes the same, and there is nothing to merge in these. -/
theorem C120_same_output (h : args.GitFile) (hd : args.diff = false) (p : PyStr) {into frm : PyStr}
    (hi : ∀ c ∈ basename into, isScalar c = true) (hf : ∀ c ∈ basename frm, isScalar c = true)
    (hi' : 13 ∉ basename into) (hf' : 13 ∉ basename frm) (parent current other : Bytes) :
    ∃ w, mergeFiles cls sp args p into frm parent current other = (w, none) ∧
      mergeFiles cls sp args p into frm w w w = (w, none) := by
  obtain ⟨qp, hqp, _⟩ := C73_pieces cls args parent
  obtain ⟨qc, hqc, _⟩ := C73_pieces cls args current
  obtain ⟨qo, hqo, _⟩ := C73_pieces cls args other
  obtain ⟨d, w, text, e, hm, hw, hu, he, hg⟩ := C73_merge_files cls sp h hd p hi hf hqp hqc hqo
  refine ⟨w, hw, C73_unchanged_files cls sp h hd p into frm (.inl ⟨rfl, rfl⟩) hu ?_ ?_⟩
  · intro hcr
    have hjoin := merge_joined_mem (p := readText parent) hqc hqo hm
    have noCR : ∀ s, (s = intoText (d.map DiffItem.joined) ∨ s = fromText (d.map DiffItem.joined)) →
        13 ∉ s ++ e := by
      intro s hs hx
      rcases List.mem_append.1 hx with hx | hx
      · rcases hjoin 13 (by rcases hs with rfl | rfl <;> simp [hx]) with h | h
        · exact (C72_read_valid current).2 h
        · exact (C72_read_valid other).2 h
      · rcases he with rfl | rfl
        · simp at hx
        · exact absurd hx (by decide)
    rcases hg.chars 13 (by simpa using hcr) with k | k | k | k | k
    · exact noCR _ (.inl rfl) k
    · exact noCR _ (.inr rfl) k
    · exact hi' k
    · exact hf' k
    · exact absurd k (by decide)
  · simpa using hg.whole

end

/-- A conflict and a file with markers in it that nobody changed: same output, same status. -/
example :
    let args : Args := { output := some (cps "m"), gitCompatible := true, lines := true }
    let run := fun fs => mergeCommand asciiWord pyIsSpace args fs (cps "p") (cps "o") (cps "c")
    let r := run (sampleFiles (fileOf "a\n") (fileOf "b\n") (fileOf "c\n"))
    let w := fileOf "<<<<<<< c\nb\n=======\nc\n>>>>>>> o\n"
    let r' := run (sampleFiles w w w)
    r.status = 0 ∧ r.files.data 3 = some w ∧ r'.status = 0 ∧ r'.files.data 3 = some w := by decide +kernel

end Gaspra
