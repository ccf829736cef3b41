import Verif.Model.Commands
import Verif.Props.Files

set_option linter.unusedSectionVars false
set_option linter.unusedVariables false

/-!
# C100: what the commands do to the files

`Props/Files.lean` is about the bytes that are written; here: where, and to what else.
-/

namespace Gaspra

/-- The same names lead to the same places, and only the file at `n` may differ. -/
def ChangedOnlyAt (n : Nat) (before after : FileSystem) : Prop :=
  after.place = before.place ∧ ∀ m, m ≠ n → after.data m = before.data m

/-- There is a file of this name; it may be read and contains the data. -/
def FileSystem.Holds (fs : FileSystem) (name : PyStr) (data : Bytes) : Prop :=
  fs.data (fs.place name) = some data ∧ fs.unreadable (fs.place name) = false

/-- The first of the names for which there is no file, or one that may not be read. -/
def FirstUnreadable (fs : FileSystem) (names : List PyStr) (name : PyStr) : Prop :=
  ∃ before after, names = before ++ name :: after ∧
    (fs.data (fs.place name) = none ∨ fs.unreadable (fs.place name) = true) ∧
    ∀ x ∈ before, ∃ data, fs.Holds x data

theorem FileSystem.Holds.read {fs : FileSystem} {name : PyStr} {data : Bytes}
    (h : fs.Holds name data) : fs.read name = some data := by
  simp only [FileSystem.read, h.2, h.1, Bool.false_eq_true, if_false]

theorem getText_ok {fs : FileSystem} : ∀ {names : List PyStr} {datas : List Bytes},
    names.map fs.read = datas.map some → getText fs names = .ok (datas.map readText)
  | [], [], _ => rfl
  | [], _ :: _, h => by simp at h
  | _ :: _, [], h => by simp at h
  | name :: names, data :: datas, h => by
    simp only [List.map_cons, List.cons.injEq] at h
    simp only [getText, h.1, getText_ok h.2, List.map_cons]

theorem getText_error {fs : FileSystem} {name : PyStr} : ∀ {names : List PyStr},
    FirstUnreadable fs names name → getText fs names = .error (.cannotOpen name) := by
  rintro _ ⟨before, after, rfl, h1, h2⟩
  induction before with
  | nil =>
    have : fs.read name = none := by rcases h1 with h1 | h1 <;> simp [FileSystem.read, h1]
    simp [getText, this]
  | cons x before ih =>
    obtain ⟨d, hx⟩ := h2 x (by simp)
    simp only [List.cons_append, getText, hx.read, ih fun y hy => h2 y (by simp [hy])]

section
variable (cls sp : Nat → Bool) (args : Args) (fs : FileSystem)

/-- C100. An input that cannot be read: nothing is written or printed, the output file is not even
created. -/
theorem C100_unreadable (a b c name : PyStr) :
    (FirstUnreadable fs [a, b] name →
      diffCommand cls sp args fs a b = ⟨fs, [], some (.cannotOpen name)⟩) ∧
    (FirstUnreadable fs [a, c, b] name →
      mergeCommand cls sp args fs a b c = ⟨fs, [], some (.cannotOpen name)⟩) := by
  refine ⟨fun h => ?_, fun h => ?_⟩
  · simp only [diffCommand, getText_error h]
  · simp only [mergeCommand, mergeNamed, getText_error h]

variable {cls sp args fs}

/-- C100. An output file that cannot be opened: nothing is written or printed. -/
theorem C100_unwritable {a b c out : PyStr} {x y z : Bytes} (ha : fs.Holds a x)
    (hb : fs.Holds b y) (hc : fs.Holds c z) (ho : args.output = some out)
    (hw : fs.unwritable (fs.place out) = true) :
    diffCommand cls sp args fs a b = ⟨fs, [], some (.cannotOpen out)⟩ ∧
    mergeCommand cls sp args fs a b c = ⟨fs, [], some (.cannotOpen out)⟩ := by
  have h1 := getText_ok (fs := fs) (names := [a, b]) (datas := [x, y]) (by simp [ha.read, hb.read])
  have h2 := getText_ok (fs := fs) (names := [a, c, b]) (datas := [x, z, y]) (by simp [ha.read, hb.read, hc.read])
  constructor
  · simp only [diffCommand, h1, List.map_cons, List.map_nil, withWriter, ho, hw, if_true]
  · simp only [mergeCommand, mergeNamed, h2, List.map_cons, List.map_nil, withWriter, ho, hw, if_true]

/-- C100. Without an output file no file is changed; the output is that of the functions on
texts. -/
theorem C100_console {a b c : PyStr} {x y z : Bytes} (ha : fs.Holds a x)
    (hb : fs.Holds b y) (hc : fs.Holds c z) (ho : args.output = none) :
    (∃ t out e, diffCli cls sp args {} a b (readText x) (readText y) = (t, out, e) ∧
      diffCommand cls sp args fs a b = ⟨fs, out, e.map .raised⟩) ∧
    (∃ t out e, mergeCli cls sp args {} a c b (readText x) (readText z) (readText y) = (t, out, e) ∧
      mergeCommand cls sp args fs a b c = ⟨fs, out, e.map .raised⟩) := by
  have h1 := getText_ok (fs := fs) (names := [a, b]) (datas := [x, y]) (by simp [ha.read, hb.read])
  have h2 := getText_ok (fs := fs) (names := [a, c, b]) (datas := [x, z, y]) (by simp [ha.read, hb.read, hc.read])
  constructor
  · refine ⟨_, _, _, rfl, ?_⟩
    simp only [diffCommand, h1, List.map_cons, List.map_nil, withWriter, ho]
    rfl
  · refine ⟨_, _, _, rfl, ?_⟩
    simp only [mergeCommand, mergeNamed, h2, List.map_cons, List.map_nil, withWriter, ho]
    rfl

/-- C100. `gaspra-diff -o`: the output file contains what is described in C73, computed from the
contents before the command, whether or not the output file is one of the inputs; no other file is
changed and nothing is printed. -/
theorem C100_diff {a b out : PyStr} {x y : Bytes} (ha : fs.Holds a x)
    (hb : fs.Holds b y) (ho : args.output = some out)
    (hw : fs.unwritable (fs.place out) = false) :
    (diffCommand cls sp args fs a b).files.data (fs.place out) =
      some (diffFiles cls sp args a b x y).1 ∧
    (diffCommand cls sp args fs a b).error = (diffFiles cls sp args a b x y).2.map .raised ∧
    (diffCommand cls sp args fs a b).console = [] ∧
    ChangedOnlyAt (fs.place out) fs (diffCommand cls sp args fs a b).files := by
  have h1 := getText_ok (fs := fs) (names := [a, b]) (datas := [x, y]) (by simp [ha.read, hb.read])
  have e : diffCommand cls sp args fs a b = ⟨fs.write out (diffFiles cls sp args a b x y).1, [],
      (diffFiles cls sp args a b x y).2.map .raised⟩ := by
    simp only [diffCommand, h1, List.map_cons, List.map_nil, withWriter, ho, hw, diffFiles]
    rfl
  rw [e]
  exact ⟨by simp [FileSystem.write], rfl, rfl, rfl, fun m hm => by simp [FileSystem.write, hm]⟩

/-- C100. `gaspra-merge -o` likewise. The second name on the command line is the branch that is
merged, the third the one it is merged into. -/
theorem C100_merge {p frm into out : PyStr} {x y z : Bytes} (hp : fs.Holds p x)
    (hf : fs.Holds frm y) (hi : fs.Holds into z) (ho : args.output = some out)
    (hw : fs.unwritable (fs.place out) = false) :
    (mergeCommand cls sp args fs p frm into).files.data (fs.place out) =
      some (mergeFiles cls sp args p into frm x z y).1 ∧
    (mergeCommand cls sp args fs p frm into).error =
      (mergeFiles cls sp args p into frm x z y).2.map .raised ∧
    (mergeCommand cls sp args fs p frm into).console = [] ∧
    ChangedOnlyAt (fs.place out) fs (mergeCommand cls sp args fs p frm into).files := by
  have h1 := getText_ok (fs := fs) (names := [p, into, frm]) (datas := [x, z, y]) (by simp [hp.read, hf.read, hi.read])
  have e : mergeCommand cls sp args fs p frm into =
      ⟨fs.write out (mergeFiles cls sp args p into frm x z y).1, [],
      (mergeFiles cls sp args p into frm x z y).2.map .raised⟩ := by
    simp only [mergeCommand, mergeNamed, h1, List.map_cons, List.map_nil, withWriter, ho, hw, mergeFiles]
    rfl
  rw [e]
  exact ⟨by simp [FileSystem.write], rfl, rfl, rfl, fun m hm => by simp [FileSystem.write, hm]⟩

/-- C100. As a merge driver, with the current version as output: if the other branch has not
changed, no file is changed; if only the other branch has, its contents replace the current ones.
The files are UTF-8 and end in a newline. -/
theorem C100_merge_driver (h : args.GitFile) (hd : args.diff = false) {p frm into out : PyStr}
    {x y z : Bytes} (hp : fs.Holds p x) (hf : fs.Holds frm y)
    (hi : fs.Holds into z) (ho : args.output = some out) (hs : fs.place out = fs.place into)
    (hw : fs.unwritable (fs.place out) = false) {s : PyStr} (hcr : 13 ∉ s) (hwh : Whole s) :
    (x = y → utf8Encode s = some z →
      (mergeCommand cls sp args fs p frm into).error = none ∧
      ∀ n, (mergeCommand cls sp args fs p frm into).files.data n = fs.data n) ∧
    (x = z → utf8Encode s = some y →
      (mergeCommand cls sp args fs p frm into).error = none ∧
      (mergeCommand cls sp args fs p frm into).files.data (fs.place into) = some y) := by
  obtain ⟨k1, k2, k3, k4, k5⟩ := C100_merge (cls := cls) (sp := sp) hp hf hi ho hw
  refine ⟨fun e hz => ?_, fun e hy => ?_⟩
  · have := C73_unchanged_files cls sp h hd p into frm (p := x) (c := z) (o := y) (r := z)
      (Or.inl ⟨rfl, e⟩) hz hcr hwh
    rw [this] at k1 k2
    refine ⟨k2, fun n => ?_⟩
    by_cases hn : n = fs.place out
    · subst hn
      rw [k1, hs]
      exact hi.1.symm
    · exact k5 n hn
  · have := C73_unchanged_files cls sp h hd p into frm (p := x) (c := z) (o := y) (r := y)
      (Or.inr (Or.inl ⟨rfl, e⟩)) hy hcr hwh
    rw [this] at k1 k2
    exact ⟨k2, by rw [← hs]; exact k1⟩

end

/-! ### The torture test -/

theorem pathJoin_inj {d a b : PyStr} (ha : a.head? ≠ some 47) (hb : b.head? ≠ some 47)
    (h : pathJoin d a = pathJoin d b) : a = b := by
  unfold pathJoin at h
  rw [if_neg ha, if_neg hb] at h
  split at h
  · exact List.append_cancel_left h
  · exact (List.cons.inj (List.append_cancel_left h)).2

/-- The names inside the directory of test cases. -/
def baseNames (testCase : PyStr) : List PyStr :=
  match dget tortureExceptions testCase with
  | some (a, b, c) => [a, b, c]
  | none => [testCase ++ lit ".parent", testCase ++ lit ".1st", testCase ++ lit ".2nd"]

theorem getFilenames_eq (d t : PyStr) :
    [(getFilenames d t).1, (getFilenames d t).2.1, (getFilenames d t).2.2] =
      (baseNames t).map (pathJoin d) := by
  unfold getFilenames baseNames
  cases dget tortureExceptions t with
  | none => rfl
  | some x => rfl

theorem dget_exceptions {t : PyStr} {x : PyStr × PyStr × PyStr}
    (h : dget tortureExceptions t = some x) : (t, x) ∈ tortureExceptions := by
  simp only [tortureExceptions, dget] at h ⊢
  repeat' split at h
  all_goals simp_all

theorem baseNames_cases (t : PyStr) :
    (baseNames t = [t ++ lit ".parent", t ++ lit ".1st", t ++ lit ".2nd"]) ∨
    ∃ a b c, (t, a, b, c) ∈ tortureExceptions ∧ baseNames t = [a, b, c] := by
  unfold baseNames
  cases h : dget tortureExceptions t with
  | none => exact Or.inl rfl
  | some x => exact Or.inr ⟨x.1, x.2.1, x.2.2, dget_exceptions h, rfl⟩

theorem ne_of_ends {a b x y : PyStr} (h : ∃ n, x.reverse.take n ≠ y.reverse.take n ∧
    n ≤ x.length ∧ n ≤ y.length) : a ++ x ≠ b ++ y := by
  obtain ⟨n, h, hx, hy⟩ := h
  intro e
  have := congrArg (fun l : PyStr => l.reverse.take n) e
  simp only [List.reverse_append] at this
  rw [List.take_append_of_le_length (by simpa using hx),
    List.take_append_of_le_length (by simpa using hy)] at this
  exact h this

theorem exception_end {t a b c s : PyStr} (h : (t, a, b, c) ∈ tortureExceptions)
    (hs : s ∈ [a, b, c]) : s.getLast? = some 99 ∨ s.getLast? = some 108 ∨ s.getLast? = some 104 := by
  revert s
  have : ∀ p ∈ tortureExceptions, ∀ s ∈ [p.2.1, p.2.2.1, p.2.2.2],
      s.getLast? = some 99 ∨ s.getLast? = some 108 ∨ s.getLast? = some 104 := by decide +kernel
  exact fun {s} => this _ h s

theorem exception_disjoint {t t' a b c a' b' c' s : PyStr} (h : (t, a, b, c) ∈ tortureExceptions)
    (h' : (t', a', b', c') ∈ tortureExceptions) (hs : s ∈ [a, b, c]) (hs' : s ∈ [a', b', c']) :
    t = t' := by
  have : ∀ p ∈ tortureExceptions, ∀ q ∈ tortureExceptions, ∀ s ∈ [p.2.1, p.2.2.1, p.2.2.2],
      s ∈ [q.2.1, q.2.2.1, q.2.2.2] → p.1 = q.1 := by decide +kernel
  exact this _ h _ h' s hs hs'

theorem regular_end {t s : PyStr} (hs : s ∈ [t ++ lit ".parent", t ++ lit ".1st", t ++ lit ".2nd"]) :
    s.getLast? = some 116 ∨ s.getLast? = some 100 := by
  simp only [List.mem_cons, List.not_mem_nil, or_false] at hs
  rcases hs with rfl | rfl | rfl <;> simp [lit, List.getLast?_append]

theorem baseNames_disjoint {t t' s : PyStr} (hs : s ∈ baseNames t) (hs' : s ∈ baseNames t') :
    t = t' := by
  rcases baseNames_cases t with e | ⟨a, b, c, h, e⟩ <;>
    rcases baseNames_cases t' with e' | ⟨a', b', c', h', e'⟩ <;> rw [e] at hs <;> rw [e'] at hs'
  · simp only [List.mem_cons, List.not_mem_nil, or_false] at hs hs'
    rcases hs with rfl | rfl | rfl <;> rcases hs' with k | k | k
    · exact List.append_cancel_right k
    · exact absurd k (ne_of_ends ⟨2, by decide⟩)
    · exact absurd k (ne_of_ends ⟨2, by decide⟩)
    · exact absurd k (ne_of_ends ⟨2, by decide⟩)
    · exact List.append_cancel_right k
    · exact absurd k (ne_of_ends ⟨2, by decide⟩)
    · exact absurd k (ne_of_ends ⟨2, by decide⟩)
    · exact absurd k (ne_of_ends ⟨2, by decide⟩)
    · exact List.append_cancel_right k
  · have k := regular_end hs
    have k' := exception_end h' hs'
    rcases k with k | k <;> rw [k] at k' <;> simp at k'
  · have k := regular_end hs'
    have k' := exception_end h hs
    rcases k with k | k <;> rw [k] at k' <;> simp at k'
  · exact exception_disjoint h h' hs hs'

theorem baseNames_nodup (t : PyStr) : (baseNames t).Nodup := by
  rcases baseNames_cases t with e | ⟨a, b, c, h, e⟩ <;> rw [e]
  · have h1 : t ++ lit ".parent" ≠ t ++ lit ".1st" := ne_of_ends ⟨2, by decide⟩
    have h2 : t ++ lit ".parent" ≠ t ++ lit ".2nd" := ne_of_ends ⟨2, by decide⟩
    have h3 : t ++ lit ".1st" ≠ t ++ lit ".2nd" := ne_of_ends ⟨2, by decide⟩
    simp only [List.nodup_cons, List.mem_cons, List.not_mem_nil, or_false, not_or, not_false_eq_true,
      List.nodup_nil, and_true]
    exact ⟨⟨h1, h2⟩, h3⟩
  · have : ∀ p ∈ tortureExceptions, [p.2.1, p.2.2.1, p.2.2.2].Nodup := by decide +kernel
    exact this _ h

theorem baseNames_relative {t s : PyStr} (ht : t.head? ≠ some 47) (hs : s ∈ baseNames t) :
    s.head? ≠ some 47 := by
  rcases baseNames_cases t with e | ⟨a, b, c, h, e⟩ <;> rw [e] at hs
  · cases t with
    | nil =>
      simp only [List.mem_cons, List.not_mem_nil, or_false] at hs
      rcases hs with rfl | rfl | rfl <;> decide
    | cons x t =>
      simp only [List.mem_cons, List.not_mem_nil, or_false] at hs
      rcases hs with rfl | rfl | rfl <;> simpa using ht
  · have : ∀ p ∈ tortureExceptions, ∀ s ∈ [p.2.1, p.2.2.1, p.2.2.2], s.head? ≠ some 47 := by
      decide +kernel
    exact this _ h s hs

/-- The three files of a test case. -/
def filesOf (directory testCase : PyStr) : List PyStr :=
  [(getFilenames directory testCase).1, (getFilenames directory testCase).2.1,
    (getFilenames directory testCase).2.2]

/-- C100. The torture test merges three different files, and no two test cases share a file. Test
cases that are absolute paths are left out: for them the directory is ignored. -/
theorem C100_torture (d : PyStr) {t t' : PyStr} (ht : t.head? ≠ some 47) (ht' : t'.head? ≠ some 47) :
    (filesOf d t).Nodup ∧ (t ≠ t' → ∀ s ∈ filesOf d t, s ∉ filesOf d t') := by
  unfold filesOf
  rw [getFilenames_eq, getFilenames_eq]
  refine ⟨?_, fun hne s hs hs' => hne ?_⟩
  · refine List.Pairwise.map _ (R := fun a b => a ≠ b ∧ a.head? ≠ some 47 ∧ b.head? ≠ some 47)
      (fun a b h e => h.1 (pathJoin_inj h.2.1 h.2.2 e)) ?_
    refine List.Pairwise.imp_of_mem (fun ha hb h => ⟨h, baseNames_relative ht ha,
      baseNames_relative ht hb⟩) (baseNames_nodup t)
  · obtain ⟨a, ha, rfl⟩ := List.mem_map.1 hs
    obtain ⟨b, hb, e⟩ := List.mem_map.1 hs'
    have := pathJoin_inj (baseNames_relative ht' hb) (baseNames_relative ht ha) e
    subst this
    exact baseNames_disjoint ha hb

/-- C100. `torture_cli` is a merge of these files; the middle one is the version merged into. -/
theorem C100_torture_merge (cls sp : Nat → Bool) (args : Args) (fs : FileSystem) (d t p i f : PyStr)
    (h : filesOf d t = [p, i, f]) :
    tortureCommand cls sp args fs d t = mergeCommand cls sp args fs p f i := by
  simp only [filesOf, List.cons.injEq, and_true] at h
  simp only [tortureCommand, mergeCommand, h.1, h.2.1, h.2.2]

/-- C100. For the test cases without names of their own, the merge is of `NAME.2nd` into
`NAME.1st`, with `NAME.parent` as the original. -/
theorem C100_torture_regular (cls sp : Nat → Bool) (args : Args) (fs : FileSystem) {d t : PyStr}
    (hd : d.getLast? ≠ some 47) (ht : t.head? ≠ some 47)
    (hn : t ∉ [cps "chunks", cps "ReleaseNotes", cps "Bug_ReporterApp"]) :
    tortureCommand cls sp args fs d t =
      mergeCommand cls sp args fs (d ++ cps "/" ++ t ++ cps ".parent")
        (d ++ cps "/" ++ t ++ cps ".2nd") (d ++ cps "/" ++ t ++ cps ".1st") := by
  refine C100_torture_merge cls sp args fs d t _ _ _ ?_
  have k : baseNames t = [t ++ lit ".parent", t ++ lit ".1st", t ++ lit ".2nd"] := by
    rcases baseNames_cases t with e | ⟨a, b, c, h, e⟩
    · exact e
    · have : ∀ p ∈ tortureExceptions, p.1 ∈ [cps "chunks", cps "ReleaseNotes", cps "Bug_ReporterApp"] := by
        decide +kernel
      exact absurd (this _ h) hn
  have j : ∀ s : PyStr, s ≠ [] → s.head? ≠ some 47 →
      pathJoin d (t ++ s) = d ++ cps "/" ++ t ++ s := by
    intro s hs h
    have : (t ++ s).head? ≠ some 47 := by
      cases t with
      | nil => simpa using h
      | cons x t => simpa using ht
    unfold pathJoin
    rw [if_neg this, if_neg hd]
    simp [cps]
  unfold filesOf
  rw [getFilenames_eq, k]
  simp only [List.map_cons, List.map_nil]
  rw [j _ (by decide) (by decide), j _ (by decide) (by decide), j _ (by decide) (by decide)]
  rfl

example : filesOf (cps "/g/test-cases") (cps "Misc.java") =
    [cps "/g/test-cases/Misc.java.parent", cps "/g/test-cases/Misc.java.1st",
      cps "/g/test-cases/Misc.java.2nd"] := by decide +kernel
example : filesOf (cps "/g/test-cases") (cps "chunks") =
    [cps "/g/test-cases/chunks_1_0.c", cps "/g/test-cases/chunks_1_1.c",
      cps "/g/test-cases/chunks_1_2.c"] := by decide +kernel
-- Absolute test cases can coincide with relative ones.
example : filesOf (cps "/g") (cps "/g/x") = filesOf (cps "/g") (cps "x") := by decide +kernel

/-! ### Examples -/

/-- The contents of a text file. -/
def fileOf (s : String) : Bytes := (utf8Encode (cps s)).getD []

/-- Three files, `p`, `c` and `o`, and one more name for `c`. -/
def sampleFiles (p c o : Bytes) : FileSystem where
  place name := if name = cps "p" then 0 else if name = cps "c" ∨ name = cps "./c" then 1
    else if name = cps "o" then 2 else 3
  data n := if n = 0 then some p else if n = 1 then some c else if n = 2 then some o else none

/-- C100, refuted: the output file is not safe if the command fails. `--strikeout` raises on every
deletion (C49), after the output file has been opened; with the original as output its contents
`ab` are gone. -/
theorem C100_lost :
    let fs := sampleFiles [97, 98, 10] [98, 10] []
    let r := diffCommand asciiWord pyIsSpace { output := some (cps "p"), strikeout := true } fs
      (cps "p") (cps "c")
    fs.data 0 = some [97, 98, 10] ∧ r.error = some (.raised .typeError) ∧ r.files.data 0 = some [] := by
  decide +kernel

-- A merge into the current version, under another name; the other files stay.
example :
    let fs := sampleFiles (fileOf "a\nb\nc\n") (fileOf "x\nb\nc\n") (fileOf "a\nb\ny\n")
    let args : Args := { output := some (cps "./c"), gitCompatible := true, lines := true }
    let r := mergeCommand asciiWord pyIsSpace args fs (cps "p") (cps "o") (cps "c")
    r.error = none ∧ r.files.data 1 = some (fileOf "x\nb\ny\n") ∧
      r.files.data 0 = fs.data 0 ∧ r.files.data 2 = fs.data 2 ∧ r.files.data 3 = none := by
  decide +kernel

-- The first file that cannot be read is reported, and the output file is not created.
example : (mergeCommand asciiWord pyIsSpace { output := some (cps "q") } (sampleFiles [97] [98] [99])
      (cps "p") (cps "q") (cps "c")).error = some (.cannotOpen (cps "q")) ∧
    (mergeCommand asciiWord pyIsSpace { output := some (cps "q") } (sampleFiles [97] [98] [99])
      (cps "p") (cps "q") (cps "c")).files.data 3 = none := by
  decide +kernel

end Gaspra
