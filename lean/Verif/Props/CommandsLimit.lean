import Verif.Proofs.CommandsLimit

set_option linter.unusedSectionVars false
set_option linter.unusedVariables false

/-!
# C126: what a `RecursionError` leaves of the output file

The output file is opened, and emptied, before a diff is computed.
-/

namespace Gaspra

/-- The command ended with a `RecursionError` without output: nothing on the console, and the output
file is empty whatever it contained before. -/
def LeavesNothing (args : Args) (fs : FileSystem) (r : Outcome) : Prop :=
  r.error = some (.raised .recursionError) ∧ r.console = [] ∧
  (args.output = none → r.files = fs) ∧
  ∀ out, args.output = some out →
    r.files.data (fs.place out) = some [] ∧ ChangedOnlyAt (fs.place out) fs r.files

/-- The command ended with a `RecursionError`, and what it has written is the beginning of what `u`
has written. -/
def Outcome.Begins (r u : Outcome) : Prop :=
  r.error = some (.raised .recursionError) ∧ r.console <+: u.console ∧
  r.files.place = u.files.place ∧
  ∀ n, r.files.data n = u.files.data n ∨
    ∃ d d', r.files.data n = some d ∧ u.files.data n = some d' ∧ d <+: d'

/-! ## From runs to outcomes -/

theorem writeStrings_prefix : ∀ {l l' : List PyStr}, l <+: l' →
    (∃ d e, writeStrings l = (d, some e) ∧ writeStrings l' = (d, some e)) ∨
    (∃ d, writeStrings l = (d, none) ∧ d <+: (writeStrings l').1)
  | [], _, _ => .inr ⟨[], rfl, List.nil_prefix⟩
  | s :: l, [], h => by simp at h
  | s :: l, s' :: l', h => by
    obtain ⟨rfl, h'⟩ := List.cons_prefix_cons.1 h
    simp only [writeStrings]
    cases he : utf8Encode s with
    | none => exact .inl ⟨[], .unicodeError, rfl, rfl⟩
    | some b =>
      rcases writeStrings_prefix h' with ⟨d, e, h1, h2⟩ | ⟨d, h1, h2⟩
      · exact .inl ⟨b ++ d, e, by simp [h1], by simp [h2]⟩
      · exact .inr ⟨b ++ d, by simp [h1], (List.prefix_append_right_inj b).2 h2⟩

theorem withWriter_congr {fs : FileSystem} {args : Args} {r u : Run} (h : r.2 = u.2) :
    withWriter fs args r = withWriter fs args u := by
  simp only [withWriter, writeRun, h]

theorem withWriter_cutOff {fs : FileSystem} {args : Args} {r u : Run} (h : CutOff r.2 u.2) :
    withWriter fs args r = withWriter fs args u ∨
      (withWriter fs args r).Begins (withWriter fs args u) := by
  obtain ⟨t, out, e⟩ := r
  obtain ⟨t', out', e'⟩ := u
  obtain ⟨h1, h2⟩ := h
  dsimp only at h1 h2
  subst h1
  unfold withWriter
  cases args.output with
  | none => exact .inr ⟨rfl, h2, rfl, fun n => .inl rfl⟩
  | some name =>
    dsimp only
    split
    · exact .inl rfl
    · rcases writeStrings_prefix h2 with ⟨d, e, h3, h4⟩ | ⟨d, h3, h4⟩
      · left
        simp only [writeRun, h3, h4]
      · right
        simp only [writeRun, h3]
        generalize writeStrings out' = w at h4
        obtain ⟨d', e''⟩ := w
        have key : ∀ x, (⟨fs.write name d, [], some (.raised .recursionError)⟩ : Outcome).Begins
            ⟨fs.write name d', [], x⟩ := by
          refine fun x => ⟨rfl, List.nil_prefix, rfl, fun n => ?_⟩
          by_cases hn : n = fs.place name
          · exact .inr ⟨d, d', by simp [FileSystem.write, hn], by simp [FileSystem.write, hn], h4⟩
          · exact .inl (by simp [FileSystem.write, hn])
        cases e'' <;> exact key _

theorem withWriter_fails {fs : FileSystem} {args : Args} {r : Run} (h : r.Fails)
    (hw : ∀ out, args.output = some out → fs.unwritable (fs.place out) = false) :
    LeavesNothing args fs (withWriter fs args r) := by
  obtain ⟨t, out, e⟩ := r
  cases h
  unfold withWriter
  cases ho : args.output with
  | none => exact ⟨rfl, rfl, fun _ => rfl, fun out h => by simp [ho] at h⟩
  | some name =>
    simp only [hw name ho, Bool.false_eq_true, if_false]
    refine ⟨rfl, rfl, fun h => by simp [ho] at h, fun out h => ?_⟩
    rw [ho] at h
    cases h
    exact ⟨by simp [FileSystem.write, writeRun, writeStrings], rfl,
      fun m hm => by simp [FileSystem.write, hm]⟩

section
variable {cls sp : Nat → Bool} {args : Args} {fs : FileSystem}

/-- C126. `gaspra-diff` is as without a limit, or leaves nothing; which of them depends only on how
deep the changeset of the pieces is. -/
theorem C126_diff {a b : PyStr} {x y : Bytes} (ha : fs.Holds a x) (hb : fs.Holds b y)
    (hw : ∀ out, args.output = some out → fs.unwritable (fs.place out) = false)
    {qa qb : List PyStr} (hqa : CliPieces cls args (readText x) qa)
    (hqb : CliPieces cls args (readText y) qb) {cs : Changeset PyStr}
    (h : findChangeset qa qb = some cs) (lim : Limits) :
    (cs.depth ≤ lim.diff → diffCommandLim lim cls sp args fs a b = diffCommand cls sp args fs a b) ∧
    (lim.diff < cs.depth → LeavesNothing args fs (diffCommandLim lim cls sp args fs a b)) := by
  have h1 := getText_ok (fs := fs) (names := [a, b]) (datas := [x, y]) (by simp [ha.read, hb.read])
  have key := diffCliLim_eq cls sp args lim {} a b hqa hqb h
  simp only [diffCommandLim, diffCommand, h1, List.map_cons, List.map_nil]
  constructor
  · intro hl
    rw [if_pos hl] at key
    rw [key]
  · intro hl
    rw [if_neg (by omega)] at key
    exact withWriter_fails key hw

/-- C126. `gaspra-merge` without `--diff` likewise. There is a second number: how deep the conflicts
are split; at most half of what the branches contain. If the parent is empty, it is the depth
of the changeset between the branches. -/
theorem C126_merge {p frm into : PyStr} {x y z : Bytes} (hp : fs.Holds p x)
    (hf : fs.Holds frm y) (hi : fs.Holds into z)
    (hw : ∀ out, args.output = some out → fs.unwritable (fs.place out) = false)
    {qp qf qi : List PyStr} (hqp : CliPieces cls args (readText x) qp)
    (hqf : CliPieces cls args (readText y) qf) (hqi : CliPieces cls args (readText z) qi)
    {cs0 cs1 : Changeset PyStr} (h0 : findChangeset qp qi = some cs0)
    (h1 : findChangeset qp qf = some cs1) :
    ∃ K, 2 * K ≤ qi.length + qf.length + 2 ∧
      (qp = [] → qi ≠ [] → qf ≠ [] → qi ≠ qf → ∀ cs, findChangeset qf qi = some cs → K = cs.depth) ∧
      ∀ lim : Limits,
        (args.diff = false →
          (cs0.depth ≤ lim.merge → cs1.depth ≤ lim.merge → K ≤ lim.conflict →
            mergeCommandLim lim cls sp args fs p frm into = mergeCommand cls sp args fs p frm into) ∧
          (lim.merge < cs0.depth ∨ lim.merge < cs1.depth ∨ lim.conflict < K →
            LeavesNothing args fs (mergeCommandLim lim cls sp args fs p frm into))) ∧
        (cs0.depth ≤ min lim.diff lim.merge → cs1.depth ≤ min lim.diff lim.merge → K ≤ lim.conflict →
          mergeCommandLim lim cls sp args fs p frm into = mergeCommand cls sp args fs p frm into) := by
  have ht := getText_ok (fs := fs) (names := [p, into, frm]) (datas := [x, z, y])
    (by simp [hp.read, hf.read, hi.read])
  obtain ⟨K, hK, hadd, _, _, _, _, _, _, key⟩ := mergeCliLim_eq cls sp args {} p into frm hqp hqi hqf h0 h1
  refine ⟨K, hK, hadd, fun lim => ?_⟩
  obtain ⟨_, k1, k2, _⟩ := key lim
  simp only [mergeCommandLim, mergeCommand, mergeNamed, ht, List.map_cons, List.map_nil]
  refine ⟨fun hd => ⟨fun l0 l1 l2 => ?_, fun hl => ?_⟩, fun l0 l1 l2 => ?_⟩
  · have := k1 hd
    rw [if_pos ⟨by omega, l2⟩] at this
    rw [this]
  · have := k1 hd
    rw [if_neg (by rintro ⟨a, b⟩; omega)] at this
    exact withWriter_fails this hw
  · rw [k2 ⟨by omega, by omega, l2⟩]

end

section
variable (lim : Limits) (cls sp : Nat → Bool) (args : Args) (fs : FileSystem)

theorem getText_cases : ∀ names : List PyStr,
    (∃ e, getText fs names = .error e) ∨
    ∃ datas : List Bytes, datas.length = names.length ∧ getText fs names = .ok (datas.map readText)
  | [] => .inr ⟨[], rfl, rfl⟩
  | name :: names => by
    cases hr : fs.read name with
    | none => exact .inl ⟨.cannotOpen name, by simp only [getText, hr]⟩
    | some data =>
      rcases getText_cases names with ⟨e, h⟩ | ⟨datas, h1, h2⟩
      · exact .inl ⟨e, by simp only [getText, hr, h]⟩
      · exact .inr ⟨data :: datas, by simp [h1], by simp only [getText, hr, h2, List.map_cons]⟩

/-- C126. For all files, arguments and limits: a command does what it does without a limit, or it ends
with a `RecursionError` and has written a beginning of that. -/
theorem C126_begins (a b c : PyStr) :
    (diffCommandLim lim cls sp args fs a b = diffCommand cls sp args fs a b ∨
      (diffCommandLim lim cls sp args fs a b).Begins (diffCommand cls sp args fs a b)) ∧
    (mergeCommandLim lim cls sp args fs a b c = mergeCommand cls sp args fs a b c ∨
      (mergeCommandLim lim cls sp args fs a b c).Begins (mergeCommand cls sp args fs a b c)) := by
  constructor
  · rcases getText_cases fs [a, b] with ⟨e, h⟩ | ⟨datas, h1, h2⟩
    · left; simp only [diffCommandLim, diffCommand, h]
    · obtain ⟨x, y, rfl⟩ : ∃ x y, datas = [x, y] := by
        match datas, h1 with
        | [x, y], _ => exact ⟨x, y, rfl⟩
      obtain ⟨qa, hqa, _⟩ := C73_pieces cls args x
      obtain ⟨qb, hqb, _⟩ := C73_pieces cls args y
      obtain ⟨cs, hcs, _⟩ := findChangeset_spec qa qb
      have key := diffCliLim_eq cls sp args lim {} a b hqa hqb hcs
      simp only [diffCommandLim, diffCommand, h2, List.map_cons, List.map_nil]
      split at key
      · left; rw [key]
      · exact withWriter_cutOff ⟨by rw [key], by rw [key]; exact List.nil_prefix⟩
  · rcases getText_cases fs [a, c, b] with ⟨e, h⟩ | ⟨datas, h1, h2⟩
    · left; simp only [mergeCommandLim, mergeCommand, mergeNamed, h]
    · obtain ⟨x, y, z, rfl⟩ : ∃ x y z, datas = [x, y, z] := by
        match datas, h1 with
        | [x, y, z], _ => exact ⟨x, y, z, rfl⟩
      obtain ⟨qa, hqa, _⟩ := C73_pieces cls args x
      obtain ⟨qb, hqb, _⟩ := C73_pieces cls args y
      obtain ⟨qc, hqc, _⟩ := C73_pieces cls args z
      obtain ⟨cs0, hcs0, _⟩ := findChangeset_spec qa qb
      obtain ⟨cs1, hcs1, _⟩ := findChangeset_spec qa qc
      obtain ⟨K, _, _, _, _, _, _, _, _, key⟩ := mergeCliLim_eq cls sp args {} a c b hqa hqb hqc hcs0 hcs1
      simp only [mergeCommandLim, mergeCommand, mergeNamed, h2, List.map_cons, List.map_nil]
      rcases (key lim).2.2.2 with h | h
      · left; exact withWriter_congr h
      · exact withWriter_cutOff h

end

section
variable {cls sp : Nat → Bool} {args : Args} {fs : FileSystem}

/-- C126. Enough is: more than the parent (the original) has pieces, and for the conflicts more than
half of what the branches have. -/
theorem C126_enough {p frm into : PyStr} {x y z : Bytes} (hp : fs.Holds p x)
    (hf : fs.Holds frm y) (hi : fs.Holds into z)
    {qp qf qi : List PyStr} (hqp : CliPieces cls args (readText x) qp)
    (hqf : CliPieces cls args (readText y) qf) (hqi : CliPieces cls args (readText z) qi)
    {lim : Limits} (hd : qp.length < lim.diff) :
    diffCommandLim lim cls sp args fs p into = diffCommand cls sp args fs p into ∧
    (qp.length < lim.merge → qi.length + qf.length + 2 ≤ 2 * lim.conflict →
      mergeCommandLim lim cls sp args fs p frm into = mergeCommand cls sp args fs p frm into) := by
  obtain ⟨cs0, hcs0, V0⟩ := findChangeset_spec qp qi
  obtain ⟨cs1, hcs1, V1⟩ := findChangeset_spec qp qf
  have d0 := V0.depth_le.1
  have d1 := V1.depth_le.1
  have t0 := getText_ok (fs := fs) (names := [p, into]) (datas := [x, z]) (by simp [hp.read, hi.read])
  have t1 := getText_ok (fs := fs) (names := [p, into, frm]) (datas := [x, z, y])
    (by simp [hp.read, hf.read, hi.read])
  constructor
  · have key := diffCliLim_eq cls sp args lim {} p into hqp hqi hcs0
    rw [if_pos (by omega)] at key
    simp only [diffCommandLim, diffCommand, t0, List.map_cons, List.map_nil, key]
  · intro hm hc
    obtain ⟨K, hK, _, _, _, _, _, _, _, key⟩ := mergeCliLim_eq cls sp args {} p into frm hqp hqi hqf hcs0 hcs1
    simp only [mergeCommandLim, mergeCommand, mergeNamed, t1, List.map_cons, List.map_nil,
      (key lim).2.2.1 ⟨by omega, by omega, by omega⟩]

/-- C126. The current version is lost: the merge is written to the current file, which is `ayay…` while
the parent is `axax…`, or which is `axax…` while the other branch is `ayay…` and there was no text
before. However high the limits are, for long enough texts the file is empty afterwards. -/
theorem C126_lost {p frm into out : PyStr} {x y z : Bytes} (hp : fs.Holds p x)
    (hf : fs.Holds frm y) (hi : fs.Holds into z) (hd : args.diff = false) (hws : args.words = false)
    (hl : args.lines = false) (ho : args.output = some out) (hs : fs.place out = fs.place into)
    (hw : fs.unwritable (fs.place out) = false) {a b c n : Nat} (hba : b ≠ a) (hca : c ≠ a)
    (hbc : b ≠ c) (hn : 0 < n) (lim : Limits)
    (h : (readText x = (List.replicate n [a, b]).flatten ∧ readText z = (List.replicate n [a, c]).flatten ∧
        lim.merge ≤ n) ∨
      (readText x = [] ∧ readText z = (List.replicate n [a, b]).flatten ∧
        readText y = (List.replicate n [a, c]).flatten ∧ lim.conflict ≤ n)) :
    (mergeCommandLim lim cls sp args fs p frm into).error = some (.raised .recursionError) ∧
    (mergeCommandLim lim cls sp args fs p frm into).files.data (fs.place into) = some [] := by
  have hw' : ∀ o, args.output = some o → fs.unwritable (fs.place o) = false := by
    intro o h
    rw [ho] at h
    cases h
    exact hw
  have pieces : ∀ data, CliPieces cls args (readText data) ((readText data).map ([·])) := by
    intro data
    unfold CliPieces
    simp only [hws, hl, Bool.false_eq_true, if_false, true_and]
    exact fun c hc => isScalar_lt ((C72_read_valid data).1 c hc)
  have comb : ∀ u v n, ((List.replicate n [u, v]).flatten).map ([·]) =
      (List.replicate n [([u] : PyStr), [v]]).flatten := by
    intro u v n
    induction n with
    | zero => rfl
    | succ n ih => simp [List.replicate_succ, ih]
  have deep : ∀ {u v w n : Nat} {cs : Changeset PyStr}, v ≠ u → w ≠ u → v ≠ w →
      findChangeset (((List.replicate n [u, v]).flatten).map ([·]))
        (((List.replicate n [u, w]).flatten).map ([·])) = some cs → n < cs.depth := by
    intro u v w n cs e1 e2 e3 h
    have hd := C61_recursion_deep (α := PyStr) [u] [v] [w] (by simpa using e1) (by simpa using e2)
      (by simpa using e3) n n (Nat.le_refl _)
    rw [comb, comb] at h
    rw [findChangesetAux_limit _ _ _ _ _ _ h n] at hd
    by_cases hc : cs.depth ≤ n
    · simp [hc] at hd
    · omega
  obtain ⟨cs0, hcs0, _⟩ := findChangeset_spec ((readText x).map ([·])) ((readText z).map ([·]))
  obtain ⟨cs1, hcs1, _⟩ := findChangeset_spec ((readText x).map ([·])) ((readText y).map ([·]))
  obtain ⟨K, _, hadd, key⟩ := C126_merge (sp := sp) hp hf hi hw' (pieces x) (pieces y) (pieces z) hcs0 hcs1
  have fin : LeavesNothing args fs (mergeCommandLim lim cls sp args fs p frm into) := by
    refine ((key lim).1 hd).2 ?_
    rcases h with ⟨h1, h2, h3⟩ | ⟨h1, h2, h3, h4⟩
    · rw [h1, h2] at hcs0
      have := deep hba hca hbc hcs0
      omega
    · obtain ⟨cs, hcs, _⟩ := findChangeset_spec ((readText y).map ([·])) ((readText z).map ([·]))
      have hk := hadd (by rw [h1]; rfl) (by
          rw [h2]
          obtain ⟨m, rfl⟩ : ∃ m, n = m + 1 := ⟨n - 1, by omega⟩
          simp [List.replicate_succ]) (by
          rw [h3]
          obtain ⟨m, rfl⟩ : ∃ m, n = m + 1 := ⟨n - 1, by omega⟩
          simp [List.replicate_succ]) (by
          rw [h2, h3]
          obtain ⟨m, rfl⟩ : ∃ m, n = m + 1 := ⟨n - 1, by omega⟩
          simp [List.replicate_succ, hbc]) cs hcs
      rw [h2, h3] at hcs
      have := deep hca hba (Ne.symm hbc) hcs
      omega
  refine ⟨fin.1, ?_⟩
  rw [← hs]
  exact (fin.2.2.2 out ho).1

end

/-- C126. Where the output of `gaspra-merge --diff` stops, provided the merge does not fail for other
reasons: behind the header of the first part whose diff is nested too deeply, or between the diffs and
the merge. -/
theorem C126_stops (cls sp : Nat → Bool) {args : Args} (hd : args.diff = true) (pn cn on : PyStr)
    {x y z : Bytes} {qp qc qo : List PyStr} (hp : CliPieces cls args (readText x) qp)
    (hc : CliPieces cls args (readText y) qc) (ho : CliPieces cls args (readText z) qo)
    {cs0 cs1 : Changeset PyStr} (h0 : findChangeset qp qc = some cs0)
    (h1 : findChangeset qp qo = some cs1)
    (hn : (mergeCli cls sp args {} pn cn on (readText x) (readText y) (readText z)).2.2 = none) :
    ∃ K ha a hb b hm m, 2 * K ≤ qc.length + qo.length + 2 ∧
      (qp = [] → qc ≠ [] → qo ≠ [] → qc ≠ qo → ∀ cs, findChangeset qo qc = some cs → K = cs.depth) ∧
      ha <+: a ∧ hb <+: b ∧ hm <+: m ∧
      (mergeCli cls sp args {} pn cn on (readText x) (readText y) (readText z)).2.1 = a ++ b ++ m ∧
      (∀ style, (style = (getMarkupStyle args true {}).2.1 →
          (basename cn ≠ [] → ha = [showHeader style (basename cn)]) ∧
          (basename on ≠ [] → hb = [showHeader style (basename on)])) ∧
        (style = (getMarkupStyle args false (getMarkupStyle args true {}).1).2.1 →
          hm = [showHeader style (lit "Merged")])) ∧
      ∀ lim : Limits,
        (mergeCliLim lim cls sp args {} pn cn on (readText x) (readText y) (readText z)).2 =
          if lim.diff < cs0.depth then (ha, some .recursionError)
          else if lim.diff < cs1.depth then (a ++ hb, some .recursionError)
          else if lim.merge < max cs0.depth cs1.depth then (a ++ b, some .recursionError)
          else if lim.conflict < K then (a ++ b ++ hm, some .recursionError)
          else (a ++ b ++ m, none) := by
  obtain ⟨K, hK, hadd, a, b, m, p1, p2, p3, key⟩ := mergeCliLim_eq cls sp args {} pn cn on hp hc ho h0 h1
  refine ⟨K, _, a, _, b, _, m, hK, hadd, p1, p2, p3, ((key ⟨0, 0, 0⟩).1 hd hn).1, ?_,
    fun lim => ((key lim).1 hd hn).2⟩
  intro style
  refine ⟨?_, ?_⟩
  · rintro rfl
    exact ⟨fun h => by simp [headerLine, h], fun h => by simp [headerLine, h]⟩
  · rintro rfl
    rfl

-- The parent is `axaxax`, the current version `ayayay`, the other branch unchanged. With three nested
-- calls the current file is emptied, with four it is as it should be.
example :
    let fs := sampleFiles (fileOf "axaxax") (fileOf "ayayay") (fileOf "axaxax")
    let args : Args := { output := some (cps "c") }
    let r (n : Nat) := mergeCommandLim ⟨n, n, n⟩ asciiWord pyIsSpace args fs (cps "p") (cps "o") (cps "c")
    (r 3).error = some (.raised .recursionError) ∧ (r 3).files.data 1 = some [] ∧
      (r 4).error = none ∧ (r 4).files.data 1 = some (fileOf "ayayay") := by
  decide +kernel

-- With `--diff` the beginning is written: here the diff of the current version and the header of the
-- next one.
example :
    let fs := sampleFiles (fileOf "axax") (fileOf "axa") (fileOf "ayay")
    let args : Args := { output := some (cps "q"), diff := true }
    let r := mergeCommandLim ⟨2, 9, 9⟩ asciiWord pyIsSpace args fs (cps "p") (cps "o") (cps "c")
    let u := mergeCommand asciiWord pyIsSpace args fs (cps "p") (cps "o") (cps "c")
    r.error = some (.raised .recursionError) ∧ u.error = none ∧
      0 < ((r.files.data 3).getD []).length ∧
      ((r.files.data 3).getD []).length < ((u.files.data 3).getD []).length ∧
      ((r.files.data 3).getD []).isPrefixOf ((u.files.data 3).getD []) = true := by
  decide +kernel

-- Both branches are new; the first changesets are flat, the conflict is not.
example :
    let fs := sampleFiles [] (fileOf "axax") (fileOf "ayay")
    let args : Args := { output := some (cps "c") }
    let r (n : Nat) := mergeCommandLim ⟨1, 1, n⟩ asciiWord pyIsSpace args fs (cps "p") (cps "o") (cps "c")
    (r 2).error = some (.raised .recursionError) ∧ (r 2).files.data 1 = some [] ∧ (r 3).error = none := by
  decide +kernel

-- `gaspra-diff`
example :
    let fs := sampleFiles (fileOf "axax") (fileOf "ayay") []
    let args : Args := { output := some (cps "p") }
    let r (n : Nat) := diffCommandLim ⟨n, 0, 0⟩ asciiWord pyIsSpace args fs (cps "p") (cps "c")
    (r 2).error = some (.raised .recursionError) ∧ (r 2).files.data 0 = some [] ∧ (r 3).error = none ∧
      (r 3).files.data 0 ≠ some [] := by
  decide +kernel

end Gaspra
