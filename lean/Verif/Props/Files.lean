import Verif.Model.Files
import Verif.Props.CliDiff

set_option linter.unusedSectionVars false
set_option linter.unusedSimpArgs false
set_option linter.unusedVariables false

/-!
# C72, C73: from files to files
-/

namespace Gaspra

/-! ### C72 -/

theorem universalNewlines_cons {c : Nat} (h : c ≠ 13) (s : PyStr) :
    universalNewlines (c :: s) = c :: universalNewlines s := by
  rw [universalNewlines.eq_3 _ _ (by intro r e; exact absurd e h), if_neg h]

theorem universalNewlines_mem : ∀ (s : PyStr), ∀ c ∈ universalNewlines s, c ≠ 13 ∧ (c ∈ s ∨ c = 10)
  | [], c, h => by simp [universalNewlines] at h
  | [a], c, h => by
    rw [universalNewlines.eq_3 _ _ (by intro r _ e; simp at e)] at h
    simp only [universalNewlines, List.mem_singleton] at h
    split at h
    · subst h; exact ⟨by decide, .inr rfl⟩
    · next ha => subst h; exact ⟨ha, .inl (by simp)⟩
  | a :: b :: s, c, h => by
    by_cases hab : a = 13 ∧ b = 10
    · obtain ⟨rfl, rfl⟩ := hab
      rw [universalNewlines] at h
      rcases List.mem_cons.1 h with rfl | h
      · exact ⟨by decide, .inr rfl⟩
      · obtain ⟨h1, h2⟩ := universalNewlines_mem s c h
        refine ⟨h1, ?_⟩
        rcases h2 with h2 | h2
        · exact .inl (by simp [h2])
        · exact .inr h2
    · rw [universalNewlines.eq_3 _ _ (by intro r e1 e2; simp at e2; exact hab ⟨e1, e2.1⟩)] at h
      rcases List.mem_cons.1 h with h | h
      · split at h
        · subst h; exact ⟨by decide, .inr rfl⟩
        · next ha => subst h; exact ⟨ha, .inl (by simp)⟩
      · obtain ⟨h1, h2⟩ := universalNewlines_mem (b :: s) c h
        refine ⟨h1, ?_⟩
        rcases h2 with h2 | h2
        · exact .inl (List.mem_cons_of_mem _ h2)
        · exact .inr h2

theorem universalNewlines_id : ∀ (s : PyStr), 13 ∉ s → universalNewlines s = s
  | [], _ => rfl
  | c :: s, h => by
    rw [universalNewlines_cons (fun e => h (by simp [e])), universalNewlines_id s fun e => h (by simp [e])]

/-- A text with `"\r\n"` at the end of every line. -/
def withCrlf (s : PyStr) : PyStr := s.flatMap fun c => if c = 10 then [13, 10] else [c]

theorem universalNewlines_crlf : ∀ (s : PyStr), 13 ∉ s → universalNewlines (withCrlf s) = s
  | [], _ => rfl
  | c :: s, h => by
    have ih := universalNewlines_crlf s fun e => h (by simp [e])
    by_cases hc : c = 10
    · subst hc
      show universalNewlines (13 :: 10 :: withCrlf s) = _
      rw [universalNewlines, ih]
    · show universalNewlines ((if c = 10 then [13, 10] else [c]) ++ withCrlf s) = _
      rw [if_neg hc, List.singleton_append, universalNewlines_cons (fun e => h (by simp [e])), ih]

/-- C72.  Every file can be read.  The text contains no surrogates and no carriage returns. -/
theorem C72_read_valid (data : Bytes) :
    (∀ c ∈ readText data, isScalar c = true) ∧ 13 ∉ readText data := by
  unfold readText
  have key : ∀ s : PyStr, (∀ c ∈ s, isScalar c = true) →
      (∀ c ∈ universalNewlines s, isScalar c = true) ∧ 13 ∉ universalNewlines s := by
    intro s hs
    refine ⟨fun c hc => ?_, fun h => (universalNewlines_mem s 13 h).1 rfl⟩
    rcases (universalNewlines_mem s c hc).2 with h | rfl
    · exact hs c h
    · rfl
  cases h : utf8Decode data with
  | some s => exact key s (utf8Encode_isSome.1 ⟨data, utf8_iff.1 h⟩)
  | none =>
    refine key _ fun c hc => ?_
    obtain ⟨b, _, rfl⟩ := List.mem_map.1 hc
    have := b.toNat_lt
    rw [isScalar_iff]
    left
    omega

/-- C72.  UTF-8 text without carriage returns is read as it is, and so is the same text with
`"\r\n"` at the end of the lines: the kind of newlines is lost. -/
theorem C72_read_utf8 {s : PyStr} {data : Bytes} (hs : 13 ∉ s) :
    (utf8Encode s = some data → readText data = s) ∧
    (utf8Encode (withCrlf s) = some data → readText data = s) := by
  refine ⟨fun h => ?_, fun h => ?_⟩
  · unfold readText
    rw [utf8_iff.2 h]
    exact universalNewlines_id s hs
  · unfold readText
    rw [utf8_iff.2 h]
    exact universalNewlines_crlf s hs

/-- C72.  What is not UTF-8 is read as Latin-1. -/
theorem C72_read_latin1 {data : Bytes} (h : ¬ ∃ s, utf8Encode s = some data) (hr : 13 ∉ data) :
    readText data = data.map UInt8.toNat := by
  unfold readText
  cases hd : utf8Decode data with
  | some s => exact absurd ⟨s, utf8_iff.1 hd⟩ h
  | none =>
    refine universalNewlines_id _ fun hm => hr ?_
    obtain ⟨b, hb, e⟩ := List.mem_map.1 hm
    have : b = 13 := UInt8.toNat_inj.1 e
    exact this ▸ hb

theorem universalNewlines_line : ∀ (l : PyStr) (s : PyStr), 13 ∉ l →
    universalNewlines (l ++ s) = l ++ universalNewlines s
  | [], s, _ => rfl
  | c :: l, s, h => by
    rw [List.cons_append, universalNewlines_cons (fun e => h (by simp [e])),
      universalNewlines_line l s fun e => h (by simp [e])]
    rfl

theorem universalNewlines_cr {s : PyStr} (h : s.head? ≠ some 10) :
    universalNewlines (13 :: s) = 10 :: universalNewlines s := by
  rw [universalNewlines.eq_3 _ _ (by intro r _ e; subst e; simp at h)]
  rfl

theorem universalNewlines_lines : ∀ (lines : List (PyStr × PyStr)) (last : PyStr),
    (∀ p ∈ lines, 10 ∉ p.1 ∧ 13 ∉ p.1 ∧ (p.2 = [10] ∨ p.2 = [13] ∨ p.2 = [13, 10])) →
    10 ∉ last → 13 ∉ last →
    (∀ before l after, lines ≠ before ++ (l, [13]) :: ([], [10]) :: after) →
    universalNewlines (lines.flatMap (fun p => p.1 ++ p.2) ++ last) =
      lines.flatMap (fun p => p.1 ++ [10]) ++ last
  | [], last, _, _, h13, _ => by simpa using universalNewlines_id last h13
  | (l, e) :: lines, last, h, h10, h13, hno => by
    have ih := universalNewlines_lines lines last (fun p hp => h p (by simp [hp])) h10 h13
      (fun b l' a he => hno ((l, e) :: b) l' a (by rw [he]; rfl))
    obtain ⟨g1, g2, g3⟩ := h (l, e) (by simp)
    simp only [List.flatMap_cons, List.append_assoc]
    rw [universalNewlines_line l _ g2]
    congr 1
    rcases g3 with rfl | rfl | rfl
    · show universalNewlines (10 :: (List.flatMap (fun p => p.1 ++ p.2) lines ++ last)) = _
      rw [universalNewlines_cons (by decide), ih]; rfl
    · show universalNewlines (13 :: (List.flatMap (fun p => p.1 ++ p.2) lines ++ last)) = _
      rw [universalNewlines_cr, ih]
      · rfl
      · rcases lines with _ | ⟨⟨_ | ⟨c, l'⟩, e'⟩, lines⟩
        · cases last with
          | nil => simp
          | cons c last => simp only [List.flatMap_nil, List.nil_append, List.head?_cons, ne_eq,
              Option.some.injEq]; rintro rfl; exact h10 (by simp)
        · obtain ⟨_, _, g⟩ := h ([], e') (by simp)
          rcases g with g | g | g
          · simp only at g; subst g; exact absurd rfl (hno [] l lines)
          · simp only at g; subst g; simp
          · simp only at g; subst g; simp
        · obtain ⟨g, _, _⟩ := h (c :: l', e') (by simp)
          simp only [List.flatMap_cons, List.cons_append, List.head?_cons, ne_eq, Option.some.injEq]
          rintro rfl
          exact g (by simp)
    · show universalNewlines (13 :: 10 :: (List.flatMap (fun p => p.1 ++ p.2) lines ++ last)) = _
      rw [universalNewlines, ih]; rfl

/-- C72.  Lines may end in `"\n"`, `"\r"` or `"\r\n"`, also mixed; each of these is read as one `"\n"`,
from UTF-8 and from Latin-1.  (`"\r"` followed by an empty line that ends in `"\n"` would be `"\r\n"`.) -/
theorem C72_line_ends (lines : List (PyStr × PyStr)) (last : PyStr) (data : Bytes)
    (h : ∀ p ∈ lines, 10 ∉ p.1 ∧ 13 ∉ p.1 ∧ (p.2 = [10] ∨ p.2 = [13] ∨ p.2 = [13, 10]))
    (h10 : 10 ∉ last) (h13 : 13 ∉ last)
    (hno : ∀ before l after, lines ≠ before ++ (l, [13]) :: ([], [10]) :: after) :
    (utf8Encode (lines.flatMap (fun p => p.1 ++ p.2) ++ last) = some data →
      readText data = lines.flatMap (fun p => p.1 ++ [10]) ++ last) ∧
    ((¬ ∃ s, utf8Encode s = some data) →
      data.map UInt8.toNat = lines.flatMap (fun p => p.1 ++ p.2) ++ last →
      readText data = lines.flatMap (fun p => p.1 ++ [10]) ++ last) := by
  have key := universalNewlines_lines lines last h h10 h13 hno
  refine ⟨fun hd => ?_, fun hn hd => ?_⟩
  · unfold readText
    rw [utf8_iff.2 hd]
    exact key
  · unfold readText
    cases he : utf8Decode data with
    | some s => exact absurd ⟨s, utf8_iff.1 he⟩ hn
    | none => simp only [latin1Decode]; rw [hd]; exact key

example : readText [97, 13, 98, 13, 10, 13, 99, 10, 100] =
    [([97], [13]), ([98], [13, 10]), ([], [13]), ([99], [10])].flatMap (fun p => p.1 ++ [10]) ++ [100] := by
  decide
example : readText [0xE9, 13, 13, 98] = [0xE9, 10, 10, 98] := by decide
example : readText [97, 13, 10, 98, 13, 99, 10] = cps "a\nb\nc\n" := by decide
example : readText [0xC3, 0xA9, 0x20] = cps "é " ∧ readText [0xE9, 0x20] = cps "é " := by decide
example : utf8Encode (withCrlf (cps "a\nb")) = some [97, 13, 10, 98] := by decide

/-! ### C73 -/

theorem writeStrings_ok : ∀ {out : List PyStr}, (∀ c ∈ out.flatten, isScalar c = true) →
    ∃ w, writeStrings out = (w, none) ∧ utf8Encode out.flatten = some w
  | [], _ => ⟨[], rfl, rfl⟩
  | s :: out, h => by
    obtain ⟨b, hb⟩ := utf8Encode_isSome.2 fun c (hc : c ∈ s) => h c (by simp [hc])
    obtain ⟨w, h1, h2⟩ := writeStrings_ok (out := out) fun c hc =>
      h c (by simp only [List.flatten_cons, List.mem_append]; exact .inr hc)
    refine ⟨b ++ w, ?_, ?_⟩
    · simp only [writeStrings, hb, h1]
    · rw [List.flatten_cons, utf8Encode_append]
      exact ⟨b, w, hb, h2, rfl⟩

theorem GitOutput.flat {n1 n2 : PyStr} {out : List PyStr} {first second : PyStr}
    (h : GitOutput n1 n2 out first second) : GitOutput n1 n2 [out.flatten] first second := by
  have e : [out.flatten].flatten = out.flatten := by simp
  exact ⟨by rw [e]; exact h.whole, by rw [e]; exact h.resolved, by rw [e]; exact h.chars⟩

/-- The run writes a text with git markers. -/
theorem writeRun_git {n1 n2 : PyStr} {out : List PyStr} {first second : PyStr} {t : Tables}
    (h : GitOutput n1 n2 out first second) (h1 : ∀ c ∈ n1, isScalar c = true)
    (h2 : ∀ c ∈ n2, isScalar c = true) (hf : ∀ c ∈ first, isScalar c = true)
    (hs : ∀ c ∈ second, isScalar c = true) :
    ∃ w text, writeRun (t, out, none) = (w, none) ∧ utf8Encode text = some w ∧
      GitOutput n1 n2 [text] first second := by
  obtain ⟨w, w1, w2⟩ := writeStrings_ok (out := out) fun c hc => by
    rcases h.chars c hc with h | h | h | h | h
    · exact hf c h
    · exact hs c h
    · exact h1 c h
    · exact h2 c h
    · exact (by decide : ∀ c ∈ lit "<=> \n", isScalar c = true) c h
  refine ⟨w, out.flatten, ?_, w2, h.flat⟩
  simp only [writeRun, w1]

theorem writeStrings_split : ∀ (out : List PyStr),
    (∃ w, writeStrings out = (w, none) ∧ utf8Encode out.flatten = some w) ∨
    (∃ before s after w, out = before ++ s :: after ∧ writeStrings out = (w, some .unicodeError) ∧
      utf8Encode before.flatten = some w ∧ utf8Encode s = none)
  | [] => .inl ⟨[], rfl, rfl⟩
  | s :: out => by
    cases hs : utf8Encode s with
    | none => exact .inr ⟨[], s, out, [], rfl, by simp only [writeStrings, hs], rfl, hs⟩
    | some b =>
      rcases writeStrings_split out with ⟨w, h1, h2⟩ | ⟨before, s', after, w, rfl, h1, h2, h3⟩
      · refine .inl ⟨b ++ w, by simp only [writeStrings, hs, h1], ?_⟩
        rw [List.flatten_cons, utf8Encode_append]
        exact ⟨b, w, hs, h2, rfl⟩
      · refine .inr ⟨s :: before, s', after, b ++ w, rfl, by simp only [writeStrings, hs, h1], ?_, h3⟩
        rw [List.flatten_cons, utf8Encode_append]
        exact ⟨b, w, hs, h2, rfl⟩

/-- What is in the file after a run that has produced the strings `out` and ended with `e`: all of them
if they can be encoded, otherwise those in front of the first one that cannot. -/
def InFile (out : List PyStr) (e : Option PyErr) (file : Bytes × Option PyErr) : Prop :=
  (utf8Encode out.flatten = some file.1 ∧ file.2 = e) ∨
  (∃ before s after, out = before ++ s :: after ∧ utf8Encode before.flatten = some file.1 ∧
    utf8Encode s = none ∧ file.2 = some .unicodeError)

theorem writeRun_inFile (r : Run) : InFile r.2.1 r.2.2 (writeRun r) := by
  rcases writeStrings_split r.2.1 with ⟨w, h1, h2⟩ | ⟨before, s, after, w, h0, h1, h2, h3⟩
  · left; simp only [writeRun, h1]; exact ⟨h2, trivial⟩
  · right; simp only [writeRun, h1]; exact ⟨before, s, after, h0, h2, h3, trivial⟩

/-- C73.  Whatever the arguments are, the output file has the strings that the tool produces, encoded, and
the tool ends as it ends without a file, except that a string that cannot be encoded ends it. -/
theorem C73_written (cls sp : Nat → Bool) (args : Args) (pn on mn : PyStr) (parent original modified : Bytes) :
    (∃ r, diffCli cls sp args {} on mn (readText original) (readText modified) = r ∧
      InFile r.2.1 r.2.2 (diffFiles cls sp args on mn original modified)) ∧
    (∃ r, mergeCli cls sp args {} pn on mn (readText parent) (readText original) (readText modified) = r ∧
      InFile r.2.1 r.2.2 (mergeFiles cls sp args pn on mn parent original modified)) :=
  ⟨⟨_, rfl, writeRun_inFile _⟩, ⟨_, rfl, writeRun_inFile _⟩⟩

/-- There is exactly one way to cut a text into pieces. -/
theorem C73_pieces (cls : Nat → Bool) (args : Args) (data : Bytes) :
    ∃ qs, CliPieces cls args (readText data) qs ∧
      ∀ qs', CliPieces cls args (readText data) qs' → qs' = qs := by
  unfold CliPieces
  split
  · exact ⟨_, symbols_spec cls _, fun qs' h => C39_symbols_unique h (symbols_spec cls _)⟩
  · split
    · exact ⟨_, isLinesOf nl _, fun qs' h => C39_lines_unique h (isLinesOf nl _)⟩
    · exact ⟨_, ⟨rfl, fun c hc => isScalar_lt ((C72_read_valid data).1 c hc)⟩, fun qs' h => h.1⟩

theorem nl_scalar {e : PyStr} (h : e = [] ∨ e = [nl]) : ∀ c ∈ e, isScalar c = true := by
  rcases h with rfl | rfl
  · intro c hc; simp at hc
  · decide

/-- C73.  `gaspra-diff` with git markers from files to a file, for any contents of the files: it
never raises and writes UTF-8; choosing the first (second) side of every conflict gives the text of
the modified (original) file, followed by one newline at most. -/
theorem C73_diff_files (cls sp : Nat → Bool) {args : Args} (h : args.GitFile) {on mn : PyStr}
    (hon : ∀ c ∈ basename on, isScalar c = true) (hmn : ∀ c ∈ basename mn, isScalar c = true)
    (original modified : Bytes) :
    ∃ w text e, diffFiles cls sp args on mn original modified = (w, none) ∧
      utf8Encode text = some w ∧ (e = [] ∨ e = [nl]) ∧
      GitOutput (basename mn) (basename on) [text] (readText modified ++ e) (readText original ++ e) := by
  have valid : ∀ data, ValidStr (readText data) := fun data c hc =>
    isScalar_lt ((C72_read_valid data).1 c hc)
  obtain ⟨out, e, h1, h2, h3, h4⟩ := C59_diff_file cls sp h on mn (valid original) (valid modified)
  have sc : ∀ data, ∀ c ∈ readText data ++ e, isScalar c = true := by
    intro data c hc
    rcases List.mem_append.1 hc with hc | hc
    · exact (C72_read_valid data).1 c hc
    · exact nl_scalar h1 c hc
  obtain ⟨w, text, w1, w2, w3⟩ := writeRun_git (t := {}) h4 hmn hon (sc modified) (sc original)
  exact ⟨w, text, e, by rw [diffFiles, h2, w1], w2, h1, w3⟩

theorem merge_joined_mem {cls : Nat → Bool} {args : Args} {p c o : PyStr} {qp qc qo : List PyStr}
    (hc : CliPieces cls args c qc) (ho : CliPieces cls args o qo)
    {d : List (DiffItem PyStr)} (h : mergeTokenSequence .tuple qp qc qo = .ok d) :
    ∀ x, x ∈ intoText (d.map DiffItem.joined) ∨ x ∈ fromText (d.map DiffItem.joined) → x ∈ c ∨ x ∈ o := by
  obtain ⟨d0, d0h, _⟩ := C12_diff_normal_form qp qc
  obtain ⟨d1, d1h, _⟩ := C12_diff_normal_form qp qo
  have ht := (C19_tokens h d0h d1h).1
  intro x hx
  rw [into_joined, from_joined] at hx
  have : ∃ y ∈ d, ∃ q ∈ y.tokens, x ∈ q := by
    rcases hx with hx | hx
    · obtain ⟨q, hq, hx⟩ := List.mem_flatten.1 hx
      obtain ⟨y, hy, hq⟩ := List.mem_flatMap.1 hq
      refine ⟨y, hy, q, ?_, hx⟩
      cases y <;> simp_all [DiffItem.tokens]
    · obtain ⟨q, hq, hx⟩ := List.mem_flatten.1 hx
      obtain ⟨y, hy, hq⟩ := List.mem_flatMap.1 hq
      refine ⟨y, hy, q, ?_, hx⟩
      cases y <;> simp_all [DiffItem.tokens]
  obtain ⟨y, hy, q, hq, hx⟩ := this
  rcases ht q ⟨y, hy, hq⟩ with h | h
  · left; rw [← hc.flatten]; exact List.mem_flatten.2 ⟨q, h, hx⟩
  · right; rw [← ho.flatten]; exact List.mem_flatten.2 ⟨q, h, hx⟩

/-- C73.  `gaspra-merge` with git markers from files to a file, for any contents of the files: it
never raises and writes UTF-8; choosing the first (second) side of every conflict gives the first
(second) text of the merge of the pieces, followed by one newline at most. -/
theorem C73_merge_files (cls sp : Nat → Bool) {args : Args} (h : args.GitFile) (hd : args.diff = false)
    (pn : PyStr) {cn on : PyStr} (hcn : ∀ c ∈ basename cn, isScalar c = true)
    (hon : ∀ c ∈ basename on, isScalar c = true) {parent current other : Bytes} {qp qc qo : List PyStr}
    (hp : CliPieces cls args (readText parent) qp) (hc : CliPieces cls args (readText current) qc)
    (ho : CliPieces cls args (readText other) qo) :
    ∃ d w text e, mergeTokenSequence .tuple qp qc qo = .ok d ∧
      mergeFiles cls sp args pn cn on parent current other = (w, none) ∧
      utf8Encode text = some w ∧ (e = [] ∨ e = [nl]) ∧
      GitOutput (basename cn) (basename on) [text] (intoText (d.map DiffItem.joined) ++ e)
        (fromText (d.map DiffItem.joined) ++ e) := by
  obtain ⟨d, out, e, h1, h2, h3, h4, h5⟩ := C67_merge_file cls sp h hd pn cn on hp hc ho
  have mem := merge_joined_mem (p := readText parent) hc ho h1
  have sc : ∀ x, x ∈ intoText (d.map DiffItem.joined) ∨ x ∈ fromText (d.map DiffItem.joined) →
      isScalar x = true := by
    intro x hx
    rcases mem x hx with h | h
    · exact (C72_read_valid current).1 x h
    · exact (C72_read_valid other).1 x h
  obtain ⟨w, text, w1, w2, w3⟩ := writeRun_git (t := {}) h5 hcn hon
    (by
      intro x hx
      rcases List.mem_append.1 hx with hx | hx
      · exact sc x (.inl hx)
      · exact nl_scalar h2 x hx)
    (by
      intro x hx
      rcases List.mem_append.1 hx with hx | hx
      · exact sc x (.inr hx)
      · exact nl_scalar h2 x hx)
  exact ⟨d, w, text, e, h1, by rw [mergeFiles, h3, w1], w2, h2, w3⟩

/-- C73.  If one branch is the parent, or both branches are equal, and the other (or common) branch
is a UTF-8 file without carriage returns that is empty or ends in a newline, exactly its bytes are
written. -/
theorem C73_unchanged_files (cls sp : Nat → Bool) {args : Args} (h : args.GitFile) (hd : args.diff = false)
    (pn cn on : PyStr) {p c o r : Bytes} (hr : (c = r ∧ p = o) ∨ (o = r ∧ p = c) ∨ (c = r ∧ c = o))
    {s : PyStr} (hs : utf8Encode s = some r) (hcr : 13 ∉ s) (hw : Whole s) :
    mergeFiles cls sp args pn cn on p c o = (r, none) := by
  have valid : ∀ data, ValidStr (readText data) := fun data c hc =>
    isScalar_lt ((C72_read_valid data).1 c hc)
  have hread : readText r = s := (C72_read_utf8 hcr).1 hs
  obtain ⟨out, h1, h2⟩ := C60_merge_unchanged cls sp h hd pn cn on (valid p) (valid c) (valid o)
    (r := s) (by
      rcases hr with ⟨rfl, rfl⟩ | ⟨rfl, rfl⟩ | ⟨rfl, rfl⟩
      · exact .inl ⟨hread, rfl⟩
      · exact .inr (.inl ⟨hread, rfl⟩)
      · exact .inr (.inr ⟨hread, rfl⟩))
  rw [if_pos hw, List.append_nil] at h2
  obtain ⟨w, w1, w2⟩ := writeStrings_ok (out := out) (by
    rw [h2]; exact utf8Encode_isSome.1 ⟨r, hs⟩)
  rw [h2, hs] at w2
  cases w2
  simp only [mergeFiles, h1, writeRun, w1]

/-- C73.  Otherwise the bytes change even if no line is edited: `"\r\n"` becomes `"\n"`, Latin-1
becomes UTF-8, and a missing newline at the end is added. -/
theorem C73_rewritten :
    (∀ (data w : Bytes), (data, w) ∈ [([97, 13, 10], [97, 10]), ([0xE9, 10], [0xC3, 0xA9, 10]),
        ([97], [97, 10])] →
      mergeFiles asciiWord pyIsSpace { output := some (cps "f"), gitCompatible := true } (cps "p") (cps "c")
        (cps "o") data data data = (w, none)) := by
  intro data w h
  simp only [List.mem_cons, List.not_mem_nil, or_false, Prod.mk.injEq] at h
  rcases h with ⟨rfl, rfl⟩ | ⟨rfl, rfl⟩ | ⟨rfl, rfl⟩ <;> decide +kernel

/-- C73.  A conflict in a file whose name is not valid Unicode (Python reads the byte `0xFF` in a
file name as a surrogate) is a `UnicodeEncodeError` with half of the file written. -/
theorem C73_file_name :
    mergeFiles asciiWord pyIsSpace { output := some (cps "f"), gitCompatible := true, lines := true }
      (cps "p") [0xDCFF] (cps "o") [97, 10, 98, 10] [97, 10, 99, 10] [97, 10, 100, 10] =
      ([97, 10], some .unicodeError) := by decide +kernel

-- The tool raises with its output written.
example : (mergeFiles asciiWord pyIsSpace { output := some (cps "f"), diff := true, strikeout := true } (cps "p")
    (cps "c") (cps "o") [97] [97, 120] [97, 121]).2 = some .typeError := by decide +kernel
-- A conflict in CRLF files.
example : mergeFiles asciiWord pyIsSpace { output := some (cps "f"), gitCompatible := true, lines := true }
    (cps "p") (cps "d/c") (cps "o") [97, 13, 10, 98] [97, 13, 10, 99] [97, 13, 10, 0xC3, 0xA9] =
    (((utf8Encode (cps "a\n<<<<<<< c\nc\n=======\né\n>>>>>>> o\n")).getD []), none) := by
  decide +kernel
example : diffFiles asciiWord pyIsSpace { output := some (cps "f"), gitCompatible := true, lines := true }
    (cps "old") (cps "new") [0xE9, 10] [0xC3, 0xA9, 10] = ([0xC3, 0xA9, 10], none) := by
  decide +kernel

end Gaspra
