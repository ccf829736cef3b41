import Verif.Proofs.TokenizerCost
import Verif.Props.Tokenizers
import Verif.Model.Markup

set_option linter.unusedSectionVars false

/-!
# C113: running time of the tokenizers with a dictionary

`generic_encode` makes the table for decoding anew in every call.  A call therefore takes a number of
steps that grows with everything the tokenizer has seen, and many short calls take quadratic time.
-/

namespace Gaspra

/-- C113.  The functions with a count compute the same as those without. -/
theorem C113_same_result (cls : Nat → Bool) (st : DictTok) (x : Text) :
    (lineEncodeC st x).1 = lineTokenizer.encode st x ∧
      (symbolEncodeC cls st x).1 = (symbolTokenizer cls).encode st x :=
  ⟨lineEncodeC_fst st x, symbolEncodeC_fst cls st x⟩

section
variable {encode : DictTok → Text → DictTok × Except PyErr (List Nat)} {Good : Text → Prop}
  {pieces : Text → List Text}
  {encodeC : DictTok → Text → (DictTok × Except PyErr (List Nat)) × Nat} {IsP : Text → List Text → Prop}

theorem DictLike.stepsOf (D : DictLike encode Good pieces)
    (hN : ∀ st x, wrongType st.src x = false → Good x →
      encodeC st x = { st with src := some x.type }.numberC (pieces x))
    (hP : ∀ x, Good x → ∀ ps, IsP x ps ↔ ps = pieces x) {t : SrcType} {calls : List Text} {x : Text}
    (hc : ∀ y ∈ calls ++ [x], Good y ∧ y.type = t) :
    ∃ n ps, CountIs (fun p => ∃ y ∈ calls ++ [x], ∃ qs, IsP y qs ∧ p ∈ qs) n ∧ IsP x ps ∧
      (encodeC (calls.foldl (fun st y => (encode st y).1) .new) x).2 = 2 * ps.length + n := by
  have h0 : NumOK DictTok.new.encoding := ⟨by simp [DictTok.new], by simp [DictTok.new]⟩
  obtain ⟨i1, i2, i3⟩ := calls_keys D calls h0 (t := t) (Or.inl rfl) fun y hy => hc y (by simp [hy])
  obtain ⟨g1, g2⟩ := hc x (by simp)
  have hw : wrongType (calls.foldl (fun st y => (encode st y).1) .new).src x = false := by
    rcases i2 with e | e <;> simp [wrongType, e, g2]
  rw [hN _ _ hw g1, numberC_snd (st := { (calls.foldl (fun st y => (encode st y).1) .new) with
    src := some x.type }) i1]
  obtain ⟨a1, a2⟩ := numberTokens_keys i1 (pieces x)
  refine ⟨_, pieces x, ⟨_, a1.1, fun p => ?_, by rw [List.length_map]⟩, (hP x g1 _).2 rfl, rfl⟩
  rw [a2, i3]
  constructor
  · rintro ((h | ⟨y, hy, hp⟩) | h)
    · simp [DictTok.new] at h
    · exact ⟨y, by simp [hy], pieces y, (hP y (hc y (by simp [hy])).1 _).2 rfl, hp⟩
    · exact ⟨x, by simp, pieces x, (hP x g1 _).2 rfl, h⟩
  · rintro ⟨y, hy, qs, hq, hp⟩
    rw [(hP y (hc y hy).1 _).1 hq] at hp
    rcases List.mem_append.1 hy with hy | hy
    · exact Or.inl (Or.inr ⟨y, hy, hp⟩)
    · obtain rfl := List.mem_singleton.1 hy
      exact Or.inr hp

end

theorem isLines_iff (x : Text) (ps : List Text) : IsLines x ps ↔ ps = lineTokens x := by
  constructor
  · intro h
    have h' := isLines x
    cases x with
    | bytes b =>
      obtain ⟨qs, rfl, hq⟩ := h
      obtain ⟨rs, e, hr⟩ := h'
      rw [e, C39_lines_unique hq hr]
    | str s =>
      obtain ⟨qs, rfl, hq⟩ := h
      obtain ⟨rs, e, hr⟩ := h'
      rw [e, C39_lines_unique hq hr]
  · rintro rfl; exact isLines x

theorem addSeps_count {β : Type _} (sep : β) : ∀ (l : List (List β)), (addSeps sep l).length = l.length
  | [] => rfl
  | [_] => rfl
  | _ :: q :: l => by simp [addSeps, addSeps_count sep (q :: l)]

theorem pySplit_count {β : Type _} [DecidableEq β] (sep : β) : ∀ (l : List β),
    (pySplit sep l).length = l.count sep + 1
  | [] => rfl
  | c :: l => by
    have ih := pySplit_count sep l
    simp only [pySplit]
    split
    · next h => subst h; simp [ih]
    · next h =>
      rw [List.count_cons_of_ne h, ← ih]
      cases hs : pySplit sep l with
      | nil => exact absurd hs (pySplit_ne sep l)
      | cons p ps => rfl

/-- C113.  Contents of another type than before are refused at once. -/
theorem C113_refused (cls : Nat → Bool) {st : DictTok} {t : SrcType} {x : Text} (hs : st.src = some t)
    (hx : x.type ≠ t) :
    lineEncodeC st x = ((st, .error .runtimeError), 0) ∧
      symbolEncodeC cls st x = ((st, .error .runtimeError), 0) := by
  have : wrongType st.src x = true := by simp [wrongType, hs, Ne.symm hx]
  simp [lineEncodeC, symbolEncodeC, this]

theorem lineTokens_length (x : Text) : (lineTokens x).length = lineCount x := by
  cases x <;> simp [lineTokens, lineCount, addSeps_count, pySplit_count, nl]

/-- C113, `LineTokenizer`.  After any calls with contents of one type, encoding `x` takes two steps
for every line of `x` and one for every different line in all contents so far. -/
theorem C113_line_steps {t : SrcType} {calls : List Text} {x : Text}
    (hc : ∀ y ∈ calls ++ [x], y.type = t) :
    ∃ n, CountIs (fun p => ∃ y ∈ calls ++ [x], ∃ qs, IsLines y qs ∧ p ∈ qs) n ∧
      (lineEncodeC (tokAfter lineTokenizer calls) x).2 = 2 * lineCount x + n := by
  obtain ⟨n, ps, h1, h2, h3⟩ := lineLike.stepsOf (encodeC := lineEncodeC) (IsP := IsLines)
    (calls := calls) (fun st x h _ => by simp [lineEncodeC, h]) (fun x _ ps => isLines_iff x ps)
    fun y hy => ⟨trivial, hc y hy⟩
  rw [isLines_iff] at h2
  rw [h2, lineTokens_length] at h3
  exact ⟨n, h1, h3⟩

theorem encodeAll_of_map : ∀ {qs : List PyStr} {bs : List Bytes}, qs.map utf8Encode = bs.map some →
    encodeAll qs = some bs
  | [], [], _ => rfl
  | [], _ :: _, h => by simp at h
  | _ :: _, [], h => by simp at h
  | q :: qs, b :: bs, h => by
    simp only [List.map_cons, List.cons.injEq] at h
    simp only [encodeAll, h.1, encodeAll_of_map h.2]

theorem isSymbols_iff (cls : Nat → Bool) {x : Text} (hx : Utf8Text x) (ps : List Text) :
    IsSymbols cls x ps ↔ ps = symbolTokens cls x := by
  constructor
  · intro h
    have h' := isSymbols cls hx
    cases x with
    | bytes b =>
      obtain ⟨s, qs, bs, e1, hq, e2, rfl⟩ := h
      obtain ⟨s', qs', bs', e1', hq', e2', e⟩ := h'
      have es : s = s' := by
        have k1 := utf8_iff.2 e1
        have k2 := utf8_iff.2 e1'
        rw [k1] at k2
        exact Option.some.inj k2
      subst es
      rw [C39_symbols_unique hq hq'] at e2
      rw [e2] at e2'
      rw [e]
      congr 1
      have := congrArg (List.filterMap id) e2'
      simpa using this
    | str s =>
      obtain ⟨qs, rfl, hq⟩ := h
      obtain ⟨rs, e, hr⟩ := h'
      rw [e, C39_symbols_unique hq hr]
  · rintro rfl; exact isSymbols cls hx

/-- C113, `SymbolTokenizer`.  The same with symbols, for contents that are `str` or valid UTF-8. -/
theorem C113_symbol_steps (cls : Nat → Bool) {t : SrcType} {calls : List Text} {x : Text}
    (hc : ∀ y ∈ calls ++ [x], y.type = t)
    (hg : ∀ y ∈ calls ++ [x], ∀ b, y = .bytes b → ∃ s, utf8Encode s = some b) :
    ∃ n ps, CountIs (fun p => ∃ y ∈ calls ++ [x], ∃ qs, IsSymbols cls y qs ∧ p ∈ qs) n ∧
      IsSymbols cls x ps ∧
      (symbolEncodeC cls (tokAfter (symbolTokenizer cls) calls) x).2 = 2 * ps.length + n := by
  have conv : ∀ y ∈ calls ++ [x], Utf8Text y := by
    intro y hy
    cases y with
    | bytes b => exact hg _ hy b rfl
    | str s => trivial
  refine (symbolLike cls).stepsOf (encodeC := symbolEncodeC cls) (IsP := IsSymbols cls)
    (calls := calls) (fun st x h hx => ?_) (fun x hx ps => isSymbols_iff cls hx ps)
    fun y hy => ⟨conv y hy, hc y hy⟩
  cases x with
  | str s => simp [symbolEncodeC, h, symbolTokens, Text.type]
  | bytes b =>
    obtain ⟨s, hs⟩ := hx
    obtain ⟨bs, h1, h2⟩ := symbol_bytes cls hs
    simp [symbolEncodeC, h, symbolTokens, Text.type, utf8_iff.2 hs, h1]

theorem callsSteps_snoc {encodeC : DictTok → Text → (DictTok × Except PyErr (List Nat)) × Nat}
    (x : Text) : ∀ (calls : List Text) (st : DictTok), callsSteps encodeC st (calls ++ [x]) =
      callsSteps encodeC st calls +
        (encodeC (calls.foldl (fun st y => (encodeC st y).1.1) st) x).2
  | [], st => by simp [callsSteps]
  | y :: calls, st => by
    simp only [List.cons_append, callsSteps, callsSteps_snoc x calls, List.foldl_cons]
    omega

theorem foldl_lineC (calls : List Text) (st : DictTok) :
    calls.foldl (fun st y => (lineEncodeC st y).1.1) st =
      calls.foldl (fun st y => (lineEncode st y).1) st := by
  simp only [lineEncodeC_fst]

theorem CountIs.unique {α : Type _} [DecidableEq α] {P : α → Prop} {m n : Nat} (h : CountIs P m)
    (h' : CountIs P n) : m = n := by
  obtain ⟨d, h1, h2, rfl⟩ := h
  obtain ⟨d', k1, k2, rfl⟩ := h'
  exact ((List.perm_ext_iff_of_nodup h1 k1).2 fun x => (h2 x).trans (k2 x).symm).length_eq

theorem nodup_map_str : ∀ {l : List PyStr}, l.Nodup → (l.map Text.str).Nodup
  | [], _ => by simp
  | s :: l, h => by
    obtain ⟨h1, h2⟩ := List.nodup_cons.1 h
    refine List.nodup_cons.2 ⟨fun hm => ?_, nodup_map_str h2⟩
    obtain ⟨u, hu, e⟩ := List.mem_map.1 hm
    cases e
    exact h1 hu

theorem singleLine {s : PyStr} (h : 10 ∉ s) (ps : List Text) :
    IsLines (.str s) ps ↔ ps = [.str s] := by
  have e : IsLines (.str s) [.str s] := ⟨[s], rfl, by simp, [], s, rfl, h, by simp⟩
  rw [isLines_iff] at e ⊢
  rw [e]

theorem lineSteps_snoc {t : SrcType} {calls : List Text} {x : Text}
    (hc : ∀ y ∈ calls ++ [x], y.type = t) :
    ∃ n, CountIs (fun p => ∃ y ∈ calls ++ [x], ∃ qs, IsLines y qs ∧ p ∈ qs) n ∧
      callsSteps lineEncodeC .new (calls ++ [x]) =
        callsSteps lineEncodeC .new calls + (2 * lineCount x + n) := by
  obtain ⟨n, h1, h2⟩ := C113_line_steps hc
  refine ⟨n, h1, ?_⟩
  rw [callsSteps_snoc, foldl_lineC, ← h2]
  rfl

/-- C113.  Encoding `k` different lines one after the other takes `k * (k + 5) / 2` steps. -/
theorem C113_line_quadratic {lines : List PyStr} (hn : lines.Nodup) (hl : ∀ s ∈ lines, 10 ∉ s) :
    2 * callsSteps lineEncodeC .new (lines.map .str) = lines.length * (lines.length + 5) := by
  suffices H : ∀ (r : List PyStr), r.Nodup → (∀ s ∈ r, 10 ∉ s) →
      2 * callsSteps lineEncodeC .new (r.reverse.map .str) = r.length * (r.length + 5) by
    have := H lines.reverse ((List.reverse_perm lines).nodup_iff.2 hn) (by simpa using hl)
    simpa using this
  intro r
  induction r with
  | nil => intro _ _; rfl
  | cons s r ih =>
    intro hn hl
    have ih := ih (List.nodup_cons.1 hn).2 fun s hs => hl s (by simp [hs])
    obtain ⟨n, h1, h2⟩ := lineSteps_snoc (t := .str) (calls := r.reverse.map .str) (x := .str s)
      (by intro y hy; simp at hy; rcases hy with ⟨a, _, rfl⟩ | rfl <;> rfl)
    have hcount : CountIs (fun p => ∃ y ∈ r.reverse.map Text.str ++ [.str s],
        ∃ qs, IsLines y qs ∧ p ∈ qs) (r.length + 1) := by
      refine ⟨(s :: r).map .str, ?_, fun p => ?_, by simp⟩
      · exact nodup_map_str hn
      · constructor
        · intro hp
          obtain ⟨u, hu, rfl⟩ := List.mem_map.1 hp
          refine ⟨.str u, ?_, [.str u], (singleLine (hl u hu) _).2 rfl, by simp⟩
          rcases List.mem_cons.1 hu with rfl | hu <;> simp [*]
        · rintro ⟨y, hy, qs, hq, hp⟩
          obtain ⟨u, hu, rfl⟩ : ∃ u ∈ s :: r, y = .str u := by
            rcases List.mem_append.1 hy with hy | hy
            · obtain ⟨u, hu, rfl⟩ := List.mem_map.1 hy
              exact ⟨u, by simp at hu; simp [hu], rfl⟩
            · exact ⟨s, by simp, by simpa using hy⟩
          rw [(singleLine (hl u hu) _).1 hq] at hp
          obtain rfl := List.mem_singleton.1 hp
          exact List.mem_map.2 ⟨u, hu, rfl⟩
    have e := h1.unique hcount
    have c0 : lineCount (.str s) = 1 := by
      show s.count 10 + 1 = 1
      rw [List.count_eq_zero_of_not_mem (hl s (by simp))]
    simp only [List.reverse_cons, List.map_append, List.map_cons, List.map_nil, List.length_cons]
    rw [h2, e, c0, Nat.mul_add, ih]
    generalize r.length = k
    have e1 : (k + 1) * (k + 1 + 5) = k * (k + 5) + k + (k + 1 + 5) := by
      simp only [Nat.add_mul, Nat.mul_add]; omega
    omega

/-- C113.  Any calls with contents of one type take at most `(k + 2) * N` steps, if there are `k` of
them with `N` lines in total. -/
theorem C113_line_total_le {t : SrcType} {calls : List Text} (hc : ∀ y ∈ calls, y.type = t) :
    callsSteps lineEncodeC .new calls ≤ (calls.length + 2) * (calls.map lineCount).sum := by
  suffices H : ∀ (r : List Text), (∀ y ∈ r, y.type = t) →
      callsSteps lineEncodeC .new r.reverse ≤ (r.length + 2) * (r.map lineCount).sum by
    have := H calls.reverse (by simpa using hc)
    simpa using this
  intro r
  induction r with
  | nil => intro _; simp [callsSteps]
  | cons x r ih =>
    intro hc
    have ih := ih fun y hy => hc y (by simp [hy])
    obtain ⟨n, ⟨d, k1, k2, k3⟩, h2⟩ := lineSteps_snoc (t := t) (calls := r.reverse) (x := x)
      (by intro y hy; exact hc y (by simp at hy; simp; exact hy.symm))
    have hn : n ≤ ((x :: r).map lineCount).sum := by
      have sub : ∀ p ∈ d, p ∈ ((x :: r).map lineTokens).flatten := by
        intro p hp
        obtain ⟨y, hy, qs, hq, hp⟩ := (k2 p).1 hp
        rw [(isLines_iff _ _).1 hq] at hp
        refine List.mem_flatten.2 ⟨lineTokens y, List.mem_map.2 ⟨y, ?_, rfl⟩, hp⟩
        simp at hy; simp; exact hy.symm
      have := nodup_subset_length k1 sub
      rw [k3, List.length_flatten, List.map_map] at this
      have e : (List.length ∘ lineTokens) = lineCount := funext lineTokens_length
      rwa [e] at this
    rw [List.reverse_cons, h2]
    simp only [List.map_cons, List.sum_cons, List.length_cons] at hn ⊢
    generalize (r.map lineCount).sum = N at *
    generalize lineCount x = c at *
    generalize r.length = k at *
    have e1 : (k + 1 + 2) * (c + N) = (k + 2) * c + (k + 2) * N + (c + N) := by
      rw [Nat.add_mul (k + 1) 2, Nat.add_mul k 1, Nat.add_mul k 2, Nat.add_mul k 2, Nat.mul_add k]
      omega
    have e2 : 2 * c ≤ (k + 2) * c := Nat.mul_le_mul_right _ (by omega)
    omega

/-- C113.  One call with all lines takes at most three steps per line. -/
theorem C113_line_once (x : Text) : callsSteps lineEncodeC .new [x] ≤ 3 * lineCount x := by
  simpa using C113_line_total_le (t := x.type) (calls := [x]) (by simp)

theorem lineEncodeLoopC_spec : ∀ (strings : List PyStr) {enc : List (PyStr × Nat)}, NumOK enc →
    (lineEncodeLoopC enc strings).2 =
      (strings.map fun s => 1 + 2 * lineCount (.str s)).sum ∧
    NumOK (lineEncodeLoopC enc strings).1 ∧
    ∀ p, p ∈ (lineEncodeLoopC enc strings).1.map Prod.fst ↔
      p ∈ enc.map Prod.fst ∨ ∃ s ∈ strings, p ∈ pySplit nl s
  | [], enc, h => ⟨rfl, h, fun p => by simp [lineEncodeLoopC]⟩
  | s :: strings, enc, h => by
    obtain ⟨a1, a2⟩ := numberTokens_keys h (pySplit nl s)
    obtain ⟨toks, b1, _⟩ := lookupTokens_spec a1 (ts := pySplit nl s) fun t ht =>
      (a2 t).2 (Or.inr ht)
    have b2 := lookupTokensC_snd (numberTokens enc (pySplit nl s)) (pySplit nl s) (by rw [b1]; simp)
    obtain ⟨i1, i2, i3⟩ := lineEncodeLoopC_spec strings a1
    simp only [lineEncodeLoopC, numberTokensC_eq]
    refine ⟨?_, i2, fun p => ?_⟩
    · rw [i1, b2]
      simp only [List.map_cons, List.sum_cons, lineCount, pySplit_count, nl]
      omega
    · rw [i3, a2]
      simp only [List.mem_cons, exists_eq_or_imp, or_assoc]

theorem pySplit_plain {q : PyStr} (h : 10 ∉ q) : pySplit nl q = [q] := by
  induction q with
  | nil => rfl
  | cons c q ih =>
    have hc : ¬ c = nl := fun e => h (by rw [e]; simp [nl])
    simp only [pySplit, if_neg hc, ih fun hm => h (by simp [hm])]

theorem pySplit_first {q : PyStr} (h : 10 ∉ q) (rest : PyStr) :
    pySplit nl (q ++ 10 :: rest) = q :: pySplit nl rest := by
  induction q with
  | nil => simp [pySplit, nl]
  | cons c q ih =>
    have hc : ¬ c = nl := fun e => h (by rw [e]; simp [nl])
    simp only [List.cons_append, pySplit, if_neg hc, ih fun hm => h (by simp [hm])]

theorem pySplit_of_lines : ∀ {lines : List PyStr}, lines ≠ [] → (∀ q ∈ lines, 10 ∉ q) →
    pySplit nl (List.intercalate [10] lines) = lines
  | [], h, _ => absurd rfl h
  | [q], _, h => by simpa using pySplit_plain (h q (by simp))
  | q :: r :: lines, _, h => by
    rw [List.intercalate_cons_of_ne_nil (by simp), List.append_assoc]
    show pySplit nl (q ++ 10 :: List.intercalate [10] (r :: lines)) = _
    rw [pySplit_first (h q (by simp)), pySplit_of_lines (by simp) fun q hq => h q (by simp [hq])]

/-- C113.  `line_encode_strings` makes its table once: one step for every string, two for every line
and one for every different line (here without its newline). -/
theorem C113_strings_steps (strings : List PyStr) :
    ∃ n, CountIs (fun p => ∃ s ∈ strings, ∃ lines : List PyStr, List.intercalate [10] lines = s ∧
        lines ≠ [] ∧ (∀ q ∈ lines, 10 ∉ q) ∧ p ∈ lines) n ∧
      lineEncodeStringsSteps strings =
        (strings.map fun s => 1 + 2 * lineCount (.str s)).sum + n := by
  have h0 : NumOK ([] : List (PyStr × Nat)) := ⟨by simp, by simp⟩
  obtain ⟨i1, i2, i3⟩ := lineEncodeLoopC_spec strings h0
  refine ⟨(lineEncodeLoopC [] strings).1.length, ⟨_, i2.1, fun p => ?_, by rw [List.length_map]⟩, ?_⟩
  · rw [i3]
    constructor
    · rintro (h | ⟨s, hs, hp⟩)
      · simp at h
      · exact ⟨s, hs, pySplit nl s, pySplit_intercalate nl s, pySplit_ne nl s, pySplit_no_sep nl s,
          hp⟩
    · rintro ⟨s, hs, lines, rfl, hne, hl, hp⟩
      refine Or.inr ⟨_, hs, ?_⟩
      rw [pySplit_of_lines hne hl]
      exact hp
  · simp only [lineEncodeStringsSteps, decodingC_eq, i1]

/-- Three calls with one line each take 3 + 4 + 5 steps; the same lines in one text take 9, and with
`line_encode_strings` it is 12 for three strings and 10 for one. -/
example : callsSteps lineEncodeC .new [strOf "a", strOf "b", strOf "c"] = 12 ∧
    callsSteps lineEncodeC .new [strOf "a\nb\nc"] = 9 ∧
    (callsSteps (symbolEncodeC fun c => c ≠ 32) .new [strOf "ab cd ab", strOf "ef"] = 2 * 5 + 3 + 2 + 4) ∧
    lineEncodeStringsSteps [lit "a", lit "b", lit "c"] = 12 ∧
    lineEncodeStringsSteps [lit "a\nb\nc"] = 10 := by
  decide +kernel

end Gaspra
