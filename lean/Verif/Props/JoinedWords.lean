import Verif.Props.Rename
import Verif.Props.Merge

set_option linter.unusedSectionVars false
set_option linter.unusedVariables false
set_option linter.unusedSimpArgs false

/-!
# C132: which words and lines a merge can contain

A merge by words or by lines puts pieces of the two branches side by side.  Here is said when the
pieces are still the words or lines of the text that comes out.
-/

namespace Gaspra

/-- The two sides of an item; a common piece is its own other side. -/
def DiffItem.sides {α : Type _} : DiffItem α → List (List α)
  | .common p => [p]
  | .change a b => [a, b]

theorem DiffItem.mem_tokens_of_side {α : Type _} {x : DiffItem α} {s : List α} (h : s ∈ x.sides) {t : α}
    (ht : t ∈ s) : t ∈ x.tokens := by
  cases x with
  | common p => simp [DiffItem.sides] at h; subst h; exact ht
  | change a b =>
    simp [DiffItem.sides] at h
    rcases h with rfl | rfl
    · simp [DiffItem.tokens, ht]
    · simp [DiffItem.tokens, ht]

theorem merge_side_tokens {kind : Kind} {qp qc qo : List PyStr} {d : List (DiffItem PyStr)}
    (h : mergeTokenSequence kind qp qc qo = .ok d) {x : DiffItem PyStr} (hx : x ∈ d) {s : List PyStr}
    (hs : s ∈ x.sides) : ∀ t ∈ s, t ∈ qc ∨ t ∈ qo := by
  obtain ⟨d0, d1, out', h0', h1', _⟩ := merge_general qp qc qo
  intro t ht
  exact (C19_tokens h h0' h1').1 t ⟨x, hx, DiffItem.mem_tokens_of_side hs ht⟩

/-! ### Lines -/

/-- An empty piece or one line with its newline. -/
def LinePiece (p : PyStr) : Prop := p = [] ∨ ∃ q, p = q ++ [nl] ∧ nl ∉ q

theorem IsLinesOf.linePiece {t : PyStr} {q : List PyStr} (h : IsLinesOf nl t q) (hw : Whole t) :
    ∀ p ∈ q, LinePiece p := by
  obtain ⟨h1, init, last, rfl, h2, h3⟩ := h
  have hlast : last = [] := by
    rcases hw with rfl | ⟨u, rfl⟩
    · simp at h1; exact h1.2
    · simp only [List.flatten_append, List.flatten_cons, List.flatten_nil, List.append_nil] at h1
      rcases List.eq_nil_or_concat last with e | ⟨l', b, e⟩
      · exact e
      · subst e
        rw [List.concat_eq_append, ← List.append_assoc] at h1
        obtain ⟨_, e2⟩ := List.append_inj' h1 rfl
        rw [List.cons.inj e2 |>.1] at h2
        simp at h2
  intro p hp
  rcases List.mem_append.1 hp with hp | hp
  · exact .inr (h3 p hp)
  · rw [List.mem_singleton.1 hp, hlast]; exact .inl rfl

theorem whole_flatten : ∀ {s : List PyStr}, (∀ p ∈ s, LinePiece p) → Whole s.flatten
  | [], _ => .inl rfl
  | p :: s, h => by
    have ih := whole_flatten (s := s) fun q hq => h q (by simp [hq])
    rcases h p (by simp) with rfl | ⟨q, rfl, _⟩
    · simpa using ih
    · rcases ih with e | ⟨t, e⟩
      · exact .inr ⟨q, by simp [e]⟩
      · exact .inr ⟨q ++ [nl] ++ t, by simp [e]⟩

/-- The lines of pieces that are lines are these pieces. -/
theorem lines_flatten {s : List PyStr} (h : ∀ p ∈ s, LinePiece p) :
    IsLinesOf nl s.flatten (s.filter (· ≠ []) ++ [[]]) := by
  refine ⟨?_, s.filter (· ≠ []), [], rfl, by simp, ?_⟩
  · simp only [List.flatten_append, List.flatten_cons, List.flatten_nil, List.append_nil]
    clear h
    induction s with
    | nil => rfl
    | cons p s ih =>
      by_cases e : p = []
      · subst e; simpa using ih
      · rw [List.filter_cons_of_pos (by simpa using e)]; simp only [List.flatten_cons, ih]
  · intro p hp
    obtain ⟨h1, h2⟩ := List.mem_filter.1 hp
    rcases h p h1 with rfl | h3
    · simp at h2
    · exact h3

/-- C132.  By lines, if the two branches end in a newline (or are empty): every common part and every
side of a conflict consists of whole lines, and each line of it is a line of one of the branches. -/
theorem C132_lines {kind : Kind} {qp qc qo : List PyStr} {c o : PyStr} (hc : IsLinesOf nl c qc)
    (ho : IsLinesOf nl o qo) (wc : Whole c) (wo : Whole o) {d : List (DiffItem PyStr)}
    (h : mergeTokenSequence kind qp qc qo = .ok d) {x : DiffItem PyStr} (hx : x ∈ d) {s : List PyStr}
    (hs : s ∈ x.sides) :
    Whole s.flatten ∧ ∀ ls, IsLinesOf nl s.flatten ls → ∀ l ∈ ls, l = [] ∨ l ∈ qc ∨ l ∈ qo := by
  have hm := merge_side_tokens h hx hs
  have hp : ∀ p ∈ s, LinePiece p := fun p hp =>
    (hm p hp).elim (hc.linePiece wc p) (ho.linePiece wo p)
  refine ⟨whole_flatten hp, fun ls hl l hll => ?_⟩
  rw [C39_lines_unique hl (lines_flatten hp)] at hll
  rcases List.mem_append.1 hll with hll | hll
  · exact .inr (hm l (List.mem_filter.1 hll).1)
  · exact .inl (List.mem_singleton.1 hll)

theorem sides_into {d : List (DiffItem PyStr)} :
    intoText (d.map DiffItem.joined) = (d.flatMap fun x => x.sides.head?.getD []).flatten := by
  induction d with
  | nil => rfl
  | cons x d ih =>
    cases x <;> simp [intoText, DiffItem.joined, DiffItem.sides, List.flatMap_cons] at ih ⊢ <;> rw [ih]

theorem sides_from {d : List (DiffItem PyStr)} :
    fromText (d.map DiffItem.joined) = (d.flatMap fun x => x.sides.getLast?.getD []).flatten := by
  induction d with
  | nil => rfl
  | cons x d ih =>
    cases x <;> simp [fromText, DiffItem.joined, DiffItem.sides, List.flatMap_cons] at ih ⊢ <;> rw [ih]

/-- C132.  The same for `gaspra-merge --lines` with git-compatible markers into a file: in the text that
one gets by choosing the first (second) side of every conflict, up to one newline at the end, every
line is a line of one of the branches. -/
theorem C132_lines_file (cls sp : Nat → Bool) {args : Args} (h : args.GitFile) (hd : args.diff = false)
    (hw : args.words = false) (hl : args.lines = true) (pn cn on : PyStr) {p c o : PyStr}
    {qp qc qo : List PyStr} (hp : IsLinesOf nl p qp) (hc : IsLinesOf nl c qc) (ho : IsLinesOf nl o qo)
    (wc : Whole c) (wo : Whole o) :
    ∃ out t u e, mergeCli cls sp args {} pn cn on p c o = ({}, out, none) ∧ (e = [] ∨ e = [nl]) ∧
      GitOutput (basename cn) (basename on) out (t ++ e) (u ++ e) ∧ Whole t ∧ Whole u ∧
      (∀ ls, IsLinesOf nl t ls → ∀ l ∈ ls, l = [] ∨ l ∈ qc ∨ l ∈ qo) ∧
      ∀ ls, IsLinesOf nl u ls → ∀ l ∈ ls, l = [] ∨ l ∈ qc ∨ l ∈ qo := by
  have cp : ∀ {t q}, IsLinesOf nl t q → CliPieces cls args t q := by
    intro t q H; unfold CliPieces; rw [if_neg (by simp [hw]), if_pos hl]; exact H
  obtain ⟨d, out, e, h1, h2, h3, _, h5⟩ := C67_merge_file cls sp h hd pn cn on (cp hp) (cp hc) (cp ho)
  refine ⟨out, _, _, e, h3, h2, h5, ?_⟩
  rw [sides_into, sides_from]
  have hi : ∀ t ∈ d.flatMap fun x => x.sides.head?.getD [], t ∈ qc ∨ t ∈ qo := by
    intro t ht
    obtain ⟨x, hx, ht⟩ := List.mem_flatMap.1 ht
    exact merge_side_tokens h1 hx (s := x.sides.head?.getD []) (by cases x <;> simp [DiffItem.sides]) t ht
  have hf : ∀ t ∈ d.flatMap fun x => x.sides.getLast?.getD [], t ∈ qc ∨ t ∈ qo := by
    intro t ht
    obtain ⟨x, hx, ht⟩ := List.mem_flatMap.1 ht
    exact merge_side_tokens h1 hx (s := x.sides.getLast?.getD []) (by cases x <;> simp [DiffItem.sides]) t ht
  have key : ∀ {s : List PyStr}, (∀ t ∈ s, t ∈ qc ∨ t ∈ qo) → Whole s.flatten ∧
      ∀ ls, IsLinesOf nl s.flatten ls → ∀ l ∈ ls, l = [] ∨ l ∈ qc ∨ l ∈ qo := by
    intro s hm
    have hp : ∀ p ∈ s, LinePiece p := fun p hp =>
      (hm p hp).elim (hc.linePiece wc p) (ho.linePiece wo p)
    refine ⟨whole_flatten hp, fun ls hl l hll => ?_⟩
    rw [C39_lines_unique hl (lines_flatten hp)] at hll
    rcases List.mem_append.1 hll with hll | hll
    · exact .inr (hm l (List.mem_filter.1 hll).1)
    · exact .inl (List.mem_singleton.1 hll)
  exact ⟨(key hi).1, (key hf).1, (key hi).2, (key hf).2⟩

/-- C132.  Without a newline at the end of a branch this is false: let the parent be the line `q`, let
one branch replace it by `a` without a newline and the other append the line `z`.  The merge is the
conflict `a` or `q`, followed by the line `z`; who chooses `a` gets `a` and `z` in one line. -/
theorem C132_lines_joined {q z a : PyStr} (hq : nl ∉ q) (hz : nl ∉ z) (ha : nl ∉ a) (hqz : q ≠ z)
    (ha0 : a ≠ []) :
    ∃ qp qc qo d, IsLinesOf nl (q ++ [nl]) qp ∧ IsLinesOf nl a qc ∧
      IsLinesOf nl (q ++ [nl] ++ (z ++ [nl])) qo ∧ mergeTokenSequence .tuple qp qc qo = .ok d ∧
      d.map DiffItem.joined = [.change a (q ++ [nl]), .common (z ++ [nl])] ∧
      IsLinesOf nl (intoText (d.map DiffItem.joined)) [a ++ z ++ [nl], []] := by
  let f : Nat → PyStr := fun n => if n = 1 then q ++ [nl] else if n = 2 then z ++ [nl] else
    if n = 11 then a else []
  have hm : mergeTokenSequence .tuple [1, 10] [11] [1, 2, 10] = .ok [.change [11] [1], .common [2]] := by
    decide +kernel
  have n1 : q ++ [nl] ≠ [] := by simp
  have n2 : z ++ [nl] ≠ [] := by simp
  have n3 : q ++ [nl] ≠ a := fun e => ha (by rw [← e]; simp)
  have n4 : z ++ [nl] ≠ a := fun e => ha (by rw [← e]; simp)
  have n5 : q ++ [nl] ≠ z ++ [nl] := fun e => hqz (List.append_cancel_right e)
  have hk : KeepsApart f ([1, 10] ++ [11] ++ [1, 2, 10]) := by
    intro x hx y hy
    simp only [List.cons_append, List.nil_append, List.mem_cons, List.not_mem_nil, or_false] at hx hy
    rcases hx with rfl | rfl | rfl | rfl | rfl | rfl <;> rcases hy with rfl | rfl | rfl | rfl | rfl | rfl <;>
      simp only [f, reduceIte, Nat.reduceEqDiff, implies_true] <;> intro e <;>
      first
        | exact absurd e n1 | exact absurd e n2 | exact absurd e n3 | exact absurd e n4 | exact absurd e n5
        | exact absurd e.symm n1 | exact absurd e.symm n2 | exact absurd e.symm n3 | exact absurd e.symm n4
        | exact absurd e.symm n5 | exact absurd e ha0 | exact absurd e.symm ha0
  have hr := C66_merge_rename .tuple hk
  rw [hm] at hr
  refine ⟨[q ++ [nl], []], [a], [q ++ [nl], z ++ [nl], []], [.change [a] [q ++ [nl]], .common [z ++ [nl]]],
    ⟨by simp, [q ++ [nl]], [], rfl, by simp, ?_⟩, ⟨by simp, [], a, rfl, ha, by simp⟩,
    ⟨by simp, [q ++ [nl], z ++ [nl]], [], rfl, by simp, ?_⟩, hr, by simp [DiffItem.joined], ?_⟩
  · intro p hp; rw [List.mem_singleton.1 hp]; exact ⟨q, rfl, hq⟩
  · intro p hp
    simp only [List.mem_cons, List.not_mem_nil, or_false] at hp
    rcases hp with rfl | rfl
    · exact ⟨q, rfl, hq⟩
    · exact ⟨z, rfl, hz⟩
  · refine ⟨by simp [intoText, DiffItem.joined], [a ++ z ++ [nl]], [], rfl, by simp, ?_⟩
    intro p hp; rw [List.mem_singleton.1 hp]
    exact ⟨a ++ z, rfl, by simp [ha, hz]⟩

/-! ### Words -/

/-- C132.  By words: a part or a side of a conflict has the words of the branches as its words, unless
two of them stand side by side in it. -/
theorem C132_words {cls : Nat → Bool} {kind : Kind} {qp qc qo : List PyStr} {c o : PyStr}
    (hc : IsSymbolsOf cls c qc) (ho : IsSymbolsOf cls o qo) {d : List (DiffItem PyStr)}
    (h : mergeTokenSequence kind qp qc qo = .ok d) {x : DiffItem PyStr} (hx : x ∈ d) {s : List PyStr}
    (hs : s ∈ x.sides) (hn : ∀ l p q r, s = l ++ p :: q :: r → ¬ (AllClass cls p ∧ AllClass cls q)) :
    ∀ ws, IsSymbolsOf cls s.flatten ws → ∀ w ∈ ws, w ∈ qc ∨ w ∈ qo := by
  have hm := merge_side_tokens h hx hs
  intro ws hws w hw
  have : IsSymbolsOf cls s.flatten s :=
    ⟨rfl, fun p hp => (hm p hp).elim (hc.2.1 p) (ho.2.1 p), hn⟩
  rw [C39_symbols_unique hws this] at hw
  exact hm w hw

/-- C132.  A merge by words can put two words side by side without a conflict: let the parent be a
separator and the word `b`, let one branch delete the separator and the other write the word `a`
before it.  The merge is the single word `ab`, which is a word of none of the three texts. -/
theorem C132_words_joined {cls : Nat → Bool} {a b : PyStr} {sep : Nat} (ha : AllClass cls a) (ha0 : a ≠ [])
    (hb : AllClass cls b) (hb0 : b ≠ []) (hs : cls sep = false) :
    ∃ qp qc qo, IsSymbolsOf cls (sep :: b) qp ∧ IsSymbolsOf cls b qc ∧ IsSymbolsOf cls (a ++ sep :: b) qo ∧
      mergeTokenSequence .tuple qp qc qo = .ok [.common [a, b]] ∧
      IsSymbolsOf cls (a ++ b) [a ++ b] ∧ a ++ b ∉ qp ++ qc ++ qo := by
  have hne : ∀ {w : PyStr}, AllClass cls w → w ≠ [sep] := by
    intro w hw e
    have := hw sep (by rw [e]; simp)
    rw [hs] at this; cases this
  have hnc : ¬ AllClass cls [sep] := fun h => hne h rfl
  have hab : AllClass cls (a ++ b) := fun c hc => (List.mem_append.1 hc).elim (ha c) (hb c)
  refine ⟨[[sep], b], [b], [a, [sep], b], ⟨by simp, ?_, ?_⟩, ⟨by simp, ?_, ?_⟩, ⟨by simp, ?_, ?_⟩, ?_,
    ⟨by simp, ?_, ?_⟩, ?_⟩
  · intro p hp
    simp only [List.mem_cons, List.not_mem_nil, or_false] at hp
    rcases hp with rfl | rfl
    · exact .inl ⟨sep, rfl, hs⟩
    · exact .inr ⟨hb0, hb⟩
  · rintro l p q r e ⟨h1, h2⟩
    match l, e with
    | [], e => simp at e; exact hnc (e.1 ▸ h1)
    | [_], e => simp at e
    | _ :: _ :: _, e => simp at e
  · intro p hp; rw [List.mem_singleton.1 hp]; exact .inr ⟨hb0, hb⟩
  · rintro l p q r e _
    have := congrArg List.length e
    simp at this; omega
  · intro p hp
    simp only [List.mem_cons, List.not_mem_nil, or_false] at hp
    rcases hp with rfl | rfl | rfl
    · exact .inr ⟨ha0, ha⟩
    · exact .inl ⟨sep, rfl, hs⟩
    · exact .inr ⟨hb0, hb⟩
  · rintro l p q r e ⟨h1, h2⟩
    match l, e with
    | [], e => simp at e; exact hnc (e.2.1 ▸ h2)
    | [_], e => simp at e; exact hnc (e.2.1 ▸ h1)
    | [_, _], e => simp at e
    | _ :: _ :: _ :: _, e => simp at e
  · by_cases e : a = b
    · subst e
      let f : Nat → PyStr := fun n => if n = 1 then a else [sep]
      have hm : mergeTokenSequence .tuple [2, 1] [1] [1, 2, 1] = .ok [.common [1, 1]] := by decide +kernel
      have hk : KeepsApart f ([2, 1] ++ [1] ++ [1, 2, 1]) := by
        intro x hx y hy
        simp only [List.cons_append, List.nil_append, List.mem_cons, List.not_mem_nil, or_false] at hx hy
        rcases hx with rfl | rfl | rfl | rfl | rfl | rfl <;>
          rcases hy with rfl | rfl | rfl | rfl | rfl | rfl <;>
          simp only [f, reduceIte, Nat.reduceEqDiff, implies_true] <;> intro e <;>
          first | exact absurd e (hne ha) | exact absurd e.symm (hne ha)
      have hr := C66_merge_rename .tuple hk
      rw [hm] at hr
      exact hr
    · let f : Nat → PyStr := fun n => if n = 0 then a else if n = 1 then b else [sep]
      have hm : mergeTokenSequence .tuple [2, 1] [1] [0, 2, 1] = .ok [.common [0, 1]] := by decide +kernel
      have hk : KeepsApart f ([2, 1] ++ [1] ++ [0, 2, 1]) := by
        intro x hx y hy
        simp only [List.cons_append, List.nil_append, List.mem_cons, List.not_mem_nil, or_false] at hx hy
        rcases hx with rfl | rfl | rfl | rfl | rfl | rfl <;>
          rcases hy with rfl | rfl | rfl | rfl | rfl | rfl <;>
          simp only [f, reduceIte, Nat.reduceEqDiff, implies_true] <;> intro e' <;>
          first
            | exact absurd e' (hne ha) | exact absurd e'.symm (hne ha) | exact absurd e' (hne hb)
            | exact absurd e'.symm (hne hb) | exact absurd e' e | exact absurd e'.symm e
      have hr := C66_merge_rename .tuple hk
      rw [hm] at hr
      exact hr
  · intro p hp; rw [List.mem_singleton.1 hp]; exact .inr ⟨by simp [ha0], hab⟩
  · rintro l p q r e _
    have := congrArg List.length e
    simp at this; omega
  · intro hmem
    have la : 0 < a.length := List.length_pos_iff.2 ha0
    have lb : 0 < b.length := List.length_pos_iff.2 hb0
    have x1 : a ++ b ≠ b := fun e => by have := congrArg List.length e; simp at this; exact ha0 this
    have x2 : a ++ b ≠ a := fun e => by have := congrArg List.length e; simp at this; exact hb0 this
    simp [x1, x2, hne hab] at hmem

/-- C132.  So `gaspra-merge --words` writes this word to the file, without any marker. -/
theorem C132_words_file (sp : Nat → Bool) {cls : Nat → Bool} {args : Args} (h : args.GitFile)
    (hd : args.diff = false) (hw : args.words = true) (pn cn on : PyStr) {a b : PyStr} {sep : Nat}
    (ha : AllClass cls a) (ha0 : a ≠ []) (hb : AllClass cls b) (hb0 : b ≠ []) (hs : cls sep = false)
    (hnl : cls nl = false) :
    ∃ out, mergeCli cls sp args {} pn cn on (sep :: b) b (a ++ sep :: b) = ({}, out, none) ∧
      out.flatten = a ++ b ++ [nl] := by
  obtain ⟨qp, qc, qo, h1, h2, h3, h4, h5, _⟩ := C132_words_joined ha ha0 hb hb0 hs
  have cp : ∀ {t q}, IsSymbolsOf cls t q → CliPieces cls args t q := by
    intro t q H; unfold CliPieces; rw [if_pos hw]; exact H
  obtain ⟨S, tk, e, T⟩ := mergeCli_eq cls sp args pn cn on (cp h1) (cp h2) (cp h3)
  obtain ⟨out, o1, o2⟩ := mergeRun_pieces_clean sp h hd pn cn on T h4
  refine ⟨out, e.trans o1, ?_⟩
  have hf : ([a, b] : List PyStr).flatten = a ++ b := by simp
  rw [hf] at o2
  have hnw : ¬ Whole (a ++ b) := by
    rintro (e | ⟨t, e⟩)
    · exact ha0 (List.append_eq_nil_iff.1 e).1
    · have : nl ∈ a ++ b := by rw [e]; simp
      rcases List.mem_append.1 this with m | m
      · have := ha nl m; rw [hnl] at this; cases this
      · have := hb nl m; rw [hnl] at this; cases this
  rw [o2, if_neg hnw]

-- One branch deletes the `+` before `bar`, the other writes `foo` before it.
example : (mergeCli asciiWord pyIsSpace { output := some (cps "f"), gitCompatible := true, words := true } {}
    (cps "p") (cps "c") (cps "o") (cps "+bar") (cps "bar") (cps "foo+bar")).2 =
    ([cps "foobar\n"], none) := by decide +kernel
-- By lines, without a newline at the end of one branch.
example : mergeTokenSequence .tuple [cps "q\n", []] [cps "a"] [cps "q\n", cps "z\n", []] =
    .ok [.change [cps "a"] [cps "q\n"], .common [cps "z\n"]] := by decide +kernel

end Gaspra
