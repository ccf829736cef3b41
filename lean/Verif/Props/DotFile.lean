import Verif.Model.DotFile
import Verif.Spec.Dot
import Verif.Props.Dump
import Verif.Props.RevisionTree

/-!
# C103: the dot files
-/

set_option linter.unusedSimpArgs false

namespace Gaspra

/-- The statement that a line of `dump` stands for. -/
def DotLine.stmt : DotLine Nat → DotStmt
  | .terminal id => .node (decimal id) (lit "color") (lit "red")
  | .edge src dst token => .edge (decimal src) (decimal dst) (some (lit "label", [token]))

theorem decimal_inj {a b : Nat} (h : decimal a = decimal b) : a = b := by
  have : Nat.toDigits 10 a = Nat.toDigits 10 b :=
    List.map_inj_right (fun x y e => Char.toNat_inj.1 e) |>.1 h
  rw [← Nat.ofDigitChars_ten_toDigits (n := a), this, Nat.ofDigitChars_ten_toDigits]

theorem decimal_word (n : Nat) : (∀ c ∈ decimal n, dotWordChar c = true) ∧ decimal n ≠ [] := by
  constructor
  · intro c hc
    obtain ⟨d, hd, rfl⟩ := List.mem_map.1 hc
    have h := Nat.isDigit_of_mem_toDigits (by omega) (by omega) hd
    have : 48 ≤ d.toNat ∧ d.toNat ≤ 57 := by
      simp only [Char.isDigit, Bool.and_eq_true, decide_eq_true_eq] at h
      exact ⟨h.1, h.2⟩
    simp [dotWordChar, this]
  · simp [decimal, Nat.toDigits_ne_nil]

theorem lexDot_word : ∀ (w acc rest : PyStr), (∀ c ∈ w, dotWordChar c = true) →
    lexDot (.word acc) (w ++ rest) = lexDot (.word (acc ++ w)) rest := by
  intro w
  induction w with
  | nil => intro acc rest _; simp
  | cons c w ih =>
    intro acc rest h
    simp only [List.cons_append, lexDot, h c (by simp), if_true]
    rw [ih _ _ fun c hc => h c (by simp [hc])]
    simp

theorem lexDot_plain_word {w : PyStr} (h : ∀ c ∈ w, dotWordChar c = true) (hne : w ≠ []) (rest : PyStr) :
    lexDot .plain (w ++ rest) = lexDot (.word w) rest := by
  cases w with
  | nil => exact absurd rfl hne
  | cons c w =>
    have hc := h c (by simp)
    have hs : ¬ (c = 32 ∨ c = 10) := by
      rintro (rfl | rfl) <;> simp [dotWordChar] at hc
    simp only [List.cons_append, lexDot, hs, hc, if_true, if_false]
    rw [lexDot_word w [c] rest fun c hc => h c (by simp [hc])]
    rfl

theorem lexDot_decimal (n : Nat) (rest : PyStr) :
    lexDot .plain (decimal n ++ rest) = lexDot (.word (decimal n)) rest :=
  lexDot_plain_word (decimal_word n).1 (decimal_word n).2 rest

theorem lexDot_lit (s : String) (h : ((lit s).all dotWordChar && !(lit s).isEmpty) = true) (rest : PyStr) :
    lexDot .plain (lit s ++ rest) = lexDot (.word (lit s)) rest := by
  simp only [Bool.and_eq_true, List.all_eq_true, Bool.not_eq_true', List.isEmpty_eq_false_iff] at h
  exact lexDot_plain_word h.1 h.2 rest

theorem lexDot_word_space (acc rest : PyStr) :
    lexDot (.word acc) (32 :: rest) = (lexDot .plain rest).map (.word acc :: ·) := by
  simp [lexDot, dotWordChar]

theorem lexDot_word_nl (acc rest : PyStr) :
    lexDot (.word acc) (10 :: rest) = (lexDot .plain rest).map (.word acc :: ·) := by
  simp [lexDot, dotWordChar]

theorem lexDot_word_open (acc rest : PyStr) :
    lexDot (.word acc) (91 :: rest) = (lexDot .plain rest).map fun ts => .word acc :: .sym 91 :: ts := by
  simp [lexDot, dotWordChar]

theorem lexDot_word_close (acc rest : PyStr) :
    lexDot (.word acc) (93 :: rest) = (lexDot .plain rest).map fun ts => .word acc :: .sym 93 :: ts := by
  simp [lexDot, dotWordChar]

theorem lexDot_word_eq (acc rest : PyStr) :
    lexDot (.word acc) (61 :: rest) = (lexDot .plain rest).map fun ts => .word acc :: .sym 61 :: ts := by
  simp [lexDot, dotWordChar]

theorem lexDot_space (rest : PyStr) : lexDot .plain (32 :: rest) = lexDot .plain rest := by simp [lexDot]
theorem lexDot_nl (rest : PyStr) : lexDot .plain (10 :: rest) = lexDot .plain rest := by simp [lexDot]

theorem lexDot_open (rest : PyStr) :
    lexDot .plain (91 :: rest) = (lexDot .plain rest).map (.sym 91 :: ·) := by simp [lexDot, dotWordChar]
theorem lexDot_close (rest : PyStr) :
    lexDot .plain (93 :: rest) = (lexDot .plain rest).map (.sym 93 :: ·) := by simp [lexDot, dotWordChar]
theorem lexDot_brace (rest : PyStr) :
    lexDot .plain (123 :: rest) = (lexDot .plain rest).map (.sym 123 :: ·) := by simp [lexDot, dotWordChar]

theorem lexDot_arrow (rest : PyStr) :
    lexDot .plain (45 :: 62 :: rest) = (lexDot .plain rest).map (.arrow :: ·) := by
  simp [lexDot, dotWordChar]

theorem lexDot_char {t : Nat} (h1 : t ≠ 34) (h2 : t ≠ 92) (rest : PyStr) :
    lexDot .plain (34 :: t :: 34 :: rest) = (lexDot .plain rest).map (.quoted [t] :: ·) := by
  simp [lexDot, dotWordChar, h1, h2]

/-- The tokens of a line. -/
def DotLine.toks : DotLine Nat → List DotTok
  | .terminal id => [.word (decimal id), .sym 91, .word (lit "color"), .sym 61, .word (lit "red"), .sym 93]
  | .edge src dst token => [.word (decimal src), .arrow, .word (decimal dst), .sym 91,
      .word (lit "label"), .sym 61, .quoted [token], .sym 93]

theorem lit_red : lit "[color=red]\n" = 91 :: (lit "color" ++ 61 :: (lit "red" ++ [93, 10])) := by
  decide +kernel
theorem lit_label : lit " [label=\"" = 32 :: 91 :: (lit "label" ++ [61, 34]) := by decide +kernel

theorem lexDot_line (l : DotLine Nat) (hl : ∀ s d t, l = .edge s d t → t ≠ 34 ∧ t ≠ 92) (rest : PyStr) :
    lexDot .plain (l.text ++ rest) = (lexDot .plain rest).map (l.toks ++ ·) := by
  have e1 : lit " " = [32] := by decide +kernel
  have e2 : lit " -> " = [32, 45, 62, 32] := by decide +kernel
  have e3 : lit "\"]\n" = [34, 93, 10] := by decide +kernel
  cases l with
  | terminal id =>
    simp only [DotLine.text, List.append_assoc, e1, lit_red, List.cons_append, List.nil_append]
    rw [lexDot_space, lexDot_decimal, lexDot_word_open, lexDot_lit _ (by decide +kernel), lexDot_word_eq,
      lexDot_lit _ (by decide +kernel), lexDot_word_close, lexDot_nl]
    simp only [DotLine.toks, Option.map_map, Function.comp_def, List.cons_append, List.nil_append]
  | edge s d t =>
    obtain ⟨h1, h2⟩ := hl s d t rfl
    simp only [DotLine.text, List.append_assoc, e1, e2, e3, lit_label, List.cons_append, List.nil_append]
    rw [lexDot_space, lexDot_decimal, lexDot_word_space, lexDot_arrow, lexDot_space, lexDot_decimal,
      lexDot_word_space, lexDot_open, lexDot_lit _ (by decide +kernel), lexDot_word_eq,
      lexDot_char h1 h2, lexDot_close, lexDot_nl]
    simp only [DotLine.toks, Option.map_map, Function.comp_def, List.cons_append, List.nil_append]

theorem lexDot_lines : ∀ (ls : List (DotLine Nat)),
    (∀ s d t, .edge s d t ∈ ls → t ≠ 34 ∧ t ≠ 92) → ∀ rest : PyStr,
    lexDot .plain (ls.flatMap DotLine.text ++ rest) =
      (lexDot .plain rest).map (ls.flatMap DotLine.toks ++ ·) := by
  intro ls
  induction ls with
  | nil => intro _ rest; simp
  | cons l ls ih =>
    intro h rest
    rw [List.flatMap_cons, List.append_assoc, lexDot_line l (fun s d t e => h s d t (by simp [e])),
      ih (fun s d t e => h s d t (by simp [e]))]
    simp [Option.map_map, Function.comp_def]

theorem parseStmts_lines : ∀ (ls : List (DotLine Nat)) (rest : List DotTok),
    parseStmts (ls.flatMap DotLine.toks ++ rest) = (parseStmts rest).map (ls.map DotLine.stmt ++ ·) := by
  intro ls
  induction ls with
  | nil => intro rest; simp
  | cons l ls ih =>
    intro rest
    cases l with
    | terminal id =>
      simp only [List.flatMap_cons, DotLine.toks, List.cons_append, List.nil_append, parseStmts, ih]
      simp [Option.map_map, Function.comp_def, DotLine.stmt]
    | edge s d t =>
      simp only [List.flatMap_cons, DotLine.toks, List.cons_append, List.nil_append, parseStmts, ih]
      simp [Option.map_map, Function.comp_def, DotLine.stmt]

theorem lexDot_head (rest : PyStr) :
    lexDot .plain (lit "digraph G {\n" ++ (lit "  rankdir=LR\n" ++ rest)) =
      (lexDot .plain rest).map fun ts => .word (lit "digraph") :: .word (lit "G") :: .sym 123 ::
        .word (lit "rankdir") :: .sym 61 :: .word (lit "LR") :: ts := by
  have h1 : lit "digraph G {\n" = lit "digraph" ++ 32 :: (lit "G" ++ [32, 123, 10]) := by decide +kernel
  have h2 : lit "  rankdir=LR\n" = 32 :: 32 :: (lit "rankdir" ++ 61 :: (lit "LR" ++ [10])) := by
    decide +kernel
  rw [h1, h2]
  simp only [List.append_assoc, List.cons_append, List.nil_append]
  rw [lexDot_lit _ (by decide +kernel), lexDot_word_space, lexDot_lit _ (by decide +kernel),
    lexDot_word_space, lexDot_brace, lexDot_nl, lexDot_space, lexDot_space,
    lexDot_lit _ (by decide +kernel), lexDot_word_eq, lexDot_lit _ (by decide +kernel), lexDot_word_nl]
  simp only [Option.map_map, Function.comp_def]

/-- The file is read as the statements of its lines. -/
theorem readDot_lines (ls : List (DotLine Nat)) (h : ∀ s d t, .edge s d t ∈ ls → t ≠ 34 ∧ t ≠ 92) :
    readDot (lit "digraph G {\n" ++ (lit "  rankdir=LR\n" ++ (ls.flatMap DotLine.text ++ lit "}\n"))) =
      some (lit "G", .setting (lit "rankdir") (lit "LR") :: ls.map DotLine.stmt) := by
  have he : lexDot .plain (lit "}\n") = some [.sym 125] := by decide +kernel
  have hp : parseStmts [.sym 125] = some [] := rfl
  simp only [readDot, lexDot_head, lexDot_lines ls h, he, Option.map_some]
  rw [if_pos (by decide)]
  simp only [parseStmts, parseStmts_lines, hp, Option.map_some, List.append_nil]

theorem dotPath_iff {ls : List (DotLine Nat)} {v : Nat} : ∀ (w : PyStr) (u : Nat),
    DotPath (.setting (lit "rankdir") (lit "LR") :: ls.map DotLine.stmt) (decimal u) w (decimal v) ↔
      Drawn ls u w v := by
  intro w
  induction w with
  | nil =>
    intro u
    constructor
    · intro h
      generalize hx : decimal u = x at h
      generalize hy : decimal v = y at h
      cases h
      have := decimal_inj (hx.trans hy.symm)
      subst this
      exact .here _
    · intro h; cases h; exact .here _
  | cons c w ih =>
    intro u
    constructor
    · intro h
      generalize hx : decimal u = x at h
      cases h with
      | step a r =>
        rcases List.mem_cons.1 a with a | a
        · cases a
        · obtain ⟨l, hl, e⟩ := List.mem_map.1 a
          cases l with
          | terminal id => cases e
          | edge s d t =>
            simp only [DotLine.stmt, DotStmt.edge.injEq, Option.some.injEq, Prod.mk.injEq,
              List.cons.injEq, and_true] at e
            obtain ⟨e1, e2, -, e3⟩ := e
            subst e3
            have := decimal_inj (e1.trans hx.symm)
            subst this
            rw [← e2] at r
            exact .step hl ((ih d).1 r)
    · intro h
      cases h with
      | step a r =>
        exact .step (List.mem_cons_of_mem _ (List.mem_map.2 ⟨_, a, rfl⟩)) ((ih _).2 r)

theorem dotPath_target {ls : List (DotLine Nat)} : ∀ (w : PyStr) (u : Nat) (y : PyStr),
    DotPath (.setting (lit "rankdir") (lit "LR") :: ls.map DotLine.stmt) (decimal u) w y →
      ∃ v, y = decimal v := by
  intro w
  induction w with
  | nil => intro u y h; cases h; exact ⟨u, rfl⟩
  | cons c w ih =>
    intro u y h
    cases h with
    | step a r =>
      rcases List.mem_cons.1 a with a | a
      · cases a
      · obtain ⟨l, hl, e⟩ := List.mem_map.1 a
        cases l with
        | terminal id => cases e
        | edge s d t =>
          simp only [DotLine.stmt, DotStmt.edge.injEq] at e
          rw [← e.2.1] at r
          exact ih d y r

/-- A drawn token is a token of the text. -/
theorem edge_token {s : PyStr} {h : Heap Nat} {last : Nat} {L : Nat → PyStr} (B : Built s h last L)
    {order : List Nat} (ho : order.Perm (List.range h.length)) {u v t : Nat}
    (he : .edge u v t ∈ order.flatMap (dotBlock h)) : t ∈ s := by
  have ht := (dotBlock_edge B ho u v t).1 he
  have hu : u < h.length := by
    cases hnd : h[u]? with
    | none => simp [trOf, hnd] at ht
    | some nd => exact (List.getElem?_eq_some_iff.1 hnd).1
  obtain ⟨hj, e⟩ := B.hinv.inv.tr_some u hu t v ht
  obtain ⟨k, hk⟩ := e.sub_iff.2 (B.hinv.inv.sub hj)
  have hm : t ∈ L u ++ [t] := by simp
  exact List.mem_of_mem_take (hk.2.subset hm)

/-- C103.  If the text has no quote and no backslash, what graphviz reads from the file is a graph in
which the words along the arrows from node 0 are the substrings of the text, those that end in a red
node its suffixes, and no word leads to two nodes. -/
theorem C103_readable (text : PyStr) (h : ∀ c ∈ text, c ≠ 34 ∧ c ≠ 92) :
    ∃ file stmts, dotFile text = some file ∧ readDot file = some (lit "G", stmts) ∧
      .setting (lit "rankdir") (lit "LR") ∈ stmts ∧
      (∀ w, (∃ v, DotPath stmts (lit "0") w v) ↔ Substring text w) ∧
      (∀ w, (∃ v, DotPath stmts (lit "0") w v ∧ .node v (lit "color") (lit "red") ∈ stmts) ↔
        w <:+ text) ∧
      (∀ w v v', DotPath stmts (lit "0") w v → DotPath stmts (lit "0") w v' → v = v') := by
  obtain ⟨k, lines, hb', hd', h1, h2, h3⟩ := C84_dot_readable text
  obtain ⟨hp, last, L, hb, B, _⟩ := build_spec text
  rw [hb] at hb'; cases hb'
  obtain ⟨order, ho, hd⟩ := dotDump_order B
  rw [hd] at hd'; cases hd'
  have hz : lit "0" = decimal 0 := by decide +kernel
  refine ⟨_, _, by simp only [dotFile, hb, hd],
    readDot_lines _ (fun s d t he => h t (edge_token B ho he)), by simp, fun w => ?_, fun w => ?_,
    fun w v v' p q => ?_⟩
  · rw [← h1 w, hz]
    constructor
    · rintro ⟨y, hy⟩
      obtain ⟨v, rfl⟩ := dotPath_target w 0 y hy
      exact ⟨v, (dotPath_iff w 0).1 hy⟩
    · rintro ⟨v, hv⟩
      exact ⟨_, (dotPath_iff w 0).2 hv⟩
  · rw [← h2 w, hz]
    constructor
    · rintro ⟨y, hy, hr⟩
      obtain ⟨v, rfl⟩ := dotPath_target w 0 y hy
      refine ⟨v, (dotPath_iff w 0).1 hy, ?_⟩
      rcases List.mem_cons.1 hr with hr | hr
      · cases hr
      · obtain ⟨l, hl, e⟩ := List.mem_map.1 hr
        cases l with
        | edge s d t => cases e
        | terminal id =>
          simp only [DotLine.stmt, DotStmt.node.injEq, and_true] at e
          rw [← decimal_inj e]; exact hl
    · rintro ⟨v, hv, hr⟩
      exact ⟨_, (dotPath_iff w 0).2 hv, List.mem_cons_of_mem _ (List.mem_map.2 ⟨_, hr, rfl⟩)⟩
  · rw [hz] at p q
    obtain ⟨x, rfl⟩ := dotPath_target w 0 v p
    obtain ⟨y, rfl⟩ := dotPath_target w 0 v' q
    rw [h3 w x y ((dotPath_iff w 0).1 p) ((dotPath_iff w 0).1 q)]

theorem lexDot_quote_head : ∀ (s acc : PyStr),
    (∀ ts, lexDot (.quote acc) s = some ts → ∃ q ts', ts = .quoted q :: ts') ∧
    (∀ ts, lexDot (.escape acc) s = some ts → ∃ q ts', ts = .quoted q :: ts') := by
  intro s
  induction s with
  | nil => intro acc; constructor <;> intro ts h <;> simp [lexDot] at h
  | cons c s ih =>
    intro acc
    constructor
    · intro ts h
      simp only [lexDot] at h
      split at h
      · obtain ⟨x, _, rfl⟩ := Option.map_eq_some_iff.1 h
        exact ⟨_, _, rfl⟩
      · split at h
        · exact (ih acc).2 ts h
        · exact (ih _).1 ts h
    · intro ts h
      simp only [lexDot] at h
      split at h
      · exact (ih _).1 ts h
      · exact (ih _).1 ts h

theorem first_quote : ∀ (ls : List (DotLine Nat)), (∃ s d, .edge s d 34 ∈ ls) →
    ∃ good s d rest, ls = good ++ .edge s d 34 :: rest ∧ ∀ s d t, .edge s d t ∈ good → t ≠ 34 := by
  intro ls
  induction ls with
  | nil => rintro ⟨s, d, h⟩; simp at h
  | cons l ls ih =>
    rintro ⟨s, d, h⟩
    by_cases hl : ∃ s d, l = .edge s d 34
    · obtain ⟨s, d, rfl⟩ := hl
      exact ⟨[], s, d, ls, rfl, by simp⟩
    · have : .edge s d 34 ∈ ls := by
        rcases List.mem_cons.1 h with h | h
        · exact absurd ⟨s, d, h.symm⟩ hl
        · exact h
      obtain ⟨good, s, d, rest, e, hg⟩ := ih ⟨s, d, this⟩
      refine ⟨l :: good, s, d, rest, by rw [e]; rfl, fun s d t ht => ?_⟩
      rcases List.mem_cons.1 ht with ht | ht
      · rintro rfl; exact hl ⟨s, d, ht.symm⟩
      · exact hg s d t ht

/-- C103.  A quote in the text makes the file unreadable. -/
theorem C103_quote (text : PyStr) (hq : 34 ∈ text) (hb : 92 ∉ text) :
    ∃ file, dotFile text = some file ∧ readDot file = none := by
  obtain ⟨k, lines, hb', hd', h1, h2, h3⟩ := C84_dot_readable text
  obtain ⟨hp, last, L, hbl, B, _⟩ := build_spec text
  rw [hbl] at hb'; cases hb'
  obtain ⟨order, ho, hd⟩ := dotDump_order B
  rw [hd] at hd'; cases hd'
  have hfile : dotFile text = some (lit "digraph G {\n" ++ (lit "  rankdir=LR\n" ++
      ((order.flatMap (dotBlock k)).flatMap DotLine.text ++ lit "}\n"))) := by
    simp only [dotFile, hbl, hd]
  refine ⟨_, hfile, ?_⟩
  clear hfile
  have hs : Substring text [34] := by
    obtain ⟨a, b, rfl⟩ := List.append_of_mem hq
    exact ⟨a.length, a, b, by simp, rfl⟩
  obtain ⟨v, hv⟩ := (h1 [34]).2 hs
  have he : ∃ s d, .edge s d 34 ∈ order.flatMap (dotBlock k) := by
    cases hv with
    | step e _ => exact ⟨_, _, e⟩
  have hne : ∀ s d t, .edge s d t ∈ order.flatMap (dotBlock k) → t ≠ 92 := by
    rintro s d t he rfl; exact hb (edge_token B ho he)
  revert he hne
  generalize order.flatMap (dotBlock k) = ls
  intro he hne
  obtain ⟨good, s, d, rest, rfl, hg⟩ := first_quote ls he
  have e1 : lit " " = [32] := by decide +kernel
  have e2 : lit " -> " = [32, 45, 62, 32] := by decide +kernel
  have e3 : lit "\"]\n" = [34, 93, 10] := by decide +kernel
  have key : ∀ r : PyStr, lexDot .plain ((DotLine.edge s d 34).text ++ r) =
      (lexDot (.quote []) (93 :: 10 :: r)).map fun ts => .word (decimal s) :: .arrow ::
        .word (decimal d) :: .sym 91 :: .word (lit "label") :: .sym 61 :: .quoted [] :: ts := by
    intro r
    simp only [DotLine.text, List.append_assoc, e1, e2, e3, lit_label, List.cons_append, List.nil_append]
    rw [lexDot_space, lexDot_decimal, lexDot_word_space, lexDot_arrow, lexDot_space, lexDot_decimal,
      lexDot_word_space, lexDot_open, lexDot_lit _ (by decide +kernel), lexDot_word_eq]
    have : ∀ x : PyStr, lexDot .plain (34 :: 34 :: 34 :: x) =
        (lexDot (.quote []) x).map (.quoted [] :: ·) := by
      intro x; simp [lexDot, dotWordChar]
    rw [this]
    simp only [Option.map_map, Function.comp_def]
  simp only [readDot, lexDot_head, List.flatMap_append, List.flatMap_cons, List.append_assoc]
  rw [lexDot_lines good fun s d t ht => ⟨hg s d t ht, hne s d t (by simp [ht])⟩, key]
  cases hx : lexDot (.quote []) (93 :: 10 :: (rest.flatMap DotLine.text ++ lit "}\n")) with
  | none => rfl
  | some ts =>
    obtain ⟨q, ts', rfl⟩ := (lexDot_quote_head _ _).1 _ hx
    simp only [Option.map_some]
    rw [if_pos (by decide)]
    simp only [parseStmts, parseStmts_lines, Option.map_none]

theorem lexDot_revisions : ∀ (es : List (Nat × Nat)) (rest : PyStr),
    lexDot .plain (es.flatMap revisionLine ++ rest) = (lexDot .plain rest).map
      ((es.flatMap fun e => [.word (decimal (max e.1 e.2)), .arrow, .word (decimal (min e.1 e.2))]) ++ ·) := by
  intro es
  have e1 : lit " " = [32] := by decide +kernel
  have e2 : lit " -> " = [32, 45, 62, 32] := by decide +kernel
  have e3 : lit "\n" = [10] := by decide +kernel
  induction es with
  | nil => intro rest; simp
  | cons e es ih =>
    intro rest
    have h1 : (if e.2 < e.1 then e.2 else e.1) = min e.1 e.2 := by split <;> omega
    have h2 : (if e.2 < e.1 then e.1 else e.2) = max e.1 e.2 := by split <;> omega
    simp only [List.flatMap_cons, revisionLine, h1, h2, e1, e2, e3, List.append_assoc, List.cons_append,
      List.nil_append]
    rw [lexDot_space, lexDot_decimal, lexDot_word_space, lexDot_arrow, lexDot_space, lexDot_decimal,
      lexDot_word_nl, ih]
    simp only [Option.map_map, Function.comp_def]

theorem parseStmts_revisions : ∀ (es : List (Nat × Nat)),
    parseStmts ((es.flatMap fun e => [.word (decimal (max e.1 e.2)), .arrow,
        .word (decimal (min e.1 e.2))]) ++ [.sym 125]) =
      some (es.map fun e => .edge (decimal (max e.1 e.2)) (decimal (min e.1 e.2)) none) := by
  intro es
  induction es with
  | nil => rfl
  | cons e es ih =>
    simp only [List.flatMap_cons, List.cons_append, List.nil_append, List.map_cons]
    rw [← Option.map_some, ← ih]
    cases es with
    | nil => rfl
    | cons e' es => rfl

/-- C103.  Whatever the order in which revisions were added, the file is read as one arrow per edge of the
tree, from the larger to the smaller number. -/
theorem C103_revision_arrows (t : RTree Nat) (es : List (Nat × Nat)) (h : rEdges t = some es) :
    ∃ file, revisionDotFile t = some file ∧
      readDot file = some (lit "G", .setting (lit "rankdir") (lit "LR") ::
        es.map fun e => .edge (decimal (max e.1 e.2)) (decimal (min e.1 e.2)) none) := by
  have hf : revisionDotFile t = some (lit "digraph G {\n" ++ (lit "  rankdir=LR\n" ++
      (es.flatMap revisionLine ++ lit "}\n"))) := by simp only [revisionDotFile, h]
  have he : lexDot .plain (lit "}\n") = some [.sym 125] := by decide +kernel
  refine ⟨_, hf, ?_⟩
  simp only [readDot, lexDot_head, lexDot_revisions, he, Option.map_some]
  rw [if_pos (by decide)]
  simp only [parseStmts, parseStmts_revisions, Option.map_some]

/-- C103.  If the revisions were added in increasing order, every arrow goes from the parent in the tree
to the child, and every revision but the newest has exactly one arrow to it. -/
theorem C103_revisions (tags : List Nat) (t : RTree Nat) (ht : tags.Pairwise (· < ·))
    (h : rInsertAll ⟨none, []⟩ tags = some t) :
    ∃ file es, revisionDotFile t = some file ∧ rEdges t = some es ∧
      readDot file = some (lit "G", .setting (lit "rankdir") (lit "LR") ::
        es.map fun e => .edge (decimal e.1) (decimal e.2) none) ∧
      (es.map Prod.snd).Perm tags.dropLast := by
  have hn : tags.Nodup := ht.imp fun h => Nat.ne_of_lt h
  obtain ⟨es, he, hp, hlt⟩ := C79_edges tags t hn h
  obtain ⟨file, hf, hr⟩ := C103_revision_arrows t es he
  refine ⟨file, es, hf, he, ?_, hp⟩
  rw [hr]
  have : ∀ e ∈ es, e.2 < e.1 := by
    intro e hm
    obtain ⟨p, q, r, hd⟩ := hlt e hm
    rw [hd, List.append_assoc, List.cons_append] at ht
    exact (List.pairwise_cons.1 (List.pairwise_append.1 ht).2.1).1 _ (by simp)
  have heq : (es.map fun e => DotStmt.edge (decimal (max e.1 e.2)) (decimal (min e.1 e.2)) none) =
      es.map fun e => .edge (decimal e.1) (decimal e.2) none := by
    refine List.map_congr_left fun e hm => ?_
    have := this e hm
    rw [Nat.max_eq_left (by omega), Nat.min_eq_right (by omega)]
  rw [heq]

example : (dotFile (lit "ab")).map (lit "digraph G {\n  rankdir=LR\n 0[color=red]\n 0 -> 1 [label=\"a\"]\n 0 -> 2 [label=\"b\"]\n 2[color=red]\n 1 -> 2 [label=\"b\"]\n}\n" == ·) = some true := by
  decide +kernel
-- A backslash hides the closing quote; the labels that graphviz sees are not those of the text.
example : (dotFile (lit "\\")).map readDot = some none ∧
    (dotFile (lit "\\a")).map readDot = some none := by decide +kernel
example : (dotFile (lit "\"a")).map readDot = some none := by decide +kernel
-- The drawing does not show that 1 is the root here.
example : ((rInsertAll ⟨none, []⟩ [2, 1]).bind revisionDotFile).map
    (lit "digraph G {\n  rankdir=LR\n 2 -> 1\n}\n" == ·) = some true ∧
    (rInsertAll ⟨none, []⟩ [2, 1]).bind rEdges = some [(1, 2)] := by decide +kernel
example : ∀ c ∈ lit "the quick 'brown' fox\n", c ≠ 34 ∧ c ≠ 92 := by decide +kernel

end Gaspra
