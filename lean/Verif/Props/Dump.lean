import Verif.Proofs.DumpDepth
import Verif.Spec.Strings

/-!
# C84: the dumps of an automaton
-/

namespace Gaspra

variable {α : Type _} [DecidableEq α]

/-- C84.  The loop of `dump` in dot_dump.py ends after one pass for the root and at most one for every
transition; every node is written exactly once, with all its transitions. -/
theorem C84_dot_complete (text : List α) : ∃ h, build text = some h ∧
    ∃ order : List Nat, order.Perm (List.range h.length) ∧
      dotLoop h (transitionCount h + 1) [0] [] = some (order.flatMap (dotBlock h)) := by
  obtain ⟨h, last, L, hb, B, _⟩ := build_spec text
  exact ⟨h, hb, dotDump_order B⟩

/-- C84.  What can be read off the drawing: the words along the paths from node 0 are the substrings of
the text, those ending in a red node the suffixes; no word labels two paths. -/
theorem C84_dot_readable (text : List α) : ∃ h lines, build text = some h ∧
    dotDump h = some lines ∧
    (∀ w, (∃ v, Drawn lines 0 w v) ↔ Substring text w) ∧
    (∀ w, (∃ v, Drawn lines 0 w v ∧ .terminal v ∈ lines) ↔ w <:+ text) ∧
    (∀ w v v', Drawn lines 0 w v → Drawn lines 0 w v' → v = v') := by
  obtain ⟨h, last, L, hb, B, _⟩ := build_spec text
  obtain ⟨order, ho, hd⟩ := dotDump_order B
  have hz := B.hinv.inv.zero_lt
  refine ⟨h, _, hb, hd, fun w => ?_, fun w => ?_, fun w v v' h1 h2 => ?_⟩
  · obtain ⟨h1, h2⟩ := matchNode_root B.hinv w
    rw [← sub_iff_substring]
    constructor
    · rintro ⟨v, hv⟩
      obtain ⟨hlt, he⟩ := h1 v ((drawn_iff B ho v w 0 hz).1 hv)
      exact he.sub_iff.2 (B.hinv.inv.sub hlt)
    · intro hs
      cases hm : matchNode h 0 w with
      | none => exact absurd hs (h2 hm)
      | some v => exact ⟨v, (drawn_iff B ho v w 0 hz).2 hm⟩
  · obtain ⟨h1, h2⟩ := matchNode_root B.hinv w
    have hsfx : ∀ v, Eqv text w (L v) → (w <:+ text ↔ L v <:+ text) := by
      intro v hv
      have := hv text.length
      simpa [Occ] using this
    constructor
    · rintro ⟨v, hv, ht⟩
      obtain ⟨hlt, he⟩ := h1 v ((drawn_iff B ho v w 0 hz).1 hv)
      exact (hsfx v he).2 ((B.term v hlt).1 ((dotBlock_terminal ho v).1 ht))
    · intro hw
      cases hm : matchNode h 0 w with
      | none => exact absurd ⟨text.length, by simpa [Occ] using hw⟩ (h2 hm)
      | some v =>
        obtain ⟨hlt, he⟩ := h1 v hm
        exact ⟨v, (drawn_iff B ho v w 0 hz).2 hm,
          (dotBlock_terminal ho v).2 ((B.term v hlt).2 ((hsfx v he).1 hw))⟩
  · have e1 := (drawn_iff B ho v w 0 hz).1 h1
    have e2 := (drawn_iff B ho v' w 0 hz).1 h2
    rw [e1] at e2; cases e2; rfl

/-- C84.  `dump` of suffix_automaton.py prints every node exactly once if Python allows one nested call
more than the text has tokens, and raises `RecursionError` if it allows fewer. -/
theorem C84_dump_depth (text : List α) : ∃ h, build text = some h ∧
    (∀ f, text.length < f → ∃ order : List Nat, order.Perm (List.range h.length) ∧
      dumpFrom h f 0 [] = some (order, order.flatMap (dumpBlock h))) ∧
    (∀ f, f ≤ text.length → dumpFrom h f 0 [] = none) := by
  obtain ⟨h, last, L, hb, B, _⟩ := build_spec text
  refine ⟨h, hb, fun f hf => ?_, fun f hf => ?_⟩
  · obtain ⟨order, h1, A, h2, h3⟩ := dumpFrom_spec B f 0 [] B.hinv.inv.zero_lt List.nodup_nil (by omega)
    refine ⟨order, perm_range (by simpa using A.nodup) fun i => ⟨A.lt i, fun hi => ?_⟩, by simpa using h1⟩
    exact B.hinv.reach (· ∈ order) (by simpa using h2)
      (fun i c j _ hi ht => by simpa using h3 i hi c j ht) i hi
  · exact dumpFrom_deep B (build_firsts hb B) f 0 0 [] (by omega) B.hinv.inv.zero_lt
      (by rw [B.hinv.inv.rootL]; simp) (by simp)

/-- The entry of a node. -/
def entryOf (h : Heap α) (i : Nat) : DumpEntry α :=
  ⟨i, lenOf h i, termOf h i, transOf h i⟩

omit [DecidableEq α] in
theorem foldr_transitions (ts : List (α × Nat)) (es : List (DumpEntry α)) :
    (ts.map fun tr => DumpLine.transition tr.1 tr.2).foldr readLine ([], es) = (ts, es) := by
  induction ts with
  | nil => rfl
  | cons t ts ih => simp only [List.map_cons, List.foldr_cons, ih, readLine]

theorem readDump_blocks {h : Heap α} {order : List Nat} (ho : ∀ i ∈ order, i < h.length) :
    (order.flatMap (dumpBlock h)).foldr readLine ([], []) = ([], order.map (entryOf h)) := by
  induction order with
  | nil => rfl
  | cons i order ih =>
    obtain ⟨nd, hnd⟩ := heap_get (ho i (by simp))
    rw [List.flatMap_cons, List.foldr_append, ih fun j hj => ho j (by simp [hj])]
    have e : entryOf h i = ⟨i, nd.length, nd.isTerminal, nd.transitions⟩ := by
      simp only [entryOf, lenOf, termOf, transOf, hnd]
    simp only [dumpBlock, hnd, List.foldr_cons, List.map_cons, e]
    cases ht : nd.transitions with
    | nil => rfl
    | cons t ts =>
      simp only [List.isEmpty_cons, Bool.false_eq_true, if_false]
      rw [foldr_transitions (t :: ts)]
      rfl

/-- Paths of the dump are walks. -/
theorem leads_iff {s : List α} {h : Heap α} {last : Nat} {L : Nat → List α}
    (B : Built s h last L) {order : List Nat} (ho : order.Perm (List.range h.length)) (v : Nat) :
    ∀ (w : List α) (u : Nat), u < h.length →
      (Leads (order.map (entryOf h)) u w v ↔ matchNode h u w = some v) := by
  intro w
  induction w with
  | nil =>
    intro u hu
    simp only [matchNode, Option.some.injEq]
    constructor
    · intro hd; cases hd; rfl
    · rintro rfl; exact .here _
  | cons t w ih =>
    intro u hu
    obtain ⟨nd, hnd⟩ := heap_get hu
    simp only [matchNode, hnd]
    have hk : (nd.transitions.map Prod.fst).Nodup := by
      have := B.keys u; simp only [transOf, hnd] at this; exact this
    constructor
    · intro hd
      generalize hu' : u = u' at hd
      cases hd with
      | @step e y x t' w' he ht r =>
        obtain ⟨i, _, rfl⟩ := List.mem_map.1 he
        simp only [entryOf] at hu' ht
        subst hu'
        simp only [transOf, hnd] at ht
        have hg := dget_of_mem hk ht
        rw [hg]
        have htr : trOf h u t = some y := by rw [trOf_some hnd, hg]
        exact (ih _ (B.hinv.step_longer hu htr).1).1 r
    · intro hm
      cases hd : dget nd.transitions t with
      | none => rw [hd] at hm; cases hm
      | some x =>
        rw [hd] at hm
        have ht : trOf h u t = some x := by rw [trOf_some hnd, hd]
        have hmem : entryOf h u ∈ order.map (entryOf h) :=
          List.mem_map.2 ⟨u, ho.mem_iff.2 (List.mem_range.2 hu), rfl⟩
        have := Leads.step (t := t) (v := x) hmem
          (by simp only [entryOf, transOf, hnd]; exact mem_of_dget hd)
          ((ih _ (B.hinv.step_longer hu ht).1).2 hm)
        exact this

/-- C84.  What can be read off the printed dump: the words along the paths from node 0 are the
substrings of the text; the length printed for a node is that of the longest word leading to it; and
a word leads to a node marked terminal exactly if it is a suffix. -/
theorem C84_dump_readable (text : List α) : ∃ h order lines, build text = some h ∧
    dumpFrom h (text.length + 1) 0 [] = some (order, lines) ∧
    (∀ w, (∃ v, Leads (readDump lines) 0 w v) ↔ Substring text w) ∧
    (∀ v, (∃ w, Leads (readDump lines) 0 w v) ↔ ∃ e ∈ readDump lines, e.id = v) ∧
    (∀ e ∈ readDump lines,
      (∃ w, Leads (readDump lines) 0 w e.id ∧ w.length = e.length) ∧
      ∀ w, Leads (readDump lines) 0 w e.id →
        w.length ≤ e.length ∧ (e.terminal = true ↔ w <:+ text)) := by
  obtain ⟨h, last, L, hb, B, _⟩ := build_spec text
  obtain ⟨k, hk, h1, -⟩ := C84_dump_depth text
  rw [hb] at hk; cases hk
  obtain ⟨order, ho, hd⟩ := h1 (text.length + 1) (by omega)
  have hz := B.hinv.inv.zero_lt
  have hlt : ∀ i ∈ order, i < h.length := fun i hi => List.mem_range.1 (ho.mem_iff.1 hi)
  have hr : readDump (order.flatMap (dumpBlock h)) = order.map (entryOf h) := by
    rw [readDump, readDump_blocks hlt]
  refine ⟨h, order, _, hb, hd, ?_⟩
  rw [hr]
  have hsfx : ∀ w v, Eqv text w (L v) → (w <:+ text ↔ L v <:+ text) := by
    intro w v hv
    have := hv text.length
    simpa [Occ] using this
  have hL : ∀ v, v < h.length → matchNode h 0 (L v) = some v := by
    intro v hv
    obtain ⟨a, b⟩ := matchNode_root B.hinv (L v)
    cases hm : matchNode h 0 (L v) with
    | none => exact absurd (B.hinv.inv.sub hv) (b hm)
    | some u =>
      obtain ⟨hu, he⟩ := a u hm
      rw [B.hinv.inv.eq_of_eqv hv hu he]
  refine ⟨fun w => ?_, fun v => ?_, fun e he => ?_⟩
  · obtain ⟨a, b⟩ := matchNode_root B.hinv w
    rw [← sub_iff_substring]
    constructor
    · rintro ⟨v, hv⟩
      obtain ⟨hv1, hv2⟩ := a v ((leads_iff B ho v w 0 hz).1 hv)
      exact hv2.sub_iff.2 (B.hinv.inv.sub hv1)
    · intro hs
      cases hm : matchNode h 0 w with
      | none => exact absurd hs (b hm)
      | some v => exact ⟨v, (leads_iff B ho v w 0 hz).2 hm⟩
  · constructor
    · rintro ⟨w, hw⟩
      have hv := ((matchNode_root B.hinv w).1 v ((leads_iff B ho v w 0 hz).1 hw)).1
      exact ⟨entryOf h v, List.mem_map.2 ⟨v, ho.mem_iff.2 (List.mem_range.2 hv), rfl⟩, rfl⟩
    · rintro ⟨e, he, rfl⟩
      obtain ⟨i, hi, rfl⟩ := List.mem_map.1 he
      exact ⟨L i, (leads_iff B ho _ _ 0 hz).2 (hL i (hlt i hi))⟩
  · obtain ⟨i, hi, rfl⟩ := List.mem_map.1 he
    have hil := hlt i hi
    refine ⟨⟨L i, (leads_iff B ho _ _ 0 hz).2 (hL i hil), (B.hinv.len i hil).symm⟩, fun w hw => ?_⟩
    obtain ⟨_, hv⟩ := (matchNode_root B.hinv w).1 _ ((leads_iff B ho _ w 0 hz).1 hw)
    simp only [entryOf] at hv ⊢
    refine ⟨?_, ?_⟩
    · rw [B.hinv.len i hil]
      exact (B.hinv.inv.longest i hil w hv).length_le
    · rw [hsfx w i hv]
      exact B.term i hil

/-- C84.  `all_suffixes` needs one nested generator more than the text has tokens, no matter how many
are allowed beyond that. -/
theorem C84_all_suffixes_depth (text : List α) : ∃ h, build text = some h ∧
    ∀ f, (allSuffixesFrom h f 0).isSome = decide (text.length < f) := by
  obtain ⟨h, last, L, hb, B, _⟩ := build_spec text
  refine ⟨h, hb, fun f => ?_⟩
  by_cases hf : text.length < f
  · obtain ⟨out, h1, _⟩ := allSuffixesFrom_spec B f 0 B.hinv.inv.zero_lt (by omega)
    simp [h1, hf]
  · rw [allSuffixesFrom_deep B f 0 0 (by omega) B.hinv.inv.zero_lt (by rw [B.hinv.inv.rootL]; simp)]
    simp [hf]

example : (build "aba".toList).bind dotDump = some
    [.terminal 0, .edge 0 1 'a', .edge 0 2 'b', .edge 2 3 'a', .terminal 3, .terminal 1,
      .edge 1 2 'b'] := by decide +kernel
example : ((build "ab".toList).bind fun h => dumpFrom h 3 0 []) = some ([0, 1, 2],
    [.node 0 0 true, .transition 'a' 1, .transition 'b' 2, .node 1 1 false, .transition 'b' 2,
      .node 2 2 true, .noTransitions]) := by decide +kernel
example : ((build "abb".toList).bind fun h => (dumpFrom h 4 0 []).map fun r => readDump r.2) = some
    [⟨0, 0, true, [('a', 1), ('b', 4)]⟩, ⟨1, 1, false, [('b', 2)]⟩, ⟨2, 2, false, [('b', 3)]⟩,
      ⟨3, 3, true, []⟩, ⟨4, 1, true, [('b', 3)]⟩] := by decide +kernel
example : ((build "ab".toList).bind fun h => dumpFrom h 2 0 []) = none := by decide +kernel

end Gaspra
