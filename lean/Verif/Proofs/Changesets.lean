import Verif.Spec.Diff
import Verif.Proofs.SAQueries

/-!
# Correctness of `find_changeset` and of the streams derived from it
-/

set_option linter.unusedSectionVars false
set_option linter.unusedSimpArgs false
set_option linter.unusedVariables false

namespace Gaspra

variable {α : Type _}

/-! ## Occurrences -/

theorem OccursAt.left {s x y z : List α} {i : Nat} (h : OccursAt s (x ++ y ++ z) i) :
    OccursAt s x i := by
  obtain ⟨p, q, rfl, hi⟩ := h
  exact ⟨p, y ++ z ++ q, by simp, hi⟩

theorem OccursAt.mid {s x y z : List α} {i : Nat} (h : OccursAt s (x ++ y ++ z) i) :
    OccursAt s y (i + x.length) := by
  obtain ⟨p, q, rfl, hi⟩ := h
  exact ⟨p ++ x, z ++ q, by simp, by simp [hi]⟩

theorem OccursAt.right {s x y z : List α} {i : Nat} (h : OccursAt s (x ++ y ++ z) i) :
    OccursAt s z (i + x.length + y.length) := by
  obtain ⟨p, q, rfl, hi⟩ := h
  exact ⟨p ++ x ++ y, q, by simp, by simp [hi]; omega⟩

theorem OccursAt.slice {s w : List α} {i e : Nat} (h : OccursAt s w i) (he : e = i + w.length) :
    (Slice.mk i (some e)).get s = w := by
  obtain ⟨p, q, rfl, rfl⟩ := h
  subst he
  simp only [Slice.get]
  have : (p ++ w ++ q).take (p.length + w.length) = p ++ w := by
    rw [← List.length_append, List.take_left]
  rw [this, List.drop_left]

theorem OccursAt.whole (s : List α) : OccursAt s s 0 := ⟨[], [], by simp, rfl⟩

/-- `x` is what the slice `sl` selects, at position `i`. -/
structure Selects (s : List α) (sl : Slice) (i : Nat) (x : List α) : Prop where
  start : sl.start = i
  occ : OccursAt s x i
  stop_some : ∀ e, sl.stop = some e → e = i + x.length
  stop_none : sl.stop = none → s.length = i + x.length

theorem Selects.get {s x : List α} {sl : Slice} {i : Nat} (h : Selects s sl i x) :
    sl.get s = x := by
  obtain ⟨st, sp⟩ := sl
  have h1 := h.start
  simp only at h1; subst h1
  cases sp with
  | some e => exact h.occ.slice (h.stop_some e rfl)
  | none =>
    have h2 := h.stop_none rfl
    obtain ⟨p, q, rfl, hp⟩ := h.occ
    have : q = [] := by
      apply List.eq_nil_of_length_eq_zero; simp at h2; omega
    subst this
    simp [Slice.get, ← hp]

/-! ## The shape of a changeset -/

inductive Valid : Nat → List α → Nat → List α → Changeset α → Prop
  | leaf {i j : Nat} {x y : List α} {os ms : Slice} (h : ∀ t, t ∈ x → t ∉ y) :
      Valid i x j y (.leaf x y os ms)
  | node {i j : Nat} {x1 w x2 y1 y2 : List α} {p s : Changeset α} (hw : w ≠ [])
      (hmax : ∀ z, CommonSubstring (x1 ++ w ++ x2) (y1 ++ w ++ y2) z → z.length ≤ w.length)
      (hfirst : ∀ z j', CommonSubstring (x1 ++ w ++ x2) (y1 ++ w ++ y2) z →
        z.length = w.length → OccursAt (y1 ++ w ++ y2) z j' → y1.length ≤ j')
      (hfirstO : ∀ i', OccursAt (x1 ++ w ++ x2) w i' → x1.length ≤ i')
      (hp : Valid i x1 j y1 p)
      (hs : Valid (i + x1.length + w.length) x2 (j + y1.length + w.length) y2 s) :
      Valid i (x1 ++ w ++ x2) j (y1 ++ w ++ y2)
        (.node ⟨i + x1.length, some (i + x1.length + w.length)⟩
          ⟨j + y1.length, some (j + y1.length + w.length)⟩ p s)

variable [DecidableEq α]

theorem findLcs_spec (a b : List α) :
    ∃ i j n w, findLcs a b = some (i, j, n) ∧ w.length = n ∧
      OccursAt a w i ∧ OccursAt b w j ∧
      (∀ x, CommonSubstring a b x → x.length ≤ n) ∧
      (∀ i', OccursAt a w i' → i ≤ i') ∧
      (∀ x j', CommonSubstring a b x → x.length = n → OccursAt b x j' → j ≤ j') := by
  obtain ⟨h, last, L, hb, B, _⟩ := build_spec a
  obtain ⟨i, j, n, w, h1, h2, h3, h4, h5, h6, h7⟩ := saFindLcs_spec B b
  refine ⟨i, j, n, w, ?_, h2, h3, h4, h5, h6, fun x j' hx => h7 x j' hx.1⟩
  simp only [findLcs, hb, h1]

theorem common_single {a b : List α} {t : α} (ha : t ∈ a) (hb : t ∈ b) :
    CommonSubstring a b [t] := by
  have single : ∀ (s : List α), t ∈ s → Substring s [t] := by
    intro s ht
    obtain ⟨p, q, rfl⟩ := List.append_of_mem ht
    exact ⟨p.length, p, q, by simp, rfl⟩
  exact ⟨single a ha, single b hb⟩

theorem findChangesetAux_spec (o m : List α) : ∀ (fuel : Nat) (os ms : Slice) (i j : Nat)
    (x y : List α), Selects o os i x → Selects m ms j y → x.length < fuel →
    ∃ cs, findChangesetAux o m fuel os ms = some cs ∧ Valid i x j y cs := by
  intro fuel
  induction fuel with
  | zero => intro os ms i j x y _ _ hf; omega
  | succ f ih =>
    intro os ms i j x y ho hm hf
    obtain ⟨a, b, n, w, hl, hwn, hoa, hob, hmax, hfo, hfm⟩ := findLcs_spec x y
    simp only [findChangesetAux, ho.get, hm.get, hl, ho.start, hm.start]
    by_cases hn : n = 0
    · refine ⟨_, by rw [if_pos hn], Valid.leaf ?_⟩
      intro t ht ht'
      have := hmax [t] (common_single ht ht')
      simp [hn] at this
    · rw [if_neg hn]
      obtain ⟨x1, x2, hx, hx1⟩ := hoa
      obtain ⟨y1, y2, hy, hy1⟩ := hob
      subst hx hy
      have hso := ho.occ
      have hsm := hm.occ
      have hxlen : (x1 ++ w ++ x2).length = x1.length + w.length + x2.length := by simp; omega
      have hylen : (y1 ++ w ++ y2).length = y1.length + w.length + y2.length := by simp; omega
      obtain ⟨p, hp1, hp2⟩ := ih ⟨i, some (i + a)⟩ ⟨j, some (j + b)⟩ i j x1 y1
        ⟨rfl, hso.left, by intro e he; cases he; omega, by simp⟩
        ⟨rfl, hsm.left, by intro e he; cases he; omega, by simp⟩ (by omega)
      obtain ⟨s, hs1, hs2⟩ := ih ⟨i + a + n, os.stop⟩ ⟨j + b + n, ms.stop⟩
        (i + x1.length + w.length) (j + y1.length + w.length) x2 y2
        ⟨by simp; omega, hso.right, by intro e he; have := ho.stop_some e he; omega,
          by intro he; have := ho.stop_none he; omega⟩
        ⟨by simp; omega, hsm.right, by intro e he; have := hm.stop_some e he; omega,
          by intro he; have := hm.stop_none he; omega⟩ (by omega)
      simp only [hp1, hs1]
      refine ⟨_, rfl, ?_⟩
      have hw : w ≠ [] := by rintro rfl; simp at hwn; omega
      have := Valid.node hw (by rw [hwn]; exact hmax) (by rw [hwn, hy1]; exact hfm)
        (by rw [hx1]; exact hfo) hp2 hs2
      rw [hx1, hwn, hy1] at this
      exact this

theorem findChangeset_spec (o m : List α) :
    ∃ cs, findChangeset o m = some cs ∧ Valid 0 o 0 m cs := by
  refine findChangesetAux_spec o m _ _ _ 0 0 o m ?_ ?_ (by omega)
  · exact ⟨rfl, OccursAt.whole o, by simp, by simp⟩
  · exact ⟨rfl, OccursAt.whole m, by simp, by simp⟩

/-! ## Streams -/

theorem bothEmpty_iff {a b : List α} : bothEmpty a b = true ↔ a = [] ∧ b = [] := by
  simp [bothEmpty]

theorem Valid.into {o : List α} {i j : Nat} {x y : List α} {cs : Changeset α}
    (V : Valid i x j y cs) (ho : OccursAt o x i) :
    intoText (cs.asDiffStream o) = y ∧ fromText (cs.asDiffStream o) = x := by
  induction V with
  | leaf h =>
    simp only [Changeset.asDiffStream]
    split
    · next he => obtain ⟨rfl, rfl⟩ := bothEmpty_iff.1 he; simp [intoText, fromText]
    · simp [intoText, fromText]
  | node hw hmax _ _ hp hs ihp ihs =>
    obtain ⟨p1, p2⟩ := ihp ho.left
    obtain ⟨s1, s2⟩ := ihs ho.right
    have hc := ho.mid.slice rfl
    simp only [intoText, fromText] at *
    simp only [Changeset.asDiffStream, List.flatMap_append, p1, p2, s1, s2, hc]
    simp

theorem Valid.applyF {o : List α} {i j : Nat} {x y : List α} {cs : Changeset α}
    (V : Valid i x j y cs) (ho : OccursAt o x i) :
    applyForward cs.asChangeStream o = y := by
  induction V with
  | leaf h =>
    simp only [Changeset.asChangeStream]
    split
    · next he => obtain ⟨rfl, rfl⟩ := bothEmpty_iff.1 he; simp [applyForward, stripForward, applyPatch, joinChanges]
    · simp only [applyForward, stripForward, applyPatch, joinChanges, List.filterMap_cons,
        List.filterMap_nil]
      split
      · next hx => split at hx <;> simp_all
      · next hx => split at hx <;> simp_all
                   subst hx; simp
  | node hw hmax _ _ hp hs ihp ihs =>
    have p1 := ihp ho.left
    have s1 := ihs ho.right
    have hc := ho.mid.slice rfl
    simp only [applyForward, stripForward, applyPatch, joinChanges] at *
    simp only [Changeset.asChangeStream, List.filterMap_append, List.map_append,
      List.flatten_append, p1, s1]
    simp [hc]

theorem Valid.applyR {m : List α} {i j : Nat} {x y : List α} {cs : Changeset α}
    (V : Valid i x j y cs) (hm : OccursAt m y j) :
    applyReverse cs.asChangeStream m = x := by
  induction V with
  | leaf h =>
    simp only [Changeset.asChangeStream]
    split
    · next he => obtain ⟨rfl, rfl⟩ := bothEmpty_iff.1 he; simp [applyReverse, stripReverse, applyPatch, joinChanges]
    · simp only [applyReverse, stripReverse, applyPatch, joinChanges, List.filterMap_cons,
        List.filterMap_nil]
      split
      · next hx => split at hx <;> simp_all
      · next hx => split at hx <;> simp_all
                   subst hx; simp
  | node hw hmax _ _ hp hs ihp ihs =>
    have p1 := ihp hm.left
    have s1 := ihs hm.right
    have hc := hm.mid.slice rfl
    simp only [applyReverse, stripReverse, applyPatch, joinChanges] at *
    simp only [Changeset.asChangeStream, List.filterMap_append, List.map_append,
      List.flatten_append, p1, s1]
    simp [hc]

theorem Valid.oldF {o : List α} {i j : Nat} {x y : List α} {cs : Changeset α}
    (V : Valid i x j y cs) (ho : OccursAt o x i) : oldApplyForward cs o = y := by
  induction V with
  | leaf h => simp [oldApplyForward, Changeset.oldForward, joinChanges]
  | node hw hmax _ _ hp hs ihp ihs =>
    have p1 := ihp ho.left
    have s1 := ihs ho.right
    have hc := ho.mid.slice rfl
    simp only [oldApplyForward, joinChanges] at *
    simp only [Changeset.oldForward, List.flatten_append, p1, s1, hc]
    simp

theorem Valid.oldR {m : List α} {i j : Nat} {x y : List α} {cs : Changeset α}
    (V : Valid i x j y cs) (hm : OccursAt m y j) : oldApplyReverse cs m = x := by
  induction V with
  | leaf h => simp [oldApplyReverse, Changeset.oldReverse, joinChanges]
  | node hw hmax _ _ hp hs ihp ihs =>
    have p1 := ihp hm.left
    have s1 := ihs hm.right
    have hc := hm.mid.slice rfl
    simp only [oldApplyReverse, joinChanges] at *
    simp only [Changeset.oldReverse, List.flatten_append, p1, s1, hc]
    simp

/-! ## Normal form -/

theorem alternating_append {l l' : List (DiffItem α)} (h : Alternating l) (h' : Alternating l')
    (hj : ∀ x ∈ l.getLast?, ∀ y ∈ l'.head?, x.isChange ≠ y.isChange) : Alternating (l ++ l') := by
  induction l with
  | nil => simpa using h'
  | cons a l ih =>
    cases l with
    | nil =>
      cases l' with
      | nil => simp [Alternating]
      | cons b l' => exact ⟨hj a (by simp) b (by simp), h'⟩
    | cons b l =>
      refine ⟨h.1, ih h.2 ?_⟩
      intro x hx y hy
      exact hj x (by simpa using hx) y hy

theorem Valid.normal {o : List α} {i j : Nat} {x y : List α} {cs : Changeset α}
    (V : Valid i x j y cs) (ho : OccursAt o x i) :
    ∀ d ∈ cs.asDiffStream o, d.Normal := by
  induction V with
  | leaf h =>
    simp only [Changeset.asDiffStream]
    split
    · simp
    · next he =>
      simp only [List.mem_singleton, forall_eq, DiffItem.Normal]
      refine ⟨?_, fun t ht ht' => h t ht' ht⟩
      rename_i x y _ _
      cases y with
      | nil =>
        cases x with
        | nil => simp [bothEmpty] at he
        | cons => simp
      | cons => simp
  | node hw hmax _ _ hp hs ihp ihs =>
    have hc := ho.mid.slice rfl
    intro d hd
    simp only [Changeset.asDiffStream, List.mem_append, List.mem_singleton] at hd
    rcases hd with (hd | rfl) | hd
    · exact ihp ho.left d hd
    · rw [hc]; exact hw
    · exact ihs ho.right d hd

/-- If the diff ends with a common piece, both texts end with it. -/
theorem diff_last {d : List (DiffItem α)} {p : List α}
    (h : d.getLast? = some (.common p)) : p <:+ intoText d ∧ p <:+ fromText d := by
  rcases List.eq_nil_or_concat d with rfl | ⟨d', l, rfl⟩
  · simp at h
  · simp at h; subst h
    simp only [List.concat_eq_append, intoText, fromText, List.flatMap_append]
    exact ⟨by simp, by simp⟩

theorem diff_head {d : List (DiffItem α)} {p : List α}
    (h : d.head? = some (.common p)) : p <+: intoText d ∧ p <+: fromText d := by
  cases d with
  | nil => simp at h
  | cons a d =>
    simp at h; subst h
    simp only [intoText, fromText, List.flatMap_cons]
    exact ⟨by simp, by simp⟩

theorem Valid.alternating {o : List α} {i j : Nat} {x y : List α} {cs : Changeset α}
    (V : Valid i x j y cs) (ho : OccursAt o x i) : Alternating (cs.asDiffStream o) := by
  induction V with
  | leaf h => simp only [Changeset.asDiffStream]; split <;> simp [Alternating]
  | @node i j x1 w x2 y1 y2 p s hw hmax _ _ hp hs ihp ihs =>
    have hc := ho.mid.slice rfl
    have hnp := hp.normal ho.left
    have hns := hs.normal ho.right
    obtain ⟨ip, fp⟩ := hp.into ho.left
    obtain ⟨is, fs⟩ := hs.into ho.right
    simp only [Changeset.asDiffStream]
    have notcommon_last : ∀ d ∈ (p.asDiffStream o).getLast?, d.isChange = true := by
      intro d hd
      cases d with
      | change => rfl
      | common q =>
        exfalso
        have hd' : (p.asDiffStream o).getLast? = some (.common q) := hd
        have hq : q ≠ [] := hnp _ (List.mem_of_getLast? hd')
        obtain ⟨⟨a, ha⟩, ⟨b, hb⟩⟩ := diff_last hd'
        rw [ip] at ha; rw [fp] at hb
        have := hmax (q ++ w) ⟨⟨b.length, b, x2, by rw [← hb]; simp, rfl⟩,
          ⟨a.length, a, y2, by rw [← ha]; simp, rfl⟩⟩
        cases q with
        | nil => exact hq rfl
        | cons => simp at this; omega
    have notcommon_head : ∀ d ∈ (s.asDiffStream o).head?, d.isChange = true := by
      intro d hd
      cases d with
      | change => rfl
      | common q =>
        exfalso
        have hd' : (s.asDiffStream o).head? = some (.common q) := hd
        have hq : q ≠ [] := hns _ (List.mem_of_mem_head? hd)
        obtain ⟨⟨a, ha⟩, ⟨b, hb⟩⟩ := diff_head hd'
        rw [is] at ha; rw [fs] at hb
        have := hmax (w ++ q) ⟨⟨x1.length, x1, b, by rw [← hb]; simp, rfl⟩,
          ⟨y1.length, y1, a, by rw [← ha]; simp, rfl⟩⟩
        cases q with
        | nil => exact hq rfl
        | cons => simp at this; omega
    apply alternating_append
    · apply alternating_append (ihp ho.left)
      · simp [Alternating]
      · intro d hd e he
        simp at he; subst he
        rw [notcommon_last d hd]; simp [DiffItem.isChange]
    · exact ihs ho.right
    · intro d hd e he
      rw [notcommon_head e he]
      simp at hd; subst hd
      simp [DiffItem.isChange]

/-! ## Equal inputs and the longest common substring -/

theorem Valid.lcs_piece {o : List α} {i j : Nat} {x y : List α} {cs : Changeset α}
    (V : Valid i x j y cs) (ho : OccursAt o x i) (z : List α) (hz : z ≠ [])
    (hc : CommonSubstring x y z) :
    ∃ p, .common p ∈ cs.asDiffStream o ∧ CommonSubstring x y p ∧
      ∀ z', CommonSubstring x y z' → z'.length ≤ p.length := by
  cases V with
  | leaf h =>
    exfalso
    cases z with
    | nil => exact hz rfl
    | cons t z =>
      obtain ⟨⟨_, p, q, rfl, _⟩, ⟨_, p', q', rfl, _⟩⟩ := hc
      exact h t (by simp) (by simp)
  | @node _ _ x1 w x2 y1 y2 p s hw hmax _ _ hp hs =>
    refine ⟨w, ?_, ⟨⟨x1.length, x1, x2, rfl, rfl⟩, ⟨y1.length, y1, y2, rfl, rfl⟩⟩, hmax⟩
    have hc := ho.mid.slice rfl
    simp only [Changeset.asDiffStream, hc]
    simp

theorem Valid.empty_stream {o : List α} {i j : Nat} {x y : List α} {cs : Changeset α}
    (V : Valid i x j y cs) (hx : x = []) (hy : y = []) : cs.asDiffStream o = [] := by
  cases V with
  | leaf h => simp [Changeset.asDiffStream, bothEmpty, hx, hy]
  | node hw => simp at hx; exact absurd hx.2.1 hw

theorem Valid.diff_self {o : List α} {i j : Nat} {x y : List α} {cs : Changeset α}
    (V : Valid i x j y cs) (ho : OccursAt o x i) (hxy : x = y) :
    cs.asDiffStream o = if x = [] then [] else [.common x] := by
  cases V with
  | leaf h =>
    subst hxy
    cases x with
    | nil => simp [Changeset.asDiffStream, bothEmpty]
    | cons t y => exact absurd (by simp) (h t (by simp))
  | @node _ _ x1 w x2 y1 y2 p s hw hmax _ _ hp hs =>
    have hfull := hmax (x1 ++ w ++ x2) ⟨⟨0, [], [], by simp, rfl⟩, ⟨0, [], [], by simp [hxy], rfl⟩⟩
    have hfull' := hmax (y1 ++ w ++ y2) ⟨⟨0, [], [], by simp [hxy], rfl⟩, ⟨0, [], [], by simp, rfl⟩⟩
    have e1 : x1 = [] := by
      apply List.eq_nil_of_length_eq_zero; simp at hfull; omega
    have e2 : x2 = [] := by
      apply List.eq_nil_of_length_eq_zero; simp at hfull; omega
    have e3 : y1 = [] := by
      apply List.eq_nil_of_length_eq_zero; simp at hfull'; omega
    have e4 : y2 = [] := by
      apply List.eq_nil_of_length_eq_zero; simp at hfull'; omega
    subst e1 e2 e3 e4
    have hc := ho.mid.slice rfl
    simp only [Changeset.asDiffStream, hc, hp.empty_stream rfl rfl, hs.empty_stream rfl rfl]
    simp [hw]

/-! ## `common_prefix_length` -/

theorem commonPrefixLoop_spec : ∀ (a b : List α) (n : Nat),
    (∃ p x y a' b', commonPrefixLoop n (a.zip b) = some (n + p.length) ∧ a = p ++ x :: a' ∧
      b = p ++ y :: b' ∧ x ≠ y) ∨
    (commonPrefixLoop n (a.zip b) = none ∧ (a <+: b ∨ b <+: a)) := by
  intro a
  induction a with
  | nil => intro b n; right; simp [commonPrefixLoop]
  | cons x a ih =>
    intro b n
    cases b with
    | nil => right; simp [commonPrefixLoop]
    | cons y b =>
      by_cases hxy : x = y
      · subst hxy
        rcases ih b (n + 1) with ⟨p, u, v, a', b', h1, h2, h3, h4⟩ | ⟨h1, h2⟩
        · left
          refine ⟨x :: p, u, v, a', b', ?_, by simp [h2], by simp [h3], h4⟩
          simp only [List.zip_cons_cons, commonPrefixLoop, ne_eq, not_true_eq_false, if_false, h1,
            List.length_cons]
          congr 1; omega
        · right
          refine ⟨by simpa [commonPrefixLoop] using h1, ?_⟩
          rcases h2 with h | h
          · left; exact (List.cons_prefix_cons).2 ⟨rfl, h⟩
          · right; exact (List.cons_prefix_cons).2 ⟨rfl, h⟩
      · left
        exact ⟨[], x, y, a, b, by simp [commonPrefixLoop, hxy], rfl, rfl, hxy⟩

end Gaspra
