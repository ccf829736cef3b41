import Verif.Proofs.RevisionShape
import Verif.Proofs.RevisionBranch

/-!
# C79: the revision tree of `src/deprecated/revision_tree.py`
-/

set_option linter.unusedSectionVars false
set_option linter.unusedSimpArgs false
set_option linter.unusedVariables false

namespace Gaspra

variable {τ : Type _} [DecidableEq τ]

/-! ### Auxiliary facts -/

theorem insAllBT_append : ∀ (xs ys : List τ) (t : BT τ),
    insAllBT (xs ++ ys) t = insAllBT ys (insAllBT xs t)
  | [], ys, t => rfl
  | x :: xs, ys, t => insAllBT_append xs ys (insBT x t)

theorem rInsertAll_append : ∀ (xs ys : List τ) (t : RTree τ),
    rInsertAll t (xs ++ ys) = (rInsertAll t xs).bind fun t' => rInsertAll t' ys
  | [], ys, t => rfl
  | x :: xs, ys, t => by
    simp only [List.cons_append, rInsertAll]
    cases rInsert t x with
    | none => rfl
    | some r => exact rInsertAll_append xs ys r.tree

theorem insBT_top (x : τ) (t : BT τ) : (insBT x t).top = some x := by
  unfold insBT
  rcases descend 1 t [] with ⟨s, _ | ⟨f, fs⟩⟩ <;> rfl

theorem insAllBT_top (xs : List τ) : (insAllBT xs .nil).top = xs.getLast? := by
  rcases List.eq_nil_or_concat xs with rfl | ⟨ys, x, rfl⟩
  · rfl
  · rw [List.concat_eq_append, insAllBT_append]
    simp [insAllBT, insBT_top]

/-- The tree after inserting distinct tags. -/
theorem built {tags : List τ} {t : RTree τ} (hn : tags.Nodup)
    (h : rInsertAll ⟨none, []⟩ tags = some t) : RInv t (insAllBT tags .nil) tags := by
  obtain ⟨t', e, I⟩ := rInsertAll_spec tags RInv.empty (by simpa using hn)
  rw [h] at e
  cases e
  simpa using I

theorem insBT_left {x y : τ} {t : BT τ} (h : t.top = some y) :
    ∃ l r b, insBT x t = .node x (.node y l r) b := by
  have hp := descend_plug 1 t []
  unfold insBT
  rcases hd : descend 1 t [] with ⟨s, _ | ⟨f, fs⟩⟩
  · cases t with
    | nil => cases h
    | node a b c => simp only [BT.top, Option.some.injEq] at h; subst h; exact ⟨b, c, .nil, rfl⟩
  · rw [hd] at hp
    have e : (plug (f :: fs) (.nil : BT τ)).top = some y := by
      rw [plug_top_nil (t' := s), show plug (f :: fs) s = t from hp, h]
    cases hq : plug (f :: fs) (.nil : BT τ) with
    | nil => rw [hq] at e; cases e
    | node a b c =>
      rw [hq] at e
      simp only [BT.top, Option.some.injEq] at e
      subst e
      exact ⟨b, c, s, by simp only [hq]⟩

/-- What `insert` reports, and how many passes its loops make. -/
theorem insReport_facts (x : τ) (T : BT τ) :
    (insReport x T).1.length ≤ 2 ∧ (insReport x T).2.1.length ≤ 1 ∧
    (∀ e, e ∈ (insReport x T).1 → e.1 = x) ∧ (∀ e, e ∈ (insReport x T).2.1 → e ∈ T.edges) ∧
    (∀ y, T.top = some y → (x, y) ∈ (insReport x T).1) ∧ (insReport x T).2.2 ≤ 2 * T.height + 1 := by
  unfold insReport
  have hp := descend_plug 1 T []
  cases hT : T.top with
  | none => simp
  | some old =>
    rcases hd : descend 1 T [] with ⟨s, _ | ⟨f, fs⟩⟩
    · simp
    · rw [hd] at hp
      have hp' : plug (f :: fs) s = T := hp
      cases hs : s.top with
      | none =>
        have hT0 : T ≠ .nil := by rintro rfl; cases hT
        have := descend_ne_nil (d := 1) (fs := []) (by omega) hT0
        rw [hd] at this
        cases s with
        | nil => exact absurd rfl this
        | node => cases hs
      | some c =>
        simp only [hs]
        refine ⟨by simp, by simp, ?_, ?_, ?_, ?_⟩
        · intro e he
          simp only [List.mem_cons, List.not_mem_nil, or_false] at he
          rcases he with rfl | rfl <;> rfl
        · intro e he
          simp only [List.mem_cons, List.not_mem_nil, or_false] at he
          subst he
          rw [← hp']
          exact edge_up hs
        · intro y hy
          simp only [Option.some.injEq] at hy
          subst hy
          simp
        · have h1 := depth_le_height (f :: fs) s
          rw [hp'] at h1
          cases s with
          | nil => cases hs
          | node a b d =>
            simp only [BT.height, List.length_cons] at h1 ⊢
            omega

theorem insBT_newer {x : τ} {T : BT τ} {tags : List τ} (hp : T.tags.Perm tags)
    (hn : (tags ++ [x]).Nodup)
    (ih : ∀ e, e ∈ T.edges → ∃ p q r, tags = p ++ e.2 :: q ++ e.1 :: r) :
    ∀ e, e ∈ (insBT x T).edges → ∃ p q r, tags ++ [x] = p ++ e.2 :: q ++ e.1 :: r := by
  intro e he
  have h1 := (insBT_edges x T).mem_iff.1 (List.mem_append_left _ he)
  rcases List.mem_append.1 h1 with h1 | h1
  · have hx := (insReport_facts x T).2.2.1 e h1
    have ht := BT.tags_edges (insBT x T)
    rw [insBT_top] at ht
    have hperm := insBT_perm x T
    rw [ht] at hperm
    have h2 : e.2 ∈ T.tags := (List.Perm.cons_inv hperm).mem_iff.1 (List.mem_map.2 ⟨e, he, rfl⟩)
    obtain ⟨p, q, hpq⟩ := List.append_of_mem (hp.mem_iff.1 h2)
    exact ⟨p, q, [], by rw [hpq, hx]⟩
  · obtain ⟨p, q, r, hh⟩ := ih e h1
    exact ⟨p, q, r ++ [x], by rw [hh]; simp⟩

theorem insAllBT_newer : ∀ (xs : List τ) {T : BT τ} {tags : List τ}, T.tags.Perm tags →
    (tags ++ xs).Nodup → (∀ e, e ∈ T.edges → ∃ p q r, tags = p ++ e.2 :: q ++ e.1 :: r) →
    ∀ e, e ∈ (insAllBT xs T).edges → ∃ p q r, tags ++ xs = p ++ e.2 :: q ++ e.1 :: r
  | [], T, tags, _, _, h => by simpa [insAllBT] using h
  | x :: xs, T, tags, hp, hn, h => by
    have hn' : ((tags ++ [x]) ++ xs).Nodup := by simpa using hn
    have := insAllBT_newer xs (T := insBT x T) (tags := tags ++ [x])
      ((insBT_perm x T).trans ((List.Perm.cons x hp).trans (List.perm_append_singleton x tags).symm)) hn'
      (insBT_newer hp (List.nodup_append.1 hn').1 h)
    simpa [insAllBT] using this

/-! ### Claims -/

/-- C79.  Inserting distinct tags succeeds, `index` holds them in order and the newest is the root. -/
theorem C79_insert_all (tags : List τ) (hn : tags.Nodup) :
    ∃ t, rInsertAll ⟨none, []⟩ tags = some t ∧ t.index.map Prod.fst = tags ∧ t.root = tags.getLast? := by
  obtain ⟨t', e, I⟩ := rInsertAll_spec tags RInv.empty (by simpa using hn)
  refine ⟨t', e, by simpa using I.keys, ?_⟩
  rw [I.root, insAllBT_top]

/-- C79.  The edges form a tree: every tag but the newest is the end of exactly one edge, and an edge
leads from a newer tag to an older one. -/
theorem C79_edges (tags : List τ) (t : RTree τ) (hn : tags.Nodup)
    (h : rInsertAll ⟨none, []⟩ tags = some t) :
    ∃ es, rEdges t = some es ∧ (es.map Prod.snd).Perm tags.dropLast ∧
      ∀ e, e ∈ es → ∃ p q r, tags = p ++ e.2 :: q ++ e.1 :: r := by
  have I := built hn h
  refine ⟨_, I.edges, ?_, ?_⟩
  · have h1 := BT.tags_edges (insAllBT tags .nil)
    have h2 := I.perm
    rw [h1, insAllBT_top] at h2
    rcases List.eq_nil_or_concat tags with rfl | ⟨ys, x, rfl⟩
    · exact h2
    · rw [List.concat_eq_append] at h2 ⊢
      rw [List.getLast?_concat] at h2
      rw [List.dropLast_concat]
      exact List.Perm.cons_inv (h2.trans (List.perm_append_singleton x ys))
  · have := insAllBT_newer tags (T := .nil) (tags := []) (List.Perm.refl _) (by simpa using hn)
      (by intro e he; simp [BT.edges] at he)
    simpa using this

/-- C79.  `path_to` leads from the newest tag along edges to the tag. -/
theorem C79_path (tags : List τ) (t : RTree τ) (es : List (τ × τ)) (x : τ) (hn : tags.Nodup)
    (h : rInsertAll ⟨none, []⟩ tags = some t) (hes : rEdges t = some es) (hx : x ∈ tags) :
    ∃ p, rPathTo t x = .ok p ∧ p.head? = tags.getLast? ∧ p.getLast? = some x ∧ p.Nodup ∧
      ∀ as a b bs, p = as ++ a :: b :: bs → (a, b) ∈ es := by
  have I := built hn h
  rw [I.edges] at hes
  cases hes
  obtain ⟨fs, l, r, e⟩ := I.place hx
  refine ⟨_, I.pathTo e, ?_, by simp, ?_, ?_⟩
  · rw [← insAllBT_top, e, List.head?_reverse]
    clear e
    rcases List.eq_nil_or_concat fs with rfl | ⟨gs, f, rfl⟩
    · rfl
    · rw [List.concat_eq_append, plug_append]
      rw [List.map_append, ← List.cons_append, List.map_cons, List.map_nil, List.getLast?_concat]
      cases f <;> rfl
  · refine (List.reverse_perm _).nodup_iff.2 ?_
    have hnT : (insAllBT tags .nil).tags.Nodup := I.perm.nodup_iff.2 I.nodup
    rw [e] at hnT
    have h1 := (plug_perm fs (.node x l r)).nodup_iff.1 hnT
    have h2 := List.nodup_append.1 h1
    refine List.nodup_cons.2 ⟨fun hm => ?_, ?_⟩
    · obtain ⟨g, hg, hgx⟩ := List.mem_map.1 hm
      exact h2.2.2 x (by simp [BT.tags]) g.tag (ctx_mem_tags hg) hgx.symm
    · have : ∀ fs : List (BFrame τ), (ctxTags fs).Nodup → (fs.map BFrame.tag).Nodup := by
        intro fs
        induction fs with
        | nil => intro _; exact List.nodup_nil
        | cons f fs ih =>
          intro hc
          simp only [ctxTags] at hc
          have h3 := List.nodup_cons.1 hc
          refine List.nodup_cons.2 ⟨fun hm => ?_, ih (List.nodup_append.1 h3.2).2.1⟩
          obtain ⟨g, hg, hgx⟩ := List.mem_map.1 hm
          exact h3.1 (List.mem_append_right _ (hgx ▸ ctx_mem_tags hg))
      exact this fs h2.2.1
  · intro as a b bs hp
    have hp' := congrArg List.reverse hp
    rw [List.reverse_reverse] at hp'
    simp only [List.reverse_append, List.reverse_cons, List.append_assoc, List.singleton_append,
      List.cons_append, List.nil_append] at hp'
    rw [e]
    exact path_edges fs (t := .node x l r) rfl hp'

/-- C79.  A tag that was not inserted is a KeyError. -/
theorem C79_path_missing (tags : List τ) (t : RTree τ) (x : τ) (hn : tags.Nodup)
    (h : rInsertAll ⟨none, []⟩ tags = some t) (hx : x ∉ tags) : rPathTo t x = .error .keyError := by
  have I := built hn h
  have : dget t.index x = none := by
    rw [dget_eq_none_iff]
    intro a ha e
    exact hx (by rw [← I.keys, ← e]; exact List.mem_map.2 ⟨a, ha, rfl⟩)
  simp only [rPathTo, this]

/-- C79.  The version before the newest is a child of the root. -/
theorem C79_previous (tags : List τ) (x y : τ) (t : RTree τ) (hn : (tags ++ [y, x]).Nodup)
    (h : rInsertAll ⟨none, []⟩ (tags ++ [y, x]) = some t) : rPathTo t y = .ok [x, y] := by
  have I := built hn h
  have e : insAllBT (tags ++ [y, x]) .nil = insBT x (insBT y (insAllBT tags .nil)) := by
    rw [insAllBT_append]; rfl
  obtain ⟨l, r, b, e2⟩ := insBT_left (x := x) (insBT_top y (insAllBT tags .nil))
  rw [e2] at e
  have := I.pathTo (y := y) (l := l) (r := r) (fs := [.L x b]) e
  simpa [BFrame.tag] using this

/-- C79.  `insert` reports the edges that it adds and removes: at most two new ones, all from the new
root, one of which leads to the previous version, and at most one that is removed.  The number of passes
of its loops is at most twice the length of the longest path, plus one. -/
theorem C79_report (tags : List τ) (x : τ) (t : RTree τ) (hn : (tags ++ [x]).Nodup)
    (h : rInsertAll ⟨none, []⟩ tags = some t) :
    ∃ r es es', rInsert t x = some r ∧ rInsertAll ⟨none, []⟩ (tags ++ [x]) = some r.tree ∧
      rEdges t = some es ∧ rEdges r.tree = some es' ∧
      (es' ++ r.removed).Perm (r.inserted ++ es) ∧
      r.inserted.length ≤ 2 ∧ r.removed.length ≤ 1 ∧ (∀ e, e ∈ r.inserted → e.1 = x) ∧
      (∀ e, e ∈ r.removed → e ∈ es) ∧ (∀ y, tags.getLast? = some y → (x, y) ∈ r.inserted) ∧
      ∃ D, D * (D + 2) ≤ 4 * tags.length ∧ r.steps ≤ 2 * D + 1 := by
  have hn1 := List.nodup_append.1 hn
  have I := built hn1.1 h
  obtain ⟨r, e1, I', e3⟩ := rInsert_spec I (x := x) (fun hx => hn1.2.2 x hx x (by simp) rfl)
  simp only [Prod.ext_iff] at e3
  obtain ⟨f1, f2, f3, f4, f5, f6⟩ := insReport_facts x (insAllBT tags .nil)
  rw [← e3.1] at f1 f3 f5
  rw [← e3.2.1] at f2 f4
  rw [← e3.2.2] at f6
  have hp := insBT_edges x (insAllBT tags .nil)
  rw [← e3.1, ← e3.2.1] at hp
  refine ⟨r, _, _, e1, ?_, I.edges, I'.edges, hp, f1, f2, f3, f4, ?_, _, ?_, f6⟩
  · rw [rInsertAll_append, h]
    simp [rInsertAll, e1]
  · intro y hy
    exact f5 y (by rw [insAllBT_top, hy])
  · by_cases h0 : tags = []
    · subst h0; simp [insAllBT, BT.height]
    · exact (insAll_height tags h0).1

/-- C79.  The longest path has exactly `D` tags where `D * (D + 2) ≤ 4 * n < (D + 1) * (D + 3)`: the
docstring calls the bound `O(n^(1/2))` unproven. -/
theorem C79_depth (tags : List τ) (t : RTree τ) (hn : tags.Nodup) (hne : tags ≠ [])
    (h : rInsertAll ⟨none, []⟩ tags = some t) :
    ∃ D, D * (D + 2) ≤ 4 * tags.length ∧ 4 * tags.length < (D + 1) * (D + 3) ∧
      (∀ x p, rPathTo t x = .ok p → p.length ≤ D) ∧
      ∃ x p, x ∈ tags ∧ rPathTo t x = .ok p ∧ p.length = D := by
  have I := built hn h
  have hh := insAll_height tags hne
  refine ⟨_, hh.1, hh.2, ?_, ?_⟩
  · intro x p hp
    by_cases hx : x ∈ tags
    · obtain ⟨fs, l, r, e⟩ := I.place hx
      rw [I.pathTo e] at hp
      cases hp
      have := depth_le_height fs (.node x l r)
      rw [← e] at this
      simp only [BT.height] at this
      simp only [List.length_reverse, List.length_cons, List.length_map]
      omega
    · rw [C79_path_missing tags t x hn h hx] at hp; cases hp
  · have hne' : insAllBT tags .nil ≠ .nil := by
      intro e
      have := I.perm.length_eq
      rw [e] at this
      simp only [BT.tags, List.length_nil] at this
      exact hne (List.length_eq_zero_iff.1 this.symm)
    obtain ⟨fs, y, e, hl⟩ := exists_deepest hne'
    refine ⟨y, _, ?_, I.pathTo e, by simpa using hl⟩
    refine I.perm.mem_iff.1 ?_
    rw [e]
    exact (plug_perm _ _).mem_iff.2 (by simp [BT.tags])

theorem insAllBT_newerLeft : ∀ (xs : List τ) {T : BT τ} {tags : List τ}, NewerLeft tags T →
    T.tags.Perm tags → T.top = tags.getLast? → (tags ++ xs).Nodup →
    NewerLeft (tags ++ xs) (insAllBT xs T)
  | [], T, tags, h, _, _, _ => by simpa [insAllBT] using h
  | x :: xs, T, tags, h, hp, ht, hn => by
    have hn' : ((tags ++ [x]) ++ xs).Nodup := by simpa using hn
    have := insAllBT_newerLeft xs (T := insBT x T) (tags := tags ++ [x])
      (h.insert hp ht (List.nodup_append.1 hn').1)
      ((insBT_perm x T).trans ((List.Perm.cons x hp).trans (List.perm_append_singleton x tags).symm))
      (by rw [insBT_top]; simp) hn'
    simpa [insAllBT] using this

/-- C79.  Which branch `insert` moves to the new root, with two or more versions in the tree: the way
goes from the root, always to the child with more versions below it (to the newer one if the numbers are
equal), and ends at the first tag with at most as many versions as its depth. -/
theorem C79_branch (tags : List τ) (x : τ) (t : RTree τ) (r : RInserted τ) (es : List (τ × τ))
    (hn : (tags ++ [x]).Nodup) (h : rInsertAll ⟨none, []⟩ tags = some t) (hr : rInsert t x = some r)
    (hes : rEdges t = some es) :
    (tags.length ≤ 1 → r.removed = []) ∧
    (2 ≤ tags.length → ∃ p c path, r.removed = [(p, c)] ∧ rPathTo t c = .ok path ∧
      (∀ pre y post, path = pre ++ y :: post →
        ∃ n h, rGetState t y = some (n, h) ∧ (post = [] ↔ n ≤ pre.length + 1)) ∧
      (∀ pre a b post b', path = pre ++ a :: b :: post → (a, b') ∈ es → b' ≠ b →
        ∃ n h n' h', rGetState t b = some (n, h) ∧ rGetState t b' = some (n', h') ∧
          (n' < n ∨ n' = n ∧ ∃ ps qs rs, tags = ps ++ b' :: qs ++ b :: rs))) := by
  have hn1 := List.nodup_append.1 hn
  have I := built hn1.1 h
  obtain ⟨r', e1, I', e3⟩ := rInsert_spec I (x := x) (fun hx => hn1.2.2 x hx x (by simp) rfl)
  rw [hr] at e1
  cases e1
  rw [I.edges] at hes
  cases hes
  simp only [Prod.ext_iff] at e3
  have hsize : (insAllBT tags .nil).size = tags.length := by
    rw [← BT.tags_length]; exact I.perm.length_eq
  constructor
  · intro hle
    rw [e3.2.1]
    rcases tags with _ | ⟨a, _ | ⟨b, l⟩⟩
    · rfl
    · simp [insAllBT, insBT, descend, insReport, BT.top, BT.size]
    · simp at hle
  · intro h2
    have hne : insAllBT tags .nil ≠ .nil := by
      intro e
      rw [e] at hsize
      simp only [BT.size] at hsize
      omega
    have hN : NewerLeft tags (insAllBT tags .nil) := by
      have := insAllBT_newerLeft tags (T := .nil) (tags := []) trivial (List.Perm.refl _) rfl
        (by simpa using hn1.1)
      simpa using this
    rcases hd : descend 1 (insAllBT tags .nil) [] with ⟨s, F⟩
    obtain ⟨c, path, hc, hp, q1, q2⟩ := I.branch hN hne hd
    cases F with
    | nil =>
      exfalso
      obtain ⟨gs, w1, w2, w3, _⟩ := descend_walk (insAllBT tags .nil) 1 [] (Nat.le_refl _)
      rw [hd] at w1 w2 w3
      simp only [List.append_nil] at w1
      subst w1
      simp only [plug] at w2
      rw [← w2] at w3
      simp only [List.length_nil] at w3
      omega
    | cons f fs =>
      refine ⟨f.tag, c, path, ?_, hp, q1, q2⟩
      rw [e3.2.1]
      unfold insReport
      cases hT : (insAllBT tags (.nil : BT τ)).top with
      | none =>
        cases hq : insAllBT tags (.nil : BT τ) with
        | nil => exact absurd hq hne
        | node => rw [hq] at hT; cases hT
      | some old => simp only [hd, hc]

/-- The tag `z` is reached through `x`. -/
def reachedThrough (t : RTree τ) (x z : τ) : Bool :=
  match rPathTo t z with
  | .ok p => p.contains x
  | .error _ => false

theorem filter_nodup_length {P : τ → Bool} : ∀ {a b : List τ}, a.Nodup → b.Nodup →
    (∀ z, z ∈ a ↔ z ∈ b ∧ P z = true) → (b.filter P).length = a.length := by
  intro a b ha hb h
  refine List.Perm.length_eq ?_
  rw [List.perm_ext_iff_of_nodup (hb.filter _) ha]
  intro z
  rw [List.mem_filter, h]

/-- C79.  The `size` of a node is the number of tags that are reached through it.  The `height` is the
same number, although it is meant to be the length of a path: lines 163 and 167 add the heights of both
children. -/
theorem C79_states (tags : List τ) (t : RTree τ) (x : τ) (hn : tags.Nodup) (hx : x ∈ tags)
    (h : rInsertAll ⟨none, []⟩ tags = some t) :
    rGetState t x = some ((tags.filter (reachedThrough t x)).length,
      (tags.filter (reachedThrough t x)).length) := by
  have I := built hn h
  obtain ⟨fs, l, r, e⟩ := I.place hx
  have hR := I.rep
  rw [e] at hR
  obtain ⟨⟨⟨nd, h1, _, _, _, h5, h6⟩, _⟩, _⟩ := hR.unplug
  have hnT : (insAllBT tags .nil).tags.Nodup := I.perm.nodup_iff.2 I.nodup
  have hnx : (BT.node x l r).tags.Nodup := by
    have h2 := hnT
    rw [e] at h2
    exact (List.nodup_append.1 ((plug_perm _ _).nodup_iff.1 h2)).1
  have hlen : (tags.filter (reachedThrough t x)).length = (BT.node x l r).tags.length := by
    refine filter_nodup_length hnx hn fun z => ?_
    constructor
    · intro hz
      have hzT : z ∈ (insAllBT tags .nil).tags := by
        rw [e]; exact (plug_perm _ _).mem_iff.2 (by simp [hz])
      obtain ⟨gs, l', r', e'⟩ := exists_plug hzT
      refine ⟨I.perm.mem_iff.1 hzT, ?_⟩
      have := (mem_path_iff I.rep hnT e e').2 hz
      simp only [reachedThrough, I.pathTo e', List.contains_iff_mem, List.mem_reverse]
      exact this
    · rintro ⟨hz, hp⟩
      obtain ⟨gs, l', r', e'⟩ := I.place hz
      refine (mem_path_iff I.rep hnT e e').1 ?_
      simp only [reachedThrough, I.pathTo e', List.contains_iff_mem, List.mem_reverse] at hp
      exact hp
  rw [hlen, BT.tags_length]
  simp only [rGetState, h1, Option.map_some, BT.size, h5, h6]

/-- C79.  `reevaluate` gives every node its states, whatever they were before.  In particular it undoes
`_invalidate`, which sets all of them to 0. -/
theorem C79_reevaluate (tags : List τ) (t : RTree τ) (hn : tags.Nodup)
    (h : rInsertAll ⟨none, []⟩ tags = some t) :
    (∀ st : τ → Nat × Nat, ∃ passes, rReevaluate ⟨t.root, t.index.map fun p =>
        (p.1, { p.2 with size := (st p.1).1, height := (st p.1).2 })⟩ = some (t, passes)) ∧
    (∃ passes, rReevaluate (rInvalidate t) = some (t, passes)) ∧
    ∀ x, x ∈ tags → rGetState (rInvalidate t) x = some (0, 0) := by
  have I := built hn h
  refine ⟨fun st => ?_, ?_, ?_⟩
  · obtain ⟨k, hk, _⟩ := I.reevaluate st
    exact ⟨k, hk⟩
  · obtain ⟨k, hk, _⟩ := I.reevaluate fun _ => (0, 0)
    exact ⟨k, hk⟩
  · intro x hx
    obtain ⟨fs, l, r, e⟩ := I.place hx
    have hR := I.rep
    rw [e] at hR
    obtain ⟨⟨⟨nd, h1, _⟩, _⟩, _⟩ := hR.unplug
    have : ∀ d : RIndex τ, dget d x = some nd →
        dget (d.map fun p => (p.1, { p.2 with size := 0, height := 0 })) x =
          some { nd with size := 0, height := 0 } := by
      intro d
      induction d with
      | nil => intro h; cases h
      | cons a d ih =>
        obtain ⟨k, v⟩ := a
        intro h
        simp only [dget, List.map_cons] at h ⊢
        split at h
        · next e => simp only [Option.some.injEq] at h; rw [if_pos e, h]
        · next e => rw [if_neg e, ih h]
    simp only [rGetState, rInvalidate, this _ h1, Option.map_some]

theorem ChainT.leaves : ∀ {n : Nat} {t : BT τ}, ChainT (n + 1) t → (leavesBT t).length = 1
  | 0, t, h => by
    obtain ⟨x, c, rfl, rfl | rfl⟩ := h <;> rfl
  | n + 1, t, h => by
    obtain ⟨x, c, hc, e⟩ := h
    have ih := hc.leaves
    cases c with
    | nil => simp [leavesBT] at ih
    | node a b d =>
      rcases e with rfl | rfl
      · simp only [leavesBT, List.append_nil]; exact ih
      · simp only [leavesBT, List.nil_append]; exact ih

theorem ChainT.leaf_depth : ∀ {n : Nat} {t : BT τ} {fs : List (BFrame τ)} {z : τ}, ChainT n t →
    t = plug fs (.node z .nil .nil) → fs.length + 1 = n
  | 0, t, fs, z, h, e => by
    have : t.size = 0 := by cases h; rfl
    have h2 := (plug_perm fs (.node z .nil .nil)).length_eq
    rw [← e] at h2
    cases h
    simp [BT.tags] at h2
  | n + 1, t, fs, z, h, e => by
    obtain ⟨x, c, hc, h⟩ := h
    rcases List.eq_nil_or_concat fs with rfl | ⟨gs, f, rfl⟩
    · simp only [plug] at e
      have : c = .nil := by
        rcases h with h | h
        · rw [e] at h; cases h; rfl
        · rw [e] at h; cases h; rfl
      subst this
      have := hc.size
      simp only [BT.size] at this
      simp; omega
    · rw [List.concat_eq_append, plug_append] at e
      have hne : plug gs (.node z .nil .nil) ≠ (.nil : BT τ) := by
        intro h0
        have h2 := (plug_perm gs (.node z .nil .nil)).length_eq
        rw [h0] at h2
        simp [BT.tags] at h2
      have : c = plug gs (.node z .nil .nil) := by
        cases f with
        | L y s =>
          simp only [plug] at e
          rcases h with h | h
          · rw [e] at h; cases h; rfl
          · rw [e] at h
            simp only [BT.node.injEq] at h
            exact absurd h.2.1 hne
        | R y s =>
          simp only [plug] at e
          rcases h with h | h
          · rw [e] at h
            simp only [BT.node.injEq] at h
            exact absurd h.2.2 hne
          · rw [e] at h; cases h; rfl
      have := hc.leaf_depth this
      simp only [List.concat_eq_append, List.length_append, List.length_cons, List.length_nil]
      omega

theorem CombT.leaves {m : Nat} : ∀ {n : Nat} {t : BT τ}, CombT (List.replicate n (m + 1)) t →
    (leavesBT t).length = n ∧ ∀ fs z, t = plug fs (.node z .nil .nil) → m + 2 ≤ fs.length + 1
  | 0, t, h => by
    cases h
    refine ⟨rfl, fun fs z e => ?_⟩
    have h2 := (plug_perm fs (.node z .nil .nil)).length_eq
    rw [← e] at h2
    simp [BT.tags] at h2
  | n + 1, t, h => by
    obtain ⟨x, l, r, rfl, hr, hl⟩ := h
    have ih := hl.leaves
    have h1 := hr.leaves
    refine ⟨?_, fun fs z e => ?_⟩
    · have : (leavesBT (.node x l r)) = leavesBT l ++ leavesBT r := by
        cases r with
        | nil => simp [leavesBT] at h1
        | node a b c => cases l <;> rfl
      rw [this, List.length_append, ih.1, h1]
    · rcases List.eq_nil_or_concat fs with rfl | ⟨gs, f, rfl⟩
      · simp only [plug] at e
        cases e
        simp [leavesBT] at h1
      · rw [List.concat_eq_append, plug_append] at e
        simp only [List.concat_eq_append, List.length_append, List.length_cons, List.length_nil]
        cases f with
        | L y s =>
          simp only [plug] at e
          cases e
          have := ih.2 gs z rfl
          omega
        | R y s =>
          simp only [plug] at e
          cases e
          have := hr.leaf_depth (fs := gs) (z := z) rfl
          omega

theorem tri_eq : ∀ n, 2 * tri n = n * (n + 1)
  | 0 => rfl
  | n + 1 => by
    have := tri_eq n
    simp only [tri, Nat.mul_add, Nat.add_mul, this, Nat.mul_one, Nat.one_mul] at *
    omega

theorem tri_mono {a b : Nat} (h : a ≤ b) : tri a ≤ tri b := by
  induction b with
  | zero => cases Nat.le_zero.1 h; exact Nat.le_refl _
  | succ b ih =>
    by_cases e : a = b + 1
    · rw [e]; exact Nat.le_refl _
    · have := ih (by omega); simp only [tri]; omega

/-- C79.  `reevaluate` is not `O(n)`, contrary to the docstring: for `n = k * k` tags it makes at least
`k * k * k / 2` passes through the loop of `update_states`. -/
theorem C79_reevaluate_cost (tags : List τ) (t t' : RTree τ) (k passes : Nat) (hn : tags.Nodup)
    (hk : tags.length = k * k) (h : rInsertAll ⟨none, []⟩ tags = some t)
    (hr : rReevaluate (rInvalidate t) = some (t', passes)) : k * k * k ≤ 2 * passes := by
  have I := built hn h
  obtain ⟨k', e1, e2⟩ := I.reevaluate fun _ => (0, 0)
  have e1 : rReevaluate (rInvalidate t) = some (t, k') := e1
  rw [hr] at e1
  cases e1
  have hcount : (tags.filter (isLeafR t.index)).length = (leavesBT (insAllBT tags .nil)).length := by
    rw [← I.rep.leafCount]
    exact (I.perm.filter _).length_eq.symm
  rw [hcount] at e2
  rcases k with _ | _ | k
  · omega
  · have h1 := e2 1 (fun fs x _ => by simp only [tri]; omega)
    obtain ⟨a, rfl⟩ : ∃ a, tags = [a] := by
      rcases tags with _ | ⟨a, _ | ⟨b, l⟩⟩
      · simp at hk
      · exact ⟨a, rfl⟩
      · simp at hk
    have : (leavesBT (insAllBT [a] .nil)).length = 1 := rfl
    rw [this] at h1
    omega
  · have hcomb : CombT (List.replicate (k + 2) (k + 1)) (insAllBT tags .nil) := by
      rcases tags with _ | ⟨x, _ | ⟨y, _ | ⟨z, xs⟩⟩⟩
      · simp only [List.length_nil, List.length_cons, Nat.add_mul, Nat.mul_add] at hk; omega
      · simp only [List.length_nil, List.length_cons, Nat.add_mul, Nat.mul_add] at hk; omega
      · simp only [List.length_nil, List.length_cons, Nat.add_mul, Nat.mul_add] at hk; omega
      · have hg := grid_of_three x y z xs
        rw [show xs.length + 3 = (k + 1 + 1) * (k + 1 + 1) by simpa using hk] at hg
        generalize insAllBT (x :: y :: z :: xs) .nil = T at hg
        generalize hnn : (k + 1 + 1) * (k + 1 + 1) = n at hg
        cases hg with
        | @a q i _ hq hi hT =>
          have hqk : q = k + 2 := by
            rcases Nat.lt_trichotomy q (k + 2) with h0 | h0 | h0
            · have := Nat.mul_le_mul (show q + 1 ≤ k + 2 by omega) (show q + 1 ≤ k + 2 by omega)
              simp only [Nat.add_mul, Nat.mul_add] at *
              omega
            · exact h0
            · have := Nat.mul_le_mul (show k + 3 ≤ q by omega) (show k + 3 ≤ q by omega)
              simp only [Nat.add_mul, Nat.mul_add] at *
              omega
          subst hqk
          have : i = 0 := by rw [show k + 1 + 1 = k + 2 by omega] at hnn; omega
          subst this
          simpa using hT
        | @b q j _ hq hj hT =>
          exfalso
          rcases Nat.lt_or_ge q (k + 2) with h0 | h0
          · have := Nat.mul_le_mul (show q + 1 ≤ k + 2 by omega) (show q + 1 ≤ k + 2 by omega)
            simp only [Nat.add_mul, Nat.mul_add] at *
            omega
          · have := Nat.mul_le_mul h0 h0
            simp only [Nat.add_mul, Nat.mul_add] at *
            omega
    have hl := hcomb.leaves
    have h1 := e2 (tri (k + 2)) (fun fs x e => tri_mono (hl.2 fs x e))
    rw [hl.1] at h1
    have h2 := tri_eq (k + 2)
    have h3 : (k + 1 + 1) * (k + 1 + 1) * (k + 1 + 1) ≤ (k + 2) * (k + 2 + 1) * (k + 2) :=
      Nat.mul_le_mul_right _ (Nat.mul_le_mul_left _ (by omega))
    rw [← h2, Nat.mul_assoc 2] at h3
    omega

/-! ### Examples -/

/-- Nine versions: the paths to the oldest one and to version 4, and the states. -/
example : ((rInsertAll ⟨none, []⟩ (List.range 9)).map fun t =>
    (rEdges t, (rPathTo t 0).toOption, (rPathTo t 4).toOption, rGetState t 7)) =
    some (some [(8, 7), (7, 6), (6, 2), (2, 0), (7, 3), (3, 1), (8, 5), (5, 4)],
      some [8, 7, 6, 2, 0], some [8, 5, 4], some (6, 6)) := by decide +kernel

/-- The next insertion moves one branch to the new root. -/
example : ((rInsertAll ⟨none, []⟩ (List.range 9)).bind fun t =>
    (rInsert t 9).map fun r => (r.inserted, r.removed, r.steps)) =
    some ([(9, 8), (9, 6)], [(7, 6)], 6) := by decide +kernel

/-- The states on the way from 8 to 6: 9 versions at depth 1, 6 at depth 2 (2 at its sibling 5),
3 at depth 3 (2 at its sibling 3). -/
example : ((rInsertAll ⟨none, []⟩ (List.range 9)).map fun t =>
    [8, 7, 5, 6, 3].map (rGetState t)) =
    some [some (9, 9), some (6, 6), some (2, 2), some (3, 3), some (2, 2)] := by decide +kernel

/-- Two equal branches: the newer one is moved. -/
example : ((rInsertAll ⟨none, []⟩ (List.range 3)).bind fun t =>
    (rInsert t 3).map fun r => (rEdges t, r.removed)) =
    some (some [(2, 1), (2, 0)], [(2, 1)]) := by decide +kernel

example : (rInsertAll ⟨none, []⟩ (List.range 9)).bind (fun t =>
    (rReevaluate (rInvalidate t)).map fun r => (decide (r.1 = t), decide (rInvalidate t = t), r.2)) =
    some (true, false, 31) := by decide +kernel

/-- `D = 5` for nine versions. -/
example : 5 * (5 + 2) ≤ 4 * 9 ∧ 4 * 9 < (5 + 1) * (5 + 3) := by decide

end Gaspra
