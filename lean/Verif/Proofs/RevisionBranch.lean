import Verif.Proofs.RevisionState

/-!
# Which branch `revision_tree.py` moves (used by C79)
-/

set_option linter.unusedSectionVars false
set_option linter.unusedSimpArgs false
set_option linter.unusedVariables false

namespace Gaspra

variable {τ : Type _} [DecidableEq τ]

/-- The way of `find_and_detach_best_split`: it stops at the first subtree with at most as many nodes
as its depth and goes to the larger branch, to the left one of two equal ones. -/
theorem descend_walk : ∀ (t : BT τ) (d : Nat) (fs : List (BFrame τ)), 1 ≤ d → ∃ gs,
    (descend d t fs).2 = gs ++ fs ∧ t = plug gs (descend d t fs).1 ∧
    (descend d t fs).1.size ≤ d + gs.length ∧
    ∀ hs f ks, gs = hs ++ f :: ks →
      d + ks.length < (plug (hs ++ [f]) (descend d t fs).1).size ∧
      f.sib.size ≤ (plug hs (descend d t fs).1).size ∧
      (f.sib.size = (plug hs (descend d t fs).1).size → ∃ x r, f = .L x r)
  | .nil, d, fs, hd => ⟨[], rfl, rfl, by simp [descend, BT.size], fun hs f ks h => by simp at h⟩
  | .node x l r, d, fs, hd => by
    simp only [descend]
    split
    · next h1 =>
      split
      · next h2 =>
        obtain ⟨gs, e1, e2, e3, e4⟩ := descend_walk r (d + 1) (.R x l :: fs) (by omega)
        refine ⟨gs ++ [.R x l], by simp [e1], ?_, by simp; omega, ?_⟩
        · rw [plug_append, ← e2]; rfl
        · intro hs f ks h
          rcases List.eq_nil_or_concat ks with rfl | ⟨ks', k, rfl⟩
          · obtain ⟨h3, h4⟩ := List.append_inj' h rfl
            subst h3
            cases h4
            rw [plug_append, ← e2]
            refine ⟨by simpa [plug, BT.size] using h1, by simp [BFrame.sib]; omega, fun h => ?_⟩
            simp only [BFrame.sib] at h
            omega
          · rw [List.concat_eq_append, ← List.cons_append, ← List.append_assoc] at h
            obtain ⟨h, _⟩ := List.append_inj' h rfl
            have := e4 hs f ks' h
            refine ⟨?_, this.2⟩
            simp only [List.concat_eq_append, List.length_append, List.length_cons, List.length_nil]
            omega
      · next h2 =>
        obtain ⟨gs, e1, e2, e3, e4⟩ := descend_walk l (d + 1) (.L x r :: fs) (by omega)
        refine ⟨gs ++ [.L x r], by simp [e1], ?_, by simp; omega, ?_⟩
        · rw [plug_append, ← e2]; rfl
        · intro hs f ks h
          rcases List.eq_nil_or_concat ks with rfl | ⟨ks', k, rfl⟩
          · obtain ⟨h3, h4⟩ := List.append_inj' h rfl
            subst h3
            cases h4
            rw [plug_append, ← e2]
            refine ⟨by simpa [plug, BT.size] using h1, by simp [BFrame.sib]; omega, fun _ => ⟨x, r, rfl⟩⟩
          · rw [List.concat_eq_append, ← List.cons_append, ← List.append_assoc] at h
            obtain ⟨h, _⟩ := List.append_inj' h rfl
            have := e4 hs f ks' h
            refine ⟨?_, this.2⟩
            simp only [List.concat_eq_append, List.length_append, List.length_cons, List.length_nil]
            omega
    · next h1 => exact ⟨[], rfl, rfl, by simp [BT.size]; omega, fun hs f ks h => by simp at h⟩

/-- `a` comes before `b` in the list. -/
def Before (tags : List τ) (a b : τ) : Prop := ∃ p q r, tags = p ++ a :: q ++ b :: r

theorem Before.append {tags : List τ} {a b : τ} (h : Before tags a b) (x : τ) : Before (tags ++ [x]) a b := by
  obtain ⟨p, q, r, rfl⟩ := h
  exact ⟨p, q, r ++ [x], by simp⟩

/-- Left children are newer than their siblings. -/
def NewerLeft (tags : List τ) : BT τ → Prop
  | .nil => True
  | .node _ l r => NewerLeft tags l ∧ NewerLeft tags r ∧
      ∀ a b, l.top = some a → r.top = some b → Before tags b a

theorem NewerLeft.append {tags : List τ} (x : τ) : ∀ {t : BT τ}, NewerLeft tags t → NewerLeft (tags ++ [x]) t
  | .nil, _ => trivial
  | .node _ l r, ⟨hl, hr, h⟩ => ⟨hl.append x, hr.append x, fun a b ha hb => (h a b ha hb).append x⟩

theorem NewerLeft.sub {tags : List τ} : ∀ (fs : List (BFrame τ)) {t : BT τ}, NewerLeft tags (plug fs t) →
    NewerLeft tags t
  | [], t, h => h
  | .L x r :: fs, t, h => (NewerLeft.sub fs (t := .node x t r) h).1
  | .R x l :: fs, t, h => (NewerLeft.sub fs (t := .node x l t) h).2.1

theorem NewerLeft.replace {tags : List τ} : ∀ (fs : List (BFrame τ)) {t u : BT τ},
    NewerLeft tags (plug fs t) → NewerLeft tags u → (u.top = none ∨ u.top = t.top) →
    NewerLeft tags (plug fs u)
  | [], t, u, _, h, _ => h
  | .L x r :: fs, t, u, h, hu, ht => by
    have h1 := NewerLeft.sub fs (t := .node x t r) h
    refine NewerLeft.replace fs (t := .node x t r) h ⟨hu, h1.2.1, fun a b ha hb => ?_⟩ (.inr rfl)
    rcases ht with e | e
    · rw [e] at ha; cases ha
    · exact h1.2.2 a b (e ▸ ha) hb
  | .R x l :: fs, t, u, h, hu, ht => by
    have h1 := NewerLeft.sub fs (t := .node x l t) h
    refine NewerLeft.replace fs (t := .node x l t) h ⟨h1.1, hu, fun a b ha hb => ?_⟩ (.inr rfl)
    rcases ht with e | e
    · rw [e] at hb; cases hb
    · exact h1.2.2 a b ha (e ▸ hb)

theorem NewerLeft.insert {tags : List τ} {T : BT τ} {x : τ} (h : NewerLeft tags T)
    (hp : T.tags.Perm tags) (ht : T.top = tags.getLast?) (hn : (tags ++ [x]).Nodup) :
    NewerLeft (tags ++ [x]) (insBT x T) := by
  have hpl := descend_plug 1 T []
  have hperm := insBT_perm x T
  have hnod : (insBT x T).tags.Nodup := by
    refine hperm.nodup_iff.2 ?_
    refine ((List.Perm.cons x hp).trans (List.perm_append_singleton x tags).symm).nodup_iff.2 hn
  unfold insBT at hnod hperm ⊢
  rcases hd : descend 1 T [] with ⟨s, _ | ⟨f, fs⟩⟩
  · exact ⟨h.append x, trivial, fun a b _ hb => by cases hb⟩
  · rw [hd] at hpl hnod hperm
    simp only at hnod hperm
    have hpl' : plug (f :: fs) s = T := hpl
    have h' := h
    rw [← hpl'] at h'
    refine ⟨(h'.replace (f :: fs) (u := .nil) trivial (.inl rfl)).append x, (h'.sub (f :: fs)).append x, ?_⟩
    intro a b ha hb
    rw [plug_top_nil (t' := s), hpl', ht] at ha
    have hb2 := BT.top_mem hb
    rcases List.eq_nil_or_concat tags with rfl | ⟨ys, y, rfl⟩
    · cases ha
    · rw [List.concat_eq_append, List.getLast?_concat, Option.some.injEq] at ha
      subst ha
      rw [List.concat_eq_append] at hp ⊢
      have hbT : b ∈ T.tags := by
        rw [← hpl']; exact (plug_perm _ _).mem_iff.2 (by simp [hb2])
      have hby := hp.mem_iff.1 hbT
      rcases List.mem_append.1 hby with hby | hby
      · obtain ⟨p, q, rfl⟩ := List.append_of_mem hby
        exact ⟨p, q, [x], by simp⟩
      · exfalso
        simp only [List.mem_cons, List.not_mem_nil, or_false] at hby
        subst hby
        have ha2 : b ∈ (plug (f :: fs) (.nil : BT τ)).tags := by
          refine BT.top_mem ?_
          rw [plug_top_nil (t' := s), hpl', ht]
          simp
        simp only [BT.tags] at hnod
        exact (List.nodup_append.1 (List.nodup_cons.1 hnod).2).2.2 b ha2 b hb2 rfl

theorem Rep.edge_child {idx : RIndex τ} : ∀ {t : BT τ} {p : Option τ} {e : τ × τ}, Rep idx p t → e ∈ t.edges →
    ∃ nd, dget idx e.1 = some nd ∧ (nd.left = some e.2 ∨ nd.right = some e.2)
  | .nil, _, _, _, h => by simp [BT.edges] at h
  | .node x l r, p, e, ⟨⟨nd, h1, h2, h3, _⟩, hl, hr⟩, h => by
    simp only [BT.edges, List.mem_append] at h
    rcases h with h | h
    · cases hc : l.top with
      | none => rw [hc] at h; simp at h
      | some c =>
        rw [hc] at h
        rcases List.mem_cons.1 h with rfl | h
        · exact ⟨nd, h1, .inl (h2.trans hc)⟩
        · exact hl.edge_child h
    · cases hc : r.top with
      | none => rw [hc] at h; simp at h
      | some c =>
        rw [hc] at h
        rcases List.mem_cons.1 h with rfl | h
        · exact ⟨nd, h1, .inr (h3.trans hc)⟩
        · exact hr.edge_child h

theorem RInv.state {t : RTree τ} {T : BT τ} {tags : List τ} (I : RInv t T tags) {y : τ} {u : BT τ}
    {fs : List (BFrame τ)} (e : T = plug fs u) (hu : u.top = some y) :
    rGetState t y = some (u.size, u.size) := by
  cases u with
  | nil => cases hu
  | node a l r =>
    simp only [BT.top, Option.some.injEq] at hu
    subst hu
    have hR := I.rep
    rw [e] at hR
    obtain ⟨⟨⟨nd, h1, _, _, _, h5, h6⟩, _⟩, _⟩ := hR.unplug
    simp only [rGetState, h1, Option.map_some, BT.size, h5, h6]

theorem plug_frame_top (hs : List (BFrame τ)) (f : BFrame τ) (s : BT τ) :
    (plug (hs ++ [f]) s).top = some f.tag := by
  rw [plug_append]
  cases f <;> rfl

/-- The branch that an insertion moves. -/
theorem RInv.branch {t : RTree τ} {T : BT τ} {tags : List τ} (I : RInv t T tags) (hN : NewerLeft tags T)
    (hne : T ≠ .nil) {s : BT τ} {F : List (BFrame τ)} (hd : descend 1 T [] = (s, F)) :
    ∃ c path, s.top = some c ∧ rPathTo t c = .ok path ∧
      (∀ pre y post, path = pre ++ y :: post →
        ∃ n h, rGetState t y = some (n, h) ∧ (post = [] ↔ n ≤ pre.length + 1)) ∧
      (∀ pre a b post b', path = pre ++ a :: b :: post → (a, b') ∈ T.edges → b' ≠ b →
        ∃ n h n' h', rGetState t b = some (n, h) ∧ rGetState t b' = some (n', h') ∧
          (n' < n ∨ n' = n ∧ Before tags b' b)) := by
  obtain ⟨gs, e1, e2, e3, e4⟩ := descend_walk T 1 [] (Nat.le_refl _)
  have hs0 := descend_ne_nil (d := 1) (fs := []) (Nat.le_refl _) hne
  rw [hd] at e1 e2 e3 e4 hs0
  simp only [List.append_nil] at e1 e2 e3 e4 hs0
  subst e1
  cases s with
  | nil => exact absurd rfl hs0
  | node c l r =>
    refine ⟨c, _, rfl, I.pathTo e2, ?_, ?_⟩
    · intro pre y post hp
      have hp' := congrArg List.reverse hp
      rw [List.reverse_reverse] at hp'
      simp only [List.reverse_append, List.reverse_cons, List.append_assoc, List.singleton_append,
        List.cons_append, List.nil_append] at hp'
      rcases hq : post.reverse with _ | ⟨z, q⟩
      · have hpost : post = [] := by simpa using hq
        rw [hq] at hp'
        simp only [List.nil_append, List.cons.injEq] at hp'
        obtain ⟨rfl, hF⟩ := hp'
        have hlen := congrArg List.length hF
        simp only [List.length_map, List.length_reverse] at hlen
        exact ⟨_, _, I.state e2 rfl, by simp only [hpost, true_iff]; omega⟩
      · rw [hq] at hp'
        simp only [List.cons_append, List.cons.injEq] at hp'
        obtain ⟨hs, ks', hF, h1, h2⟩ := List.map_eq_append_iff.1 hp'.2
        obtain ⟨f, ks, h3, h4, h5⟩ := List.map_eq_cons_iff.1 h2
        rw [h3] at hF
        have hlen := congrArg List.length h5
        simp only [List.length_map, List.length_reverse] at hlen
        have hw := (e4 hs f ks hF).1
        have e5 : T = plug ks (plug (hs ++ [f]) (.node c l r)) := by
          rw [← plug_append, List.append_assoc, List.singleton_append, ← hF]; exact e2
        refine ⟨_, _, I.state e5 (by rw [plug_frame_top, h4]), ?_⟩
        have : post ≠ [] := by rintro rfl; simp at hq
        simp only [this, false_iff]
        omega
    · intro pre a b post b' hp hedge hbb
      have hp' := congrArg List.reverse hp
      rw [List.reverse_reverse] at hp'
      simp only [List.reverse_append, List.reverse_cons, List.append_assoc, List.singleton_append,
        List.cons_append, List.nil_append] at hp'
      -- the frame of `a` and the subtree of `b`
      have key : ∃ hs f ks, F = hs ++ f :: ks ∧ f.tag = a ∧ (plug hs (.node c l r)).top = some b := by
        rcases hq : post.reverse with _ | ⟨z, q⟩
        · rw [hq] at hp'
          simp only [List.nil_append, List.cons.injEq] at hp'
          obtain ⟨rfl, hF⟩ := hp'
          obtain ⟨f, ks, h3, h4, h5⟩ := List.map_eq_cons_iff.1 hF
          exact ⟨[], f, ks, h3, h4, rfl⟩
        · rw [hq] at hp'
          simp only [List.cons_append, List.cons.injEq] at hp'
          obtain ⟨hs, ks', hF, h1, h2⟩ := List.map_eq_append_iff.1 hp'.2
          obtain ⟨g, ks, h3, h4, h5⟩ := List.map_eq_cons_iff.1 h2
          obtain ⟨f, ks2, h6, h7, h8⟩ := List.map_eq_cons_iff.1 h5
          refine ⟨hs ++ [g], f, ks2, ?_, h7, by rw [plug_frame_top, h4]⟩
          rw [hF, h3, h6]; simp
      obtain ⟨hs, f, ks, hF, hfa, hb⟩ := key
      obtain ⟨_, w1, w2⟩ := e4 hs f ks hF
      have e5 : T = plug (f :: ks) (plug hs (.node c l r)) := by rw [← plug_append, ← hF]; exact e2
      obtain ⟨nd, c1, c2⟩ := I.rep.edge_child hedge
      have hR := I.rep
      cases f with
      | L y s2 =>
        simp only [BFrame.tag] at hfa
        subst hfa
        have e6 : T = plug ks (.node y (plug hs (.node c l r)) s2) := e5
        rw [e6] at hR
        obtain ⟨⟨⟨nd', d1, d2, d3, _⟩, _⟩, _⟩ := hR.unplug
        rw [c1] at d1
        cases d1
        have hb' : s2.top = some b' := by
          rcases c2 with c2 | c2
          · rw [d2, hb] at c2
            simp only [Option.some.injEq] at c2
            exact absurd c2.symm hbb
          · rw [← d3, c2]
        refine ⟨_, _, _, _, I.state e5 hb,
          I.state (fs := .R y (plug hs (.node c l r)) :: ks) e6 hb', ?_⟩
        rcases Nat.lt_or_eq_of_le w1 with hw | hw
        · exact .inl hw
        · refine .inr ⟨hw, ?_⟩
          have hN' := hN
          rw [e6] at hN'
          exact (hN'.sub ks).2.2 b b' hb hb'
      | R y s2 =>
        simp only [BFrame.tag] at hfa
        subst hfa
        have e6 : T = plug ks (.node y s2 (plug hs (.node c l r))) := e5
        rw [e6] at hR
        obtain ⟨⟨⟨nd', d1, d2, d3, _⟩, _⟩, _⟩ := hR.unplug
        rw [c1] at d1
        cases d1
        have hb' : s2.top = some b' := by
          rcases c2 with c2 | c2
          · rw [← d2, c2]
          · rw [d3, hb] at c2
            simp only [Option.some.injEq] at c2
            exact absurd c2.symm hbb
        refine ⟨_, _, _, _, I.state e5 hb,
          I.state (fs := .L y (plug hs (.node c l r)) :: ks) e6 hb', ?_⟩
        rcases Nat.lt_or_eq_of_le w1 with hw | hw
        · exact .inl hw
        · obtain ⟨_, _, h⟩ := w2 hw
          cases h

end Gaspra
