import Verif.Proofs.RevisionInsert

/-!
# Paths, edges and states in `revision_tree.py` (used by C79)
-/

set_option linter.unusedSectionVars false
set_option linter.unusedSimpArgs false
set_option linter.unusedVariables false

namespace Gaspra

variable {τ : Type _} [DecidableEq τ]

/-! ### Paths -/

theorem RepCtx.upwards {idx : RIndex τ} : ∀ {fs : List (BFrame τ)} {hole : Option τ} {f : Nat},
    RepCtx idx hole fs → fs.length ≤ f → rUpwards idx f (up fs) = some (fs.map BFrame.tag)
  | [], _, f, _, _ => by cases f <;> rfl
  | .L x r :: fs, _, f, ⟨⟨nd, h1, _, _, h4⟩, _, hf⟩, hl => by
    obtain ⟨f, rfl⟩ : ∃ g, f = g + 1 := ⟨f - 1, by simp at hl; omega⟩
    have := hf.upwards (f := f) (by simp at hl; omega)
    show rUpwards idx (f + 1) (some x) = _
    simp only [rUpwards, h1, h4, this, Option.map_some, List.map_cons]
    rfl
  | .R x r :: fs, _, f, ⟨⟨nd, h1, _, _, h4⟩, _, hf⟩, hl => by
    obtain ⟨f, rfl⟩ : ∃ g, f = g + 1 := ⟨f - 1, by simp at hl; omega⟩
    have := hf.upwards (f := f) (by simp at hl; omega)
    show rUpwards idx (f + 1) (some x) = _
    simp only [rUpwards, h1, h4, this, Option.map_some, List.map_cons]
    rfl

theorem RInv.frames_le {t : RTree τ} {T : BT τ} {tags : List τ} (I : RInv t T tags)
    {fs : List (BFrame τ)} {u : BT τ} (e : T = plug fs u) : u.height + fs.length ≤ t.index.length := by
  have h1 := depth_le_height fs u
  rw [← e] at h1
  have h2 := T.height_le_size
  have h3 := I.length
  omega

theorem RInv.pathTo {t : RTree τ} {T : BT τ} {tags : List τ} (I : RInv t T tags) {y : τ} {l r : BT τ}
    {fs : List (BFrame τ)} (e : T = plug fs (.node y l r)) :
    rPathTo t y = .ok (y :: fs.map BFrame.tag).reverse := by
  have hR := I.rep
  have hlen := I.frames_le e
  rw [e] at hR
  obtain ⟨⟨⟨nd, h1, _, _, h4, _⟩, _⟩, hc⟩ := hR.unplug
  have h2 := hc.upwards (f := t.index.length) (by omega)
  simp only [rPathTo, h1, rUpwards, h4, h2, Option.map_some]

theorem RInv.place {t : RTree τ} {T : BT τ} {tags : List τ} (I : RInv t T tags) {y : τ}
    (hy : y ∈ tags) : ∃ fs l r, T = plug fs (.node y l r) :=
  exists_plug (I.perm.mem_iff.2 hy)

/-! ### Edges -/

theorem Rep.edges {idx : RIndex τ} : ∀ {t : BT τ} {p : Option τ} {x : τ} {f : Nat}, Rep idx p t →
    t.top = some x → t.size ≤ f → rNodeEdges idx f x = some t.edges
  | .nil, _, _, _, _, h, _ => by cases h
  | .node y l r, p, x, f, ⟨⟨nd, h1, h2, h3, _⟩, hl, hr⟩, h, hf => by
    simp only [BT.top, Option.some.injEq] at h
    subst h
    simp only [BT.size] at hf
    obtain ⟨f, rfl⟩ : ∃ g, f = g + 1 := ⟨f - 1, by omega⟩
    cases l with
    | nil =>
      cases r with
      | nil => simp only [rNodeEdges, h1, h2, h3, BT.edges, BT.top]
      | node a' b' d' =>
        have er := Rep.edges (f := f) hr rfl (by omega)
        simp only [rNodeEdges, h1, h2, h3, BT.top, er]
        rfl
    | node a b d =>
      have el := Rep.edges (f := f) hl rfl (by omega)
      cases r with
      | nil =>
        simp only [rNodeEdges, h1, h2, h3, BT.top, el]
        rfl
      | node a' b' d' =>
        have er := Rep.edges (f := f) hr rfl (by omega)
        simp only [rNodeEdges, h1, h2, h3, BT.top, el, er]
        rfl

theorem RInv.edges {t : RTree τ} {T : BT τ} {tags : List τ} (I : RInv t T tags) :
    rEdges t = some T.edges := by
  unfold rEdges
  rw [I.root]
  cases hT : T.top with
  | none =>
    cases T with
    | nil => rfl
    | node => cases hT
  | some x => exact I.rep.edges hT (by rw [I.length]; omega)

theorem BT.tags_edges : ∀ t : BT τ, t.tags = t.top.toList ++ t.edges.map Prod.snd
  | .nil => rfl
  | .node x l r => by
    have hl := BT.tags_edges l
    have hr := BT.tags_edges r
    simp only [BT.tags, BT.edges, BT.top, Option.toList, List.map_append]
    rw [hl, hr]
    cases l <;> cases r <;> simp [BT.top, Option.toList, BT.edges]

theorem edges_plug_perm : ∀ (fs : List (BFrame τ)) {u u' : BT τ} {A : List (τ × τ)},
    u.top = u'.top → u.edges.Perm (A ++ u'.edges) →
    (plug fs u).edges.Perm (A ++ (plug fs u').edges)
  | [], u, u', A, _, h => h
  | .L x r :: fs, u, u', A, ht, h => by
    refine edges_plug_perm fs rfl ?_
    simp only [BT.edges, ht]
    cases hu : u'.top with
    | none =>
      have e1 : u = .nil := by cases u with
        | nil => rfl
        | node => rw [hu] at ht; cases ht
      have e2 : u' = .nil := by cases u' with
        | nil => rfl
        | node => cases hu
      subst e1; subst e2
      simp only [BT.edges, List.append_nil] at h
      rw [List.nil_perm.1 h]
      exact List.Perm.refl _
    | some c =>
      simp only
      rw [← List.append_assoc]
      refine List.Perm.append_right _ ?_
      exact (List.Perm.cons _ h).trans List.perm_middle.symm
  | .R x l :: fs, u, u', A, ht, h => by
    refine edges_plug_perm fs rfl ?_
    simp only [BT.edges, ht]
    cases hu : u'.top with
    | none =>
      have e1 : u = .nil := by cases u with
        | nil => rfl
        | node => rw [hu] at ht; cases ht
      have e2 : u' = .nil := by cases u' with
        | nil => rfl
        | node => cases hu
      subst e1; subst e2
      simp only [BT.edges, List.append_nil] at h
      rw [List.nil_perm.1 h]
      exact List.Perm.refl _
    | some c =>
      simp only
      refine (List.Perm.append_left _ ((List.Perm.cons _ h).trans List.perm_middle.symm)).trans ?_
      rw [← List.append_assoc, ← List.append_assoc]
      exact List.Perm.append_right _ List.perm_append_comm

theorem edges_detach {f : BFrame τ} {fs : List (BFrame τ)} {s : BT τ} {c : τ} (hs : s.top = some c) :
    (plug (f :: fs) s).edges.Perm ((f.tag, c) :: s.edges ++ (plug (f :: fs) .nil).edges) := by
  cases f with
  | L x r =>
    refine edges_plug_perm fs (u := .node x s r) (u' := .node x .nil r) rfl ?_
    simp only [BT.edges, hs, BFrame.tag]
    exact List.Perm.refl _
  | R x l =>
    refine edges_plug_perm fs (u := .node x l s) (u' := .node x l .nil) rfl ?_
    simp only [BT.edges, hs, BFrame.tag]
    refine List.perm_append_comm.trans ?_
    show List.Perm _ (_ ++ (_ ++ []))
    rw [List.append_nil]

theorem insBT_edges (x : τ) (T : BT τ) :
    ((insBT x T).edges ++ (insReport x T).2.1).Perm ((insReport x T).1 ++ T.edges) := by
  have hpl := descend_plug 1 T []
  cases T with
  | nil => exact List.Perm.refl _
  | node a b c' =>
    have hne : (descend 1 (.node a b c') ([] : List (BFrame τ))).1 ≠ .nil := descend_ne_nil (by omega) (by simp)
    generalize hT : (BT.node a b c') = T at *
    have htop : T.top = some a := by rw [← hT]; rfl
    unfold insBT insReport
    rcases hd : descend 1 T [] with ⟨s, _ | ⟨f, fs⟩⟩
    · simp only [htop, BT.edges]
      simp [BT.top]
    · rw [hd] at hpl hne
      obtain ⟨c, hc⟩ : ∃ c, s.top = some c := by
        cases s with
        | nil => exact absurd rfl hne
        | node x _ _ => exact ⟨x, rfl⟩
      have hpl' : plug (f :: fs) s = T := hpl
      have htop2 : (plug (f :: fs) (.nil : BT τ)).top = some a := by
        rw [plug_top_nil (t' := s), hpl', htop]
      have hp := edges_detach (f := f) (fs := fs) hc
      rw [hpl'] at hp
      simp only [htop, hc, BT.edges, htop2]
      simp only [List.cons_append, List.nil_append, List.append_assoc]
      refine List.Perm.cons _ ?_
      refine List.Perm.trans ?_ (List.Perm.cons _ hp.symm)
      refine List.perm_middle.trans (List.Perm.cons _ ?_)
      rw [← List.append_assoc]
      refine (List.perm_append_singleton _ _).trans ?_
      exact List.Perm.cons _ List.perm_append_comm

theorem edges_sub_plug : ∀ (fs : List (BFrame τ)) (t : BT τ) {e : τ × τ}, e ∈ t.edges →
    e ∈ (plug fs t).edges
  | [], t, e, h => h
  | .L x r :: fs, t, e, h => by
    refine edges_sub_plug fs _ ?_
    cases t with
    | nil => simp [BT.edges] at h
    | node a b c => simp only [BT.edges, BT.top, List.mem_append, List.mem_cons] at h ⊢; exact .inl (.inr h)
  | .R x l :: fs, t, e, h => by
    refine edges_sub_plug fs _ ?_
    cases t with
    | nil => simp [BT.edges] at h
    | node a b c =>
      simp only [BT.edges, BT.top, List.mem_append, List.mem_cons] at h ⊢; exact .inr (.inr h)

theorem edge_up {f : BFrame τ} {fs : List (BFrame τ)} {t : BT τ} {y : τ} (ht : t.top = some y) :
    (f.tag, y) ∈ (plug (f :: fs) t).edges := by
  cases f with
  | L x r => exact edges_sub_plug fs (.node x t r) (by simp [BT.edges, ht, BFrame.tag])
  | R x l => exact edges_sub_plug fs (.node x l t) (by simp [BT.edges, ht, BFrame.tag])

theorem path_edges : ∀ (fs : List (BFrame τ)) {t : BT τ} {y a b : τ} {p q : List τ}, t.top = some y →
    (y :: fs.map BFrame.tag) = p ++ b :: a :: q → (a, b) ∈ (plug fs t).edges
  | [], t, y, a, b, p, q, _, h => by
    have := congrArg List.length h
    simp at this
    omega
  | f :: fs, t, y, a, b, p, q, ht, h => by
    cases p with
    | nil =>
      simp only [List.map_cons, List.nil_append, List.cons.injEq] at h
      obtain ⟨h1, h2, _⟩ := h
      subst h1; subst h2
      exact edge_up ht
    | cons z p =>
      simp only [List.map_cons, List.cons_append, List.cons.injEq] at h
      cases f with
      | L x r => exact path_edges fs (t := .node x t r) rfl h.2
      | R x l => exact path_edges fs (t := .node x l t) rfl h.2

/-! ### States -/

theorem Rep.unique {idx : RIndex τ} : ∀ {t t' : BT τ} {p p' : Option τ}, Rep idx p t → Rep idx p' t' →
    t.top = t'.top → t = t'
  | .nil, .nil, _, _, _, _, _ => rfl
  | .nil, .node _ _ _, _, _, _, _, h => by cases h
  | .node _ _ _, .nil, _, _, _, _, h => by cases h
  | .node x l r, .node x' l' r', _, _, ⟨⟨nd, h1, h2, h3, _⟩, hl, hr⟩, ⟨⟨nd', h1', h2', h3', _⟩, hl', hr'⟩,
    h => by
    simp only [BT.top, Option.some.injEq] at h
    subst h
    rw [h1] at h1'
    cases h1'
    rw [Rep.unique hl hl' (by rw [← h2, ← h2']), Rep.unique hr hr' (by rw [← h3, ← h3'])]

theorem mem_path_iff {idx : RIndex τ} {T : BT τ} (hR : Rep idx none T) (hn : T.tags.Nodup)
    {fs gs : List (BFrame τ)} {y z : τ} {l r l' r' : BT τ} (e : T = plug fs (.node y l r))
    (e' : T = plug gs (.node z l' r')) :
    y ∈ z :: gs.map BFrame.tag ↔ z ∈ (BT.node y l r).tags := by
  have hRy : Rep idx (up fs) (.node y l r) := by
    have := hR; rw [e] at this; exact this.unplug.1
  constructor
  · intro h
    rcases List.mem_cons.1 h with rfl | h
    · simp [BT.tags]
    · obtain ⟨g, hg, rfl⟩ := List.mem_map.1 h
      obtain ⟨g1, g2, rfl⟩ := List.append_of_mem hg
      have e2 : T = plug g2 (plug (g1 ++ [g]) (.node z l' r')) := by
        rw [e', ← plug_append]; simp
      have hsub : Rep idx (up g2) (plug (g1 ++ [g]) (.node z l' r')) := by
        have := hR; rw [e2] at this; exact this.unplug.1
      have htop : (plug (g1 ++ [g]) (.node z l' r')).top = some g.tag := by
        rw [plug_append]
        cases g <;> rfl
      rw [Rep.unique hRy hsub (by rw [htop]; rfl)]
      exact (plug_perm _ _).mem_iff.2 (by simp [BT.tags])
  · intro h
    obtain ⟨hs, a, b, e2⟩ := exists_plug h
    have e3 : T = plug (hs ++ fs) (.node z a b) := by rw [plug_append, ← e2, e]
    -- the places of `z` are the same
    have hz1 := hR
    rw [e'] at hz1
    have hz2 := hR
    rw [e3] at hz2
    have u1 := hz1.unplug
    have u2 := hz2.unplug
    have p1 := u1.2.upwards (f := (gs.length + (hs ++ fs).length)) (by omega)
    have p2 := u2.2.upwards (f := (gs.length + (hs ++ fs).length)) (by omega)
    obtain ⟨⟨nd1, q1, _, _, q2, _⟩, _⟩ := u1.1
    obtain ⟨⟨nd2, q3, _, _, q4, _⟩, _⟩ := u2.1
    rw [q1] at q3
    cases q3
    rw [← q2, q4, p2] at p1
    simp only [Option.some.injEq] at p1
    rw [← p1]
    rcases List.eq_nil_or_concat hs with rfl | ⟨hs', g, rfl⟩
    · simp only [plug] at e2
      cases e2
      simp
    · rw [List.concat_eq_append, plug_append] at e2
      have : g.tag = y := by
        cases g with
        | L x c => simp only [plug] at e2; cases e2; rfl
        | R x c => simp only [plug] at e2; cases e2; rfl
      simp [List.concat_eq_append, this]

/-! ### `reevaluate` -/

/-- The links of a node. -/
def RNode.links (nd : RNode τ) : Nat × Option τ × Option τ × Option τ :=
  (nd.nodeId, nd.left, nd.right, nd.parent)

/-- The same keys and links. -/
def Lk (idx ref : RIndex τ) : Prop :=
  idx.map Prod.fst = ref.map Prod.fst ∧
    ∀ y, (dget idx y).map RNode.links = (dget ref y).map RNode.links

theorem Lk.get {idx ref : RIndex τ} (h : Lk idx ref) {y : τ} {nd : RNode τ} (hy : dget ref y = some nd) :
    ∃ nd', dget idx y = some nd' ∧ nd'.nodeId = nd.nodeId ∧ nd'.left = nd.left ∧ nd'.right = nd.right ∧
      nd'.parent = nd.parent := by
  have := h.2 y
  rw [hy] at this
  cases hd : dget idx y with
  | none => rw [hd] at this; cases this
  | some nd' =>
    rw [hd] at this
    simp only [Option.map_some, Option.some.injEq, RNode.links, Prod.mk.injEq] at this
    exact ⟨nd', rfl, this.1, this.2.1, this.2.2.1, this.2.2.2⟩

theorem Lk.dset {idx ref : RIndex τ} (h : Lk idx ref) {y : τ} {nd nd' : RNode τ}
    (hy : dget idx y = some nd) (hl : nd'.links = nd.links) : Lk (dset idx y nd') ref := by
  refine ⟨(dset_keys_of_some hy).trans h.1, fun z => ?_⟩
  rw [dget_dset]
  split
  · next e =>
    subst e
    rw [← h.2 y, hy]
    simp [hl]
  · exact h.2 z

/-- The states of a node follow from those of its children. -/
def MetricR (idx : RIndex τ) (x : τ) : Prop :=
  ∃ nd sl sr hl hr, dget idx x = some nd ∧ rChildAttr idx RNode.size nd.left = some sl ∧
    rChildAttr idx RNode.size nd.right = some sr ∧ rChildAttr idx RNode.height nd.left = some hl ∧
    rChildAttr idx RNode.height nd.right = some hr ∧ nd.size = 1 + sl + sr ∧ nd.height = 1 + hl + hr

theorem Lk.childAttr {idx ref : RIndex τ} (h : Lk idx ref) {p : Option τ} {t : BT τ} (hR : Rep ref p t)
    (attr : RNode τ → Nat) : ∃ s, rChildAttr idx attr t.top = some s := by
  cases t with
  | nil => exact ⟨0, rfl⟩
  | node x l r =>
    obtain ⟨⟨nd, h1, _⟩, _⟩ := hR
    obtain ⟨nd', h2, _⟩ := h.get h1
    exact ⟨attr nd', by simp [rChildAttr, BT.top, h2]⟩

theorem childAttr_congr {idx idx' : RIndex τ} {attr : RNode τ → Nat} {o : Option τ}
    (h : ∀ c, o = some c → dget idx' c = dget idx c) : rChildAttr idx' attr o = rChildAttr idx attr o := by
  cases o with
  | none => rfl
  | some c => simp [rChildAttr, h c rfl]

theorem BT.top_mem {t : BT τ} {c : τ} (h : t.top = some c) : c ∈ t.tags := by
  cases t with
  | nil => cases h
  | node a b d => simp only [BT.top, Option.some.injEq] at h; simp [BT.tags, h]

theorem updateStates_links {ref : RIndex τ} : ∀ (fs : List (BFrame τ)) {idx : RIndex τ} {x : τ} {l r : BT τ}
    {f : Nat}, fs.length < f → Rep ref none (plug fs (.node x l r)) →
    ((plug fs (.node x l r)).tags).Nodup → Lk idx ref →
    ∃ idx', rUpdateStates f idx (some x) = some (idx', fs.length + 1) ∧ Lk idx' ref ∧
      (∀ y, y ∉ x :: fs.map BFrame.tag → dget idx' y = dget idx y) ∧
      ∀ a, a ∈ x :: fs.map BFrame.tag → MetricR idx' a := by
  intro fs
  induction fs with
  | nil =>
    intro idx x l r f hf hR hn hL
    obtain ⟨f, rfl⟩ : ∃ g, f = g + 1 := ⟨f - 1, by simp at hf; omega⟩
    obtain ⟨⟨nd0, h1, h2, h3, h4, _⟩, hl, hr⟩ := hR
    obtain ⟨nd, k1, k0, k2, k3, k4⟩ := hL.get h1
    obtain ⟨sl, a1⟩ := hL.childAttr hl RNode.size
    obtain ⟨sr, a2⟩ := hL.childAttr hr RNode.size
    obtain ⟨bl, a3⟩ := hL.childAttr hl RNode.height
    obtain ⟨br, a4⟩ := hL.childAttr hr RNode.height
    rw [← h2, ← k2] at a1 a3
    rw [← h3, ← k3] at a2 a4
    have hne : ∀ c, c ∈ l.tags ++ r.tags → x ≠ c := fun c hc e => by
      subst e; exact (List.nodup_cons.1 hn).1 hc
    refine ⟨dset idx x { nd with size := 1 + sl + sr, height := 1 + bl + br }, ?_, hL.dset k1 rfl, ?_, ?_⟩
    · simp only [rUpdateStates, k1, a1, a2, a3, a4]
      rw [k4, h4]
      simp [rUpdateStates]
    · intro y hy
      exact dget_dset_ne _ _ fun e => hy (by simp [e])
    · intro a ha
      simp only [List.map_nil, List.mem_cons, List.not_mem_nil, or_false] at ha
      subst ha
      have cl : ∀ c, nd.left = some c →
          dget (dset idx a { nd with size := 1 + sl + sr, height := 1 + bl + br }) c = dget idx c :=
        fun c hc => dget_dset_ne _ _ (hne c (by
          have := BT.top_mem (t := l) (c := c) (by rw [← h2, ← k2, hc]); simp [this]))
      have cr : ∀ c, nd.right = some c →
          dget (dset idx a { nd with size := 1 + sl + sr, height := 1 + bl + br }) c = dget idx c :=
        fun c hc => dget_dset_ne _ _ (hne c (by
          have := BT.top_mem (t := r) (c := c) (by rw [← h3, ← k3, hc]); simp [this]))
      refine ⟨{ nd with size := 1 + sl + sr, height := 1 + bl + br }, sl, sr, bl, br,
        dget_dset_self _ _ _, ?_, ?_, ?_, ?_, rfl, rfl⟩
      · rw [childAttr_congr cl]; exact a1
      · rw [childAttr_congr cr]; exact a2
      · rw [childAttr_congr cl]; exact a3
      · rw [childAttr_congr cr]; exact a4
  | cons g fs ih =>
    intro idx x l r f hf hR hn hL
    obtain ⟨f, rfl⟩ : ∃ g, f = g + 1 := ⟨f - 1, by simp at hf; omega⟩
    obtain ⟨⟨⟨nd0, h1, h2, h3, h4, _⟩, hl, hr⟩, hc⟩ := hR.unplug
    obtain ⟨nd, k1, k0, k2, k3, k4⟩ := hL.get h1
    obtain ⟨sl, a1⟩ := hL.childAttr hl RNode.size
    obtain ⟨sr, a2⟩ := hL.childAttr hr RNode.size
    obtain ⟨bl, a3⟩ := hL.childAttr hl RNode.height
    obtain ⟨br, a4⟩ := hL.childAttr hr RNode.height
    rw [← h2, ← k2] at a1 a3
    rw [← h3, ← k3] at a2 a4
    have hn1 := (plug_perm (g :: fs) (.node x l r)).nodup_iff.1 hn
    have hn2 := List.nodup_append.1 hn1
    have hupper : ∀ c, c ∈ g.tag :: fs.map BFrame.tag → c ∈ ctxTags (g :: fs) := by
      intro c hc
      rcases List.mem_cons.1 hc with rfl | hc
      · simp [ctxTags]
      · obtain ⟨g', hg, rfl⟩ := List.mem_map.1 hc
        exact ctx_mem_tags (List.mem_cons_of_mem _ hg)
    have hne : ∀ c, c ∈ l.tags ++ r.tags → x ≠ c := fun c hc e => by
      subst e
      exact (List.nodup_cons.1 hn2.1).1 hc
    have hnu : ∀ c, c ∈ x :: (l.tags ++ r.tags) → c ∉ g.tag :: fs.map BFrame.tag :=
      fun c hc h => hn2.2.2 c hc c (hupper c h) rfl
    generalize hidx1 : dset idx x { nd with size := 1 + sl + sr, height := 1 + bl + br } = idx1
    have hL1 : Lk idx1 ref := by rw [← hidx1]; exact hL.dset k1 rfl
    have hrec : ∃ idx', rUpdateStates f idx1 (some g.tag) = some (idx', fs.length + 1) ∧ Lk idx' ref ∧
      (∀ y, y ∉ g.tag :: fs.map BFrame.tag → dget idx' y = dget idx1 y) ∧
      ∀ a, a ∈ g.tag :: fs.map BFrame.tag → MetricR idx' a := by
      cases g with
      | L y s => exact ih (f := f) (by simp at hf; omega) hR hn hL1
      | R y s => exact ih (f := f) (by simp at hf; omega) hR hn hL1
    obtain ⟨idx', e1, e2, e3, e4⟩ := hrec
    refine ⟨idx', ?_, e2, ?_, ?_⟩
    · simp only [rUpdateStates, k1, a1, a2, a3, a4, hidx1]
      rw [k4, h4]
      simp only [up, e1, List.length_cons]
    · intro y hy
      simp only [List.map_cons, List.mem_cons, not_or] at hy
      rw [e3 y (by simp [hy.2.1, hy.2.2]), ← hidx1]
      exact dget_dset_ne _ _ (fun e => hy.1 e.symm)
    · intro a ha
      rcases List.mem_cons.1 ha with rfl | ha
      · have cl : ∀ c, nd.left = some c → dget idx' c = dget idx c := fun c hc => by
          have hm := BT.top_mem (t := l) (c := c) (by rw [← h2, ← k2, hc])
          rw [e3 c (hnu c (by simp [hm])), ← hidx1]
          exact dget_dset_ne _ _ (hne c (by simp [hm]))
        have cr : ∀ c, nd.right = some c → dget idx' c = dget idx c := fun c hc => by
          have hm := BT.top_mem (t := r) (c := c) (by rw [← h3, ← k3, hc])
          rw [e3 c (hnu c (by simp [hm])), ← hidx1]
          exact dget_dset_ne _ _ (hne c (by simp [hm]))
        refine ⟨{ nd with size := 1 + sl + sr, height := 1 + bl + br }, sl, sr, bl, br, ?_, ?_, ?_, ?_, ?_,
          rfl, rfl⟩
        · rw [e3 a (hnu a (by simp)), ← hidx1]; exact dget_dset_self _ _ _
        · rw [childAttr_congr cl]; exact a1
        · rw [childAttr_congr cr]; exact a2
        · rw [childAttr_congr cl]; exact a3
        · rw [childAttr_congr cr]; exact a4
      · exact e4 a ha

theorem dset_same {β : Type _} {d : List (τ × β)} {k : τ} {v : β} (h : dget d k = some v) :
    dset d k v = d := by
  induction d with
  | nil => cases h
  | cons a d ih =>
    obtain ⟨k', v'⟩ := a
    simp only [dget] at h
    simp only [dset]
    split at h
    · next e => simp only [Option.some.injEq] at h; rw [if_pos e, h]
    · next e => rw [if_neg e, ih h]

theorem updateStates_noop {ref : RIndex τ} : ∀ (fs : List (BFrame τ)) {idx : RIndex τ} {x : τ} {l r : BT τ}
    {f : Nat}, fs.length < f → Rep ref none (plug fs (.node x l r)) → Lk idx ref →
    (∀ a, a ∈ x :: fs.map BFrame.tag → MetricR idx a) →
    rUpdateStates f idx (some x) = some (idx, fs.length + 1) := by
  intro fs
  induction fs with
  | nil =>
    intro idx x l r f hf hR hL hM
    obtain ⟨f, rfl⟩ : ∃ g, f = g + 1 := ⟨f - 1, by simp at hf; omega⟩
    obtain ⟨⟨nd0, h1, h2, h3, h4, _⟩, hl, hr⟩ := hR
    obtain ⟨nd, sl, sr, bl, br, k1, a1, a2, a3, a4, s1, s2⟩ := hM x (by simp)
    obtain ⟨nd', k1', _, _, _, k4⟩ := hL.get h1
    rw [k1] at k1'
    cases k1'
    simp only [rUpdateStates, k1, a1, a2, a3, a4, ← s1, ← s2, dset_same k1]
    rw [k4, h4]
    simp [rUpdateStates]
  | cons g fs ih =>
    intro idx x l r f hf hR hL hM
    obtain ⟨f, rfl⟩ : ∃ g, f = g + 1 := ⟨f - 1, by simp at hf; omega⟩
    obtain ⟨⟨⟨nd0, h1, h2, h3, h4, _⟩, hl, hr⟩, hc⟩ := hR.unplug
    obtain ⟨nd, sl, sr, bl, br, k1, a1, a2, a3, a4, s1, s2⟩ := hM x (by simp)
    obtain ⟨nd', k1', _, _, _, k4⟩ := hL.get h1
    rw [k1] at k1'
    cases k1'
    have hrec : rUpdateStates f idx (some g.tag) = some (idx, fs.length + 1) := by
      cases g with
      | L y s =>
        exact ih (f := f) (by simp at hf; omega) hR hL fun a ha => hM a (by
          simp only [List.map_cons, List.mem_cons] at ha ⊢; exact .inr ha)
      | R y s =>
        exact ih (f := f) (by simp at hf; omega) hR hL fun a ha => hM a (by
          simp only [List.map_cons, List.mem_cons] at ha ⊢; exact .inr ha)
    simp only [rUpdateStates, k1, a1, a2, a3, a4, ← s1, ← s2, dset_same k1]
    rw [k4, h4]
    simp only [up, hrec, List.length_cons]

/-- `1 + 2 + … + n`. -/
def tri : Nat → Nat
  | 0 => 0
  | n + 1 => tri n + (n + 1)

theorem ripple_noop {ref : RIndex τ} : ∀ (fs : List (BFrame τ)) {idx : RIndex τ} {x : τ} {l r : BT τ}
    {f : Nat}, fs.length < f → fs.length ≤ idx.length → Rep ref none (plug fs (.node x l r)) → Lk idx ref →
    (∀ a, a ∈ x :: fs.map BFrame.tag → MetricR idx a) →
    rRipple f idx (some x) = some (idx, tri (fs.length + 1)) := by
  intro fs
  induction fs with
  | nil =>
    intro idx x l r f hf hlen hR hL hM
    obtain ⟨f, rfl⟩ : ∃ g, f = g + 1 := ⟨f - 1, by simp at hf; omega⟩
    have h0 := updateStates_noop [] (f := idx.length + 1) (by simp) hR hL hM
    obtain ⟨⟨nd0, h1, h2, h3, h4, _⟩, hl, hr⟩ := hR
    obtain ⟨nd, k1, _, _, _, k4⟩ := hL.get h1
    simp only [rRipple, h0, k1]
    rw [k4, h4]
    simp [rRipple, tri]
  | cons g fs ih =>
    intro idx x l r f hf hlen hR hL hM
    obtain ⟨f, rfl⟩ : ∃ g, f = g + 1 := ⟨f - 1, by simp at hf; omega⟩
    have h0 := updateStates_noop (g :: fs) (f := idx.length + 1) (by simp at hlen ⊢; omega) hR hL hM
    obtain ⟨⟨⟨nd0, h1, h2, h3, h4, _⟩, hl, hr⟩, hc⟩ := hR.unplug
    obtain ⟨nd, k1, _, _, _, k4⟩ := hL.get h1
    have hrec : rRipple f idx (some g.tag) = some (idx, tri (fs.length + 1)) := by
      cases g with
      | L y s =>
        exact ih (f := f) (by simp at hf; omega) (by simp at hlen; omega) hR hL fun a ha => hM a (by
          simp only [List.map_cons, List.mem_cons] at ha ⊢; exact .inr ha)
      | R y s =>
        exact ih (f := f) (by simp at hf; omega) (by simp at hlen; omega) hR hL fun a ha => hM a (by
          simp only [List.map_cons, List.mem_cons] at ha ⊢; exact .inr ha)
    simp only [rRipple, h0, k1]
    rw [k4, h4]
    simp only [up, hrec, List.length_cons, tri, Option.some.injEq, Prod.mk.injEq, true_and]
    omega

theorem ripple_spec {ref : RIndex τ} (fs : List (BFrame τ)) {idx : RIndex τ} {x : τ} {l r : BT τ}
    {f : Nat} (hf : fs.length < f) (hlen : fs.length ≤ idx.length)
    (hR : Rep ref none (plug fs (.node x l r))) (hn : ((plug fs (.node x l r)).tags).Nodup)
    (hL : Lk idx ref) :
    ∃ idx', rRipple f idx (some x) = some (idx', tri (fs.length + 1)) ∧ Lk idx' ref ∧
      (∀ y, y ∉ x :: fs.map BFrame.tag → dget idx' y = dget idx y) ∧
      ∀ a, a ∈ x :: fs.map BFrame.tag → MetricR idx' a := by
  obtain ⟨idx', e1, e2, e3, e4⟩ := updateStates_links fs (f := idx.length + 1) (by omega) hR hn hL
  refine ⟨idx', ?_, e2, e3, e4⟩
  have hlen' : idx'.length = idx.length := by
    have h1 := congrArg List.length e2.1
    have h2 := congrArg List.length hL.1
    simp only [List.length_map] at h1 h2
    omega
  obtain ⟨f, rfl⟩ : ∃ g, f = g + 1 := ⟨f - 1, by omega⟩
  have h0 := ripple_noop fs (f := f + 1) hf (by omega) hR e2 e4
  -- a second call changes nothing
  have h2 := updateStates_noop fs (f := idx'.length + 1) (by omega) hR e2 e4
  simp only [rRipple, h2] at h0
  simp only [rRipple, e1]
  exact h0

/-- The tags of the leaves. -/
def leavesBT : BT τ → List τ
  | .nil => []
  | .node x .nil .nil => [x]
  | .node x l r => leavesBT l ++ leavesBT r

theorem leaves_mem_tags {z : τ} : ∀ {t : BT τ}, z ∈ leavesBT t → z ∈ t.tags
  | .nil, h => by simp [leavesBT] at h
  | .node x .nil .nil, h => by simpa [leavesBT, BT.tags] using h
  | .node x (.node a b c) r, h => by
    simp only [leavesBT, List.mem_append] at h
    rcases h with h | h
    · have := leaves_mem_tags h; simp only [BT.tags, List.mem_cons, List.mem_append] at this ⊢
      exact .inr (.inl this)
    · have := leaves_mem_tags h; simp [BT.tags] at this ⊢; simp [this]
  | .node x .nil (.node a b c), h => by
    simp only [leavesBT, List.mem_append] at h
    rcases h with h | h
    · simp at h
    · have := leaves_mem_tags h; simp only [BT.tags, List.mem_cons, List.mem_append] at this ⊢
      exact .inr (.inr this)

theorem leaves_left {x z : τ} {l r : BT τ} (h : z ∈ leavesBT l) : z ∈ leavesBT (.node x l r) := by
  cases l with
  | nil => simp [leavesBT] at h
  | node a b c => simp only [leavesBT, List.mem_append]; exact .inl h

theorem leaves_right {x z : τ} {l r : BT τ} (h : z ∈ leavesBT r) : z ∈ leavesBT (.node x l r) := by
  cases r with
  | nil => simp [leavesBT] at h
  | node a b c =>
    cases l with
    | nil => simpa [leavesBT] using h
    | node => simp only [leavesBT, List.mem_append]; exact .inr h

/-- All nodes whose leaves are in `S` have their states. -/
def ReInv (ref idx : RIndex τ) (T : BT τ) (S : List τ) : Prop :=
  Lk idx ref ∧ ∀ fs y l r, T = plug fs (.node y l r) → (∀ z, z ∈ leavesBT (.node y l r) → z ∈ S) →
    dget idx y = dget ref y

theorem ReInv.step {ref idx idx' : RIndex τ} {T : BT τ} {S : List τ} {x : τ} {fx : List (BFrame τ)}
    (I : ReInv ref idx T S) (hR : Rep ref none T) (hn : T.tags.Nodup)
    (hx : T = plug fx (.node x .nil .nil)) (h1 : Lk idx' ref)
    (h2 : ∀ y, y ∉ x :: fx.map BFrame.tag → dget idx' y = dget idx y)
    (h3 : ∀ a, a ∈ x :: fx.map BFrame.tag → MetricR idx' a) : ReInv ref idx' T (x :: S) := by
  refine ⟨h1, ?_⟩
  suffices H : ∀ (t : BT τ) (fs : List (BFrame τ)), T = plug fs t → (∀ z, z ∈ leavesBT t → z ∈ x :: S) →
      ∀ y, t.top = some y → dget idx' y = dget ref y from
    fun fs y l r e hz => H _ fs e hz y rfl
  intro t
  induction t with
  | nil => intro fs _ _ y h; cases h
  | node y l r ihl ihr =>
    intro fs e hz y' hy'
    simp only [BT.top, Option.some.injEq] at hy'
    subst hy'
    by_cases hp : y ∈ x :: fx.map BFrame.tag
    · have hl := ihl (.L y r :: fs) e fun z h => hz z (leaves_left h)
      have hr := ihr (.R y l :: fs) e fun z h => hz z (leaves_right h)
      have hRy := hR
      rw [e] at hRy
      obtain ⟨⟨⟨nd0, g1, g2, g3, g4, g5, g6⟩, gl, gr⟩, _⟩ := hRy.unplug
      obtain ⟨nd, sl, sr, bl, br, k1, a1, a2, a3, a4, s1, s2⟩ := h3 y hp
      obtain ⟨nd', k1', l0, l1, l2, l3⟩ := h1.get g1
      rw [k1] at k1'
      cases k1'
      have cl := gl.childAttr
      have cr := gr.childAttr
      rw [l1, g2, childAttr_congr (fun c hc => hl c hc)] at a1 a3
      rw [l2, g3, childAttr_congr (fun c hc => hr c hc)] at a2 a4
      rw [cl.1] at a1
      rw [cl.2] at a3
      rw [cr.1] at a2
      rw [cr.2] at a4
      cases a1; cases a2; cases a3; cases a4
      rw [k1, g1]
      obtain ⟨n1, n2, n3, n4, n5, n6⟩ := nd
      obtain ⟨m1, m2, m3, m4, m5, m6⟩ := nd0
      simp only at *
      subst l0 l1 l2 l3 s1 s2
      rw [g5, g6]
    · rw [h2 y hp]
      refine I.2 fs y l r e fun z h => ?_
      rcases List.mem_cons.1 (hz z h) with rfl | h'
      · exact absurd ((mem_path_iff hR hn e hx).2 (leaves_mem_tags h)) hp
      · exact h'

/-- Whether `reevaluate` starts at a node. -/
def isLeafR (ref : RIndex τ) (x : τ) : Bool :=
  match dget ref x with
  | none => false
  | some nd => decide (nd.left = none ∧ nd.right = none)

theorem reevaluateLoop_spec {ref : RIndex τ} {T : BT τ} (hR : Rep ref none T) (hn : T.tags.Nodup)
    (hT : T.size ≤ ref.length) :
    ∀ (xs : List τ) {idx : RIndex τ} {S : List τ}, (∀ x, x ∈ xs → x ∈ T.tags) → ReInv ref idx T S →
    ∃ idx' k, rReevaluateLoop idx xs = some (idx', k) ∧
      ReInv ref idx' T ((xs.filter (isLeafR ref)).reverse ++ S) ∧
      ∀ m, (∀ fs x, T = plug fs (.node x .nil .nil) → m ≤ tri (fs.length + 1)) →
        m * (xs.filter (isLeafR ref)).length ≤ k
  | [], idx, S, _, I => ⟨idx, 0, rfl, I, fun m _ => by simp⟩
  | x :: xs, idx, S, hxs, I => by
    obtain ⟨fx, l, r, e⟩ := exists_plug (hxs x (by simp))
    have hRx := hR
    rw [e] at hRx
    obtain ⟨⟨⟨nd0, g1, g2, g3, g4, g5, g6⟩, gl, gr⟩, _⟩ := hRx.unplug
    obtain ⟨nd, k1, l0, l1, l2, l3⟩ := I.1.get g1
    have hlenidx : idx.length = ref.length := by
      have := congrArg List.length I.1.1; simpa using this
    by_cases hleaf : nd.left = none ∧ nd.right = none
    · have e1 : l = .nil := by
        have := hleaf.1; rw [l1, g2] at this
        cases l with
        | nil => rfl
        | node => cases this
      have e2 : r = .nil := by
        have := hleaf.2; rw [l2, g3] at this
        cases r with
        | nil => rfl
        | node => cases this
      subst e1; subst e2
      have hd := depth_le_height fx (.node x .nil .nil)
      rw [← e] at hd
      have hd2 := T.height_le_size
      simp only [BT.height] at hd
      obtain ⟨idx1, p1, p2, p3, p4⟩ := ripple_spec fx (idx := idx) (f := idx.length + 1) (by omega) (by omega)
        hRx (by rw [← e]; exact hn) I.1
      obtain ⟨idx', k', q1, q2, q3⟩ := reevaluateLoop_spec hR hn hT xs
        (fun y hy => hxs y (by simp [hy])) (I.step hR hn e p2 p3 p4)
      have hl : isLeafR ref x = true := by
        simp [isLeafR, g1, ← l1, ← l2, hleaf.1, hleaf.2]
      refine ⟨idx', tri (fx.length + 1) + k', ?_, ?_, ?_⟩
      · simp only [rReevaluateLoop, k1, hleaf, and_self, if_true, p1, q1]
      · rw [List.filter_cons_of_pos hl, List.reverse_cons, List.append_assoc]
        exact q2
      · intro m hm
        have := q3 m hm
        have := hm fx x e
        rw [List.filter_cons_of_pos hl, List.length_cons, Nat.mul_succ]
        omega
    · obtain ⟨idx', k', q1, q2, q3⟩ := reevaluateLoop_spec hR hn hT xs
        (fun y hy => hxs y (by simp [hy])) I
      have hl : ¬ isLeafR ref x = true := by
        simp only [isLeafR, g1, decide_eq_true_eq, ← l1, ← l2]
        exact hleaf
      refine ⟨idx', k', ?_, ?_, ?_⟩
      · simp only [rReevaluateLoop, k1, hleaf, if_false, q1]
      · rw [List.filter_cons_of_neg hl]; exact q2
      · intro m hm
        rw [List.filter_cons_of_neg hl]; exact q3 m hm

theorem dict_ext {β : Type _} : ∀ {d d' : List (τ × β)}, d.map Prod.fst = d'.map Prod.fst →
    (d.map Prod.fst).Nodup → (∀ y, y ∈ d.map Prod.fst → dget d y = dget d' y) → d = d'
  | [], [], _, _, _ => rfl
  | [], _ :: _, h, _, _ => by simp at h
  | _ :: _, [], h, _, _ => by simp at h
  | (k, v) :: d, (k', v') :: d', h, hn, hg => by
    simp only [List.map_cons, List.cons.injEq] at h
    obtain ⟨rfl, h⟩ := h
    have h1 := hg k (by simp)
    simp only [dget, if_true, Option.some.injEq] at h1
    subst h1
    simp only [List.map_cons, List.nodup_cons] at hn
    rw [dict_ext h hn.2 fun y hy => by
      have := hg y (by simp only [List.map_cons, List.mem_cons]; exact .inr hy)
      have hne : k ≠ y := fun e => hn.1 (e ▸ hy)
      simpa [dget, hne] using this]

theorem RInv.reevaluate {t : RTree τ} {T : BT τ} {tags : List τ} (I : RInv t T tags)
    (st : τ → Nat × Nat) :
    ∃ k, rReevaluate ⟨t.root, t.index.map fun p => (p.1, { p.2 with size := (st p.1).1, height := (st p.1).2 })⟩ =
        some (t, k) ∧
      ∀ m, (∀ fs x, T = plug fs (.node x .nil .nil) → m ≤ tri (fs.length + 1)) →
        m * (tags.filter (isLeafR t.index)).length ≤ k := by
  have hn : T.tags.Nodup := I.perm.nodup_iff.2 I.nodup
  generalize hidx : t.index.map (fun p => (p.1, { p.2 with size := (st p.1).1, height := (st p.1).2 })) = idx
  have hkeys : idx.map Prod.fst = t.index.map Prod.fst := by
    rw [← hidx]; simp [Function.comp_def]
  have hget : ∀ y, (dget idx y).map RNode.links = (dget t.index y).map RNode.links := by
    intro y
    rw [← hidx]
    generalize t.index = d
    induction d with
    | nil => rfl
    | cons a d ih =>
      obtain ⟨k, v⟩ := a
      simp only [List.map_cons, dget]
      split
      · rfl
      · exact ih
  have I0 : ReInv t.index idx T [] := by
    refine ⟨⟨hkeys, hget⟩, ?_⟩
    intro fs y l r e h
    exfalso
    have : ∀ t : BT τ, t ≠ .nil → leavesBT t ≠ [] := by
      intro t
      induction t with
      | nil => intro h; exact absurd rfl h
      | node x l r ihl ihr =>
        intro _
        cases l with
        | nil =>
          cases r with
          | nil => simp [leavesBT]
          | node a b c => simpa [leavesBT] using ihr (by simp)
        | node a b c =>
          have := ihl (by simp)
          rw [leavesBT]
          · simp [this]
          · simp
    obtain ⟨z, hz⟩ := List.exists_mem_of_ne_nil _ (this (.node y l r) (by simp))
    exact absurd (h z hz) (by simp)
  obtain ⟨idx', k, h1, h2, h3⟩ := reevaluateLoop_spec I.rep hn (by rw [I.length]; omega)
    (idx.map Prod.fst) (fun x hx => by rw [hkeys, I.keys] at hx; exact I.perm.mem_iff.2 hx) I0
  rw [hkeys, I.keys] at h2 h3
  have hall : idx' = t.index := by
    refine dict_ext h2.1.1 (by rw [h2.1.1, I.keys]; exact I.nodup) ?_
    intro y hy
    rw [h2.1.1, I.keys] at hy
    obtain ⟨fs, l, r, e⟩ := I.place hy
    refine h2.2 fs y l r e fun z hz => ?_
    rw [List.append_nil, List.mem_reverse, List.mem_filter]
    have hzT : z ∈ T.tags := by
      rw [e]; exact (plug_perm _ _).mem_iff.2 (by
        have := leaves_mem_tags hz; simp [this])
    refine ⟨I.perm.mem_iff.1 hzT, ?_⟩
    -- a leaf has no children
    have key : ∀ (t' : BT τ) {p : Option τ}, Rep t.index p t' → z ∈ leavesBT t' → isLeafR t.index z = true := by
      intro t'
      induction t' with
      | nil => intro p _ h; simp [leavesBT] at h
      | node x l r ihl ihr =>
        intro p hR h
        obtain ⟨⟨nd, g1, g2, g3, _⟩, gl, gr⟩ := hR
        cases l with
        | nil =>
          cases r with
          | nil =>
            simp only [leavesBT, List.mem_cons, List.not_mem_nil, or_false] at h
            subst h
            simp only [isLeafR, g1, g2, g3]
            rfl
          | node a b c =>
            refine ihr gr ?_
            simpa [leavesBT] using h
        | node a b c =>
          simp only [leavesBT, List.mem_append] at h
          rcases h with h | h
          · exact ihl gl h
          · exact ihr gr h
    have hRy := I.rep
    rw [e] at hRy
    exact key _ hRy.unplug.1 hz
  refine ⟨k, ?_, h3⟩
  simp only [rReevaluate]
  rw [h1, hall]

/-- The number of leaves. -/
theorem Rep.leafCount {ref : RIndex τ} : ∀ {t : BT τ} {p : Option τ}, Rep ref p t →
    (t.tags.filter (isLeafR ref)).length = (leavesBT t).length
  | .nil, _, _ => rfl
  | .node x l r, p, ⟨⟨nd, g1, g2, g3, _⟩, gl, gr⟩ => by
    have hl := gl.leafCount
    have hr := gr.leafCount
    simp only [BT.tags]
    cases l with
    | nil =>
      cases r with
      | nil =>
        have : isLeafR ref x = true := by simp only [isLeafR, g1, g2, g3]; rfl
        simp [BT.tags, leavesBT, List.filter_cons, this]
      | node a b c =>
        have : isLeafR ref x = false := by simp [isLeafR, g1, g2, g3, BT.top]
        rw [List.filter_cons_of_neg (by simp [this])]
        simp only [BT.tags, List.nil_append] at hr ⊢
        rw [hr]
        simp [leavesBT]
    | node a b c =>
      have : isLeafR ref x = false := by simp [isLeafR, g1, g2, g3, BT.top]
      rw [List.filter_cons_of_neg (by simp [this]), List.filter_append, List.length_append, hl, hr,
        ← List.length_append]
      rfl

end Gaspra
