import Verif.Model.RevisionTree
import Verif.Proofs.Dict

/-!
# The linked nodes of `revision_tree.py` form a binary tree (used by C79)
-/

set_option linter.unusedSectionVars false
set_option linter.unusedSimpArgs false
set_option linter.unusedVariables false

namespace Gaspra

/-- Binary trees. -/
inductive BT (τ : Type _) where
  | nil
  | node (x : τ) (l r : BT τ)

/-- A place in a tree, from the bottom up: the hole is the left or the right child. -/
inductive BFrame (τ : Type _) where
  | L (x : τ) (r : BT τ)
  | R (x : τ) (l : BT τ)

namespace BT

variable {τ : Type _}

def top : BT τ → Option τ
  | nil => none
  | node x _ _ => some x

def size : BT τ → Nat
  | nil => 0
  | node _ l r => 1 + l.size + r.size

def height : BT τ → Nat
  | nil => 0
  | node _ l r => 1 + max l.height r.height

def tags : BT τ → List τ
  | nil => []
  | node x l r => x :: (l.tags ++ r.tags)

def edges : BT τ → List (τ × τ)
  | nil => []
  | node x l r =>
    (match l.top with | none => [] | some c => (x, c) :: l.edges) ++
    (match r.top with | none => [] | some c => (x, c) :: r.edges)

theorem tags_length : ∀ t : BT τ, t.tags.length = t.size
  | nil => rfl
  | node x l r => by simp [tags, size, tags_length l, tags_length r]; omega

theorem height_le_size : ∀ t : BT τ, t.height ≤ t.size
  | nil => Nat.le_refl _
  | node x l r => by
    have := height_le_size l
    have := height_le_size r
    simp only [height, size]; omega

end BT

namespace BFrame

variable {τ : Type _}

def tag : BFrame τ → τ
  | L x _ => x
  | R x _ => x

def sib : BFrame τ → BT τ
  | L _ r => r
  | R _ l => l

def dir : BFrame τ → RDirection
  | L _ _ => .left
  | R _ _ => .right

end BFrame

section

variable {τ : Type _}

def plug : List (BFrame τ) → BT τ → BT τ
  | [], t => t
  | .L x r :: fs, t => plug fs (.node x t r)
  | .R x l :: fs, t => plug fs (.node x l t)

def ctxTags : List (BFrame τ) → List τ
  | [] => []
  | f :: fs => f.tag :: (f.sib.tags ++ ctxTags fs)

def up : List (BFrame τ) → Option τ
  | [] => none
  | f :: _ => some f.tag

def dirOf : List (BFrame τ) → RDirection
  | [] => .none
  | f :: _ => f.dir

theorem plug_append : ∀ (fs gs : List (BFrame τ)) (t : BT τ), plug (fs ++ gs) t = plug gs (plug fs t)
  | [], gs, t => rfl
  | .L x r :: fs, gs, t => plug_append fs gs _
  | .R x l :: fs, gs, t => plug_append fs gs _

theorem plug_perm : ∀ (fs : List (BFrame τ)) (t : BT τ), (plug fs t).tags.Perm (t.tags ++ ctxTags fs)
  | [], t => by simp [plug, ctxTags]
  | .L x r :: fs, t => by
    refine (plug_perm fs (.node x t r)).trans ?_
    simp only [BT.tags, ctxTags, BFrame.tag, BFrame.sib, List.cons_append, List.append_assoc]
    exact (List.perm_middle (a := x)).symm
  | .R x l :: fs, t => by
    refine (plug_perm fs (.node x l t)).trans ?_
    simp only [BT.tags, ctxTags, BFrame.tag, BFrame.sib, List.cons_append, List.append_assoc]
    refine List.Perm.trans (List.Perm.cons x ?_) (List.perm_middle (a := x)).symm
    rw [← List.append_assoc, ← List.append_assoc]
    exact List.Perm.append_right _ List.perm_append_comm

theorem ctx_mem_tags {fs : List (BFrame τ)} {f : BFrame τ} (h : f ∈ fs) : f.tag ∈ ctxTags fs := by
  induction fs with
  | nil => simp at h
  | cons g fs ih =>
    rcases List.mem_cons.1 h with rfl | h
    · simp [ctxTags]
    · simp [ctxTags, ih h]

theorem plug_top_nil {f : BFrame τ} {fs : List (BFrame τ)} {t t' : BT τ} :
    (plug (f :: fs) t).top = (plug (f :: fs) t').top := by
  have key : ∀ (fs : List (BFrame τ)) (u u' : BT τ), u.top = u'.top →
      (plug fs u).top = (plug fs u').top := by
    intro fs
    induction fs with
    | nil => intro u u' h; exact h
    | cons g fs ih => intro u u' _; cases g <;> exact ih _ _ rfl
  cases f <;> exact key fs _ _ rfl

theorem exists_plug {y : τ} : ∀ {t : BT τ}, y ∈ t.tags → ∃ fs l r, t = plug fs (.node y l r)
  | .nil, h => by simp [BT.tags] at h
  | .node x l r, h => by
    simp only [BT.tags, List.mem_cons, List.mem_append] at h
    rcases h with rfl | h | h
    · exact ⟨[], l, r, rfl⟩
    · obtain ⟨fs, a, b, e⟩ := exists_plug h
      exact ⟨fs ++ [.L x r], a, b, by rw [plug_append, ← e]; rfl⟩
    · obtain ⟨fs, a, b, e⟩ := exists_plug h
      exact ⟨fs ++ [.R x l], a, b, by rw [plug_append, ← e]; rfl⟩

theorem depth_le_height : ∀ (fs : List (BFrame τ)) (t : BT τ),
    t.height + fs.length ≤ (plug fs t).height
  | [], t => Nat.le_refl _
  | .L x r :: fs, t => by
    have := depth_le_height fs (.node x t r)
    simp only [plug, List.length_cons, BT.height] at this ⊢
    omega
  | .R x l :: fs, t => by
    have := depth_le_height fs (.node x l t)
    simp only [plug, List.length_cons, BT.height] at this ⊢
    omega

theorem exists_deepest : ∀ {t : BT τ}, t ≠ .nil →
    ∃ fs y, t = plug fs (.node y .nil .nil) ∧ fs.length + 1 = t.height
  | .nil, h => absurd rfl h
  | .node x l r, _ => by
    have hl := exists_deepest (t := l)
    have hr := exists_deepest (t := r)
    by_cases h0 : l.height < r.height
    · obtain ⟨fs, y, e, hh⟩ := hr (by rintro rfl; simp [BT.height] at h0)
      refine ⟨fs ++ [.R x l], y, ?_, ?_⟩
      · rw [plug_append, ← e]; rfl
      · simp only [List.length_append, List.length_cons, List.length_nil, BT.height]; omega
    · cases l with
      | nil =>
        cases r with
        | nil => exact ⟨[], x, rfl, rfl⟩
        | node => simp [BT.height] at h0
      | node a l1 l2 =>
        obtain ⟨fs, y, e, hh⟩ := hl (by simp)
        refine ⟨fs ++ [.L x r], y, ?_, ?_⟩
        · rw [plug_append, ← e]; rfl
        · simp only [List.length_append, List.length_cons, List.length_nil, BT.height] at hh h0 ⊢
          omega

/-! ### Representation -/

variable [DecidableEq τ]

/-- The nodes below and including the top of `t` are linked like `t`, with `p` as the parent of the
top, and have the right states. -/
def Rep (idx : RIndex τ) : Option τ → BT τ → Prop
  | _, .nil => True
  | p, .node x l r =>
    (∃ nd, dget idx x = some nd ∧ nd.left = l.top ∧ nd.right = r.top ∧ nd.parent = p ∧
      nd.size = 1 + l.size + r.size ∧ nd.height = 1 + l.size + r.size) ∧
    Rep idx (some x) l ∧ Rep idx (some x) r

/-- The nodes around a hole are linked; the states of the nodes above the hole are open. -/
def RepCtx (idx : RIndex τ) : Option τ → List (BFrame τ) → Prop
  | _, [] => True
  | hole, .L x r :: fs =>
    (∃ nd, dget idx x = some nd ∧ nd.left = hole ∧ nd.right = r.top ∧ nd.parent = up fs) ∧
    Rep idx (some x) r ∧ RepCtx idx (some x) fs
  | hole, .R x l :: fs =>
    (∃ nd, dget idx x = some nd ∧ nd.left = l.top ∧ nd.right = hole ∧ nd.parent = up fs) ∧
    Rep idx (some x) l ∧ RepCtx idx (some x) fs

theorem Rep.congr {idx idx' : RIndex τ} : ∀ {t : BT τ} {p : Option τ},
    (∀ y, y ∈ t.tags → dget idx' y = dget idx y) → Rep idx p t → Rep idx' p t
  | .nil, _, _, _ => trivial
  | .node x l r, p, h, ⟨⟨nd, h1, h2⟩, hl, hr⟩ =>
    ⟨⟨nd, by rw [h x (by simp [BT.tags])]; exact h1, h2⟩,
      hl.congr fun y hy => h y (by simp [BT.tags, hy]),
      hr.congr fun y hy => h y (by simp [BT.tags, hy])⟩

theorem RepCtx.congr {idx idx' : RIndex τ} : ∀ {fs : List (BFrame τ)} {hole : Option τ},
    (∀ y, y ∈ ctxTags fs → dget idx' y = dget idx y) → RepCtx idx hole fs → RepCtx idx' hole fs
  | [], _, _, _ => trivial
  | .L x r :: fs, _, h, ⟨⟨nd, h1, h2⟩, hr, hf⟩ =>
    ⟨⟨nd, by rw [h x (by simp [ctxTags, BFrame.tag])]; exact h1, h2⟩,
      hr.congr fun y hy => h y (by simp [ctxTags, BFrame.sib, hy]),
      hf.congr fun y hy => h y (by simp [ctxTags, hy])⟩
  | .R x r :: fs, _, h, ⟨⟨nd, h1, h2⟩, hr, hf⟩ =>
    ⟨⟨nd, by rw [h x (by simp [ctxTags, BFrame.tag])]; exact h1, h2⟩,
      hr.congr fun y hy => h y (by simp [ctxTags, BFrame.sib, hy]),
      hf.congr fun y hy => h y (by simp [ctxTags, hy])⟩

theorem Rep.unplug {idx : RIndex τ} : ∀ {fs : List (BFrame τ)} {t : BT τ},
    Rep idx none (plug fs t) → Rep idx (up fs) t ∧ RepCtx idx t.top fs
  | [], t, h => ⟨h, trivial⟩
  | .L x r :: fs, t, h => by
    obtain ⟨⟨⟨nd, h1, h2, h3, h4, h5⟩, hl, hr⟩, hf⟩ := Rep.unplug (fs := fs) (t := .node x t r) h
    exact ⟨hl, ⟨nd, h1, h2, h3, h4⟩, hr, hf⟩
  | .R x l :: fs, t, h => by
    obtain ⟨⟨⟨nd, h1, h2, h3, h4, h5⟩, hl, hr⟩, hf⟩ := Rep.unplug (fs := fs) (t := .node x l t) h
    exact ⟨hr, ⟨nd, h1, h2, h3, h4⟩, hl, hf⟩

theorem Rep.childAttr {idx : RIndex τ} {p : Option τ} {t : BT τ} (h : Rep idx p t) :
    rChildAttr idx RNode.size t.top = some t.size ∧
      rChildAttr idx RNode.height t.top = some t.size := by
  cases t with
  | nil => exact ⟨rfl, rfl⟩
  | node x l r =>
    obtain ⟨⟨nd, h1, _, _, _, h2, h3⟩, _⟩ := h
    simp [rChildAttr, BT.top, h1, h2, h3, BT.size]

theorem dget_isSome_dset {idx : RIndex τ} {x y : τ} {nd : RNode τ} :
    (dget (dset idx x nd) y).isSome = true ↔ x = y ∨ (dget idx y).isSome = true := by
  rw [dget_dset]
  split <;> simp_all

theorem dset_keys_of_some {β : Type _} {idx : List (τ × β)} {x : τ} {nd nd' : β}
    (h : dget idx x = some nd) : (dset idx x nd').map Prod.fst = idx.map Prod.fst := by
  induction idx with
  | nil => simp [dget] at h
  | cons a idx ih =>
    obtain ⟨k, v⟩ := a
    simp only [dset]
    split
    · rfl
    · next hk =>
      simp only [dget, hk, if_false] at h
      simp [ih h]

/-- `update_states` from a node whose children have the right states gives all nodes up to the root
the right states. -/
theorem updateStates_spec : ∀ (fs : List (BFrame τ)) {idx : RIndex τ} {x : τ} {l r : BT τ} {nd : RNode τ}
    {f : Nat}, fs.length < f → ((plug fs (.node x l r)).tags).Nodup →
    dget idx x = some nd → nd.left = l.top → nd.right = r.top → nd.parent = up fs →
    Rep idx (some x) l → Rep idx (some x) r → RepCtx idx (some x) fs →
    ∃ idx', rUpdateStates f idx (some x) = some (idx', fs.length + 1) ∧
      Rep idx' none (plug fs (.node x l r)) ∧
      (∀ y, y ≠ x → y ∉ fs.map BFrame.tag → dget idx' y = dget idx y) ∧
      idx'.map Prod.fst = idx.map Prod.fst := by
  intro fs
  induction fs with
  | nil =>
    intro idx x l r nd f hf hn hx h1 h2 h3 hl hr _
    obtain ⟨f, rfl⟩ : ∃ g, f = g + 1 := ⟨f - 1, by simp at hf; omega⟩
    have hn' : (x :: (l.tags ++ r.tags)).Nodup := hn
    have hxl : ∀ y, y ∈ l.tags ++ r.tags → y ≠ x := fun y hy e => by
      subst e; exact (List.nodup_cons.1 hn').1 hy
    refine ⟨dset idx x { nd with size := 1 + l.size + r.size, height := 1 + l.size + r.size }, ?_, ?_,
      ?_, dset_keys_of_some hx⟩
    · simp only [rUpdateStates, hx, h1, h2, h3, (hl.childAttr).1, (hl.childAttr).2, (hr.childAttr).1,
        (hr.childAttr).2, up, List.length_nil]
    · refine ⟨⟨{ nd with size := 1 + l.size + r.size, height := 1 + l.size + r.size },
        dget_dset_self _ _ _, h1, h2, h3, rfl, rfl⟩, ?_, ?_⟩
      · exact hl.congr fun y hy => dget_dset_ne _ _ (hxl y (by simp [hy])).symm
      · exact hr.congr fun y hy => dget_dset_ne _ _ (hxl y (by simp [hy])).symm
    · intro y hy _
      exact dget_dset_ne _ _ hy.symm
  | cons g fs ih =>
    intro idx x l r nd f hf hn hx h1 h2 h3 hl hr hc
    obtain ⟨f, rfl⟩ : ∃ g, f = g + 1 := ⟨f - 1, by simp at hf; omega⟩
    have hperm := plug_perm (g :: fs) (.node x l r)
    have hn1 := hperm.nodup_iff.1 hn
    have hxo : ∀ y, y ∈ l.tags ++ r.tags ++ ctxTags (g :: fs) → x ≠ y := fun y hy e => by
      subst e
      simp only [BT.tags, List.cons_append] at hn1
      exact (List.nodup_cons.1 hn1).1 hy
    generalize hidx1 : dset idx x { nd with size := 1 + l.size + r.size, height := 1 + l.size + r.size }
      = idx1
    have hother : ∀ y, y ∈ l.tags ++ r.tags ++ ctxTags (g :: fs) → dget idx1 y = dget idx y :=
      fun y hy => by rw [← hidx1]; exact dget_dset_ne _ _ (hxo y hy)
    have hrep : Rep idx1 (some g.tag) (.node x l r) := by
      refine ⟨⟨{ nd with size := 1 + l.size + r.size, height := 1 + l.size + r.size },
        by rw [← hidx1]; exact dget_dset_self _ _ _, h1, h2, ?_, rfl, rfl⟩, ?_, ?_⟩
      · show nd.parent = some g.tag
        rw [h3]; rfl
      · exact hl.congr fun y hy => hother y (by simp [hy])
      · exact hr.congr fun y hy => hother y (by simp [hy])
    have hctx : RepCtx idx1 (some x) (g :: fs) := hc.congr fun y hy => hother y (by simp [hy])
    have hstep : ∀ {idx' k}, rUpdateStates f idx1 (some g.tag) = some (idx', k) →
        rUpdateStates (f + 1) idx (some x) = some (idx', k + 1) := by
      intro idx' k h
      rw [← hidx1] at h
      simp only [h1, h2, h3, up] at h
      simp only [rUpdateStates, hx, h1, h2, h3, (hl.childAttr).1, (hl.childAttr).2, (hr.childAttr).1,
        (hr.childAttr).2, up, h]
    have hkeys : idx1.map Prod.fst = idx.map Prod.fst := by
      rw [← hidx1]; exact dset_keys_of_some hx
    have hlen : fs.length < f := by simp at hf; omega
    cases g with
    | L y s =>
      obtain ⟨⟨nd', k1, k2, k3, k4⟩, ks, kf⟩ := hctx
      obtain ⟨idx', e1, e2, e3, e4⟩ := ih hlen hn k1 k2 k3 k4 hrep ks kf
      refine ⟨idx', hstep e1, e2, ?_, e4.trans hkeys⟩
      intro z hz hzt
      simp only [List.map_cons, List.mem_cons, not_or, BFrame.tag] at hzt
      rw [e3 z hzt.1 hzt.2, ← hidx1]
      exact dget_dset_ne _ _ hz.symm
    | R y s =>
      obtain ⟨⟨nd', k1, k2, k3, k4⟩, ks, kf⟩ := hctx
      obtain ⟨idx', e1, e2, e3, e4⟩ := ih hlen hn k1 k2 k3 k4 ks hrep kf
      refine ⟨idx', hstep e1, e2, ?_, e4.trans hkeys⟩
      intro z hz hzt
      simp only [List.map_cons, List.mem_cons, not_or, BFrame.tag] at hzt
      rw [e3 z hzt.1 hzt.2, ← hidx1]
      exact dget_dset_ne _ _ hz.symm

/-! ### The split -/

/-- The way of `find_and_detach_best_split` in a tree. -/
def descend : Nat → BT τ → List (BFrame τ) → BT τ × List (BFrame τ)
  | _, .nil, fs => (.nil, fs)
  | d, .node x l r, fs =>
    if d < 1 + l.size + r.size then
      if l.size < r.size then descend (d + 1) r (.R x l :: fs)
      else descend (d + 1) l (.L x r :: fs)
    else (.node x l r, fs)

theorem descend_plug : ∀ (d : Nat) (t : BT τ) (fs : List (BFrame τ)),
    plug (descend d t fs).2 (descend d t fs).1 = plug fs t
  | _, .nil, fs => rfl
  | d, .node x l r, fs => by
    simp only [descend]
    split
    · split
      · rw [descend_plug]; rfl
      · rw [descend_plug]; rfl
    · rfl

theorem descend_ne_nil : ∀ {d : Nat} {t : BT τ} {fs : List (BFrame τ)}, 1 ≤ d → t ≠ .nil →
    (descend d t fs).1 ≠ .nil
  | _, .nil, _, _, h => absurd rfl h
  | d, .node x l r, fs, hd, _ => by
    simp only [descend]
    split
    · split
      · refine descend_ne_nil (by omega) ?_
        rintro rfl; simp [BT.size] at *
      · refine descend_ne_nil (by omega) ?_
        rintro rfl; simp [BT.size] at *; omega
    · simp

theorem descend_length : ∀ (d : Nat) (t : BT τ) (fs : List (BFrame τ)),
    fs.length ≤ (descend d t fs).2.length
  | _, .nil, fs => Nat.le_refl _
  | d, .node x l r, fs => by
    simp only [descend]
    split
    · split
      · exact Nat.le_trans (by simp) (descend_length (d + 1) r (.R x l :: fs))
      · exact Nat.le_trans (by simp) (descend_length (d + 1) l (.L x r :: fs))
    · exact Nat.le_refl _

theorem findSplit_spec {idx : RIndex τ} : ∀ {t : BT τ} {d f : Nat} {fs : List (BFrame τ)} {p : Option τ}
    {x : τ}, 1 ≤ d → t.size < f → Rep idx p t → t.top = some x →
    ∃ y, (descend d t fs).1.top = some y ∧
      rFindSplit idx f d x (dirOf fs) =
        some (y, dirOf (descend d t fs).2, (descend d t fs).2.length - fs.length)
  | .nil, _, _, _, _, _, _, _, _, h => by cases h
  | .node x l r, d, f, fs, p, x', hd, hf, ⟨⟨nd, h1, h2, h3, h4, h5, h6⟩, hl, hr⟩, ht => by
    simp only [BT.top, Option.some.injEq] at ht
    subst ht
    obtain ⟨f, rfl⟩ : ∃ g, f = g + 1 := ⟨f - 1, by omega⟩
    simp only [BT.size] at hf
    simp only [descend, rFindSplit, h1, h6]
    by_cases hlt : d < 1 + l.size + r.size
    · simp only [hlt, if_true, h2, h3]
      by_cases hside : l.size < r.size
      · simp only [hside, if_true]
        obtain ⟨z, hz⟩ : ∃ z, r.top = some z := by
          cases r with
          | nil => simp [BT.size] at hside
          | node a b c => exact ⟨a, rfl⟩
        obtain ⟨y, e1, e2⟩ := findSplit_spec (fs := .R x l :: fs) (d := d + 1) (f := f) (by omega)
          (by omega) hr hz
        refine ⟨y, e1, ?_⟩
        have hlen := descend_length (d + 1) r (.R x l :: fs)
        have e2' : rFindSplit idx f (d + 1) z .right = _ := e2
        simp only [List.length_cons] at hlen e2'
        cases l with
        | nil =>
          simp only [show (BT.nil : BT τ).top = none from rfl, hz, e2']
          rw [show ∀ n, fs.length + 1 ≤ n → n - (fs.length + 1) + 1 = n - fs.length from
              fun n h => by omega]
          exact hlen
        | node a b c =>
          obtain ⟨⟨ndl, l1, _, _, _, _, l2⟩, _⟩ := hl
          cases r with
          | nil => cases hz
          | node a' b' c' =>
            obtain ⟨⟨ndr, r1, _, _, _, _, r2⟩, _⟩ := hr
            simp only [BT.top, Option.some.injEq] at hz
            subst hz
            simp only [BT.size] at hside
            simp only [BT.top, l1, r1, l2, r2, gt_iff_lt, hside, if_true, e2']
            rw [show ∀ n, fs.length + 1 ≤ n → n - (fs.length + 1) + 1 = n - fs.length from
              fun n h => by omega]
            exact hlen
      · simp only [hside, if_false]
        obtain ⟨z, hz⟩ : ∃ z, l.top = some z := by
          cases l with
          | nil => simp [BT.size] at hside hlt; omega
          | node a b c => exact ⟨a, rfl⟩
        obtain ⟨y, e1, e2⟩ := findSplit_spec (fs := .L x r :: fs) (d := d + 1) (f := f) (by omega)
          (by omega) hl hz
        refine ⟨y, e1, ?_⟩
        have hlen := descend_length (d + 1) l (.L x r :: fs)
        have e2' : rFindSplit idx f (d + 1) z .left = _ := e2
        simp only [List.length_cons] at hlen e2'
        cases r with
        | nil =>
          simp only [show (BT.nil : BT τ).top = none from rfl, hz, e2']
          rw [show ∀ n, fs.length + 1 ≤ n → n - (fs.length + 1) + 1 = n - fs.length from
              fun n h => by omega]
          exact hlen
        | node a b c =>
          obtain ⟨⟨ndr, r1, _, _, _, _, r2⟩, _⟩ := hr
          cases l with
          | nil => cases hz
          | node a' b' c' =>
            obtain ⟨⟨ndl, l1, _, _, _, _, l2⟩, _⟩ := hl
            simp only [BT.top, Option.some.injEq] at hz
            subst hz
            simp only [BT.size] at hside
            simp only [BT.top, l1, r1, l2, r2, gt_iff_lt, hside, if_false, e2']
            rw [show ∀ n, fs.length + 1 ≤ n → n - (fs.length + 1) + 1 = n - fs.length from
              fun n h => by omega]
            exact hlen
    · simp only [hlt, if_false]
      exact ⟨x, rfl, by simp⟩

end

end Gaspra
