import Verif.Proofs.MemoryTreeQueries
import Verif.Proofs.DBTree

/-! # Operations on tags that a tree does not know -/

namespace Gaspra

variable {τ : Type _} [DecidableEq τ]

theorem dget_none_of_unknown {t : MTree τ} {x : τ} (h : x ∉ t.map Prod.fst) : dget t x = none := by
  cases hh : dget t x with
  | none => rfl
  | some nd => exact absurd (mem_keys_of_dget hh) h

/-- What `path_to` returns are the tags above the given one. -/
theorem upPath_of_loop {t : MTree τ} : ∀ {f : Nat} {x : τ} {acc l : List τ},
    mtPathLoop t f (some x) acc = .ok (some l) → ∃ r, l = acc ++ r ∧ UpPath t x r
  | 0, _, _, _, h => by simp [mtPathLoop] at h
  | f + 1, x, acc, l, h => by
    simp only [mtPathLoop] at h
    cases hd : dget t x with
    | none => rw [hd] at h; simp at h
    | some nd =>
      rw [hd] at h
      dsimp only at h
      cases hp : nd.parent with
      | none =>
        rw [hp] at h
        have : l = acc ++ [x] := by
          cases f <;> simp [mtPathLoop] at h <;> exact h.symm
        exact ⟨[x], this, .root hd hp⟩
      | some p =>
        rw [hp] at h
        obtain ⟨r, hr, hu⟩ := upPath_of_loop h
        exact ⟨x :: r, by rw [hr]; simp, .step hd hp hu⟩

theorem upPath_of_pathTo {t : MTree τ} {x : τ} {l : List τ} (h : mtPathTo t x = .ok (some l)) :
    UpPath t x l.reverse := by
  unfold mtPathTo at h
  cases hh : mtPathLoop t (t.length + 1) (some x) [] with
  | error e => rw [hh] at h; simp at h
  | ok o =>
    cases o with
    | none => rw [hh] at h; simp at h
    | some l' =>
      rw [hh] at h
      simp only [Except.ok.injEq, Option.some.injEq] at h
      obtain ⟨r, hr, hu⟩ := upPath_of_loop hh
      rw [← h, List.reverse_reverse, hr]
      simpa using hu

/-- A walk that comes to a node with an unknown parent finds no path. -/
theorem pathLoop_lost {t t' : MTree τ} {tag p : τ}
    (same : ∀ y, y ≠ tag → (dget t' y).map TNode.parent = (dget t y).map TNode.parent)
    (here : (dget t' tag).map TNode.parent = some (some p)) (gone : dget t' p = none)
    {x : τ} {l : List τ} (h : UpPath t x l) : tag ∈ l → ∀ {f acc}, l.length < f →
      mtPathLoop t' f (some x) acc = .ok none := by
  have atTag : ∀ {f acc}, 1 < f → mtPathLoop t' f (some tag) acc = .ok none := by
    intro f acc hf
    obtain ⟨f, rfl⟩ : ∃ g, f = g + 2 := ⟨f - 2, by omega⟩
    obtain ⟨nd, h1, h2⟩ := Option.map_eq_some_iff.1 here
    simp only [mtPathLoop, h1, h2, gone]
  induction h with
  | @root x nd h1 h2 =>
    intro hx f acc hf
    have : tag = x := by simpa using hx
    subst this
    exact atTag (by simpa using hf)
  | @step x q nd l h1 h2 h3 ih =>
    intro hx f acc hf
    by_cases hxt : x = tag
    · subst hxt
      exact atTag (by simp at hf; omega)
    · have hl : tag ∈ l := by
        rcases List.mem_cons.1 hx with e | e
        · exact absurd e.symm hxt
        · exact e
      cases f with
      | zero => simp at hf
      | succ f =>
        have := same x hxt
        rw [h1] at this
        obtain ⟨nd', e1, e2⟩ := Option.map_eq_some_iff.1 (this.trans rfl)
        simp only [mtPathLoop, e1, e2, h2]
        exact ih hl (by simpa using hf)

/-- The tree left behind by `change_parent` to an unknown tag. -/
theorem changeParent_lost {t : MTree τ} {tag p : τ} {l : List τ} (h : mtPathTo t tag = .ok (some l))
    (hp : p ∉ t.map Prod.fst) : ∃ t', mtChangeParent t tag (some p) = (t', some .keyError) ∧
      t'.map Prod.fst = t.map Prod.fst ∧
      (∃ nd, dget t tag = some nd ∧ dget t' tag = some { nd with parent := some p }) ∧
      ∀ y nd, y ≠ tag → dget t y = some nd → dget t' y = some { nd with
        children := if (dget t tag).bind TNode.parent = some y then nd.children.erase tag else nd.children } := by
  have hu := upPath_of_pathTo h
  have gone : dget t p = none := dget_none_of_unknown hp
  obtain ⟨nd, hnd, hpar⟩ : ∃ nd, dget t tag = some nd ∧
      ∀ q, nd.parent = some q → q ≠ tag ∧ ∃ nq, dget t q = some nq := by
    generalize l.reverse = r at hu
    cases hu with
    | root h1 h2 => exact ⟨_, h1, fun q hq => by rw [h2] at hq; cases hq⟩
    | step h1 h2 h3 =>
      refine ⟨_, h1, fun q hq => ?_⟩
      rw [h2] at hq
      cases hq
      refine ⟨fun e => ?_, ?_⟩
      · subst e
        exact h3.not_mem_parent h1 h2 (by obtain ⟨r, hr⟩ := h3.head; rw [hr]; simp)
      · obtain ⟨r, hr⟩ := h3.head
        exact h3.mem_keys _ (by rw [hr]; simp)
  have keysOf : ∀ (d : MTree τ) (k : τ) (v v' : TNode τ), dget d k = some v' →
      (dset d k v).map Prod.fst = d.map Prod.fst := by
    intro d k v v' hk
    rw [dset_keys, if_pos (mem_keys_of_dget hk)]
  cases hq : nd.parent with
  | none =>
    refine ⟨dset t tag { nd with parent := some p }, ?_, keysOf _ _ _ _ hnd,
      ⟨nd, hnd, dget_dset_self _ _ _⟩, ?_⟩
    · simp only [mtChangeParent, hnd, hq, mtDetach, mtAttach, Option.getD_some]
      rw [dget_dset_ne _ _ (by rintro rfl; rw [hnd] at gone; cases gone), gone]
    · intro y ny hy hny
      rw [dget_dset_ne _ _ (Ne.symm hy), hny, if_neg]
      simp [hnd, hq]
  | some q =>
    obtain ⟨hqt, nq, hnq⟩ := hpar q hq
    have hpt : tag ≠ p := by rintro rfl; rw [hnd] at gone; cases gone
    have hpq : q ≠ p := by rintro rfl; rw [hnq] at gone; cases gone
    have hparent : ∀ y, (dget t tag).bind TNode.parent = some y ↔ y = q := by
      intro y
      rw [hnd, Option.bind_some, hq, Option.some.injEq]
      exact eq_comm
    by_cases hc : tag ∈ nq.children
    · refine ⟨dset (dset t q { nq with children := nq.children.erase tag }) tag
        { nd with parent := some p }, ?_, ?_, ⟨nd, hnd, dget_dset_self _ _ _⟩, ?_⟩
      · simp only [mtChangeParent, hnd, hq, mtDetach, hnq, if_pos hc, mtAttach]
        rw [dget_dset_ne _ _ hqt, hnd, Option.getD_some]
        rw [dget_dset_ne _ _ hpt, dget_dset_ne _ _ hpq, gone]
      · rw [keysOf _ _ _ nd (by rw [dget_dset_ne _ _ hqt, hnd]), keysOf _ _ _ _ hnq]
      · intro y ny hy hny
        rw [dget_dset_ne _ _ (Ne.symm hy)]
        by_cases hyq : y = q
        · subst hyq
          rw [hnq] at hny
          cases hny
          rw [dget_dset_self, if_pos ((hparent y).2 rfl)]
        · rw [dget_dset_ne _ _ (Ne.symm hyq), hny, if_neg (fun e => hyq ((hparent y).1 e))]
    · refine ⟨dset t tag { nd with parent := some p }, ?_, keysOf _ _ _ _ hnd,
        ⟨nd, hnd, dget_dset_self _ _ _⟩, ?_⟩
      · simp only [mtChangeParent, hnd, hq, mtDetach, hnq, if_neg hc, mtAttach, Option.getD_some]
        rw [dget_dset_ne _ _ hpt, gone]
      · intro y ny hy hny
        rw [dget_dset_ne _ _ (Ne.symm hy), hny]
        by_cases hyq : y = q
        · subst hyq
          rw [hnq] at hny
          cases hny
          rw [List.erase_of_not_mem hc]
          simp
        · rw [if_neg (fun e => hyq ((hparent y).1 e))]

end Gaspra
