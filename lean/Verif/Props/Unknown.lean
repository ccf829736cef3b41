import Verif.Proofs.Unknown
import Verif.Props.DB

/-!
# C111: tags that a tree does not know

`MemoryTree` and `DBTree` are used through the same six methods.  Here they are called, on any tree
whatsoever, with a tag that was never added.
-/

namespace Gaspra

variable {τ : Type _} [DecidableEq τ]

/-- C111.  A `MemoryTree` does not contain an unknown tag, finds no path to it and raises a
`KeyError` for its base version, for a split below it and for moving it; the tree is not changed. -/
theorem C111_memory_unknown (t : MTree τ) {x : τ} (hx : x ∉ t.map Prod.fst) (p : Option τ) :
    mtContains t x = false ∧ mtPathTo t x = .ok none ∧
    mtBaseVersion t x = .error .keyError ∧ mtGetSplit t x = .error .keyError ∧
    mtChangeParent t x p = (t, some .keyError) := by
  have h := dget_none_of_unknown hx
  refine ⟨?_, pathTo_none h, ?_, ?_, ?_⟩
  · simp [mtContains, dmem, h]
  · simp only [mtBaseVersion, h]
  · simp only [mtGetSplit, h]
  · simp only [mtChangeParent, h]

/-- C111.  A `DBTree` does not contain an unknown tag, returns the empty path for it and raises a
`TypeError` for its base version, for a split below it and for moving it; the table is not
changed. -/
theorem C111_db_unknown (g : Graph τ) {x : τ} (hx : x ∉ g.map GRow.tag) (p : τ) :
    dbContains g x = false ∧ dbPathTo g x = .ok (some []) ∧
    dbBaseVersion g x = .error .typeError ∧ dbGetSplit g x = .error .typeError ∧
    dbChangeParent g x p = (g, some .typeError) := by
  have h := selectTag_none hx
  refine ⟨?_, ?_, ?_, ?_, ?_⟩
  · simp [dbContains, h]
  · simp only [dbPathTo, dbReversePathTo, h]; rfl
  · simp only [dbBaseVersion, h]
  · simp only [dbGetSplit, h]
  · simp only [dbChangeParent, h]

/-- C111.  A tag, known or not, cannot be moved under an unknown one in a `DBTree`: this raises a
`TypeError` and the table is as before, although the tag had already been removed from the children
of its parent. -/
theorem C111_db_unknown_parent (g : Graph τ) (x : τ) {p : τ} (hp : p ∉ g.map GRow.tag) :
    dbChangeParent g x p = (g, some .typeError) := by
  unfold dbChangeParent
  cases hx : selectTag g x with
  | none => rfl
  | some rr =>
    obtain ⟨rid, row⟩ := rr
    have h : selectTag (removeIfChild1 (removeIfChild0 g row.parentRid rid) row.parentRid rid) p =
        none := by
      apply selectTag_none
      cases row.parentRid with
      | none => exact hp
      | some q =>
        simp only [removeIfChild1, removeIfChild0]
        rw [updateRow_tags _ _ _ (fun r => by split <;> rfl),
          updateRow_tags _ _ _ (fun r => by split <;> rfl)]
        exact hp
    simp only [h]

/-- C111.  In a `MemoryTree` moving a tag under an unknown one raises a `KeyError` as well, but the
tree is changed by then: the tag has the unknown parent and its old parent does not have it as a
child any more.  Nothing else changes, in particular not the heights and sizes above. -/
theorem C111_memory_unknown_parent {t : MTree τ} {tag p : τ} {l : List τ}
    (h : mtPathTo t tag = .ok (some l)) (hp : p ∉ t.map Prod.fst) :
    ∃ t', mtChangeParent t tag (some p) = (t', some .keyError) ∧
      t'.map Prod.fst = t.map Prod.fst ∧
      (∃ nd, dget t tag = some nd ∧ dget t' tag = some { nd with parent := some p }) ∧
      ∀ y nd, y ≠ tag → dget t y = some nd → dget t' y = some { nd with
        children := if (dget t tag).bind TNode.parent = some y then nd.children.erase tag
          else nd.children } :=
  changeParent_lost h hp

/-- C111.  After that `path_to` returns `None` for the tag and for every tag below it, and what it
returned before for all others. -/
theorem C111_memory_paths_lost {t : MTree τ} {tag p : τ} {l : List τ}
    (h : mtPathTo t tag = .ok (some l)) (hp : p ∉ t.map Prod.fst) {x : τ} {lx : List τ}
    (hx : mtPathTo t x = .ok (some lx)) :
    mtPathTo (mtChangeParent t tag (some p)).1 x = if tag ∈ lx then .ok none else .ok (some lx) := by
  obtain ⟨t', e, keys, ⟨nd, h1, h2⟩, others⟩ := changeParent_lost h hp
  rw [e]
  have len : t'.length = t.length := by simpa using congrArg List.length keys
  have hu := upPath_of_pathTo hx
  have same : ∀ y, y ≠ tag → (dget t' y).map TNode.parent = (dget t y).map TNode.parent := by
    intro y hy
    cases hd : dget t y with
    | some ny => rw [others y ny hy hd]; rfl
    | none =>
      have : dget t' y = none := by
        apply dget_none_of_unknown
        rw [keys]
        intro hm
        obtain ⟨n, hn⟩ := dget_isSome_iff.2 hm
        rw [hd] at hn
        cases hn
      rw [this]
  split
  · next hm =>
    have lost := pathLoop_lost same (p := p) (by rw [h2]; rfl)
      (dget_none_of_unknown (by rw [keys]; exact hp)) hu (by simpa using hm)
      (f := t'.length + 1) (acc := []) (by have := hu.length_le; omega)
    simp only [mtPathTo, lost]
  · next hm =>
    have hu' : UpPath t' x lx.reverse := hu.transfer fun y hy =>
      same y (by rintro rfl; exact hm (by simpa using hy))
    rw [pathTo_spec hu', List.reverse_reverse]

/-- C111.  In a store over a `MemoryTree` the contents of these versions are then out of reach:
`get` returns `None` for the tag and for every version stored as a delta to it, directly or through
others. -/
theorem C111_memory_versions_lost {Tok S : Type _} [DecidableEq Tok] (tk : TokOps Tok S)
    (v : Versions τ (MTree τ)) {tag p : τ} {l : List τ}
    (h : mtPathTo v.tree tag = .ok (some l)) (hp : p ∉ v.tree.map Prod.fst) {x : τ} {lx : List τ}
    (hx : mtPathTo v.tree x = .ok (some lx)) :
    versionsGet (memoryTree τ) tk { v with tree := (mtChangeParent v.tree tag (some p)).1 } x =
      if tag ∈ lx then .ok none else versionsGet (memoryTree τ) tk v x := by
  have e : (memoryTree τ).pathTo (mtChangeParent v.tree tag (some p)).1 x = _ :=
    C111_memory_paths_lost h hp hx
  have e' : (memoryTree τ).pathTo v.tree x = _ := hx
  unfold versionsGet
  rw [e, e']
  by_cases hm : tag ∈ lx
  · simp only [if_pos hm]
  · simp only [if_neg hm]
    cases lx with
    | nil => rfl
    | cons a lx =>
      have same : retrieveUsingPath tk { v with tree := (mtChangeParent v.tree tag (some p)).1 }
        (a :: lx) = retrieveUsingPath tk v (a :: lx) := rfl
      simp only [same]

/-- In the sample store 0 is a delta below 2; moving 2 under the unknown tag 77 loses both, all others
stay. -/
example :
    let v := memStoreAfter nullTok sampleHistory
    let w := { v with tree := (mtChangeParent v.tree 2 (some 77)).1 }
    (mtChangeParent v.tree 2 (some 77)).2 = some .keyError ∧
    [0, 1, 2, 3, 4, 10].map (fun x => (versionsGet (memoryTree Nat) nullTok v x).toOption) =
      [some (some [1, 2, 3]), some (some [1, 2, 3, 4]), some (some [1, 9, 3, 4]),
       some (some [1, 9, 9, 4]), some (some [7, 1, 9, 9, 4]), some (some [])] ∧
    [0, 1, 2, 3, 4, 10].map (fun x => (versionsGet (memoryTree Nat) nullTok w x).toOption) =
      [some none, some (some [1, 2, 3, 4]), some none,
       some (some [1, 9, 9, 4]), some (some [7, 1, 9, 9, 4]), some (some [])] := by
  decide +kernel

example : (dbChangeParent (dbStoreAfter nullTok sampleHistory).tree 2 77).2 = some .typeError ∧
    (dbChangeParent (dbStoreAfter nullTok sampleHistory).tree 77 2).2 = some .typeError ∧
    dbPathTo (dbChangeParent (dbStoreAfter nullTok sampleHistory).tree 2 77).1 0 =
      .ok (some [4, 2, 0]) := by
  decide +kernel

end Gaspra
