import Verif.Spec.Damage
import Verif.Props.Versions
import Verif.Props.PatchOther
import Verif.Proofs.VersionsCost

set_option linter.unusedSectionVars false

/-!
# Lemmas about reading from any store with the default tokenizer
-/

namespace Gaspra

variable {τ : Type _} [DecidableEq τ] {v v' : Versions τ (MTree τ)}

/-- What `get` makes of a stored delta and the text of the parent. -/
def applyStored (d : Bytes) (b : Bytes) : Except PyErr Bytes :=
  match deserializeChangeset d with
  | (items, none) => .ok (applyPatch items b)
  | (_, some e) => .error e

theorem retrieveLoop_one (diffs : List (τ × Bytes)) (st : Unit) (b : Bytes) (t : τ) :
    retrieveLoop nullTok diffs st b [t] =
      match dget diffs t with
      | none => .error .keyError
      | some d => (applyStored d b).map fun r => (r, ()) := by
  unfold retrieveLoop
  cases dget diffs t with
  | none => rfl
  | some d =>
    dsimp only
    unfold applyStored
    generalize deserializeChangeset d = r
    obtain ⟨items, err⟩ := r
    dsimp only
    rw [encodeItems_null]
    cases err with
    | none => rfl
    | some e => rfl

theorem retrieve_snoc (v : Versions τ (MTree τ)) {l : List τ} (hl : l ≠ []) (t : τ) :
    retrieveUsingPath nullTok v (l ++ [t]) =
      match retrieveUsingPath nullTok v l with
      | .error e => .error e
      | .ok b =>
        match dget v.diffs t with
        | none => .error .keyError
        | some d => applyStored d b := by
  cases l with
  | nil => exact absurd rfl hl
  | cons r l =>
    simp only [List.cons_append, retrieveUsingPath]
    cases dget v.headVersion r with
    | none => rfl
    | some p =>
      simp only [show nullTok.encode nullTok.init p = .ok (p, ()) from rfl, bind, Except.bind,
        retrieveLoop_append]
      cases retrieveLoop nullTok v.diffs () p l with
      | error e => rfl
      | ok q =>
        obtain ⟨q, st⟩ := q
        simp only [retrieveLoop_one, show ∀ st (b : Bytes), nullTok.decode st b = .ok b from fun _ _ => rfl]
        cases dget v.diffs t with
        | none => rfl
        | some d =>
          dsimp only
          cases applyStored d q <;> rfl

theorem get_path {t : τ} {l : List τ} (h : UpPath v.tree t l) :
    versionsGet (memoryTree τ) nullTok v t = (retrieveUsingPath nullTok v l.reverse).map some := by
  have hp : (memoryTree τ).pathTo v.tree t = .ok (some l.reverse) := pathTo_spec h
  unfold versionsGet
  rw [hp]
  obtain ⟨r, rfl⟩ := h.head
  cases hlr : (t :: r).reverse with
  | nil => simp at hlr
  | cons a s =>
    dsimp only
    cases retrieveUsingPath nullTok v (a :: s) <;> rfl

/-- `get` of a root. -/
theorem get_root {t : τ} {nd : TNode τ} (h : dget v.tree t = some nd) (hp : nd.parent = none) :
    versionsGet (memoryTree τ) nullTok v t =
      match dget v.headVersion t with
      | none => .error .keyError
      | some b => .ok (some b) := by
  rw [get_path (.root h hp)]
  simp only [List.reverse_cons, List.reverse_nil, List.nil_append, retrieveUsingPath]
  cases dget v.headVersion t <;> rfl

/-- `get` of a version with a parent. -/
theorem get_child {t p : τ} {nd : TNode τ} (h : dget v.tree t = some nd) (hp : nd.parent = some p)
    {l : List τ} (hl : UpPath v.tree p l) :
    versionsGet (memoryTree τ) nullTok v t =
      match versionsGet (memoryTree τ) nullTok v p with
      | .error e => .error e
      | .ok none => .ok none
      | .ok (some b) =>
        match dget v.diffs t with
        | none => .error .keyError
        | some d => (applyStored d b).map some := by
  rw [get_path (.step h hp hl), get_path hl, List.reverse_cons, retrieve_snoc]
  · cases retrieveUsingPath nullTok v l.reverse with
    | error e => rfl
    | ok b =>
      show Except.map some _ = _
      dsimp only [Except.map]
      cases dget v.diffs t <;> rfl
  · obtain ⟨r, rfl⟩ := hl.head
    simp

/-- Reading depends on the entries of the path only, for every tokenizer. -/
theorem retrieve_congr {Tok S : Type _} [DecidableEq Tok] (tk : TokOps Tok S) {path : List τ}
    (hh : ∀ t ∈ path, dget v'.headVersion t = dget v.headVersion t)
    (hd : ∀ t ∈ path, dget v'.diffs t = dget v.diffs t) :
    retrieveUsingPath tk v' path = retrieveUsingPath tk v path := by
  have loop : ∀ (l : List τ) (st : S) (toks : List Tok),
      (∀ t ∈ l, dget v'.diffs t = dget v.diffs t) →
      retrieveLoop tk v'.diffs st toks l = retrieveLoop tk v.diffs st toks l := by
    intro l
    induction l with
    | nil => intro st toks _; rfl
    | cons t l ih =>
      intro st toks h
      have ih' := fun st toks => ih st toks fun s hs => h s (by simp [hs])
      simp only [retrieveLoop, h t (by simp), ih']
  cases path with
  | nil => rfl
  | cons r l =>
    have hl := fun st toks => loop l st toks fun s hs => hd s (by simp [hs])
    simp only [retrieveUsingPath, hh r (by simp), hl]

theorem DamagedAt.get {Tok S : Type _} [DecidableEq Tok] (tk : TokOps Tok S) {x t : τ}
    (D : DamagedAt x v v') {path : List τ} (hp : mtPathTo v.tree t = .ok (some path)) (hx : x ∉ path) :
    versionsGet (memoryTree τ) tk v' t = versionsGet (memoryTree τ) tk v t := by
  have h1 : (memoryTree τ).pathTo v.tree t = .ok (some path) := hp
  have h2 : (memoryTree τ).pathTo v'.tree t = .ok (some path) := by rw [D.tree]; exact hp
  unfold versionsGet
  rw [h1, h2]
  cases path with
  | nil => rfl
  | cons a l =>
    dsimp only
    rw [retrieve_congr tk (fun s hs => D.heads s fun e => hx (e ▸ hs))
      fun s hs => D.diffs s fun e => hx (e ▸ hs)]

/-- What a stored delta makes of the right text of the parent, and of other texts. -/
theorem DeltaBytes.other {a b d : Bytes} (h : DeltaBytes nullLawful a b d) :
    ∃ items, deserializeChangeset d = (items, none) ∧ applyPatch items a = b ∧
      (∀ c, applyPatch items c = b ↔ ∀ sl, .slice sl ∈ items → sl.get c = sl.get a) ∧
      ∀ c, (applyPatch items c).length ≤ b.length := by
  obtain ⟨items, h1, ⟨Q, rfl, h3, h4⟩, _, _⟩ := h
  have e : Q.map (textItem nullLawful.text) = Q := by
    have : ∀ c : PatchItem UInt8, textItem nullLawful.text c = c := by
      intro c
      cases c with
      | slice s => rfl
      | piece p => simp [textItem, nullLawful]
    rw [List.map_congr_left (g := id) (fun c _ => this c), List.map_id]
  rw [e] at h1
  have h3' : applyPatch Q a = b := h3
  have h4' : ∀ c ∈ Q, c.WellFormed a b := h4
  refine ⟨Q, h1, h3', fun c => ?_, fun c => ?_⟩
  · rw [← applyPatch_eq_iff h4', h3']
  · have := applyPatch_length_le (other := c) h4'
    rwa [h3'] at this

end Gaspra
