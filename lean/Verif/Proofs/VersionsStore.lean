import Verif.Model.VersionsStore
import Verif.Proofs.DBVersions
import Verif.Proofs.DBCollection

set_option linter.unusedSectionVars false
set_option linter.unusedSimpArgs false
set_option linter.unusedVariables false

/-! # Any mapping that behaves like a dictionary gives the same store -/

namespace Gaspra

variable {τ T Tok S M : Type _} [DecidableEq τ] [DecidableEq Tok]

/-- `R m d`: the object `m` behaves like the dictionary `d`. -/
structure MapOps.Like (mo : MapOps τ M) (R : M → List (τ × Bytes) → Prop) : Prop where
  get : ∀ {m d}, R m d → ∀ k, mo.get m k = orKeyError (dget d k)
  contains : ∀ {m d}, R m d → ∀ k, mo.contains m k = dmem d k
  set : ∀ {m d}, R m d → ∀ k b, R (mo.set m k b) (dset d k b)
  del : ∀ {m d}, R m d → ∀ k, dmem d k = true → R (mo.del m k).1 (ddel d k) ∧ (mo.del m k).2 = none

/-- The two stores agree. -/
structure StoreLike (R : M → List (τ × Bytes) → Prop) (s : Store T M) (v : Versions τ T) : Prop where
  heads : R s.headVersion v.headVersion
  diffs : R s.diffs v.diffs
  tree : s.tree = v.tree

variable {mo : MapOps τ M} {R : M → List (τ × Bytes) → Prop} (L : mo.Like R)
variable {ops : TreeOps τ T} {tk : TokOps Tok S}
include L

theorem MapOps.Like.retrieveLoop {m : M} {d : List (τ × Bytes)} (h : R m d) :
    ∀ (l : List τ) (st : S) (p : List Tok),
      storeRetrieveLoop mo tk m st p l = Gaspra.retrieveLoop tk d st p l
  | [], _, _ => rfl
  | x :: l, st, p => by
    simp only [storeRetrieveLoop, Gaspra.retrieveLoop, L.get h]
    cases dget d x with
    | none => rfl
    | some b =>
      simp only [orKeyError]
      show (encodeItems tk st (deserializeChangeset b).1 >>= _) =
        (encodeItems tk st (deserializeChangeset b).1 >>= _)
      congr 1
      funext r
      cases (deserializeChangeset b).2 with
      | some e => rfl
      | none => exact MapOps.Like.retrieveLoop h l _ _

theorem MapOps.Like.retrieve {s : Store T M} {v : Versions τ T} (h : StoreLike R s v)
    (path : List τ) : storeRetrieve mo tk s path = retrieveUsingPath tk v path := by
  cases path with
  | nil => rfl
  | cons x l =>
    simp only [storeRetrieve, retrieveUsingPath, L.get h.heads]
    cases dget v.headVersion x with
    | none => rfl
    | some b =>
      simp only [orKeyError]
      show (tk.encode tk.init b >>= _) = (tk.encode tk.init b >>= _)
      congr 1
      funext r
      rw [L.retrieveLoop h.diffs]

theorem MapOps.Like.storeGet {s : Store T M} {v : Versions τ T} (h : StoreLike R s v) (x : τ) :
    Gaspra.storeGet mo ops tk s x = versionsGet ops tk v x := by
  unfold Gaspra.storeGet versionsGet
  rw [h.tree]
  cases ops.pathTo v.tree x with
  | error e => rfl
  | ok p =>
    cases p with
    | none => rfl
    | some p =>
      cases p with
      | nil => rfl
      | cons y l =>
        show (storeRetrieve mo tk s (y :: l) >>= _) = _
        rw [L.retrieve h]
        dsimp only
        cases retrieveUsingPath tk v (y :: l) <;> rfl

theorem MapOps.Like.addEdge {s : Store T M} {v : Versions τ T} (h : StoreLike R s v) (p c : τ)
    (cs : List (PatchItem UInt8)) :
    StoreLike R (storeAddEdge mo ops s p c cs).1 (Gaspra.addEdge ops v p c cs).1 ∧
      (storeAddEdge mo ops s p c cs).2 = (Gaspra.addEdge ops v p c cs).2 := by
  unfold storeAddEdge Gaspra.addEdge
  cases serializeChangeset cs with
  | error e => exact ⟨h, rfl⟩
  | ok d =>
    simp only [h.tree, L.contains h.heads]
    cases ops.changeParent v.tree c p with
    | mk t e =>
      cases e with
      | some e => exact ⟨⟨h.heads, L.set h.diffs _ _, rfl⟩, rfl⟩
      | none =>
        dsimp only
        by_cases hm : dmem v.headVersion c = true
        · rw [if_pos hm, if_pos hm]
          obtain ⟨h1, h2⟩ := L.del h.heads c hm
          exact ⟨⟨h1, L.set h.diffs _ _, rfl⟩, h2⟩
        · rw [if_neg hm, if_neg hm]
          exact ⟨⟨h.heads, L.set h.diffs _ _, rfl⟩, rfl⟩

theorem MapOps.Like.addSplit {s : Store T M} {v : Versions τ T} (h : StoreLike R s v) (x : τ)
    (b : Bytes) (y : τ) (path : List τ) :
    StoreLike R (storeAddSplit mo ops tk s x b y path).1 (Gaspra.addSplit ops tk v x b y path).1 ∧
      (storeAddSplit mo ops tk s x b y path).2 = (Gaspra.addSplit ops tk v x b y path).2 := by
  unfold storeAddSplit Gaspra.addSplit
  rw [L.retrieve h]
  cases retrieveUsingPath tk v path with
  | error e => exact ⟨h, rfl⟩
  | ok c =>
    dsimp only
    cases makeChangeset tk b c with
    | error e => exact ⟨h, rfl⟩
    | ok cs =>
      dsimp only
      obtain ⟨h1, h2⟩ := L.addEdge (ops := ops) h x y cs
      generalize storeAddEdge mo ops s x y cs = r at *
      generalize Gaspra.addEdge ops v x y cs = q at *
      obtain ⟨r1, r2⟩ := r
      obtain ⟨q1, q2⟩ := q
      obtain rfl : r2 = q2 := h2
      cases r2 with
      | some e => exact ⟨h1, rfl⟩
      | none =>
        dsimp only at h1 ⊢
        rw [h1.tree]
        exact ⟨⟨h1.heads, h1.diffs, rfl⟩, rfl⟩

theorem MapOps.Like.addOldHead {s : Store T M} {v : Versions τ T} (h : StoreLike R s v) (x : τ)
    (b : Bytes) (y : τ) :
    StoreLike R (storeAddOldHead mo ops tk s x b y).1 (Gaspra.addOldHead ops tk v x b y).1 ∧
      (storeAddOldHead mo ops tk s x b y).2 = (Gaspra.addOldHead ops tk v x b y).2 := by
  unfold storeAddOldHead Gaspra.addOldHead
  rw [L.get h.heads]
  cases dget v.headVersion y with
  | none => exact ⟨h, rfl⟩
  | some c =>
    dsimp only [orKeyError]
    cases makeChangeset tk b c with
    | error e => exact ⟨h, rfl⟩
    | ok cs => exact L.addEdge h x y cs

theorem MapOps.Like.add {s : Store T M} {v : Versions τ T} (h : StoreLike R s v) (x : τ) (b : Bytes)
    (hd : Option τ) :
    StoreLike R (storeAdd mo ops tk s x b hd).1 (versionsAdd ops tk v x b hd).1 ∧
      (storeAdd mo ops tk s x b hd).2 = (versionsAdd ops tk v x b hd).2 := by
  unfold storeAdd versionsAdd
  dsimp only
  rw [h.tree]
  have hs := L.set h.heads x b
  cases ops.add v.tree x hd with
  | mk t e =>
    cases e with
    | some e => exact ⟨⟨hs, h.diffs, rfl⟩, rfl⟩
    | none =>
      dsimp only
      cases hd with
      | none => exact ⟨⟨hs, h.diffs, rfl⟩, rfl⟩
      | some y =>
        dsimp only [Gaspra.addToHead]
        have h1 : StoreLike R (⟨mo.set s.headVersion x b, s.diffs, t⟩ : Store T M)
          ⟨dset v.headVersion x b, v.diffs, t⟩ := ⟨hs, h.diffs, rfl⟩
        cases ops.getSplit t y with
        | error e => exact ⟨h1, rfl⟩
        | ok sp =>
          obtain ⟨sp, path⟩ := sp
          dsimp only
          split
          · obtain ⟨h2, h3⟩ := L.addSplit (ops := ops) (tk := tk) h1 x b sp path
            generalize storeAddSplit mo ops tk _ x b sp path = r at *
            generalize Gaspra.addSplit ops tk _ x b sp path = q at *
            obtain ⟨r1, r2⟩ := r
            obtain ⟨q1, q2⟩ := q
            obtain rfl : r2 = q2 := h3
            cases r2 with
            | some e => exact ⟨h2, rfl⟩
            | none => exact L.addOldHead h2 x b y
          · exact L.addOldHead h1 x b y

omit L

theorem dictOps_like : (dictOps τ).Like fun m d => m = d where
  get := by rintro m d rfl k; simp only [dictOps]; cases dget m k <;> rfl
  contains := by rintro m d rfl k; rfl
  set := by rintro m d rfl k b; rfl
  del := by rintro m d rfl k h; simp [dictOps, h]

theorem collOps_like : (collOps τ).Like fun m d => m = d ∧ (d.map Prod.fst).Nodup where
  get := by rintro m d ⟨rfl, hn⟩ k; exact collGet_eq m k
  contains := by rintro m d ⟨rfl, hn⟩ k; exact collContains_eq m k
  set := by
    rintro m d ⟨rfl, hn⟩ k b
    exact ⟨collSet_eq hn k b, dset_nodup hn k b⟩
  del := by
    rintro m d ⟨rfl, hn⟩ k h
    show ((collDel m k).1 = _ ∧ _) ∧ (collDel m k).2 = none
    rw [collDel_eq hn, if_pos h]
    exact ⟨⟨rfl, ddel_nodup hn k⟩, rfl⟩

theorem dictInfo {s : Store T (List (τ × Bytes))} {v : Versions τ T}
    (h : StoreLike (fun m d => m = d) s v) (x : τ) :
    storeInfo (dictOps τ) ops s x = versionInfo ops v x := by
  obtain ⟨a, b, c⟩ := s
  obtain ⟨h1, h2, h3⟩ := h
  dsimp only at h1 h2 h3
  subst h1 h2 h3
  simp only [storeInfo, versionInfo, dictOps]
  cases h1 : dget v.diffs x with
  | some d =>
    dsimp only [bind, Except.bind]
    cases h2 : deserializeChangeset d with
    | mk items e =>
      cases e with
      | some e => rfl
      | none => dsimp only [bind, Except.bind]; cases ops.baseVersion v.tree x <;> rfl
  | none =>
    dsimp only [bind, Except.bind]
    cases h2 : dget v.headVersion x with
    | some d => dsimp only [bind, Except.bind]; cases ops.baseVersion v.tree x <;> rfl
    | none => rfl

end Gaspra
